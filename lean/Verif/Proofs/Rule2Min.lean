import Verif.Proofs.Opc
namespace Medil
variable {n : Nat}

/-- no clique contains both pairs -/
def NotTogether (A : BMat n) (e f : Fin n × Fin n) : Prop :=
  ∀ S, IsClique A S → e.1 ∈ S → e.2 ∈ S → f.1 ∈ S → f.2 ∈ S → False

/-- one witness edge per row, pairwise not in a common clique, nor with an uncovered edge -/
def MInv (A : BMat n) (g : RG n) : Prop :=
  ∃ es : List (Fin n × Fin n), es.length = g.rows.length ∧ es.Pairwise (NotTogether A) ∧
    (∀ e ∈ es, Adj A e.1 e.2) ∧ ∀ e ∈ es, ∀ i j, i ≠ j → g.adj i j = true → NotTogether A e (i, j)

theorem MInv.mono {A : BMat n} {g g' : RG n} (h : MInv A g) (hr : g'.rows = g.rows)
    (hle : ∀ i j, i ≠ j → g'.adj i j = true → g.adj i j = true) : MInv A g' := by
  obtain ⟨es, h1, h2, h3, h4⟩ := h
  exact ⟨es, by rw [hr]; exact h1, h2, h3, fun e he i j hij ha => h4 e he i j hij (hle i j hij ha)⟩

theorem MInv.fire2 {A : BMat n} (hD : UnitDiag A) {g : RG n} (hC : Coh A g) (h : MInv A g)
    {e : Fin n × Fin n} (he : e ∈ g.extant) : MInv A (g.fire2 e) := by
  obtain ⟨es, h1, h2, h3, h4⟩ := h
  obtain ⟨hlt, hadj⟩ := (hC.ext e).mp he
  have hne := ne_of_lt hlt
  have hAe := hC.sub _ _ hne hadj
  have hadj' : ∀ i j, (g.fire2 e).adj i j = _ := setEdges_row g.adj (g.common.row e.1 e.2)
  refine ⟨es ++ [e], ?_, ?_, ?_, ?_⟩
  · show _ = (g.rows ++ [g.common.row e.1 e.2]).length
    simp [h1]
  · rw [List.pairwise_append]
    refine ⟨h2, by simp, ?_⟩
    intro a ha b hb
    simp at hb; subst hb
    exact h4 a ha b.1 b.2 hne hadj
  · intro f hf
    rcases List.mem_append.mp hf with hf | hf
    · exact h3 f hf
    · simp at hf; subst hf; exact ⟨hAe, hne⟩
  · intro f hf i j hij ha
    rw [hadj'] at ha
    simp only [hij, ne_eq, not_false_iff, decide_true, Bool.true_and, Bool.and_eq_true,
      Bool.not_eq_true'] at ha
    rcases List.mem_append.mp hf with hf | hf
    · exact h4 f hf i j hij ha.1
    · simp at hf; subst hf
      intro S hS hf1 hf2 hi hj
      have hA1 : ∀ x y, x ∈ S → y ∈ S → A x y = true := by
        intro x y hx hy
        by_cases hxy : x = y
        · subst hxy; exact hD x
        · exact (hS x hx y hy hxy).1
      have hin : ∀ w, w ∈ S → g.adj w w = true → (g.common.row f.1 f.2) w = true := by
        intro w hw hl
        rw [BTab.get_row, hC.common]
        exact ⟨hlt, hAe, hA1 _ _ hf1 hw, hA1 _ _ hf2 hw, hl⟩
      have h5 := hin i hi (hC.live i j hij ha.1)
      have h6 := hin j hj (hC.live j i (Ne.symm hij) (by rw [hC.symm]; exact ha.1))
      rw [h5, h6] at ha
      simp at ha

theorem minv_reduce {A : BMat n} (hA : Symm A) (hD : UnitDiag A) {g : RG n} (hC : Coh A g) (k : Int)
    (h : MInv A g) : ∃ g', g.reduzieren k = .ok g' ∧ (0 ≤ g'.k → MInv A g') := by
  obtain ⟨g', h1, -, h2⟩ := reduzieren_spec hA hD (MInv A) (MInv A)
    (fun g b h => h.mono rfl fun _ _ _ h => h)
    (fun g _ h => h.mono (rule1_rows g) fun i j hij ha => by rw [rule1_off g hij] at ha; exact ha)
    (fun g e hC _ h he _ => h.fire2 hD hC he)
    (fun g v hC _ h _ _ _ _ => h.mono rfl fun i j _ ha => by
      rw [fire3_adj g hC.symm] at ha
      simp only [Bool.and_eq_true] at ha
      exact ha.1)
    g k hC (h.mono rfl fun _ _ _ h => h)
  refine ⟨g', h1, fun hk => ?_⟩
  rcases h2 with ⟨hk', -⟩ | ⟨-, h, -⟩
  · omega
  · exact h

theorem cliqueLoop_info {g : RG n} {k : Int} {info : PathInfo}
    {rec : Option (Nat → RG n → Int → List (BVec n) → Except PyErr (BranchOut n))}
    (hrec : ∀ f, rec = some f → ∀ i g k c out, f i g k c = .ok out → out.info.branched = true)
    {ys : List (List (Fin n))} : ∀ {i R out}, cliqueLoop g k info rec i R ys = .ok out →
      out.info.branched = true ∨ (out.info = info ∧ (rec.isSome = true → out.res = none)) := by
  induction ys with
  | nil => intro i R out h; cases h; exact Or.inr ⟨rfl, fun _ => rfl⟩
  | cons y ys ih =>
    intro i R out h
    unfold cliqueLoop at h
    split at h
    · exact ih h
    · split at h
      · cases h
      · cases hr : rec with
        | none =>
          rw [hr] at h
          cases h; exact Or.inr ⟨rfl, by simp⟩
        | some f =>
          rw [hr] at h
          simp only at h
          split at h
          · cases h
          · rename_i out' ho
            split at h
            · cases h
              exact Or.inl (show out'.info.branched = true from hrec f hr _ _ _ _ out' ho)
            · rw [← hr] at h
              rw [hr] at ih
              rw [hr] at h
              exact ih h

theorem branchBody_info {recon : Option (BMat n) → List (BVec n) → List (BVec n)} {rt : Runtime n}
    {rec : Option (Nat → RG n → Int → List (BVec n) → Except PyErr (BranchOut n))}
    (hrec : ∀ f, rec = some f → ∀ i g k c out, f i g k c = .ok out → out.info.branched = true)
    {path graph k cover out} (h : branchBody recon rt rec path graph k cover = .ok out)
    (hp : 1 < path.length) : out.info.branched = true := by
  unfold branchBody at h
  simp only at h
  split at h
  · cases h; simpa using hp
  · split at h
    · cases h
    · split at h
      · cases h; simpa using hp
      · split at h
        · cases h; simpa using hp
        · split at h
          · cases h
          · split at h
            · cases h
            · split at h
              · cases h
              · rename_i out' ho
                cases h
                rcases cliqueLoop_info hrec ho with h' | ⟨h', -⟩
                · exact h'
                · show out'.info.branched = true
                  rw [h']; simpa using hp

theorem branch_info {recon : Option (BMat n) → List (BVec n) → List (BVec n)} {rt : Runtime n} :
    ∀ {rem path graph k cover out}, branch recon rt rem path graph k cover = .ok out →
      1 < path.length → out.info.branched = true := by
  intro rem
  induction rem with
  | zero =>
    intro path graph k cover out h hp
    exact branchBody_info (by simp) h hp
  | succ rem ih =>
    intro path graph k cover out h hp
    refine branchBody_info ?_ h hp
    intro f hf i g k c out ho
    cases hf
    exact ih ho (by simp; omega)

/-- a top-level call that returns a cover without branching: the rows were all forced -/
theorem top_forced {A : BMat n} (hA : Symm A) (hD : UnitDiag A) {rt : Runtime n} {g : RG n}
    (hg : makeAux rt.order A = .ok g) (hE : ∃ i j, i < j ∧ A i j = true)
    {recon : Option (BMat n) → List (BVec n) → List (BVec n)} {rem k : Nat} {out : BranchOut n}
    (h : branch recon rt (rem + 1) [k] g k none = .ok out) {c : List (BVec n)} (hc : out.res = some c)
    (hb : out.info.branched = false) :
    ∃ es : List (Fin n × Fin n), es.length = c.length ∧ es.Pairwise (NotTogether A) ∧
      ∀ e ∈ es, Adj A e.1 e.2 := by
  have hC := Coh.init hA hD rt.perm hg
  have hP := PCore.init hA hD rt.perm hg hE
  have hcov : g.cover = none := by rw [makeAux_ok hg]
  have hent := entry_none hcov
  have hE1 : (entry g none).numEdges ≠ 0 := by rw [hent]; exact hP.inv.nonempty hcov
  obtain ⟨g', hred, hM⟩ := minv_reduce hA hD hC k ⟨[], by unfold RG.rows; rw [hcov]; rfl, by simp,
    by simp, by simp⟩
  have hred1 : (entry g none).reduzieren k = .ok g' := by rw [hent]; exact hred
  unfold branch at h
  by_cases hk : g'.k < 0
  · rw [branchBody_budget hE1 hred1 hk] at h
    cases h; cases hc
  · by_cases hE' : g'.numEdges = 0
    · rw [branchBody_leaf hE1 hred1 (by omega) hE'] at h
      cases h
      obtain ⟨es, h1, h2, h3, -⟩ := hM (by omega)
      have hc' : g'.cover = some c := hc
      have : g'.rows = c := by unfold RG.rows; rw [hc']; rfl
      rw [this] at h1
      exact ⟨es, h1, h2, h3⟩
    · exfalso
      unfold branchBody at h
      change (if (entry g none).numEdges = 0 then _ else _) = _ at h
      rw [if_neg hE1] at h
      change (match (entry g none).reduzieren k with | .error e => _ | .ok g => _) = _ at h
      rw [hred1] at h
      simp only [if_neg hk, hE', if_false] at h
      split at h
      · cases h
      · split at h
        · cases h
        · split at h
          · cases h
          · rename_i out' ho
            cases h
            rcases cliqueLoop_info (by
              intro f hf i g k c out ho
              cases hf
              exact branch_info ho (by simp)) ho with h' | ⟨-, h'⟩
            · change out'.info.branched = false at hb
              rw [h'] at hb; cases hb
            · have hc' : out'.res = some c := hc
              rw [h' rfl] at hc'; cases hc'

/-- lower bound on the number of cliques from pairs that need different cliques -/
theorem pairs_le_cover {A : BMat n} {C : List (BVec n)} (hR : RowsCliques A C)
    {es : List (Fin n × Fin n)} (hp : es.Pairwise (NotTogether A))
    (hc : ∀ e ∈ es, ∃ r ∈ C, r e.1 = true ∧ r e.2 = true) : es.length ≤ C.length := by
  classical
  have hex : ∀ e : Fin n × Fin n, ∃ i : Nat, e ∈ es → ∃ h : i < C.length,
      C[i] e.1 = true ∧ C[i] e.2 = true := by
    intro e
    by_cases he : e ∈ es
    · obtain ⟨r, hr, h1⟩ := hc e he
      obtain ⟨i, hi, rfl⟩ := List.getElem_of_mem hr
      exact ⟨i, fun _ => ⟨hi, h1⟩⟩
    · exact ⟨0, fun h => absurd h he⟩
  choose f hf using hex
  have hnd : (es.map f).Nodup := by
    rw [List.nodup_iff_pairwise_ne, List.pairwise_map]
    refine hp.imp_of_mem ?_
    intro a b ha hb hab heq
    obtain ⟨hlt, ha1, ha2⟩ := hf a ha
    obtain ⟨_, hb1, hb2⟩ := hf b hb
    simp only [← heq] at hb1 hb2
    exact hab (children C[f a]) (hR _ (List.getElem_mem hlt)) (by simpa using ha1)
      (by simpa using ha2) (by simpa using hb1) (by simpa using hb2)
  have hsub : ∀ x ∈ es.map f, x ∈ List.range C.length := by
    intro x hx
    obtain ⟨e, he, rfl⟩ := List.mem_map.mp hx
    exact List.mem_range.mpr (hf e he).1
  simpa using (hnd.subperm hsub).length_le

end Medil

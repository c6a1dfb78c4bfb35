import Verif.Model.EccTrace
import Verif.Proofs.Rule2Min
namespace Medil
variable {n : Nat}

/-- the pairs that are ones of `U` cannot be covered by `k` cliques of `A` -/
def NeedsMore (A U : BMat n) (k : Int) : Prop :=
  ∀ C, RowsCliques A C → (∀ i j, i ≠ j → U i j = true → ∃ r ∈ C, r i = true ∧ r j = true) →
    k < C.length

/-- The state loses nothing by branching: `branch` only tries the cliques of the *uncovered* graph `N`
inside the neighbourhood of the chosen pair `e`; here, for every clique `S` of the dependence graph
that contains `e`, one of the cliques of `N` contains all uncovered pairs of `S`. -/
def Lossless (A : BMat n) (g : RG n) : Prop :=
  ∀ N e, g.chooseNbrhood = .ok N → g.argminScore g.extant = some e →
    ∀ S, IsClique A S → e.1 ∈ S → e.2 ∈ S →
      ∃ T, IsClique N T ∧ ∀ i ∈ S, ∀ j ∈ S, i ≠ j → g.adj i j = true → i ∈ T ∧ j ∈ T

theorem NeedsMore.mono {A U V : BMat n} {k : Int} (h : NeedsMore A U k)
    (hle : ∀ i j, i ≠ j → U i j = true → V i j = true) : NeedsMore A V k :=
  fun C hC hc => h C hC fun i j hij hu => hc i j hij (hle i j hij hu)

theorem needsMore_neg (A U : BMat n) {k : Int} (hk : k < 0) : NeedsMore A U k := by
  intro C _ _; omega

theorem needsMore_drop {A U V : BMat n} {k : Int} (h : NeedsMore A V (k - 1))
    {u v : Fin n} (huv : u ≠ v) (hU : U u v = true)
    (hin : ∀ S, IsClique A S → u ∈ S → v ∈ S → ∀ i ∈ S, ∀ j ∈ S, i ≠ j → U i j = true →
      V i j = false)
    (hVU : ∀ i j, i ≠ j → V i j = true → U i j = true) : NeedsMore A U k := by
  classical
  intro C hC hc
  obtain ⟨r, hr, hru, hrv⟩ := hc u v huv hU
  obtain ⟨C1, C2, rfl⟩ := List.append_of_mem hr
  have := h (C1 ++ C2) (fun x hx => hC x (by
    rcases List.mem_append.mp hx with h | h
    · exact List.mem_append_left _ h
    · exact List.mem_append_right _ (List.mem_cons_of_mem _ h))) ?_
  · simp only [List.length_append, List.length_cons] at this ⊢
    push_cast at this ⊢
    omega
  · intro i j hij hv
    obtain ⟨x, hx, hxi, hxj⟩ := hc i j hij (hVU i j hij hv)
    by_cases hxr : x = r
    · subst hxr
      have := hin (children x) (hC x hr) (by simpa using hru) (by simpa using hrv) i
        (by simpa using hxi) j (by simpa using hxj) hij (hVU i j hij hv)
      rw [this] at hv; cases hv
    · refine ⟨x, ?_, hxi, hxj⟩
      rcases List.mem_append.mp hx with h | h
      · exact List.mem_append_left _ h
      · rcases List.mem_cons.mp h with h | h
        · exact absurd h hxr
        · exact List.mem_append_right _ h

theorem reduce_needs {A : BMat n} (hA : Symm A) (hD : UnitDiag A) {g : RG n} (hC : Coh A g) (k : Int) :
    ∃ g', g.reduzieren k = .ok g' ∧ Coh A g' ∧ (g'.k < 0 ∨ Stuck g') ∧
      (NeedsMore A g'.adj g'.k → NeedsMore A g.adj k) ∧
      (g'.rows.length : Int) + g'.k = g.rows.length + k ∧
      (g.cover.isSome = true → g'.cover.isSome = true) := by
  obtain ⟨g', h1, h2, h3⟩ := reduzieren_spec hA hD
    (fun h => (NeedsMore A h.adj h.k → NeedsMore A g.adj k) ∧
      (h.rows.length : Int) + h.k = g.rows.length + k ∧
      (g.cover.isSome = true → h.cover.isSome = true))
    (fun h => (NeedsMore A h.adj h.k → NeedsMore A g.adj k) ∧
      (h.rows.length : Int) + h.k = g.rows.length + k ∧
      (g.cover.isSome = true → h.cover.isSome = true))
    (fun _ _ h => h)
    (fun h hC h' => by
      obtain ⟨f1, f2, f3, f4, f5, f6, f7, f8⟩ := rule1_fields h
      refine ⟨fun hn => h'.1 ?_, ?_, ?_⟩
      · have hk : h.rule1.k = h.k := by assumption
        rw [← hk]
        exact hn.mono fun i j hij hu => by rw [rule1_off h hij] at hu; exact hu
      · have hk : h.rule1.k = h.k := by assumption
        rw [rule1_rows, hk]; exact h'.2.1
      · have hc : h.rule1.cover = h.cover := by assumption
        rw [hc]; exact h'.2.2)
    (fun h e hC _ h' he _ => by
      refine ⟨fun hn => h'.1 ?_, ?_, fun _ => rfl⟩
      · obtain ⟨hlt, hadj⟩ := (hC.ext e).mp he
        have hne := ne_of_lt hlt
        have hadj' : ∀ i j, (h.fire2 e).adj i j = _ := setEdges_row h.adj (h.common.row e.1 e.2)
        refine needsMore_drop (k := h.k) hn hne hadj ?_ ?_
        · intro S hS h1 h2 i hi j hj hij hu
          have hA1 : ∀ x y, x ∈ S → y ∈ S → A x y = true := by
            intro x y hx hy
            by_cases hxy : x = y
            · subst hxy; exact hD x
            · exact (hS x hx y hy hxy).1
          have hin : ∀ w, w ∈ S → h.adj w w = true → (h.common.row e.1 e.2) w = true := by
            intro w hw hl
            rw [BTab.get_row, hC.common]
            exact ⟨hlt, hC.sub _ _ hne hadj, hA1 _ _ h1 hw, hA1 _ _ h2 hw, hl⟩
          rw [hadj', hin i hi (hC.live i j hij hu),
            hin j hj (hC.live j i (Ne.symm hij) (by rw [hC.symm]; exact hu))]
          simp [hij]
        · intro i j hij hv
          rw [hadj'] at hv
          simp only [Bool.and_eq_true] at hv
          exact hv.1
      · have hk : (h.fire2 e).k = h.k - 1 := rfl
        have hr : (h.fire2 e).rows = h.rows ++ [h.common.row e.1 e.2] := rfl
        rw [hk, hr]
        have := h'.2.1
        simp only [List.length_append, List.length_cons, List.length_nil]
        push_cast
        omega)
    (fun h v hC _ h' _ _ _ _ => by
      refine ⟨fun hn => h'.1 (NeedsMore.mono (U := (h.fire3 v).adj) hn fun i j hij hu => ?_), h'.2⟩
      rw [fire3_adj h hC.symm] at hu
      simp only [Bool.and_eq_true] at hu
      exact hu.1)
    g k hC ⟨fun h => h, rfl, fun h => h⟩
  refine ⟨g', h1, h2, ?_⟩
  rcases h3 with ⟨hk, h | h⟩ | ⟨-, h, hs⟩
  · exact ⟨Or.inl hk, h⟩
  · exact ⟨Or.inl hk, h⟩
  · exact ⟨Or.inr hs, h⟩

/-- the uncovered pairs after covering `r` -/
def afterRow (g : RG n) (r : BVec n) : BMat n := setEdges false g.adj (listPairs r.toList)

theorem loop_needs {A : BMat n} {g : RG n} {k : Int} {info : PathInfo}
    {run : Nat → RG n → Int → List (BVec n) → Except PyErr (BranchOut n)}
    {nodes : Nat → RG n → Int → List (BVec n) → List (RG n)}
    (hrun : ∀ i R (r : BVec n), (∃ i j, i ≠ j ∧ r i = true ∧ r j = true) →
      (∀ a b, r a = true → r b = true → a ≠ b → g.adj a b = true) → ∀ out,
      run i { g with redAway := R } (k - 1) (g.rows ++ [r]) = .ok out →
        (∀ c, out.res = some c → (c.length : Int) ≤ g.rows.length + k) ∧
        (out.res = none → (∀ x ∈ nodes i { g with redAway := R } (k - 1) (g.rows ++ [r]), Lossless A x) →
          NeedsMore A (afterRow g r) (k - 1)))
    {ys : List (List (Fin n))}
    (hys : ∀ y ∈ ys, y.length ≠ 1 → ∃ i j, i ≠ j ∧ i ∈ y ∧ j ∈ y ∧
      ∀ a ∈ y, ∀ b ∈ y, a ≠ b → g.adj a b = true) :
    ∀ {i R out}, cliqueLoop g k info (some run) i R ys = .ok out →
      (∀ c, out.res = some c → (c.length : Int) ≤ g.rows.length + k) ∧
      (out.res = none → (∀ x ∈ loopNodes g k run nodes i R ys, Lossless A x) →
        ∀ y ∈ ys, y.length ≠ 1 → NeedsMore A (afterRow g (BVec.of fun v => y.contains v)) (k - 1)) := by
  induction ys with
  | nil => intro i R out h; cases h; exact ⟨by simp, by simp⟩
  | cons y ys ih =>
    intro i R out h
    have ih' := @ih fun y' hy' => hys y' (List.mem_cons_of_mem _ hy')
    unfold cliqueLoop at h
    unfold loopNodes
    by_cases hlen : y.length = 1
    · rw [if_pos hlen] at h
      rw [if_pos hlen]
      refine ⟨(ih' h).1, fun h1 h2 y' hy' hl => ?_⟩
      rcases List.mem_cons.mp hy' with rfl | hy'
      · exact absurd hlen hl
      · exact (ih' h).2 h1 h2 y' hy' hl
    · rw [if_neg hlen] at h
      rw [if_neg hlen]
      obtain ⟨a, b, hab, ha, hb, hadj⟩ := hys y (by simp) hlen
      split at h
      · cases h
      · simp only at h
        split at h
        · cases h
        · rename_i out' ho
          have ho' : run i { g with redAway := R } (k - 1)
            (g.rows ++ [BVec.of fun v => y.contains v]) = .ok out' := ho
          have hr := hrun i R (BVec.of fun v => y.contains v)
            ⟨a, b, hab, by simpa using ha, by simpa using hb⟩
            (by intro a b ha hb; simp at ha hb; exact hadj a ha b hb) out' ho'
          split at h
          · rename_i c hc
            cases h
            refine ⟨fun c' hc' => ?_, by simp⟩
            cases hc'
            exact hr.1 c hc
          · rename_i hc
            refine ⟨(ih' h).1, fun h1 h2 y' hy' hl => ?_⟩
            simp only [ho, hc, Option.isSome_none, Bool.false_eq_true, if_false,
              List.mem_append] at h2
            rcases List.mem_cons.mp hy' with rfl | hy'
            · exact hr.2 hc fun x hx => h2 x (Or.inl hx)
            · exact (ih' h).2 h1 (fun x hx => h2 x (Or.inr hx)) y' hy' hl

/-- if every tried clique leaves too much, so does the state itself -/
theorem node_needs {A : BMat n} (hA : Symm A) (hD : UnitDiag A) {g : RG n} (hC : Coh A g)
    (hE : g.numEdges ≠ 0) {o : Sched n} {N : BMat n} {ys : List (List (Fin n))}
    (hN : g.chooseNbrhood = .ok N) (hmc : maxCliques o N = .ok ys) (hL : Lossless A g) {k : Int}
    (h : ∀ y ∈ ys, y.length ≠ 1 →
      NeedsMore A (afterRow g (BVec.of fun v => y.contains v)) (k - 1)) :
    NeedsMore A g.adj k := by
  classical
  have hne : g.extant ≠ [] := by
    rw [hC.nedges, numEdgesOf_ne_zero] at hE
    obtain ⟨i, j, hij, hadj⟩ := hE
    intro h
    have := (hC.ext (i, j)).mpr ⟨hij, hadj⟩
    rw [h] at this; simp at this
  obtain ⟨e, he, heq, -⟩ := argminScore_mem g g.extant hne
  obtain ⟨hlt, hadj⟩ := (hC.ext e).mp he
  have hne := ne_of_lt hlt
  have hn : 0 < n := Nat.lt_of_le_of_lt (Nat.zero_le _) e.1.isLt
  have hsym : Symm N := by
    obtain ⟨N', e', hN', -, -, hNij⟩ := chooseNbrhood_ok hA hD hC hE
    rw [hN] at hN'
    cases hN'
    intro i j; rw [hNij, hNij, hC.symm i j]
    cases g.adj j i <;> cases g.common e'.1 e'.2 i <;> cases g.common e'.1 e'.2 j <;> rfl
  obtain ⟨ys', h1, h2, h3, h4⟩ := maxCliques_correct hsym hn o
  rw [hmc] at h1
  cases h1
  intro C hR hc
  obtain ⟨r, hr, hr1, hr2⟩ := hc e.1 e.2 hne hadj
  obtain ⟨T, hT, hTin⟩ := hL N e hN heq (children r) (hR r hr) (by simpa using hr1) (by simpa using hr2)
  obtain ⟨S, hTS, hS⟩ := hT.exists_maximal
  obtain ⟨y, hy, rfl⟩ := List.mem_map.mp ((h4 S).mpr hS)
  have he1 := hTin e.1 (by simpa using hr1) e.2 (by simpa using hr2) hne hadj
  have hlen : y.length ≠ 1 := by
    intro hlen
    have h5 := hTS he1.1
    have h6 := hTS he1.2
    obtain ⟨a, ha⟩ := List.length_eq_one_iff.mp hlen
    rw [ha] at h5 h6
    simp at h5 h6
    exact hne (h5.trans h6.symm)
  have hneed := h y hy hlen
  obtain ⟨C1, C2, rfl⟩ := List.append_of_mem hr
  have hadj' : ∀ i j, (afterRow g (BVec.of fun v => y.contains v)) i j = _ :=
    setEdges_row g.adj (BVec.of fun v => y.contains v)
  have := hneed (C1 ++ C2) (fun x hx => hR x (by
    rcases List.mem_append.mp hx with h | h
    · exact List.mem_append_left _ h
    · exact List.mem_append_right _ (List.mem_cons_of_mem _ h))) ?_
  · simp only [List.length_append, List.length_cons] at this ⊢
    push_cast at this ⊢
    omega
  · intro i j hij hv
    rw [hadj'] at hv
    simp only [Bool.and_eq_true, Bool.not_eq_true', BVec.get_of] at hv
    obtain ⟨x, hx, hxi, hxj⟩ := hc i j hij hv.1
    by_cases hxr : x = r
    · subst hxr
      have h7 := hTin i (by simpa using hxi) j (by simpa using hxj) hij hv.1
      have h8 : i ∈ y := by simpa using hTS h7.1
      have h9 : j ∈ y := by simpa using hTS h7.2
      have := hv.2
      simp [hij, h8, h9] at this
    · refine ⟨x, ?_, hxi, hxj⟩
      rcases List.mem_append.mp hx with h | h
      · exact List.mem_append_left _ h
      · rcases List.mem_cons.mp h with h | h
        · exact absurd h hxr
        · exact List.mem_append_right _ h

theorem cliqueLoop_cap {A : BMat n} {g : RG n} {k : Int} {info : PathInfo} (hC : Coh A g) :
    ∀ {ys : List (List (Fin n))} {i R out}, cliqueLoop g k info none i R ys = .ok out →
      (∃ y ∈ ys, y.length ≠ 1) → out.res = g.cover := by
  intro ys
  induction ys with
  | nil => rintro i R out - ⟨y, hy, -⟩; simp at hy
  | cons y ys ih =>
    intro i R out h hex
    unfold cliqueLoop at h
    by_cases hlen : y.length = 1
    · rw [if_pos hlen] at h
      apply ih h
      obtain ⟨y', hy', hl⟩ := hex
      rcases List.mem_cons.mp hy' with rfl | hy'
      · exact absurd hlen hl
      · exact ⟨y', hy', hl⟩
    · rw [if_neg hlen, if_neg (by simpa using hC.verts)] at h
      cases h; rfl

/-- one call of `branch`: a returned cover stays within the budget, and an unsuccessful call whose
branchings were all lossless shows that the budget was too small -/
theorem branch_needs {A : BMat n} (hA : Symm A) (hD : UnitDiag A) (rt : Runtime n)
    (recon : Option (BMat n) → List (BVec n) → List (BVec n)) :
    ∀ rem path graph k cover out, Coh A (entry graph cover) →
      (entry graph cover).numEdges ≠ 0 → (cover.isSome = true ∨ 0 < rem ∧ PCore A (entry graph cover)) →
      branch recon rt rem path graph k cover = .ok out →
      (∀ c, out.res = some c → (c.length : Int) ≤ ((cover.getD []).length : Int) + k) ∧
      (out.res = none → (∀ x ∈ branchNodes recon rt rem path graph k cover, Lossless A x) →
        NeedsMore A (entry graph cover).adj k) := by
  have key : ∀ (rem : Nat) (path : List Nat) (graph : RG n) (k : Int) (cover : Option (List (BVec n)))
      (out : BranchOut n) (rec : Option (Nat → RG n → Int → List (BVec n) → Except PyErr (BranchOut n))),
      (∀ g, Coh A g → Stuck g → 0 ≤ g.k → ∀ f, rec = some f → ∃ rem', rem = rem' + 1 ∧
        f = (fun i g' k' c => branch recon rt rem' (i :: path) g' k' (some c)) ∧
        ∀ i R (r : BVec n), (∃ i j, i ≠ j ∧ r i = true ∧ r j = true) →
        (∀ a b, r a = true → r b = true → a ≠ b → g.adj a b = true) → ∀ out,
        f i { g with redAway := R } (g.k - 1) (g.rows ++ [r]) = .ok out →
        (∀ c, out.res = some c → (c.length : Int) ≤ g.rows.length + g.k) ∧
        (out.res = none → (∀ x ∈ branchNodes recon rt rem' (i :: path) { g with redAway := R } (g.k - 1)
          (some (g.rows ++ [r])), Lossless A x) → NeedsMore A (afterRow g r) (g.k - 1))) →
      Coh A (entry graph cover) → (entry graph cover).numEdges ≠ 0 →
      (cover.isSome = true ∨ rec ≠ none ∧ PCore A (entry graph cover)) → branchBody recon rt rec path graph k cover = .ok out →
      (∀ c, out.res = some c → (c.length : Int) ≤ ((cover.getD []).length : Int) + k) ∧
      (out.res = none → (∀ x ∈ branchNodes recon rt rem path graph k cover, Lossless A x) →
        NeedsMore A (entry graph cover).adj k) := by
    intro rem path graph k cover out rec hrec hC hE hcs h
    obtain ⟨g', hred, hC', hS, hneed, hbud, hcov⟩ := reduce_needs hA hD hC k
    have hrows : (entry graph cover).rows = cover.getD [] := by
      unfold RG.rows; rw [entry_cover]
    rw [hrows] at hbud
    rw [entry_cover] at hcov
    by_cases hk : g'.k < 0
    · rw [branchBody_budget hE hred hk] at h
      cases h
      exact ⟨by simp, fun _ _ => hneed (needsMore_neg _ _ hk)⟩
    · by_cases hE' : g'.numEdges = 0
      · rw [branchBody_leaf hE hred (by omega) hE'] at h
        cases h
        refine ⟨fun c hc => ?_, fun hn _ => ?_⟩
        · have hr : g'.rows = c := by
            unfold RG.rows; rw [show g'.cover = some c from hc]; rfl
          rw [hr] at hbud; omega
        · -- no cover and no edge left: nothing was covered at all
          have hn : g'.cover = none := hn
          rcases hcs with h | ⟨-, hP⟩
          · have := hcov h; rw [hn] at this; cases this
          · obtain ⟨g2, hred2, -, -, -, -, hcase⟩ := reduzieren_core hA hD _ k hC hP
            rw [hred] at hred2
            cases hred2
            rcases hcase with h | ⟨-, hQ, -⟩
            · exact absurd h hk
            · exact absurd hE' (hQ.inv.nonempty hn)
      · have hS : Stuck g' := by
          rcases hS with h | h
          · exact absurd h hk
          · exact h
        obtain ⟨N, ys, hN, hmc, hcl⟩ := cliqueList_of_nbrhood hA hD hC' hE' (rt.sched path)
        unfold branchBody at h
        change (if (entry graph cover).numEdges = 0 then _ else _) = _ at h
        rw [if_neg hE] at h
        change (match (entry graph cover).reduzieren k with | .error e => _ | .ok g => _) = _ at h
        rw [hred] at h
        simp only [if_neg hk, hE', if_false, hN, hmc] at h
        split at h
        · cases h
        · rename_i out' ho
          cases h
          cases hrc : rec with
          | none =>
            rw [hrc] at ho
            have hres := cliqueLoop_cap hC' ho hcl.exists2
            refine ⟨fun c hc => ?_, fun hn _ => ?_⟩
            · have hc : out'.res = some c := hc
              rw [hres] at hc
              have hr : g'.rows = c := by unfold RG.rows; rw [hc]; rfl
              rw [hr] at hbud; omega
            · have hn : out'.res = none := hn
              rw [hres] at hn
              rcases hcs with h | h
              · have := hcov h; rw [hn] at this; cases this
              · exact absurd hrc h.1
          | some f =>
            obtain ⟨rem', rfl, hf, hcall⟩ := hrec g' hC' hS (by omega) f hrc
            rw [hrc] at ho
            obtain ⟨hl1, hl2⟩ := loop_needs (A := A) (nodes := fun i g' k' c =>
              branchNodes recon rt rem' (i :: path) g' k' (some c)) hcall hcl.each ho
            refine ⟨fun c hc => ?_, fun hn hnodes => ?_⟩
            · have := hl1 c hc; omega
            · have hnd : branchNodes recon rt (rem' + 1) path graph k cover =
                  g' :: loopNodes g' g'.k f
                    (fun i g' k' c => branchNodes recon rt rem' (i :: path) g' k' (some c))
                    0 g'.redAway ys := by
                conv_lhs => unfold branchNodes
                change (if (entry graph cover).numEdges = 0 then _ else _) = _
                rw [if_neg hE]
                change (match (entry graph cover).reduzieren k with | .error e => _ | .ok g => _) = _
                rw [hred]
                simp only [if_neg hk, hE', if_false, hN, hmc, hf]
              rw [hnd] at hnodes
              apply hneed
              exact node_needs hA hD hC' hE' hN hmc (hnodes g' (by simp))
                (hl2 hn fun x hx => hnodes x (List.mem_cons_of_mem _ hx))
  intro rem
  induction rem with
  | zero =>
    intro path graph k cover out hC hE hcs h
    unfold branch at h
    refine key 0 path graph k cover out none (by simp) hC hE ?_ h
    rcases hcs with h | h
    · exact Or.inl h
    · omega
  | succ rem ih =>
    intro path graph k cover out hC hE hcs h
    unfold branch at h
    refine key (rem + 1) path graph k cover out _ ?_ hC hE (hcs.imp id fun h => ⟨by simp, h.2⟩) h
    intro g hCg hS hk f hf
    cases hf
    refine ⟨rem, rfl, rfl, ?_⟩
    intro i R r hex hall out ho
    obtain ⟨a, b, hab, hra', hrb'⟩ := hex
    have hent : entry { g with redAway := R } (some (g.rows ++ [r])) =
        { (g.coverPairs (listPairs r.toList)) with
          cover := some (g.rows ++ [r]), redAway := R, k := g.k, reducing := g.reducing } := by
      unfold entry
      rw [coverEdges_append _ g.rows r rfl]
      rfl
    obtain ⟨h1, h2⟩ := ih (i :: path) { g with redAway := R } (g.k - 1) (some (g.rows ++ [r])) out
      (by rw [hent]; exact (hCg.coverPairs _ (rowPairs_lt r)).congr _ _ _ _)
      (by rw [hent]; exact child_nonzero hCg hS hab hra' hrb' hall) (Or.inl rfl) ho
    refine ⟨fun c hc => ?_, fun hn hnodes => ?_⟩
    · have := h1 c hc
      simp only [Option.getD_some, List.length_append, List.length_cons, List.length_nil] at this
      push_cast at this
      omega
    · have := h2 hn hnodes
      rw [hent] at this
      exact this

end Medil

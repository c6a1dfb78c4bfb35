import Verif.Model.FloatGraph
import Verif.Props.EccCost
import Verif.Props.Recover
import Verif.Props.Chordal
/-
  C210: `find_clique_min_cover` on floating point arrays of zeros and ones.
-/
namespace Medil
variable {n : Nat}

theorem cliqueLoopFloat_error (out : BranchOut n) (ys : List (List (Fin n))) (h : ∃ y ∈ ys, y.length ≠ 1) :
    cliqueLoopFloat out ys = .error .typeError := by
  induction ys with
  | nil => obtain ⟨y, hy, -⟩ := h; cases hy
  | cons y ys ih =>
    simp only [cliqueLoopFloat]
    split
    · rename_i h1
      apply ih
      obtain ⟨z, hz, h2⟩ := h
      rcases List.mem_cons.mp hz with rfl | hz
      · exact absurd h1 h2
      · exact ⟨z, hz, h2⟩
    · rfl

theorem branchBodyC_pos (recon : Option (BMat n) → List (BVec n) → List (BVec n)) (rt : Runtime n)
    (rec : Option (Nat → RG n → Int → List (BVec n) → Nat × Except PyErr (BranchOut n)))
    (path : List Nat) (graph : RG n) (k : Int) (cover : Option (List (BVec n))) :
    1 ≤ (branchBodyC recon rt rec path graph k cover).1 := by
  unfold branchBodyC
  dsimp only
  repeat' split
  all_goals first | exact Nat.le_refl 1 | exact Nat.le_add_right 1 _

theorem branchC_pos (recon : Option (BMat n) → List (BVec n) → List (BVec n)) (rt : Runtime n) (rem : Nat)
    (path : List Nat) (graph : RG n) (k : Int) (cover : Option (List (BVec n))) :
    1 ≤ (branchC recon rt rem path graph k cover).1 := by
  cases rem <;> exact branchBodyC_pos _ _ _ _ _ _ _

theorem cliqueLoopC_pos (g : RG n) (hg : g.unredVerts = n) (k : Int) (info : PathInfo)
    (f : Nat → RG n → Int → List (BVec n) → Nat × Except PyErr (BranchOut n))
    (hf : ∀ i g k c, 1 ≤ (f i g k c).1) (i : Nat) (redAway : Option (BMat n)) (l : List (List (Fin n)))
    (h : ∃ y ∈ l, y.length ≠ 1) :
    1 ≤ (cliqueLoopC g k info (some f) i redAway l).1 := by
  induction l generalizing i redAway with
  | nil => obtain ⟨y, hy, -⟩ := h; cases hy
  | cons nodes rest ih =>
    simp only [cliqueLoopC]
    split
    · rename_i h1
      apply ih
      obtain ⟨z, hz, h2⟩ := h
      rcases List.mem_cons.mp hz with rfl | hz
      · exact absurd h1 h2
      · exact ⟨z, hz, h2⟩
    · rw [if_neg (by simpa using hg)]
      have hb := hf i { g with redAway := redAway } (k - 1) (g.cover.getD [] ++ [BVec.of fun v => nodes.contains v])
      rcases hf : f i { g with redAway := redAway } (k - 1) (g.cover.getD [] ++ [BVec.of fun v => nodes.contains v]) with
        ⟨c, e | out⟩
      · rw [hf] at hb; exact hb
      · rw [hf] at hb
        simp only at hb ⊢
        cases hres : out.res with
        | some c => exact hb
        | none => simp only; omega

/-- one pass of the search, for both kinds of arrays -/
theorem float_pass {A : BMat n} (hA : Symm A) (hD : UnitDiag A) (hE : ∃ i j, i < j ∧ A i j = true) (rt : Runtime n) {g : RG n}
    (hg : makeAux rt.order A = .ok g) (recon : Option (BMat n) → List (BVec n) → List (BVec n)) (k : Nat) :
    (∃ out, branchC recon rt 3 [k] g k none = (1, .ok out) ∧ branchFloat rt g k = .ok out) ∨
    (∃ c out, 2 ≤ c ∧ branchC recon rt 3 [k] g k none = (c, .ok out) ∧ branchFloat rt g k = .error .typeError ∧
      ∃ g', g.reduzieren k = .ok g' ∧ 0 ≤ g'.k ∧ g'.numEdges ≠ 0) := by
  have hC := Coh.init hA hD rt.perm hg
  have hP := PCore.init hA hD rt.perm hg hE
  have hcov : g.cover = none := by rw [makeAux_ok hg]
  have hent := entry_none hcov
  have hne : g.numEdges ≠ 0 := by rw [makeAux_ok hg]; exact numEdgesOf_ne_zero.mpr hE
  obtain ⟨g', hred, hC', -, -, -, hcase⟩ := reduzieren_core hA hD g k hC hP
  have hE1 : ({ g with cover := none }.coverEdges).numEdges ≠ 0 := by
    change (entry g none).numEdges ≠ 0; rw [hent]; exact hne
  have hred1 : ({ g with cover := none }.coverEdges).reduzieren k = .ok g' := by
    change (entry g none).reduzieren k = _; rw [hent]; exact hred
  by_cases hk : g'.k < 0
  · left
    refine ⟨⟨none, sharedRedAway g.redAway g'.redAway, ⟨g'.redAway.isSome, false, false⟩⟩, ?_, ?_⟩
    · rw [branchC, branchBodyC]
      simp only [if_neg hE1, hred1, if_pos hk]
      rfl
    · rw [branchFloat]
      simp only [if_neg hE1, hred1, if_pos hk]
  · by_cases hE' : g'.numEdges = 0
    · left
      refine ⟨⟨g'.cover, sharedRedAway g.redAway g'.redAway, ⟨g'.redAway.isSome, false, false⟩⟩, ?_, ?_⟩
      · rw [branchC, branchBodyC]
        simp only [if_neg hE1, hred1, if_neg hk, if_pos hE']
        rfl
      · rw [branchFloat]
        simp only [if_neg hE1, hred1, if_neg hk, if_pos hE']
    · right
      obtain ⟨N, ys, hN, hmc, hcl⟩ := cliqueList_of_nbrhood hA hD hC' hE' (rt.sched [k])
      obtain ⟨out, hout, -⟩ := branch_spec hA hD rt 3 [k] g k none (by rw [hent]; exact hC) (by rw [hent]; exact hP)
        (by rw [hent]; exact hne) (.inr (by decide))
      have h2 := branchC_snd recon rt 3 [k] g k none
      rw [hout recon] at h2
      refine ⟨(branchC recon rt 3 [k] g k none).1, out, ?_, ?_, ?_, g', hred, by omega, hE'⟩
      · rw [branchC, branchBodyC]
        simp only [if_neg hE1, hred1, if_neg hk, if_neg hE', hN, hmc]
        have := cliqueLoopC_pos g' hC'.verts g'.k ⟨g'.redAway.isSome, true, decide (1 < [k].length)⟩
          (fun i g' k' c => branchC recon rt 2 (i :: [k]) g' k' (some c))
          (fun _ _ _ _ => branchC_pos _ _ _ _ _ _ _) 0 g'.redAway ys hcl.exists2
        split
        · rename_i c e heq
          rw [heq] at this
          simp only at this ⊢
          omega
        · rename_i c o heq
          rw [heq] at this
          simp only at this ⊢
          omega
      · rw [← h2]
      · rw [branchFloat]
        simp only [if_neg hE1, hred1, if_neg hk, if_neg hE', hN, hmc]
        exact cliqueLoopFloat_error _ _ hcl.exists2

theorem float_loop {A : BMat n} (hA : Symm A) (hD : UnitDiag A) (hE : ∃ i j, i < j ∧ A i j = true) (rt : Runtime n) {g : RG n}
    (hg : makeAux rt.order A = .ok g) (recon : Option (BMat n) → List (BVec n) → List (BVec n)) (r : List (BVec n) × PathInfo) :
    ∀ fuel k, (findLoopC recon rt 3 g fuel k).2 = .ok r →
      ∃ P, P ≤ (findLoopC recon rt 3 g fuel k).1 ∧
        (∀ p, P ≤ p → findLoop recon rt 3 g p k = .ok r) ∧ (∀ p, p < P → findLoop recon rt 3 g p k = .error .hang) ∧
        ((findLoopFloat rt g fuel k = .ok r.1 ∧ (findLoopC recon rt 3 g fuel k).1 = P) ∨
          (findLoopFloat rt g fuel k = .error .typeError ∧ P < (findLoopC recon rt 3 g fuel k).1)) := by
  intro fuel
  induction fuel with
  | zero => intro k h; cases h
  | succ fuel ih =>
    intro k h
    rcases float_pass hA hD hE rt hg recon k with ⟨out, h1, h2⟩ | ⟨c, out, hc, h1, h2, -⟩
    · have hb : branch recon rt 3 [k] g k none = .ok out := by rw [← branchC_snd, h1]
      rw [findLoopC, h1] at h ⊢
      rw [findLoopFloat, h2]
      cases hres : out.res with
      | some cov =>
        simp only [hres] at h ⊢
        cases h
        refine ⟨1, Nat.le_refl _, ?_, ?_, .inl ⟨rfl, rfl⟩⟩
        · intro p hp
          obtain ⟨q, rfl⟩ : ∃ q, p = q + 1 := ⟨p - 1, by omega⟩
          rw [findLoop, hb]; simp only [hres]
        · intro p hp
          obtain rfl : p = 0 := by omega
          rfl
      | none =>
        simp only [hres] at h ⊢
        obtain ⟨P, hP1, hP2, hP3, hP4⟩ := ih (k + 1) h
        refine ⟨P + 1, by omega, ?_, ?_, ?_⟩
        · intro p hp
          obtain ⟨q, rfl⟩ : ∃ q, p = q + 1 := ⟨p - 1, by omega⟩
          rw [findLoop, hb]; simp only [hres]
          exact hP2 q (by omega)
        · intro p hp
          rcases p with - | q
          · rfl
          · rw [findLoop, hb]; simp only [hres]
            exact hP3 q (by omega)
        · rcases hP4 with ⟨a, b⟩ | ⟨a, b⟩
          · exact .inl ⟨a, by omega⟩
          · exact .inr ⟨a, by omega⟩
    · have hb : branch recon rt 3 [k] g k none = .ok out := by rw [← branchC_snd, h1]
      rw [findLoopC, h1] at h ⊢
      rw [findLoopFloat, h2]
      cases hres : out.res with
      | some cov =>
        simp only [hres] at h ⊢
        cases h
        refine ⟨1, by omega, ?_, ?_, .inr ⟨trivial, by omega⟩⟩
        · intro p hp
          obtain ⟨q, rfl⟩ : ∃ q, p = q + 1 := ⟨p - 1, by omega⟩
          rw [findLoop, hb]; simp only [hres]
        · intro p hp
          obtain rfl : p = 0 := by omega
          rfl
      | none =>
        simp only [hres] at h ⊢
        obtain ⟨P, hP1, hP2, hP3, hP4⟩ := ih (k + 1) h
        refine ⟨P + 1, by omega, ?_, ?_, .inr ⟨trivial, by omega⟩⟩
        · intro p hp
          obtain ⟨q, rfl⟩ : ∃ q, p = q + 1 := ⟨p - 1, by omega⟩
          rw [findLoop, hb]; simp only [hres]
          exact hP2 q (by omega)
        · intro p hp
          rcases p with - | q
          · rfl
          · rw [findLoop, hb]; simp only [hres]
            exact hP3 q (by omega)

/-- **C210** (as stated; false): the element type of the array does not matter -/
def C210_statement : Prop :=
  ∀ (n : Nat) (A : BMat n), 0 < n → Symm A → UnitDiag A → ∀ (rt : Runtime n) (fuel : Nat) (B : List (BVec n)),
    findCliqueMinCover rt fuel A = .ok B → findCliqueMinCoverFloat rt fuel A = .ok B

/-- **C210**, what is true instead: on a float array the function returns what it returns for an integer array, or raises
`TypeError`; and it raises exactly if the search on the integer array makes more calls of `branch` than passes, that is, if
one of its passes has to branch -/
theorem C210_float_partial (A : BMat n) (hn : 0 < n) (hA : Symm A) (hD : UnitDiag A) (rt : Runtime n) (fuel : Nat)
    (hf : numEdgesOf A ≤ fuel) :
    (findCliqueMinCoverFloat rt fuel A = findCliqueMinCover rt fuel A ∨
      findCliqueMinCoverFloat rt fuel A = .error .typeError) ∧
    (findCliqueMinCoverFloat rt fuel A = .error .typeError ↔
      ∃ passes < (findCliqueCounted rt fuel A).1, findCliqueMinCover rt passes A = findCliqueMinCover rt fuel A) := by
  by_cases hE : ∃ i j, i < j ∧ A i j = true
  · rcases makeAux_cases rt.order hA hn with ⟨hno, -⟩ | ⟨-, g, hg⟩
    · obtain ⟨i, j, hij, hadj⟩ := hE
      rw [hno i j (ne_of_lt hij)] at hadj; cases hadj
    obtain ⟨m, hm⟩ := maxIntersect_ok hD (A := A)
    obtain ⟨B, hB⟩ := C10_exact_returns A hn hA hD rt
    have hB := hB fuel hf
    have hfl : findCliqueMinCoverFloat rt fuel A = (findLoopFloat rt g fuel 1).map addIsolatedVerts := by
      unfold findCliqueMinCoverFloat; rw [hg]; simp only [hm]
    have hint : ∀ p, findCliqueMinCover rt p A =
        (findLoop RG.reconstructCover rt 3 g p 1).map fun r => addIsolatedVerts r.1 := by
      intro p
      unfold findCliqueMinCover cliqueSearch
      rw [hg]
      simp only [hm]
      rcases findLoop RG.reconstructCover rt 3 g p 1 with e | ⟨c, info⟩ <;> rfl
    have hcnt : (findCliqueCounted rt fuel A).1 = (findLoopC RG.reconstructCover rt 3 g fuel 1).1 := by
      unfold findCliqueCounted
      rw [hg]
      simp only [hm]
      rcases findLoopC RG.reconstructCover rt 3 g fuel 1 with ⟨c, e | ⟨c, info⟩⟩ <;> rfl
    have hr : ∃ r, findLoop RG.reconstructCover rt 3 g fuel 1 = .ok r := by
      rw [hint] at hB
      cases hr : findLoop RG.reconstructCover rt 3 g fuel 1 with
      | error e => rw [hr] at hB; cases hB
      | ok r => exact ⟨r, rfl⟩
    obtain ⟨r, hr⟩ := hr
    obtain ⟨P, h1, h2, h3, h4⟩ := float_loop hA hD hE rt hg RG.reconstructCover r fuel 1 (by rw [findLoopC_snd, hr])
    rw [hfl, hint fuel, hcnt, hr]
    rcases h4 with ⟨a, b⟩ | ⟨a, b⟩
    · rw [a]
      refine ⟨.inl rfl, ⟨fun h => (by cases h), ?_⟩⟩
      rintro ⟨p, hp, h⟩
      rw [hint p, h3 p (by omega)] at h
      cases h
    · rw [a]
      refine ⟨.inr rfl, ⟨fun _ => ⟨P, b, ?_⟩, fun _ => rfl⟩⟩
      rw [hint P, h2 P (Nat.le_refl _)]
  · rcases makeAux_cases rt.order hA hn with ⟨-, h⟩ | ⟨h, -⟩
    · have h1 : findCliqueMinCoverFloat rt fuel A = .ok ((List.finRange n).map A.row) := by
        unfold findCliqueMinCoverFloat; rw [h]
      have h2 : (findCliqueCounted rt fuel A).1 = 0 := by
        unfold findCliqueCounted; rw [h]
      rw [h1, (findClique_edgeless hn hA hE rt fuel).1, h2]
      exact ⟨.inl rfl, ⟨fun h => (by cases h), fun ⟨p, hp, _⟩ => absurd hp (Nat.not_lt_zero _)⟩⟩
    · exact absurd h hE

/-- if no pass gets stuck with uncovered edges, both kinds of arrays give the same result -/
theorem float_settled {A : BMat n} (hn : 0 < n) (hA : Symm A) (hD : UnitDiag A) (rt : Runtime n)
    (h : ∀ g, makeAux rt.order A = .ok g → g.numEdges ≠ 0 → ∀ k : Nat, ∃ g', g.reduzieren k = .ok g' ∧ (g'.k < 0 ∨ g'.numEdges = 0)) (fuel : Nat) :
    findCliqueMinCoverFloat rt fuel A = findCliqueMinCover rt fuel A := by
  by_cases hE : ∃ i j, i < j ∧ A i j = true
  · rcases makeAux_cases rt.order hA hn with ⟨hno, -⟩ | ⟨-, g, hg⟩
    · obtain ⟨i, j, hij, hadj⟩ := hE
      rw [hno i j (ne_of_lt hij)] at hadj; cases hadj
    obtain ⟨m, hm⟩ := maxIntersect_ok hD (A := A)
    have hne : g.numEdges ≠ 0 := by rw [makeAux_ok hg]; exact numEdgesOf_ne_zero.mpr hE
    have key : ∀ fuel k, findLoopFloat rt g fuel k = (findLoop RG.reconstructCover rt 3 g fuel k).map (·.1) := by
      intro fuel
      induction fuel with
      | zero => intro k; rfl
      | succ fuel ih =>
        intro k
        rcases float_pass hA hD hE rt hg RG.reconstructCover k with ⟨out, h1, h2⟩ | ⟨c, out, -, -, -, g', h3, h4, h5⟩
        · have hb : branch RG.reconstructCover rt 3 [k] g k none = .ok out := by rw [← branchC_snd, h1]
          rw [findLoopFloat, findLoop, h2, hb]
          simp only
          cases out.res with
          | some c => rfl
          | none => exact ih _
        · obtain ⟨g'', h6, h7⟩ := h g hg hne k
          rw [h3] at h6; cases h6
          omega
    unfold findCliqueMinCoverFloat findCliqueMinCover cliqueSearch
    rw [hg]
    simp only [hm]
    rw [key]
    rcases findLoop RG.reconstructCover rt 3 g fuel 1 with e | ⟨c, info⟩ <;> rfl
  · rcases makeAux_cases rt.order hA hn with ⟨-, h'⟩ | ⟨h', -⟩
    · unfold findCliqueMinCoverFloat findCliqueMinCover cliqueSearch
      rw [h']
      rfl
    · exact absurd h' hE

/-- **C210** holds for dependence graphs of structures with private pairs (so of one-pure-child structures) ... -/
theorem C210_private_partial (A : BMat n) (B : List (BVec n)) (hn : 0 < n) (hD : UnitDiag A)
    (hU : IsUDGOf A B) (hV : CoversVertices B) (hW : PrivatelyWitnessed A B) (rt : Runtime n) (fuel : Nat)
    (hf : numEdgesOf A ≤ fuel) :
    ∃ C, findCliqueMinCoverFloat rt fuel A = .ok C ∧ findCliqueMinCover rt fuel A = .ok C ∧ SameRows C B := by
  have hA := hU.symm
  have hO : PrivGraph A B := ⟨hA, hD, hU, hV, hW⟩
  obtain ⟨⟨C, h1, h2, -⟩, -⟩ := C96_private_recovers A B hn hD hU hV hW rt
  refine ⟨C, ?_, h1 fuel hf, h2⟩
  rw [float_settled hn hA hD rt ?_ fuel, h1 fuel hf]
  intro g hg hne k
  obtain ⟨g', h3, h4⟩ := priv_reduce hO (Coh.init hA hD rt.perm hg) k (WInv.init hO hg k)
  refine ⟨g', h3, ?_⟩
  rcases h4 with ⟨h, -⟩ | ⟨-, h, -⟩
  · exact .inl h
  · exact .inr h

/-- ... and for the sparse graphs of C196 -/
theorem C210_sparse_partial (A : BMat n) (hn : 0 < n) (hA : Symm A) (hD : UnitDiag A) (hK : NoK4 A) (hE : ClusterElim A)
    (rt : Runtime n) (fuel : Nat) (hf : numEdgesOf A ≤ fuel) :
    ∃ C, findCliqueMinCoverFloat rt fuel A = .ok C ∧ findCliqueMinCover rt fuel A = .ok C ∧ IsCover A C ∧
      ∀ C', IsCover A C' → C.length ≤ C'.length := by
  obtain ⟨C, h1, h2, h2'⟩ := C196_cluster_elimination A hn hA hD hK hE rt
  refine ⟨C, ?_, h1 fuel hf, h2, h2'⟩
  rw [float_settled hn hA hD rt ?_ fuel, h1 fuel hf]
  intro g hg hne k
  have hX : XInv A { g with k := (k : Int) } := by
    have hg' := makeAux_ok hg
    subst hg'
    exact ⟨rfl, fun a b hlt _ => countsOf_eq hA hD _ hlt⟩
  obtain ⟨g', h3, h4⟩ := elim_reduce hA hD hK hE (Coh.init hA hD rt.perm hg) k hX
  refine ⟨g', h3, ?_⟩
  rcases h4 with h | ⟨-, h, -⟩
  · exact .inl h
  · exact .inr h

/-- the claim is false for the octahedron: with a float array the first pass already raises -/
theorem C210_false : ¬ C210_statement := by
  intro h
  obtain ⟨B, hB⟩ := C10_exact_returns octahedron (by norm_num) (graphOf_symm _) (graphOf_diag _) (rt0 6)
  have h1 := h 6 octahedron (by norm_num) (graphOf_symm _) (graphOf_diag _) (rt0 6) _ B (hB _ (Nat.le_refl _))
  have h2 : findCliqueMinCoverFloat (rt0 6) (numEdgesOf octahedron) octahedron = .error .typeError := by decide +kernel
  rw [h2] at h1
  cases h1

-- a triangle, two edges and an isolated vertex: a float array gives the result of the integer array
example : (findCliqueMinCoverFloat (rt0 6) 6 (graphOf 6 [(0,1),(0,2),(1,2),(2,3),(3,4)])).toOption.map
    (fun B => B.map (·.bits)) = some [0b011000, 0b001100, 0b000111, 0b100000] := by decide +kernel

end Medil

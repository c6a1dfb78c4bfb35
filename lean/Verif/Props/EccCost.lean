import Verif.Model.EccCost
import Verif.Props.Cost
import Verif.Props.Ecc
/-
  C155: the number of calls of `branch` in `find_clique_min_cover`.
-/
namespace Medil
variable {n : Nat}

theorem cliqueLoopC_snd (g : RG n) (k : Int) (info : PathInfo)
    (rec : Option (Nat → RG n → Int → List (BVec n) → Nat × Except PyErr (BranchOut n))) (i : Nat)
    (redAway : Option (BMat n)) (l : List (List (Fin n))) :
    (cliqueLoopC g k info rec i redAway l).2 =
      cliqueLoop g k info (rec.map fun f i g k c => (f i g k c).2) i redAway l := by
  induction l generalizing i redAway with
  | nil => rfl
  | cons nodes rest ih =>
    simp only [cliqueLoopC, cliqueLoop]
    split
    · exact ih _ _
    · split
      · rfl
      · cases rec with
        | none => rfl
        | some f =>
          simp only [Option.map_some]
          rcases hf : f i { g with redAway := redAway } (k - 1) (g.cover.getD [] ++ [BVec.of fun v => nodes.contains v]) with
            ⟨c, e | out⟩
          · rfl
          · simp only
            cases hres : out.res with
            | some c => rfl
            | none => exact ih _ _

theorem branchBodyC_snd (recon : Option (BMat n) → List (BVec n) → List (BVec n)) (rt : Runtime n)
    (rec : Option (Nat → RG n → Int → List (BVec n) → Nat × Except PyErr (BranchOut n)))
    (path : List Nat) (graph : RG n) (k : Int) (cover : Option (List (BVec n))) :
    (branchBodyC recon rt rec path graph k cover).2 =
      branchBody recon rt (rec.map fun f i g k c => (f i g k c).2) path graph k cover := by
  simp only [branchBodyC, branchBody]
  split
  · rfl
  · rcases RG.reduzieren _ k with e | g
    · rfl
    · simp only
      split
      · rfl
      · split
        · rfl
        · rcases g.chooseNbrhood with e | N
          · rfl
          · simp only
            rcases maxCliques (rt.sched path) N with e | cl
            · rfl
            · simp only
              rw [← cliqueLoopC_snd]
              rcases cliqueLoopC g g.k _ rec 0 g.redAway cl with ⟨c, e | out⟩ <;> rfl

theorem branchC_snd (recon : Option (BMat n) → List (BVec n) → List (BVec n)) (rt : Runtime n) (rem : Nat)
    (path : List Nat) (graph : RG n) (k : Int) (cover : Option (List (BVec n))) :
    (branchC recon rt rem path graph k cover).2 = branch recon rt rem path graph k cover := by
  induction rem generalizing path graph k cover with
  | zero => exact branchBodyC_snd _ _ _ _ _ _ _
  | succ rem ih =>
    rw [branchC, branch, branchBodyC_snd]
    simp only [Option.map_some, ih]

theorem findLoopC_snd (recon : Option (BMat n) → List (BVec n) → List (BVec n)) (rt : Runtime n) (im : Nat) (g : RG n)
    (fuel k : Nat) : (findLoopC recon rt im g fuel k).2 = findLoop recon rt im g fuel k := by
  induction fuel generalizing k with
  | zero => rfl
  | succ fuel ih =>
    rw [findLoopC, findLoop, ← branchC_snd]
    rcases branchC recon rt im [k] g k none with ⟨c, e | out⟩
    · rfl
    · simp only
      cases out.res with
      | some c => rfl
      | none => exact ih _

theorem findCliqueCounted_snd (rt : Runtime n) (fuel : Nat) (A : BMat n) :
    (findCliqueCounted rt fuel A).2 = findCliqueMinCover rt fuel A := by
  simp only [findCliqueCounted, findCliqueMinCover, cliqueSearch]
  rcases makeAux rt.order A with e | g
  · cases e <;> rfl
  · simp only
    rcases maxIntersectNum (traceOf A) (numEdgesOf A) with e | b
    · rfl
    · simp only
      rw [← findLoopC_snd]
      rcases findLoopC RG.reconstructCover rt 3 g fuel 1 with ⟨c, e | ⟨cov, info⟩⟩ <;> rfl

theorem cliqueLoopC_le (g : RG n) (k : Int) (info : PathInfo)
    (f : Nat → RG n → Int → List (BVec n) → Nat × Except PyErr (BranchOut n)) (b : Nat)
    (hf : ∀ i g k c, (f i g k c).1 ≤ b) (i : Nat) (redAway : Option (BMat n)) (l : List (List (Fin n))) :
    (cliqueLoopC g k info (some f) i redAway l).1 ≤ l.length * b := by
  induction l generalizing i redAway with
  | nil => simp [cliqueLoopC]
  | cons nodes rest ih =>
    rw [List.length_cons, Nat.add_mul, Nat.one_mul]
    simp only [cliqueLoopC]
    split
    · exact (ih _ _).trans (Nat.le_add_right _ _)
    · split
      · exact Nat.zero_le _
      · have hb := hf i { g with redAway := redAway } (k - 1) (g.cover.getD [] ++ [BVec.of fun v => nodes.contains v])
        rcases hf : f i { g with redAway := redAway } (k - 1) (g.cover.getD [] ++ [BVec.of fun v => nodes.contains v]) with
          ⟨c, e | out⟩
        · rw [hf] at hb; simp only at hb ⊢; omega
        · rw [hf] at hb
          simp only at hb ⊢
          cases hres : out.res with
          | some c => simp only; omega
          | none =>
            have := ih (i + 1) out.redAway
            simp only
            omega

theorem cliqueLoopC_none (g : RG n) (k : Int) (info : PathInfo) (i : Nat) (redAway : Option (BMat n))
    (l : List (List (Fin n))) : (cliqueLoopC g k info none i redAway l).1 = 0 := by
  induction l generalizing i redAway with
  | nil => rfl
  | cons nodes rest ih =>
    simp only [cliqueLoopC]
    split
    · exact ih _ _
    · split <;> rfl

theorem branchBodyC_le (recon : Option (BMat n) → List (BVec n) → List (BVec n)) (rt : Runtime n)
    (rec : Option (Nat → RG n → Int → List (BVec n) → Nat × Except PyErr (BranchOut n))) (c b : Nat)
    (hc : ∀ m : Nat, m ^ 3 ≤ 3 ^ n → m ≤ c) (hf : ∀ f, rec = some f → ∀ i g k c, (f i g k c).1 ≤ b)
    (path : List Nat) (graph : RG n) (k : Int) (cover : Option (List (BVec n))) :
    (branchBodyC recon rt rec path graph k cover).1 ≤ 1 + c * b := by
  simp only [branchBodyC]
  split
  · simp only; omega
  · rcases RG.reduzieren _ k with e | g
    · simp only; omega
    · simp only
      split
      · simp only; omega
      · split
        · simp only; omega
        · rcases g.chooseNbrhood with e | N
          · simp only; omega
          · simp only
            rcases hcl : maxCliques (rt.sched path) N with e | cl
            · simp only; omega
            · simp only
              have hlen : cl.length ≤ c := hc _ (C145_yields N _ cl hcl)
              have hl : ∀ info, (cliqueLoopC g g.k info rec 0 g.redAway cl).1 ≤ c * b := by
                intro info
                cases rec with
                | none => rw [cliqueLoopC_none]; exact Nat.zero_le _
                | some f => exact (cliqueLoopC_le g g.k info f b (hf f rfl) 0 g.redAway cl).trans (Nat.mul_le_mul_right b hlen)
              have := hl { PathInfo.mk g.redAway.isSome false (decide (1 < path.length)) with capped := true }
              revert this
              rcases cliqueLoopC g g.k _ rec 0 g.redAway cl with ⟨c', e | out⟩ <;> intro this <;> simp only at this ⊢ <;> omega

theorem branchC_le (recon : Option (BMat n) → List (BVec n) → List (BVec n)) (rt : Runtime n) (c : Nat)
    (hc : ∀ m : Nat, m ^ 3 ≤ 3 ^ n → m ≤ c) (rem : Nat) (path : List Nat) (graph : RG n) (k : Int)
    (cover : Option (List (BVec n))) :
    (branchC recon rt rem path graph k cover).1 ≤ ∑ i ∈ Finset.range (rem + 1), c ^ i := by
  induction rem generalizing path graph k cover with
  | zero =>
    have := branchBodyC_le recon rt none c 0 hc (by simp) path graph k cover
    simpa [branchC] using this
  | succ rem ih =>
    rw [branchC, Finset.sum_range_succ', add_comm]
    have := branchBodyC_le recon rt (some fun i g' k' c => branchC recon rt rem (i :: path) g' k' (some c)) c
      (∑ i ∈ Finset.range (rem + 1), c ^ i) hc (by rintro f ⟨⟩ i g k c'; exact ih _ _ _ _) path graph k cover
    refine this.trans (le_of_eq ?_)
    rw [pow_zero, Finset.mul_sum]
    congr 1
    exact Finset.sum_congr rfl fun i _ => by rw [pow_succ, mul_comm]

theorem findLoopC_le (recon : Option (BMat n) → List (BVec n) → List (BVec n)) (rt : Runtime n) (c : Nat)
    (hc : ∀ m : Nat, m ^ 3 ≤ 3 ^ n → m ≤ c) (im : Nat) (g : RG n) (fuel k : Nat) :
    (findLoopC recon rt im g fuel k).1 ≤ fuel * ∑ i ∈ Finset.range (im + 1), c ^ i := by
  induction fuel generalizing k with
  | zero => simp [findLoopC]
  | succ fuel ih =>
    have hb := branchC_le recon rt c hc im [k] g k none
    rw [findLoopC, Nat.add_mul, Nat.one_mul]
    revert hb
    rcases branchC recon rt im [k] g k none with ⟨c', e | out⟩ <;> intro hb
    · simp only at hb ⊢; omega
    · simp only at hb ⊢
      cases out.res with
      | some c => simp only; omega
      | none =>
        have := ih (k + 1)
        simp only
        omega

theorem findLoopC_mono (recon : Option (BMat n) → List (BVec n) → List (BVec n)) (rt : Runtime n) (im : Nat) (g : RG n)
    (f f' k : Nat) (hf : f ≤ f') (x : List (BVec n) × PathInfo) (h : (findLoopC recon rt im g f k).2 = .ok x) :
    findLoopC recon rt im g f' k = findLoopC recon rt im g f k := by
  induction f generalizing f' k with
  | zero => simp [findLoopC] at h
  | succ f ih =>
    obtain ⟨f', rfl⟩ : ∃ m, f' = m + 1 := ⟨f' - 1, by omega⟩
    rw [findLoopC] at h ⊢
    rw [findLoopC]
    rcases hb : branchC recon rt im [k] g k none with ⟨c, e | out⟩
    · rfl
    · rw [hb] at h
      simp only at h ⊢
      cases hr : out.res with
      | some c => rfl
      | none =>
        rw [hr] at h
        simp only at h ⊢
        rw [ih f' (k + 1) (by omega) h]

/-- **C155**.  `find_clique_min_cover` on a dependence graph makes at most `m · (1 + c + c² + c³)` calls of `branch`,
where `m` is the number of edges and `c = ⌊3^(n/3)⌋`, for every set order; so at most `4 · 3^n · m`.  (`findCliqueCounted`
returns the same result as `findCliqueMinCover`.) -/
theorem C155_calls (A : BMat n) (hn : 0 < n) (hA : Symm A) (hD : UnitDiag A) (rt : Runtime n) (fuel : Nat)
    (hf : numEdgesOf A ≤ fuel) (c : Nat) (hc : c ^ 3 ≤ 3 ^ n) (hc' : 3 ^ n < (c + 1) ^ 3) :
    (findCliqueCounted rt fuel A).2 = findCliqueMinCover rt fuel A ∧
    (findCliqueCounted rt fuel A).1 ≤ numEdgesOf A * (1 + c + c ^ 2 + c ^ 3) ∧
    (findCliqueCounted rt fuel A).1 ≤ 4 * 3 ^ n * numEdgesOf A := by
  have hcm : ∀ m : Nat, m ^ 3 ≤ 3 ^ n → m ≤ c := fun m hm => by
    by_contra h
    have : (c + 1) ^ 3 ≤ m ^ 3 := Nat.pow_le_pow_left (by omega) 3
    omega
  have key : (findCliqueCounted rt fuel A).1 ≤ numEdgesOf A * (1 + c + c ^ 2 + c ^ 3) := by
    obtain ⟨B, hB⟩ := C10_exact_returns A hn hA hD rt
    have hB := hB (numEdgesOf A) le_rfl
    rw [← findCliqueCounted_snd] at hB
    have hs : ∑ i ∈ Finset.range (3 + 1), c ^ i = 1 + c + c ^ 2 + c ^ 3 := by simp [Finset.sum_range_succ]
    simp only [findCliqueCounted] at hB ⊢
    revert hB
    rcases makeAux rt.order A with e | g
    · cases e <;> simp
    · simp only
      rcases maxIntersectNum (traceOf A) (numEdgesOf A) with e | b
      · simp
      · simp only
        intro hB
        have hle := findLoopC_le RG.reconstructCover rt c hcm 3 g (numEdgesOf A) 1
        rcases hl : findLoopC RG.reconstructCover rt 3 g (numEdgesOf A) 1 with ⟨k, e | ⟨cov, info⟩⟩
        · rw [hl] at hB; simp at hB
        · rw [findLoopC_mono _ _ _ _ _ fuel _ hf (cov, info) (by rw [hl]), hl]
          rw [hl, hs] at hle
          exact hle
  refine ⟨findCliqueCounted_snd rt fuel A, key, key.trans ?_⟩
  have h1 : 1 ≤ c := hcm 1 (by simpa using Nat.one_le_pow n 3 (by norm_num))
  have h2 : c ≤ c ^ 3 := Nat.le_self_pow (by norm_num) c
  have h3 : c ^ 2 ≤ c ^ 3 := Nat.pow_le_pow_right h1 (by norm_num)
  have h4 : 1 ≤ c ^ 3 := Nat.one_le_pow 3 c h1
  have : 1 + c + c ^ 2 + c ^ 3 ≤ 4 * 3 ^ n := by omega
  calc numEdgesOf A * (1 + c + c ^ 2 + c ^ 3) ≤ numEdgesOf A * (4 * 3 ^ n) := Nat.mul_le_mul_left _ this
    _ = 4 * 3 ^ n * numEdgesOf A := by ring

/-- the octahedron (all pairs but 0-1, 2-3, 4-5): 11 calls; the bound with `c = 9` holds for every set order -/
def octahedron : BMat 6 := graphOf 6 [(0, 2), (0, 3), (0, 4), (0, 5), (1, 2), (1, 3), (1, 4), (1, 5), (2, 4), (2, 5), (3, 4), (3, 5)]

theorem C155_example : (findCliqueCounted (rt0 6) 12 octahedron).1 = 11 ∧
    ∀ rt : Runtime 6, (findCliqueCounted rt 12 octahedron).1 ≤ 12 * (1 + 9 + 9 ^ 2 + 9 ^ 3) := by
  refine ⟨by decide +kernel, fun rt => ?_⟩
  have := (C155_calls octahedron (by norm_num) (graphOf_symm _) (graphOf_diag _) rt 12 (by decide +kernel) 9
    (by norm_num) (by norm_num)).2.1
  rwa [show numEdgesOf octahedron = 12 by decide +kernel] at this

end Medil

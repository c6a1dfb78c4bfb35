import Verif.Model.HeuristicCost
import Verif.Props.Cost
import Verif.Props.Heuristic
import Mathlib.Analysis.SpecificLimits.Normed
/-
  Property theorem C190: the cost of `find_heuristic_1pc`.
-/
namespace Medil
open Finset
variable {n : Nat}

theorem mcPasses_le (o : Sched n) (A : BMat n) (F : Nat) (s : MCState n) : mcPasses o A F s ≤ F := by
  induction F generalizing s with
  | zero => exact le_refl _
  | succ F ih =>
    unfold mcPasses
    split
    · omega
    · omega
    · rename_i s' _; have := ih s'; omega
    · rename_i s' _; have := ih s'; omega

theorem mcPasses_eq (o : Sched n) (A : BMat n) (F G : Nat) (s : MCState n) (ys) (h : mcRun o A F s = .ok ys) :
    ys.length ≤ mcPasses o A F s ∧ mcPasses o A (F + G) s = mcPasses o A F s := by
  induction F generalizing s ys with
  | zero => cases h
  | succ F ih =>
    rw [show F + 1 + G = (F + G) + 1 by omega]
    unfold mcRun at h
    unfold mcPasses
    cases hs : mcStep o A s with
    | stop => rw [hs] at h; cases h; simp
    | raise e => rw [hs] at h; cases h
    | next s' =>
      rw [hs] at h
      have := ih s' ys h
      simp only
      omega
    | yield c s' =>
      rw [hs] at h
      simp only at h ⊢
      cases hr : mcRun o A F s' with
      | error e => rw [hr] at h; cases h
      | ok zs =>
        rw [hr] at h
        cases h
        have := ih s' zs hr
        simp only [List.length_cons]
        omega

theorem maxCliquesPasses_eq (o : Sched n) (A : BMat n) (hn : 0 < n) :
    maxCliquesPasses o A = mcPasses o A (2 ^ (n + 1)) (mcInit o A) := by
  unfold maxCliquesPasses
  rw [if_neg hn.ne', if_neg]
  intro hp
  obtain ⟨ys, hy⟩ := maxCliques_ok o A
  unfold maxCliques at hy
  rw [if_neg hn.ne', if_pos hp] at hy
  cases hy

theorem yields_le_passes (o : Sched n) (A : BMat n) (hn : 0 < n) (ys) (h : maxCliques o A = .ok ys) : ys.length ≤ maxCliquesPasses o A := by
  rw [maxCliquesPasses_eq o A hn]
  rw [maxCliques_eq_run o A hn] at h
  exact (mcPasses_eq o A _ 0 _ ys h).1

/-- `m` latents with three children each, no child shared -/
def trios (m : Nat) : List (BVec (3 * m)) := (List.finRange m).map fun b => BVec.of fun i => decide (i.val / 3 = b.val)

/-- their dependence graph (zero diagonal, as estimated): disjoint triangles -/
def triangles (m : Nat) : BMat (3 * m) := BMat.of fun i j => decide (i ≠ j) && decide (i.val / 3 = j.val / 3)

theorem trios_pure (m : Nat) : OnePureChild (trios m) := by
  have hl : (trios m).length = m := by simp [trios]
  constructor
  · intro i hi
    rw [hl] at hi
    refine ⟨⟨3 * i, by omega⟩, fun j hj => ?_⟩
    simp only [trios, List.getElem_map, List.getElem_finRange, BVec.get_of, decide_eq_true_eq, Fin.val_cast]
    omega
  · intro j
    refine ⟨_, List.mem_map.mpr ⟨⟨j.val / 3, by omega⟩, List.mem_finRange _, rfl⟩, ?_⟩
    simp

theorem triangles_udg (m : Nat) : IsUDGOf (triangles m) (trios m) := by
  intro i j hij
  simp only [triangles, trios, BMat.get_of, hij, ne_eq, not_false_eq_true, decide_true, Bool.true_and, decide_eq_true_eq, List.mem_map,
    List.mem_finRange, true_and, exists_exists_eq_and, BVec.get_of]
  constructor
  · intro h
    exact ⟨⟨j.val / 3, by omega⟩, h, rfl⟩
  · rintro ⟨b, h1, h2⟩
    omega

theorem complement_triangles (m : Nat) : complement (triangles m) = blockGraph m := by
  unfold complement triangles blockGraph
  congr 1
  funext i j
  simp only [BMat.get_of]
  by_cases h : i = j <;> simp [h]

/-- **C190** (refuted) the number of passes is bounded by a polynomial in the number of measurements, for dependence graphs of structures with one
pure child per latent -/
def C190_statement : Prop := ∃ c k : Nat, ∀ (n : Nat) (A : BMat n) (B : List (BVec n)) (o : Sched n), 0 < n → OnePureChild B → IsUDGOf A B →
  (findHeuristicCounted o A).1 ≤ c * n ^ k

/-- **C190** `m` latents with three children each: at least `3^m` passes, for an answer of `m` rows -/
theorem C190_trios (m : Nat) (hm : 0 < m) (o : Sched (3 * m)) : OnePureChild (trios m) ∧ IsUDGOf (triangles m) (trios m) ∧
    3 ^ m ≤ (findHeuristicCounted o (triangles m)).1 ∧
    ∃ C, (findHeuristicCounted o (triangles m)).2 = .ok C ∧ SameRows C (trios m) ∧ C.length = m := by
  refine ⟨trios_pure m, triangles_udg m, ?_, ?_⟩
  · obtain ⟨ys, h1, h2⟩ := blockGraph_yields m hm o
    rw [← h2]
    unfold findHeuristicCounted
    rw [complement_triangles]
    exact yields_le_passes o _ (by omega) ys h1
  · obtain ⟨C, h1, h2⟩ := C07_heuristic_recovers (triangles m) (trios m) (by omega) (trios_pure m) (triangles_udg m) o
    refine ⟨C, h1, h2, ?_⟩
    have := h2.length_eq
    simpa [trios] using this

theorem C190_false : ¬ C190_statement := by
  rintro ⟨c, k, h⟩
  have ht := (tendsto_pow_const_div_const_pow_of_one_lt k (r := 3) (by norm_num)).const_mul ((c : ℝ) * 3 ^ k)
  rw [mul_zero] at ht
  obtain ⟨m, h1, hm⟩ := ((ht.eventually_lt_const one_pos).and (Filter.eventually_gt_atTop 0)).exists
  have h2 := (C190_trios m hm fun _ _ => 0)
  have h3 := h2.2.2.1.trans (h _ _ _ _ (by omega) h2.1 h2.2.1)
  have h4 : ((3 : ℝ) ^ m) ≤ c * (3 * m) ^ k := by exact_mod_cast h3
  rw [← mul_div_assoc, div_lt_one (by positivity)] at h1
  rw [mul_pow] at h4
  linarith

/-- **C190** for every matrix and set order the number of passes is at most `5 * 3^(n/3)` (written without roots) -/
theorem C190_passes_partial (A : BMat n) (o : Sched n) :
    (findHeuristicCounted o A).2 = findHeuristic1pc o A ∧ ∀ F, 125 * 3 ^ n ≤ F ^ 3 → (findHeuristicCounted o A).1 ≤ F := by
  refine ⟨rfl, fun F hF => ?_⟩
  rcases Nat.eq_zero_or_pos n with rfl | hn
  · exact Nat.zero_le _
  show maxCliquesPasses o (complement A) ≤ F
  rw [maxCliquesPasses_eq o _ hn]
  obtain ⟨⟨ys, hy⟩, he⟩ := C145_passes (complement A) hn o F hF
  have h1 := (mcPasses_eq o _ F (2 ^ (n + 1)) _ ys hy).2
  rw [he, maxCliques_eq_run o _ hn] at hy
  have h2 := (mcPasses_eq o _ (2 ^ (n + 1)) F _ ys hy).2
  rw [add_comm, h1] at h2
  rw [← h2]
  exact mcPasses_le o _ F _

theorem mcPasses_least (o : Sched n) (A : BMat n) (F : Nat) (s : MCState n) (ys) (h : mcRun o A F s = .ok ys) (G : Nat) :
    (∃ zs, mcRun o A G s = .ok zs) ↔ mcPasses o A F s ≤ G := by
  induction F generalizing s ys G with
  | zero => cases h
  | succ F ih =>
    unfold mcRun at h
    cases G with
    | zero =>
      refine ⟨fun ⟨zs, hz⟩ => (by cases hz), fun hle => ?_⟩
      exfalso
      unfold mcPasses at hle
      cases hs : mcStep o A s <;> rw [hs] at hle <;> simp at hle
    | succ G =>
      unfold mcPasses
      rw [show mcRun o A (G + 1) s = (match mcStep o A s with
        | .stop => .ok []
        | .raise e => .error e
        | .next s' => mcRun o A G s'
        | .yield c s' => (mcRun o A G s').map (c :: ·)) from rfl]
      cases hs : mcStep o A s with
      | stop => simp
      | raise e => rw [hs] at h; cases h
      | next s' =>
        rw [hs] at h
        simp only
        rw [ih s' ys h G]
        omega
      | yield c s' =>
        rw [hs] at h
        simp only at h ⊢
        cases hr : mcRun o A F s' with
        | error e => rw [hr] at h; cases h
        | ok zs =>
          have h1 := ih s' zs hr G
          rw [show 1 + mcPasses o A F s' ≤ G + 1 ↔ mcPasses o A F s' ≤ G by omega, ← h1]
          cases mcRun o A G s' <;> simp [Except.map]

/-- **C190** the number that is counted: the search of `max_cliques` on the complement ends within `G` passes of its loop if and only if `G`
is at least that number -/
theorem C190_passes_exact (A : BMat n) (o : Sched n) (hn : 0 < n) (G : Nat) :
    (∃ zs, mcRun o (complement A) G (mcInit o (complement A)) = .ok zs) ↔ (findHeuristicCounted o A).1 ≤ G := by
  show _ ↔ maxCliquesPasses o (complement A) ≤ G
  rw [maxCliquesPasses_eq o _ hn]
  obtain ⟨ys, hy⟩ := maxCliques_ok o (complement A)
  rw [maxCliques_eq_run o _ hn] at hy
  exact mcPasses_least o _ _ _ ys hy G

end Medil

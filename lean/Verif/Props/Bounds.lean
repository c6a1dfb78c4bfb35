import Verif.Props.Examples
import Verif.Props.Heuristic
import Verif.Props.Evaluate
import Verif.Proofs.Bounds
/-
  Property theorems C100-C102: the bound printed by the exact search, the two searches compared, and
  identifiability of one-pure-child structures.
-/
namespace Medil
variable {n : Nat}

theorem nonPairs_card {A : BMat n} :
    ((nonPairs A Finset.univ).card : Int) + numEdgesOf A ≤ nChoose2 n := by
  have hfull := numEdgesOf_le (A := (BMat.of fun _ _ => true : BMat n))
  rw [numEdgesOf_eq] at hfull ⊢
  have hdis : Disjoint (nonPairs A Finset.univ) (edgeSet A) := by
    rw [Finset.disjoint_left]
    intro e h1 h2
    simp only [nonPairs, edgeSet, Finset.mem_filter, Finset.mem_univ, true_and, Finset.mem_product] at h1 h2
    exact h1.2 ⟨h2.2, ne_of_lt h2.1⟩
  have hle : (nonPairs A Finset.univ ∪ edgeSet A).card ≤ (edgeSet (BMat.of fun _ _ => true : BMat n)).card := by
    apply Finset.card_le_card
    intro e he
    simp only [nonPairs, edgeSet, Finset.mem_union, Finset.mem_filter, Finset.mem_univ, true_and,
      Finset.mem_product, BMat.get_of, and_true] at he ⊢
    rcases he with h | h
    · exact h.1
    · exact h.1
  rw [Finset.card_union_of_disjoint hdis] at hle
  omega

/-- the number printed as "solution has at most … cliques" for the graph `A` (ecc_algorithms.py:46-54) -/
def printedBound (A : BMat n) : Except PyErr Nat := maxIntersectNum (traceOf A) (numEdgesOf A)

/-- the number of pairs of different measurements that are not adjacent -/
def missingEdges (A : BMat n) : Nat := n * (n - 1) / 2 - numEdgesOf A

theorem missingEdges_eq {A : BMat n} : (missingEdges A : Int) = nChoose2 n - numEdgesOf A := by
  have h1 := two_mul_nChoose2 n
  have h2 := numEdgesOf_le (A := A)
  unfold missingEdges
  omega

/-- **C100, partial** what the printed number bounds.  For every dependence graph with an edge: a number
is printed; some cover has at most one clique more than this number; no more than this number when the
graph has at most `n^2/4` edges, or when the number `p` of missing edges is below `t (t+1)`,
`t = ⌊√p⌋`.  Whatever the exact search returns, if it is as small as every cover, then its number of rows
obeys the same bounds.  Missing for the full claim: it is false (`C100_false`). -/
theorem C100_printed_bound_partial (A : BMat n) (hA : Symm A) (hD : UnitDiag A) (hE : ∃ i j, Adj A i j) :
    ∃ b, printedBound A = .ok b ∧
      (∃ C, IsCover A C ∧ C.length ≤ b + 1) ∧
      (numEdgesOf A ≤ n ^ 2 / 4 ∨
          missingEdges A < (missingEdges A).sqrt * ((missingEdges A).sqrt + 1) ∨ missingEdges A = 0 →
        ∃ C, IsCover A C ∧ C.length ≤ b) ∧
      ∀ B : List (BVec n), (∀ C, IsCover A C → B.length ≤ C.length) → B.length ≤ b + 1 ∧
        (numEdgesOf A ≤ n ^ 2 / 4 ∨
          missingEdges A < (missingEdges A).sqrt * ((missingEdges A).sqrt + 1) ∨ missingEdges A = 0 →
          B.length ≤ b) := by
  have main : ∃ b, printedBound A = .ok b ∧ ∃ C, IsCover A C ∧ C.length ≤ b + 1 ∧
      (numEdgesOf A ≤ n ^ 2 / 4 ∨
          missingEdges A < (missingEdges A).sqrt * ((missingEdges A).sqrt + 1) ∨ missingEdges A = 0 →
        C.length ≤ b) := by
    by_cases hb : n ^ 2 / 4 < numEdgesOf A
    · obtain ⟨C, s, hC, h1, h2⟩ := lovasz_cover hA hE
      have hP := nonPairs_card (A := A)
      have hm := missingEdges_eq (A := A)
      have hle := numEdgesOf_le (A := A)
      have hPm : (nonPairs A Finset.univ).card ≤ missingEdges A := by omega
      have hpr : printedBound A = .ok (if 0 < missingEdges A then
          missingEdges A + (missingEdges A).sqrt else 1) := by
        unfold printedBound maxIntersectNum
        rw [traceOf_eq hD, if_pos hb, ← hm]
        simp only [Int.toNat_natCast]
        rw [if_neg (by omega)]
        congr 1
        by_cases h0 : 0 < missingEdges A
        · rw [if_pos h0, if_pos (by omega)]
        · rw [if_neg h0, if_neg (by omega)]
      refine ⟨_, hpr, C, hC, ?_⟩
      generalize missingEdges A = p at *
      have hs1 := Nat.sqrt_le p
      have hs2 := Nat.lt_succ_sqrt p
      generalize hteq : p.sqrt = t at *
      by_cases h0 : 0 < p
      · rw [if_pos h0]
        have hst : s ≤ t + 1 := by
          by_contra hc
          have h5 : t + 2 ≤ s := by omega
          have h6 : (t + 2) * s ≤ s * s := Nat.mul_le_mul_right _ h5
          simp only [Nat.succ_eq_add_one] at hs2
          nlinarith
        refine ⟨by omega, ?_⟩
        rintro (h | h | h)
        · omega
        · have : s ≤ t := by
            by_contra hc
            have h5 : s = t + 1 := by omega
            subst h5
            nlinarith
          omega
        · omega
      · rw [if_neg h0]
        have hs : s ≤ 1 := by nlinarith
        exact ⟨by omega, fun _ => by omega⟩
    · obtain ⟨C, hC, h1⟩ := egp_cover hA hE
      refine ⟨n ^ 2 / 4, ?_, C, hC, by omega, fun _ => h1⟩
      unfold printedBound maxIntersectNum
      rw [traceOf_eq hD, if_neg hb]
  obtain ⟨b, h1, C, h2, h3, h4⟩ := main
  refine ⟨b, h1, ⟨C, h2, h3⟩, fun h => ⟨C, h2, h4 h⟩, fun B hB => ⟨?_, fun h => ?_⟩⟩
  · exact (hB C h2).trans h3
  · exact (hB C h2).trans (h4 h)

/-- the complete graph on five measurements without the edges 0-1 and 2-3 -/
def k5Minus2 : BMat 5 :=
  BMat.of fun i j => !((i = 0 ∧ j = 1) ∨ (i = 1 ∧ j = 0) ∨ (i = 2 ∧ j = 3) ∨ (i = 3 ∧ j = 2))

/-- **C100 is false of the code**: on a dependence graph of five measurements at most 3 cliques are
announced, and for every set order 4 are returned; no cover has fewer than 4. -/
theorem C100_false :
    printedBound k5Minus2 = .ok 3 ∧
    (∀ rt : Runtime 5, ∃ B, (∀ fuel, numEdgesOf k5Minus2 ≤ fuel → findCliqueMinCover rt fuel k5Minus2 = .ok B) ∧
      B.length = 4) ∧
    ∀ C, IsCover k5Minus2 C → 4 ≤ C.length := by
  have hV : ∀ c : List (BVec 5), (c.length == 4 && (List.finRange 5).all fun v => c.any fun r => r v) = true →
      c.length = 4 ∧ addIsolatedVerts c = c := by
    intro c hc
    simp only [Bool.and_eq_true, beq_iff_eq, List.all_eq_true] at hc
    refine ⟨hc.1, ?_⟩
    unfold addIsolatedVerts
    rw [List.filter_eq_nil_iff.mpr, List.map_nil, List.append_nil]
    intro j hj h
    rw [hc.2 j hj] at h
    cases h
  have key := allOrders_sound (f := 6) k5Minus2
    (fun c => c.length == 4 && (List.finRange 5).all fun v => c.any fun r => r v) (by decide)
    (by unfold Symm; decide +kernel) (by unfold UnitDiag; decide +kernel) ⟨0, 2, by decide +kernel⟩
    (by decide +kernel)
  refine ⟨by decide +kernel, fun rt => ?_, fun C hC => ?_⟩
  · obtain ⟨c, h1, h2, -⟩ := key rt
    exact ⟨c, (hV c h2).2 ▸ h1, (hV c h2).1⟩
  · obtain ⟨c, -, h2, -, h4⟩ := key (rt0 5)
    have := h4 C hC
    rw [(hV c h2).2, (hV c h2).1] at this
    exact this

-- the hypotheses of the partial theorem are met with both kinds of bound
example : (∃ i j, Adj k5Minus2 i j) ∧ ¬ numEdgesOf k5Minus2 ≤ 5 ^ 2 / 4 :=
  ⟨⟨0, 2, by decide +kernel⟩, by decide +kernel⟩
example : (∃ i j, Adj exPrivUdg i j) ∧ numEdgesOf exPrivUdg ≤ 6 ^ 2 / 4 :=
  ⟨⟨0, 1, by decide +kernel⟩, by decide +kernel⟩

/-- **C101** on one graph the heuristic never uses more latents than the exact search returns, nor more
than any cover has; on dependence graphs of one-pure-child structures the numbers agree -/
theorem C101_heuristic_le_exact (A : BMat n) (hn : 0 < n) (hA : Symm A) (hD : UnitDiag A) (o : Sched n)
    (rt : Runtime n) (fuel : Nat) (H B : List (BVec n)) (hH : findHeuristic1pc o A = .ok H)
    (hB : findCliqueMinCover rt fuel A = .ok B) :
    H.length ≤ B.length ∧ (∀ C, IsCover A C → H.length ≤ C.length) ∧
    (numEdgesOf A ≤ fuel → (∃ S, OnePureChild S ∧ IsUDGOf A S) → H.length = B.length) := by
  obtain ⟨-, ⟨T, hT, hc⟩, -⟩ := C05_heuristic_pure_children A hA o H hH
  refine ⟨?_, fun C hC => hc ▸ indep_le_cover hT hC.1 hC.2.2, ?_⟩
  · rw [← hc]
    refine indep_le_cover hT ?_ (C12_exact_parents A hn hA hD rt fuel B hB).1
    intro r hr i hi j hj hij
    exact ⟨C11_exact_rows_cliques A hn hA hD rt fuel B hB r hr i j (by simpa using hi) (by simpa using hj), hij⟩
  · rintro hf ⟨S, hS, hU⟩
    obtain ⟨⟨C, h1, -, -, H', h2, h3⟩, -⟩ := C15_exact_recovers A S hn hS hU hD rt o
    rw [h1 fuel hf] at hB
    rw [h2] at hH
    cases hB; cases hH
    simpa using h3.length_eq

-- the 4-cycle: both searches return, with different numbers of latents
example : (∃ H, findHeuristic1pc (fun _ _ => 0) cycle4 = .ok H ∧ H.length = 2) ∧
    ∃ B, findCliqueMinCover (rt0 4) 4 cycle4 = .ok B ∧ B.length = 4 :=
  ⟨⟨_, rfl, by decide +kernel⟩, ⟨_, rfl, by decide +kernel⟩⟩

/-- **C102** one-pure-child structures are identified by their dependence graphs: for two such structures
the structural Hamming distance of the dependence graphs is zero, the squared Frobenius distance is zero,
and the latents agree up to order — all three or none -/
theorem C102_identified (B C : List (BVec n)) (hB : OnePureChild B) (hC : OnePureChild C) :
    ((sfd C B).2 = 0 ↔ SameRows C B) ∧ ((sfd C B).1 = 0 ↔ SameRows C B) := by
  obtain ⟨-, h1, h2⟩ := C28_sfd_zero C B
  have hsame : SameRows C B → ∀ i j, commonParents C i j = commonParents B i j := by
    intro h i j
    have key : ∀ D : List (BVec n), commonParents D i j =
        ((D.map children).filter fun s => decide (i ∈ s) && decide (j ∈ s)).length := by
      intro D
      rw [List.filter_map, List.length_map]
      unfold commonParents
      congr 2
      funext r
      simp
    rw [key, key]
    exact (h.filter _).length_eq
  have hush : (sfd C B).2 = 0 → SameRows C B := by
    intro h
    rw [h2] at h
    have hUB : IsUDGOf (recoverUg B) B := (C27_recover_ug B).2.2
    have hUC : IsUDGOf (recoverUg B) C := by
      intro i j hij
      rw [(C27_recover_ug B).2.2 i j hij, ← h i j hij]
    have hcov : ∀ D : List (BVec n), OnePureChild D → IsUDGOf (recoverUg B) D → IsCover (recoverUg B) D := by
      intro D hD hU
      refine ⟨?_, ?_, hD.2⟩
      · intro r hr i hi j hj hij
        exact ⟨(hU i j hij).mpr ⟨r, hr, by simpa using hi, by simpa using hj⟩, hij⟩
      · intro i j hij
        exact (hU i j hij.2).mp hij.1
    by_cases hlen : C.length ≤ B.length
    · exact C96_one_pure_child_unique _ B hB hUB C (hcov C hC hUC) hlen
    · exact (C96_one_pure_child_unique _ C hC hUC B (hcov B hB hUB) (by omega)).symm
  have hle : (sfd C B).1 = 0 → (sfd C B).2 = 0 := by
    intro h
    have := C31_sfd_ge_ushd C B
    omega
  refine ⟨⟨hush, fun h => hle (h1.mpr (hsame h))⟩, ⟨fun h => hush (hle h), fun h => h1.mpr (hsame h)⟩⟩

-- without the hypothesis both fail: a latent can be listed twice, or be part of another
example : (sfd ([⟨0b11⟩, ⟨0b01⟩] : List (BVec 2)) [⟨0b11⟩]).2 = 0 ∧
    ¬ SameRows ([⟨0b11⟩, ⟨0b01⟩] : List (BVec 2)) [⟨0b11⟩] := by
  refine ⟨by decide +kernel, fun h => ?_⟩
  have := h.length_eq
  simp at this

-- two one-pure-child structures with three latents each, the same up to order
example : OnePureChild ([⟨0b01001⟩, ⟨0b01010⟩, ⟨0b11100⟩] : List (BVec 5)) := by
  refine ⟨?_, by unfold CoversVertices; decide +kernel⟩
  intro i hi
  match i, hi with
  | 0, _ => exact ⟨0, by unfold PureChild; decide +kernel⟩
  | 1, _ => exact ⟨1, by unfold PureChild; decide +kernel⟩
  | 2, _ => exact ⟨4, by unfold PureChild; decide +kernel⟩

end Medil

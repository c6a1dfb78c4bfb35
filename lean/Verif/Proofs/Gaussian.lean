import Verif.Model.Gaussian
import Verif.Spec.Gaussian
import Verif.Spec.Sample
import Verif.Props.Sample
namespace Medil
open Finset
variable {M : Nat}

/-! ### row-major positions -/

theorem idxOf_eq_countP {α : Type} [BEq α] [LawfulBEq α] (R : α → α → Prop) [DecidableRel R]
    (hirr : ∀ a, ¬ R a a) (hasym : ∀ a b, R a b → ¬ R b a) (l : List α) (hl : l.Pairwise R) (a : α) (ha : a ∈ l) :
    l.idxOf a = l.countP (fun b => decide (R b a)) := by
  induction l with
  | nil => simp at ha
  | cons b l ih =>
    rw [List.pairwise_cons] at hl
    by_cases hb : b = a
    · subst hb
      have : l.countP (fun c => decide (R c b)) = 0 := by
        rw [List.countP_eq_zero]
        intro c hc
        simpa using hasym _ _ (hl.1 c hc)
      simp [this, hirr]
    · have ha' : a ∈ l := by simpa [Ne.symm hb] using ha
      rw [List.idxOf_cons_ne _ hb, ih hl.2 ha', List.countP_cons]
      simp [hl.1 a ha']

def rowMajor {m : Nat} (e f : Fin m × Fin M) : Prop := e.1 < f.1 ∨ e.1 = f.1 ∧ e.2 < f.2

instance {m : Nat} : DecidableRel (rowMajor (m := m) (M := M)) := fun _ _ => inferInstanceAs (Decidable (_ ∨ _))

theorem finRange_pairwise (m : Nat) : (List.finRange m).Pairwise (· < ·) := List.pairwise_lt_finRange m

theorem maskPositions_pairwise (B : List (BVec M)) : (maskPositions B).Pairwise rowMajor := by
  unfold maskPositions
  rw [List.pairwise_flatMap]
  refine ⟨fun i _ => ?_, ?_⟩
  · rw [List.pairwise_map]
    exact ((finRange_pairwise M).filter _).imp fun h => Or.inr ⟨rfl, h⟩
  · refine (finRange_pairwise _).imp fun {a b} h => ?_
    intro x hx y hy
    simp only [List.mem_map] at hx hy
    obtain ⟨_, _, rfl⟩ := hx
    obtain ⟨_, _, rfl⟩ := hy
    exact Or.inl h

theorem maskPositions_nodup (B : List (BVec M)) : (maskPositions B).Nodup :=
  (maskPositions_pairwise B).imp fun {a b} h hab => by
    subst hab; rcases h with h | h
    · exact lt_irrefl _ h
    · exact lt_irrefl _ h.2

theorem idxOf_maskPositions (B : List (BVec M)) (r : Fin B.length) (j : Fin M) (h : B[r] j = true) :
    (maskPositions B).idxOf (r, j) = onesBefore B r j := by
  rw [idxOf_eq_countP rowMajor _ _ _ (maskPositions_pairwise B) _ ((mem_maskPositions B r j).mpr h)]
  · rw [List.countP_eq_length_filter, ← List.toFinset_card_of_nodup ((maskPositions_nodup B).filter _)]
    unfold onesBefore
    congr 1
    ext ⟨a, b⟩
    simp [mem_maskPositions, rowMajor]
    exact fun _ => decide_eq_true_iff
  · rintro a (h | h)
    · exact lt_irrefl _ h
    · exact lt_irrefl _ h.2
  · rintro a b (h | h) (h' | h')
    · exact lt_asymm h h'
    · exact absurd h'.1 (ne_of_gt h)
    · exact absurd h.1 (ne_of_gt h')
    · exact lt_asymm h.2 h'.2

theorem length_maskPositions (B : List (BVec M)) : (maskPositions B).length = numOnes B := by
  unfold maskPositions numOnes
  rw [List.length_flatMap]
  have : (fun i : Fin B.length => (((List.finRange M).filter fun j => B[i] j).map fun j => (i, j)).length)
      = fun i : Fin B.length => (children B[i]).card := by
    funext i
    rw [List.length_map, ← List.toFinset_card_of_nodup ((List.nodup_finRange M).filter _)]
    congr 1; ext j; simp
  rw [this]
  have h2 : (List.finRange B.length).map (fun i : Fin B.length => (children B[i]).card)
      = B.map fun r => (children r).card := by
    apply List.ext_getElem <;> simp
  rw [h2]

theorem placeWeights_eq (B : List (BVec M)) (x : Fin ((maskPositions B).length + M) → ℝ) :
    placeWeights B (headPart x) = weightsOf B x := by
  funext r j
  unfold placeWeights weightsOf
  by_cases h : B[r] j = true
  · have hm : (maskPositions B).idxOf (r, j) < (maskPositions B).length :=
      List.idxOf_lt_length_iff.mpr ((mem_maskPositions B r j).mpr h)
    rw [dif_pos hm, if_pos h]
    unfold entryAt headPart
    rw [dif_pos (by rw [← idxOf_maskPositions B r j h]; omega)]
    congr 1
    ext
    simp only [Fin.val_castAdd]
    exact idxOf_maskPositions B r j h
  · have hm : ¬ (maskPositions B).idxOf (r, j) < (maskPositions B).length := by
      rw [List.idxOf_lt_length_iff, mem_maskPositions]; exact h
    rw [dif_neg hm, if_neg h]

theorem tailPart_eq (B : List (BVec M)) (x : Fin ((maskPositions B).length + M) → ℝ) :
    tailPart x = variancesOf (numOnes B) x := by
  funext j
  unfold tailPart variancesOf entryAt
  rw [dif_pos (by rw [← length_maskPositions]; omega)]
  congr 1
  ext
  simp [length_maskPositions]

theorem objective_eq (C : Fin M → Fin M → ℝ) (B : List (BVec M)) (x : Fin ((maskPositions B).length + M) → ℝ) :
    objective C B x = sqDist C (modelCov (weightsOf B x) (variancesOf (numOnes B) x)) := by
  unfold objective sqDist modelCov
  rw [placeWeights_eq, tailPart_eq]
  refine sum_congr rfl fun i _ => sum_congr rfl fun j _ => ?_
  ring

end Medil

import Verif.Spec
import Verif.Model.MaxCliques
import Mathlib.Data.List.FinRange
import Mathlib.Data.Fintype.Card
import Mathlib.Data.Fintype.Fin
import Mathlib.Data.Finset.Dedup
namespace Medil
variable {n : Nat}

theorem countFin_eq (p : Fin n → Bool) :
    countFin p = (Finset.univ.filter fun i => p i = true).card := by
  rw [countFin, List.countP_eq_length_filter,
    ← List.toFinset_card_of_nodup ((List.nodup_finRange n).filter _)]
  congr 1
  ext i; simp

theorem BVec.card_eq (v : BVec n) : v.card = (children v).card := countFin_eq _

theorem BVec.card_lt_of_erase {v : BVec n} {q : Fin n} (h : v q = true) :
    (v.erase q).card + 1 = v.card := by
  rw [BVec.card_eq, BVec.card_eq]
  have : children (v.erase q) = (children v).erase q := by
    ext i; simp [BVec.erase, and_comm]
  rw [this, Finset.card_erase_of_mem (by simpa using h)]
  have : 0 < (children v).card := Finset.card_pos.mpr ⟨q, by simpa using h⟩
  omega

theorem BVec.card_mono {v w : BVec n} (h : ∀ i, v i = true → w i = true) : v.card ≤ w.card := by
  rw [BVec.card_eq, BVec.card_eq]
  apply Finset.card_le_card
  intro i hi; simp at hi ⊢; exact h i hi

theorem pick_some {o : Sched n} {t : Nat} {S : BVec n} {q : Fin n} (h : pick o t S = some q) :
    S q = true := by
  have := List.mem_of_getElem? h
  simpa using this

theorem pick_none {o : Sched n} {t : Nat} {S : BVec n} (h : pick o t S = none) :
    ∀ i, S i = false := by
  rw [← BVec.isEmpty_iff, BVec.isEmpty, List.isEmpty_iff]
  by_contra hne
  have hpos : 0 < S.toList.length := List.length_pos_iff.mpr hne
  have := Nat.mod_lt (o t S) hpos
  simp [pick] at h
  omega

theorem pick_of_nonempty (o : Sched n) (t : Nat) {S : BVec n} {i : Fin n} (h : S i = true) :
    ∃ q, pick o t S = some q ∧ S q = true := by
  cases hp : pick o t S with
  | none => have := pick_none hp i; simp [h] at this
  | some q => exact ⟨q, rfl, pick_some hp⟩

@[simp] theorem nbrSet_apply (A : BMat n) (q v : Fin n) :
    (nbrSet A q) v = (A q v && decide (v ≠ q)) := by simp [nbrSet]
@[simp] theorem inter_apply (a b : BVec n) (i : Fin n) : (a.inter b) i = (a i && b i) := by
  simp [BVec.inter]
@[simp] theorem diff_apply (a b : BVec n) (i : Fin n) : (a.diff b) i = (a i && !b i) := by
  simp [BVec.diff]
@[simp] theorem erase_apply (a : BVec n) (q i : Fin n) :
    (a.erase q) i = (a i && decide (i ≠ q)) := by simp [BVec.erase]
@[simp] theorem full_apply (i : Fin n) : (BVec.full : BVec n) i = true := by simp [BVec.full]
@[simp] theorem single_apply (q i : Fin n) : (BVec.single q) i = decide (i = q) := by
  simp [BVec.single]

end Medil

import Mathlib.GroupTheory.Perm.DomMulAct
import Mathlib.Data.Fintype.Perm
import Mathlib.Data.Fintype.Pi
import Mathlib.Logic.Equiv.Fintype
import Mathlib.Algebra.BigOperators.Ring.Finset
/-
  Counting permutations with a prescribed pattern.
-/
namespace Medil
open Finset

section
variable {α ι : Type*} [Fintype α] [DecidableEq α] [Fintype ι] [DecidableEq ι]

omit [DecidableEq α] [Fintype ι] in
/-- two labellings with equally large classes differ by a permutation -/
theorem exists_perm_of_fibers (f s : α → ι) (h : ∀ i, (univ.filter fun a => f a = i).card = (univ.filter fun a => s a = i).card) :
    ∃ π : Equiv.Perm α, ∀ a, f (π a) = s a := by
  have e : ∀ i, Nonempty ({a // s a = i} ≃ {a // f a = i}) := fun i =>
    ⟨Fintype.equivOfCardEq (by rw [Fintype.card_subtype, Fintype.card_subtype, h i])⟩
  let e := fun i => (e i).some
  let π : Equiv.Perm α := (Equiv.sigmaFiberEquiv s).symm.trans ((Equiv.sigmaCongrRight e).trans (Equiv.sigmaFiberEquiv f))
  refine ⟨π, fun a => ?_⟩
  exact (e (s a) ⟨a, rfl⟩).2

/-- the number of permutations that carry one labelling to another -/
theorem card_perm_pattern (f s : α → ι) (h : ∀ i, (univ.filter fun a => f a = i).card = (univ.filter fun a => s a = i).card) :
    (univ.filter fun π : Equiv.Perm α => ∀ a, f (π a) = s a).card = ∏ i, (univ.filter fun a => f a = i).card.factorial := by
  obtain ⟨π0, h0⟩ := exists_perm_of_fibers f s h
  have key := DomMulAct.stabilizer_card (f := f)
  rw [Fintype.card_subtype] at key
  simp only [Fintype.card_subtype] at key
  rw [← key]
  refine Finset.card_bij' (fun π _ => π * π0⁻¹) (fun π _ => π * π0) ?_ ?_ ?_ ?_
  · intro π hπ
    simp only [mem_filter, mem_univ, true_and] at hπ ⊢
    funext a
    simp only [Function.comp, Equiv.Perm.mul_apply]
    rw [hπ, ← h0, show π0 (π0⁻¹ a) = a from π0.apply_symm_apply a]
  · intro π hπ
    simp only [mem_filter, mem_univ, true_and] at hπ ⊢
    intro a
    rw [Equiv.Perm.mul_apply, ← h0]
    exact congrFun hπ _
  · intro π _; simp
  · intro π _; simp

omit [DecidableEq α] [Fintype ι] in
/-- no permutation carries one labelling to another with classes of other sizes -/
theorem card_fibers_of_perm (f s : α → ι) (π : Equiv.Perm α) (h : ∀ a, f (π a) = s a) (i : ι) :
    (univ.filter fun a => f a = i).card = (univ.filter fun a => s a = i).card := by
  refine (Finset.card_bij (fun a _ => π a) ?_ ?_ ?_).symm
  · intro a ha; simpa [h a] using ha
  · intro a _ b _ hab; exact π.injective hab
  · intro b hb; exact ⟨π.symm b, by simpa [← h] using hb, by simp⟩

/-- the permutations extending an injection -/
theorem card_perm_extending {l : ℕ} {γ : Type*} [Fintype γ] [DecidableEq γ] (hl : Fintype.card γ = l) (u f : γ → α)
    (hu : Function.Injective u) (hf : Function.Injective f) :
    (univ.filter fun ρ : Equiv.Perm α => ∀ i, ρ (u i) = f i).card = (Fintype.card α - l).factorial := by
  classical
  let lab (w : γ → α) (a : α) : Option γ := if h : ∃ i, w i = a then some h.choose else none
  have lab_apply : ∀ (w : γ → α), Function.Injective w → ∀ i, lab w (w i) = some i := by
    intro w hw i
    have h : ∃ j, w j = w i := ⟨i, rfl⟩
    simp only [lab, dif_pos h, Option.some.injEq]
    exact hw h.choose_spec
  have lab_some : ∀ (w : γ → α), Function.Injective w → ∀ i a, lab w a = some i ↔ w i = a := by
    intro w hw i a
    constructor
    · intro h
      by_cases h' : ∃ j, w j = a
      · simp only [lab, dif_pos h', Option.some.injEq] at h
        rw [← h]; exact h'.choose_spec
      · simp [lab, dif_neg h'] at h
    · rintro rfl; exact lab_apply w hw i
  have c1 : ∀ (w : γ → α), Function.Injective w → ∀ i, (univ.filter fun a => lab w a = some i).card = 1 := by
    intro w hw i
    rw [Finset.card_eq_one]
    exact ⟨w i, by ext a; simp [lab_some w hw, eq_comm]⟩
  have c0 : ∀ (w : γ → α), Function.Injective w → (univ.filter fun a => lab w a = none).card = Fintype.card α - l := by
    intro w hw
    have e : (univ.filter fun a => lab w a = none) = univ \ univ.image w := by
      ext a
      simp only [mem_filter, mem_univ, true_and, mem_sdiff, mem_image]
      rw [Option.eq_none_iff_forall_ne_some]
      simp only [ne_eq, lab_some w hw, not_exists]
    rw [e, Finset.card_sdiff_of_subset (subset_univ _), Finset.card_image_of_injective _ hw]
    simp [hl, Finset.card_univ]
  have h : ∀ i, (univ.filter fun a => lab f a = i).card = (univ.filter fun a => lab u a = i).card := by
    intro i
    cases i with
    | none => rw [c0 f hf, c0 u hu]
    | some i => rw [c1 f hf, c1 u hu]
  have := card_perm_pattern (lab f) (lab u) h
  rw [Fintype.prod_option, c0 f hf] at this
  simp only [c1 f hf, Nat.factorial_one, Finset.prod_const_one, mul_one] at this
  rw [← this]
  congr 1
  ext ρ
  simp only [mem_filter, mem_univ, true_and]
  constructor
  · intro hρ a
    by_cases h' : ∃ i, u i = a
    · obtain ⟨i, rfl⟩ := h'
      rw [hρ, lab_apply f hf, lab_apply u hu]
    · have : lab u a = none := by simp [lab, dif_neg h']
      rw [this, Option.eq_none_iff_forall_ne_some]
      intro i hi
      rw [lab_some f hf, ← hρ] at hi
      exact h' ⟨i, ρ.injective hi⟩
  · intro hρ i
    have := hρ (u i)
    rw [lab_apply u hu, lab_some f hf] at this
    exact this.symm

/-- the permutations that carry a set to a set of the same size -/
theorem card_perm_set {T : ℕ} (E : ℕ) (s : Fin T → Bool) (hs : (univ.filter fun k => s k = true).card = E) :
    (univ.filter fun π : Equiv.Perm (Fin T) => ∀ k, decide ((π k).val < E) = s k).card = E.factorial * (T - E).factorial := by
  have hE : E ≤ T := by rw [← hs]; exact (Finset.card_le_univ _).trans (by simp)
  have h1 : (univ.filter fun k : Fin T => decide (k.val < E) = true).card = E := by
    have : (univ.filter fun k : Fin T => decide (k.val < E) = true) = univ.image (Fin.castLE hE) := by
      ext k
      simp only [mem_filter, mem_univ, true_and, mem_image, decide_eq_true_eq]
      exact ⟨fun h => ⟨⟨k, h⟩, rfl⟩, by rintro ⟨a, rfl⟩; exact a.2⟩
    rw [this, Finset.card_image_of_injective _ (Fin.castLE_injective hE)]; simp
  have compl : ∀ b : Fin T → Bool, (univ.filter fun k => b k = false).card = T - (univ.filter fun k => b k = true).card := by
    intro b
    have := Finset.card_filter_add_card_filter_not (s := univ) (fun k : Fin T => b k = true)
    simp only [Finset.card_univ, Fintype.card_fin, Bool.not_eq_true] at this
    omega
  have := card_perm_pattern (fun k : Fin T => decide (k.val < E)) s (by
    intro i; cases i
    · rw [compl, compl, h1, hs]
    · rw [h1, hs])
  rw [Fintype.prod_bool, h1, compl, h1] at this
  rw [← this]
  congr 1
  ext π
  simp only [mem_filter]

/-- the permutations whose inverse maps `z` into a set -/
theorem card_perm_symm_mem {l : ℕ} (z : Fin l) (S : Fin l → Bool) :
    (univ.filter fun τ : Equiv.Perm (Fin l) => S (τ.symm z) = true).card =
      (univ.filter fun i => S i = true).card * (l - 1).factorial := by
  have e : (univ.filter fun τ : Equiv.Perm (Fin l) => S (τ.symm z) = true) =
      (univ.filter fun i => S i = true).biUnion fun i => univ.filter fun τ : Equiv.Perm (Fin l) => ∀ _ : Unit, τ i = z := by
    ext τ
    simp only [mem_filter, mem_univ, true_and, mem_biUnion]
    constructor
    · intro h; exact ⟨_, h, by simp⟩
    · rintro ⟨i, hi, h⟩
      rw [← h (), Equiv.symm_apply_apply]; exact hi
  rw [e, Finset.card_biUnion]
  · rw [Finset.sum_congr rfl (fun i _ => card_perm_extending (α := Fin l) (γ := Unit) (l := 1) rfl (fun _ => i) (fun _ => z)
      (fun _ _ _ => rfl) (fun _ _ _ => rfl))]
    simp
  · intro i _ j _ hij
    rw [Function.onFun, Finset.disjoint_left]
    intro τ h1 h2
    simp only [mem_filter, mem_univ, true_and] at h1 h2
    exact hij (τ.injective ((h1 ()).trans (h2 ()).symm))

end

end Medil

import Verif.Model.ScriptKernel
import Verif.Spec.Gaussian
import Mathlib.Analysis.Matrix.Order
import Mathlib.LinearAlgebra.Vandermonde
import Mathlib.Analysis.SpecialFunctions.Exponential
import Mathlib.Algebra.Polynomial.Roots
/-
  Property theorem C160: `compute_gauss_kernel` of scripts/developing.py.
-/
namespace Medil
open Finset Matrix

/-- powers of the inner products of points form a positive semidefinite matrix -/
theorem gramPow_posSemidef {ι : Type} [Fintype ι] {p : Nat} (x : ι → Fin p → ℝ) (k : Nat) :
    (Matrix.of fun i j => (∑ a, x i a * x j a) ^ k : Matrix ι ι ℝ).PosSemidef := by
  induction k with
  | zero =>
    have h := posSemidef_conjTranspose_mul_self (Matrix.of fun (_ : Unit) (_ : ι) => (1 : ℝ))
    convert h using 1
    ext i j
    simp [Matrix.mul_apply]
  | succ k ih =>
    have h := posSemidef_conjTranspose_mul_self (Matrix.of fun (a : Fin p) (i : ι) => x i a)
    have h2 := PosSemidef.hadamard ih h
    have e : (Matrix.of fun i j => (∑ a, x i a * x j a) ^ (k + 1) : Matrix ι ι ℝ) =
        (Matrix.of fun i j => (∑ a, x i a * x j a) ^ k) ⊙ ((Matrix.of fun (a : Fin p) (i : ι) => x i a)ᴴ * Matrix.of fun (a : Fin p) (i : ι) => x i a) := by
      ext i j
      simp [Matrix.mul_apply, pow_succ]
    rw [e]
    exact h2

theorem gramPow_nonneg {ι : Type} [Fintype ι] {p : Nat} (x : ι → Fin p → ℝ) (k : Nat) (c : ι → ℝ) :
    0 ≤ ∑ i, ∑ j, c i * (∑ a, x i a * x j a) ^ k * c j := by
  have h := (gramPow_posSemidef x k).dotProduct_mulVec_nonneg c
  simp only [dotProduct, mulVec, star_trivial, of_apply, mul_sum] at h
  refine le_of_le_of_eq h (sum_congr rfl fun i _ => sum_congr rfl fun j _ => ?_)
  ring

theorem gramPow_zero {ι : Type} [Fintype ι] {p : Nat} (x : ι → Fin p → ℝ) (k : Nat) (c : ι → ℝ)
    (h : ∑ i, ∑ j, c i * (∑ a, x i a * x j a) ^ k * c j = 0) (i : ι) : ∑ j, c j * (∑ a, x i a * x j a) ^ k = 0 := by
  have h1 := ((gramPow_posSemidef x k).dotProduct_mulVec_zero_iff c).mp (by
    simp only [dotProduct, mulVec, star_trivial, of_apply, mul_sum]
    refine Eq.trans (sum_congr rfl fun i _ => sum_congr rfl fun j _ => ?_) h
    ring)
  have h2 := congrFun h1 i
  simp only [mulVec, dotProduct, of_apply, Pi.zero_apply] at h2
  rw [← h2]
  exact sum_congr rfl fun j _ => mul_comm _ _

/-- a direction that separates different points -/
theorem exists_separating {N p : Nat} (x : Fin N → Fin p → ℝ) (hx : Function.Injective x) :
    ∃ y : Fin p → ℝ, Function.Injective fun i => ∑ a, y a * x i a := by
  classical
  let P : Fin N × Fin N → Polynomial ℝ := fun q => ∑ a : Fin p, Polynomial.C (x q.1 a - x q.2 a) * Polynomial.X ^ a.val
  have hP : ∀ q : Fin N × Fin N, q.1 ≠ q.2 → P q ≠ 0 := by
    intro q hq h0
    apply hq
    apply hx
    funext a
    have := congrArg (fun r => Polynomial.coeff r a.val) h0
    simp only [P, Polynomial.finsetSum_coeff, Polynomial.coeff_C_mul, Polynomial.coeff_X_pow, Polynomial.coeff_zero] at this
    rw [Finset.sum_eq_single a] at this
    · simp at this; linarith
    · intro b _ hb
      have : ¬ a.val = b.val := fun h => hb (Fin.ext h.symm)
      simp [this]
    · simp
  let bad : Finset ℝ := (univ.filter fun q : Fin N × Fin N => q.1 ≠ q.2).biUnion fun q => (P q).roots.toFinset
  obtain ⟨t, ht⟩ := Infinite.exists_notMem_finset bad
  refine ⟨fun a => t ^ a.val, fun i j hij => ?_⟩
  by_contra hne
  apply ht
  rw [mem_biUnion]
  refine ⟨(i, j), by simpa using hne, ?_⟩
  rw [Multiset.mem_toFinset, Polynomial.mem_roots (hP (i, j) hne), Polynomial.IsRoot]
  have hij' : ∑ a : Fin p, t ^ a.val * x i a = ∑ a : Fin p, t ^ a.val * x j a := hij
  simp only [P, Polynomial.eval_finsetSum, Polynomial.eval_mul, Polynomial.eval_C, Polynomial.eval_pow, Polynomial.eval_X]
  calc ∑ a : Fin p, (x i a - x j a) * t ^ a.val = ∑ a : Fin p, t ^ a.val * x i a - ∑ a : Fin p, t ^ a.val * x j a := by
        rw [← sum_sub_distrib]; exact sum_congr rfl fun a _ => by ring
    _ = 0 := by rw [hij', sub_self]

/-- if all the quadratic forms of powers vanish, the coefficients are zero -/
theorem gramPow_all_zero {N p : Nat} (x : Fin N → Fin p → ℝ) (hx : Function.Injective x) (c : Fin N → ℝ)
    (h : ∀ k, ∑ i, ∑ j, c i * (∑ a, x i a * x j a) ^ k * c j = 0) : c = 0 := by
  obtain ⟨y, hy⟩ := exists_separating x hx
  refine Matrix.eq_zero_of_forall_pow_sum_mul_pow_eq_zero hy fun k => ?_
  have h1 := gramPow_zero (ι := Option (Fin N)) (fun o => o.elim y x) k (fun o => o.elim 0 c) (by
    simp only [Fintype.sum_option, Option.elim_none, Option.elim_some, zero_mul, mul_zero, sum_const_zero, zero_add]
    exact h k) none
  simpa only [Fintype.sum_option, Option.elim_none, Option.elim_some, zero_mul, zero_add] using h1

/-- the quadratic form of exponentials as a series -/
theorem hasSum_expForm {N p : Nat} (x : Fin N → Fin p → ℝ) (c : Fin N → ℝ) :
    HasSum (fun k : ℕ => (∑ i, ∑ j, c i * (∑ a, x i a * x j a) ^ k * c j) / (k.factorial : ℝ))
      (∑ i, ∑ j, c i * Real.exp (∑ a, x i a * x j a) * c j) := by
  have h : ∀ i j, HasSum (fun k : ℕ => c i * ((∑ a, x i a * x j a) ^ k / (k.factorial : ℝ)) * c j) (c i * Real.exp (∑ a, x i a * x j a) * c j) := by
    intro i j
    rw [Real.exp_eq_exp_ℝ]
    exact ((NormedSpace.expSeries_div_hasSum_exp (∑ a, x i a * x j a)).mul_left (c i)).mul_right (c j)
  have h2 := hasSum_sum fun i (_ : i ∈ univ) => hasSum_sum fun j (_ : j ∈ univ) => h i j
  convert h2 using 2 with k
  rw [sum_div]
  refine sum_congr rfl fun i _ => ?_
  rw [sum_div]
  exact sum_congr rfl fun j _ => by ring

theorem euclid_sq {N p : Nat} (x : Fin N → Fin p → ℝ) (i j : Fin N) : euclid x i j ^ 2 = ∑ a, (x i a - x j a) ^ 2 :=
  Real.sq_sqrt (sum_nonneg fun _ _ => sq_nonneg _)

theorem gaussKernel_form {N p : Nat} (x : Fin N → Fin p → ℝ) (sy sx : ℝ) (hsx : sx ≠ 0) (c : Fin N → ℝ) :
    ∑ i, ∑ j, c i * gaussKernel x sy sx i j * c j =
      sy * ∑ i, ∑ j, (c i * Real.exp (-(∑ a, (x i a / sx) ^ 2) / 2)) * Real.exp (∑ a, (x i a / sx) * (x j a / sx)) *
        (c j * Real.exp (-(∑ a, (x j a / sx) ^ 2) / 2)) := by
  rw [mul_sum]
  refine sum_congr rfl fun i _ => ?_
  rw [mul_sum]
  refine sum_congr rfl fun j _ => ?_
  unfold gaussKernel
  rw [euclid_sq]
  have e : -(∑ a, (x i a - x j a) ^ 2) / (2 * sx ^ 2) =
      -(∑ a, (x i a / sx) ^ 2) / 2 + (∑ a, (x i a / sx) * (x j a / sx)) + -(∑ a, (x j a / sx) ^ 2) / 2 := by
    have : ∑ a, (x i a - x j a) ^ 2 = ∑ a, (sx ^ 2 * (x i a / sx) ^ 2 - 2 * sx ^ 2 * ((x i a / sx) * (x j a / sx)) + sx ^ 2 * (x j a / sx) ^ 2) :=
      sum_congr rfl fun a _ => by field_simp; ring
    rw [this, sum_add_distrib, sum_sub_distrib, ← mul_sum, ← mul_sum, ← mul_sum]
    field_simp
    ring
  rw [e, Real.exp_add, Real.exp_add]
  ring

/-- **C160** For every array of points, `sigmax ≠ 0` and `sigmay > 0` the result of `compute_gauss_kernel` is a covariance matrix: symmetric, with the constant
diagonal `sigmay` (the argument itself, not its square), entries between 0 and `sigmay`, positive semidefinite; it is positive definite exactly if no two
points are equal. -/
theorem C160_kernel {N p : Nat} (x : Fin N → Fin p → ℝ) (sigmay sigmax : ℝ) (hy : 0 < sigmay) (hx : sigmax ≠ 0) :
    (∀ i j, gaussKernel x sigmay sigmax i j = gaussKernel x sigmay sigmax j i) ∧
    (∀ i, gaussKernel x sigmay sigmax i i = sigmay) ∧
    (∀ i j, 0 < gaussKernel x sigmay sigmax i j ∧ gaussKernel x sigmay sigmax i j ≤ sigmay ∧
      (gaussKernel x sigmay sigmax i j = sigmay ↔ x i = x j)) ∧
    (∀ c : Fin N → ℝ, 0 ≤ ∑ i, ∑ j, c i * gaussKernel x sigmay sigmax i j * c j) ∧
    (PosDefinite (gaussKernel x sigmay sigmax) ↔ Function.Injective x) := by
  have hs2 : 0 < 2 * sigmax ^ 2 := by positivity
  have hsymm : ∀ i j, gaussKernel x sigmay sigmax i j = gaussKernel x sigmay sigmax j i := by
    intro i j
    unfold gaussKernel
    rw [euclid_sq, euclid_sq]
    congr 4
    exact sum_congr rfl fun a _ => by ring
  have hnn : ∀ c : Fin N → ℝ, 0 ≤ ∑ i, ∑ j, c i * gaussKernel x sigmay sigmax i j * c j := by
    intro c
    rw [gaussKernel_form x sigmay sigmax hx]
    refine mul_nonneg hy.le ((hasSum_expForm (fun i a => x i a / sigmax) _).nonneg fun k => ?_)
    exact div_nonneg (gramPow_nonneg _ _ _) (Nat.cast_nonneg _)
  have hdiag : ∀ i, gaussKernel x sigmay sigmax i i = sigmay := by
    intro i
    unfold gaussKernel
    rw [euclid_sq]
    simp
  have hentry : ∀ i j, 0 < gaussKernel x sigmay sigmax i j ∧ gaussKernel x sigmay sigmax i j ≤ sigmay ∧
      (gaussKernel x sigmay sigmax i j = sigmay ↔ x i = x j) := by
    intro i j
    unfold gaussKernel
    rw [euclid_sq]
    have h0 : 0 ≤ ∑ a, (x i a - x j a) ^ 2 := sum_nonneg fun a _ => sq_nonneg _
    have hle : -(∑ a, (x i a - x j a) ^ 2) / (2 * sigmax ^ 2) ≤ 0 := div_nonpos_of_nonpos_of_nonneg (by linarith) hs2.le
    refine ⟨mul_pos hy (Real.exp_pos _), ?_, ?_⟩
    · calc _ ≤ sigmay * 1 := mul_le_mul_of_nonneg_left (Real.exp_le_one_iff.mpr hle) hy.le
        _ = sigmay := mul_one _
    · rw [mul_eq_left₀ hy.ne', Real.exp_eq_one_iff, div_eq_zero_iff, neg_eq_zero]
      constructor
      · rintro (h | h)
        · funext a
          have := (sum_eq_zero_iff_of_nonneg fun a _ => sq_nonneg (x i a - x j a)).mp h a (mem_univ a)
          have := pow_eq_zero_iff (two_ne_zero) |>.mp this
          linarith
        · exact absurd h hs2.ne'
      · intro h
        left
        rw [h]; simp
  refine ⟨hsymm, hdiag, hentry, hnn, fun h i j hij => ?_, fun hinj => ⟨hsymm, fun c hc => ?_⟩⟩
  · by_contra hne
    have hpos := h.2 (fun k => if k = i then 1 else if k = j then -1 else 0) (fun h0 => by
      have := congrFun h0 i; simp at this)
    have h1 := (hentry i j).2.2.mpr hij
    have h2 := (hentry j i).2.2.mpr hij.symm
    have hsum : ∀ f : Fin N → ℝ, ∑ k, (if k = i then (1 : ℝ) else if k = j then -1 else 0) * f k = f i - f j := by
      intro f
      have : ∀ k, (if k = i then (1 : ℝ) else if k = j then -1 else 0) * f k = (if k = i then f k else 0) - (if k = j then f k else 0) := by
        intro k
        by_cases h1 : k = i
        · subst h1; simp [hne]
        · by_cases h2 : k = j
          · subst h2; simp [Ne.symm hne]
          · simp [h1, h2]
      rw [sum_congr rfl fun k _ => this k, sum_sub_distrib]
      simp
    have hform : ∑ a, ∑ b, (if a = i then (1 : ℝ) else if a = j then -1 else 0) * gaussKernel x sigmay sigmax a b *
        (if b = i then (1 : ℝ) else if b = j then -1 else 0) = 0 := by
      have : ∀ a, ∑ b, (if a = i then (1 : ℝ) else if a = j then -1 else 0) * gaussKernel x sigmay sigmax a b *
          (if b = i then (1 : ℝ) else if b = j then -1 else 0) =
          (if a = i then (1 : ℝ) else if a = j then -1 else 0) * (gaussKernel x sigmay sigmax a i - gaussKernel x sigmay sigmax a j) := by
        intro a
        rw [← hsum fun b => gaussKernel x sigmay sigmax a b, mul_sum]
        exact sum_congr rfl fun b _ => by ring
      rw [sum_congr rfl fun a _ => this a, hsum]
      rw [hdiag, hdiag, h1, h2]; ring
    rw [hform] at hpos
    exact lt_irrefl _ hpos
  · refine lt_of_le_of_ne (hnn c) fun h0 => hc ?_
    rw [gaussKernel_form x sigmay sigmax hx] at h0
    have hz := (mul_eq_zero.mp h0.symm).resolve_left hy.ne'
    have hs := hasSum_expForm (fun i a => x i a / sigmax) fun i => c i * Real.exp (-(∑ a, (x i a / sigmax) ^ 2) / 2)
    rw [hz] at hs
    have hall := (hasSum_zero_iff_of_nonneg fun k => div_nonneg (gramPow_nonneg _ _ _) (Nat.cast_nonneg _)).mp hs
    have hinj' : Function.Injective fun i a => x i a / sigmax := by
      intro i j hij
      apply hinj
      funext a
      have := congrFun hij a
      simp only at this
      field_simp at this
      exact this
    have hc' := gramPow_all_zero (fun i a => x i a / sigmax) hinj' _ fun k => by
      have := congrFun hall k
      simp only [Pi.zero_apply, div_eq_zero_iff, Nat.cast_eq_zero, Nat.factorial_ne_zero, or_false] at this
      exact this
    funext i
    have := congrFun hc' i
    simp only [Pi.zero_apply, mul_eq_zero, Real.exp_ne_zero, or_false] at this
    exact this

/-- not vacuous: two different points on a line -/
example : PosDefinite (gaussKernel (N := 2) (p := 1) (fun i _ => i.val) 1 1) :=
  (C160_kernel _ 1 1 one_pos one_ne_zero).2.2.2.2.mpr fun i j h => by
    have := congrFun h 0
    exact Fin.ext (by exact_mod_cast this)

/-- the variance is the argument `sigmay`, not its square as in the usual parameterisation by standard deviations -/
example : gaussKernel (N := 1) (p := 1) (fun _ _ => 0) 2 1 0 0 = 2 := (C160_kernel _ 2 1 two_pos one_ne_zero).2.1 0

end Medil

import Mathlib.Probability.Distributions.Gaussian.Real
import Mathlib.Analysis.SpecialFunctions.Integrals.Basic
import Mathlib.Analysis.Real.Pi.Bounds
import Mathlib.Analysis.Calculus.Deriv.MeanValue
/-
  Numerical bounds for the normal distribution: alternating Taylor bounds for `exp (-t)`, integrated.
-/
namespace Medil
open Finset MeasureTheory ProbabilityTheory intervalIntegral

/-- Taylor polynomial of `exp (-t)` of degree `n` -/
noncomputable def expTaylor (n : Nat) (t : ℝ) : ℝ := ∑ k ∈ range (n + 1), (-t) ^ k / (k.factorial : ℝ)

theorem expTaylor_deriv (n : Nat) (t : ℝ) : HasDerivAt (expTaylor (n + 1)) (-expTaylor n t) t := by
  unfold expTaylor
  have h : ∀ k : Nat, HasDerivAt (fun t : ℝ => (-t) ^ k / (k.factorial : ℝ)) (k * (-t) ^ (k - 1) * (-1) / (k.factorial : ℝ)) t := by
    intro k
    exact ((hasDerivAt_neg t).pow k).div_const _
  have hs := HasDerivAt.fun_sum (u := range (n + 1 + 1)) fun k _ => h k
  refine hs.congr_deriv ?_
  rw [sum_range_succ' _ (n + 1)]
  simp only [Nat.cast_zero, zero_mul, zero_div, add_zero, ← sum_neg_distrib]
  refine sum_congr rfl fun k _ => ?_
  rw [Nat.add_sub_cancel, Nat.factorial_succ, Nat.cast_mul]
  have h1 : ((k + 1 : ℕ) : ℝ) ≠ 0 := by positivity
  have h2 : (k.factorial : ℝ) ≠ 0 := by positivity
  field_simp

theorem expTaylor_zero (n : Nat) : expTaylor n 0 = 1 := by
  unfold expTaylor
  rw [sum_range_succ', sum_eq_zero fun k _ => by simp]
  simp

theorem exp_alternating (n : Nat) : ∀ t : ℝ, 0 ≤ t → 0 ≤ (-1) ^ (n + 1) * (Real.exp (-t) - expTaylor n t) := by
  induction n with
  | zero =>
    intro t ht
    have : Real.exp (-t) ≤ 1 := Real.exp_le_one_iff.mpr (by linarith)
    simp [expTaylor]; linarith
  | succ n ih =>
    intro t ht
    have hd : ∀ x : ℝ, HasDerivAt (fun x => (-1) ^ (n + 1 + 1) * (Real.exp (-x) - expTaylor (n + 1) x))
        ((-1) ^ (n + 1) * (Real.exp (-x) - expTaylor n x)) x := by
      intro x
      have h1 : HasDerivAt (fun x : ℝ => Real.exp (-x)) (Real.exp (-x) * (-1)) x := (hasDerivAt_neg x).exp
      have h2 := (h1.sub (expTaylor_deriv n x)).const_mul ((-1 : ℝ) ^ (n + 1 + 1))
      refine h2.congr_deriv ?_
      rw [pow_succ]; ring
    have hm : MonotoneOn (fun x => (-1) ^ (n + 1 + 1) * (Real.exp (-x) - expTaylor (n + 1) x)) (Set.Ici (0 : ℝ)) := by
      refine monotoneOn_of_deriv_nonneg (convex_Ici 0) (fun x _ => (hd x).continuousAt.continuousWithinAt)
        (fun x _ => (hd x).differentiableAt.differentiableWithinAt) fun x hx => ?_
      rw [(hd x).deriv]
      rw [interior_Ici] at hx
      exact ih x (le_of_lt hx)
    have := hm (Set.mem_Ici.mpr le_rfl) (Set.mem_Ici.mpr ht) ht
    simpa [expTaylor_zero] using this

/-- the integral of the Taylor polynomial of `exp (-x^2/2)` over `[-a, a]` -/
noncomputable def gaussTaylor (n : Nat) (a : ℝ) : ℝ :=
  ∑ k ∈ range (n + 1), (-1) ^ k / (2 ^ k * (k.factorial : ℝ)) * (2 * a ^ (2 * k + 1) / (2 * k + 1))

theorem gaussTaylor_eq (n : Nat) (a : ℝ) : ∫ x in (-a)..a, expTaylor n (x ^ 2 / 2) = gaussTaylor n a := by
  unfold expTaylor gaussTaylor
  rw [integral_finsetSum fun k _ => (by fun_prop : Continuous fun x : ℝ => (-(x ^ 2 / 2)) ^ k / (k.factorial : ℝ)).intervalIntegrable _ _]
  refine sum_congr rfl fun k _ => ?_
  have e : ∀ x : ℝ, (-(x ^ 2 / 2)) ^ k / (k.factorial : ℝ) = (-1) ^ k / (2 ^ k * (k.factorial : ℝ)) * x ^ (2 * k) := by
    intro x
    rw [neg_pow, div_pow, ← pow_mul]
    field_simp
  simp only [e]
  rw [intervalIntegral.integral_const_mul, integral_pow]
  congr 1
  have ho : Odd (2 * k + 1) := ⟨k, rfl⟩
  rw [ho.neg_pow]
  push_cast
  ring

theorem gauss_mass (a : ℝ) (ha : 0 ≤ a) :
    gaussianReal 0 1 {z : ℝ | z ^ 2 ≤ a ^ 2} = ENNReal.ofReal ((√(2 * Real.pi))⁻¹ * ∫ x in (-a)..a, Real.exp (-(x ^ 2 / 2))) := by
  have hs : {z : ℝ | z ^ 2 ≤ a ^ 2} = Set.Icc (-a) a := by
    ext z
    simp only [Set.mem_ofPred_eq, Set.mem_Icc]
    rw [sq_le_sq, abs_of_nonneg ha, abs_le]
  rw [gaussianReal_apply_eq_integral 0 one_ne_zero, hs, integral_Icc_eq_integral_Ioc, ← intervalIntegral.integral_of_le (by linarith)]
  congr 1
  rw [← intervalIntegral.integral_const_mul]
  refine integral_congr fun x _ => ?_
  simp only [gaussianPDFReal, NNReal.coe_one, mul_one, sub_zero]
  rw [neg_div]

theorem gauss_lower (a : ℝ) (ha : 0 ≤ a) (n : Nat) (hn : Odd n) :
    ENNReal.ofReal ((√(2 * Real.pi))⁻¹ * gaussTaylor n a) ≤ gaussianReal 0 1 {z : ℝ | z ^ 2 ≤ a ^ 2} := by
  rw [gauss_mass a ha, ← gaussTaylor_eq]
  refine ENNReal.ofReal_le_ofReal (mul_le_mul_of_nonneg_left ?_ (by positivity))
  refine integral_mono_on (by linarith) ((by unfold expTaylor; fun_prop : Continuous fun x : ℝ => expTaylor n (x ^ 2 / 2)).intervalIntegrable _ _)
    ((by fun_prop : Continuous fun x : ℝ => Real.exp (-(x ^ 2 / 2))).intervalIntegrable _ _) fun x _ => ?_
  have h := exp_alternating n (x ^ 2 / 2) (by positivity)
  rw [Even.neg_one_pow hn.add_one] at h
  linarith

theorem gauss_upper (a : ℝ) (ha : 0 ≤ a) (n : Nat) (hn : Even n) :
    gaussianReal 0 1 {z : ℝ | z ^ 2 ≤ a ^ 2} ≤ ENNReal.ofReal ((√(2 * Real.pi))⁻¹ * gaussTaylor n a) := by
  rw [gauss_mass a ha, ← gaussTaylor_eq]
  refine ENNReal.ofReal_le_ofReal (mul_le_mul_of_nonneg_left ?_ (by positivity))
  refine integral_mono_on (by linarith) ((by fun_prop : Continuous fun x : ℝ => Real.exp (-(x ^ 2 / 2))).intervalIntegrable _ _)
    ((by unfold expTaylor; fun_prop : Continuous fun x : ℝ => expTaylor n (x ^ 2 / 2)).intervalIntegrable _ _) fun x _ => ?_
  have h := exp_alternating n (x ^ 2 / 2) (by positivity)
  rw [Odd.neg_one_pow hn.add_one] at h
  linarith

/-- a standard normal variable is within 1.96 with probability at least 95% -/
theorem gauss_196 : ENNReal.ofReal (95 / 100) ≤ gaussianReal 0 1 {z : ℝ | z ^ 2 ≤ (196 / 100) ^ 2} := by
  refine le_trans (ENNReal.ofReal_le_ofReal ?_) (gauss_lower (196 / 100) (by norm_num) 13 (by decide))
  have hp := Real.pi_pos
  rw [inv_mul_eq_div, le_div_iff₀ (by positivity)]
  have hG : (0 : ℝ) ≤ gaussTaylor 13 (196 / 100) := by
    simp only [gaussTaylor, sum_range_succ, sum_range_zero, Nat.factorial]; norm_num
  have : √(2 * Real.pi) ≤ gaussTaylor 13 (196 / 100) / (95 / 100) := by
    rw [Real.sqrt_le_left (by positivity)]
    have hpi := Real.pi_lt_d6
    have : (2 * 3.141593 : ℝ) ≤ (gaussTaylor 13 (196 / 100) / (95 / 100)) ^ 2 := by
      simp only [gaussTaylor, sum_range_succ, sum_range_zero, Nat.factorial]; norm_num
    linarith
  rw [le_div_iff₀ (by norm_num)] at this
  linarith

/-- and within 1.9596 with a smaller probability -/
theorem gauss_19596 : gaussianReal 0 1 {z : ℝ | z ^ 2 ≤ (19596 / 10000) ^ 2} < ENNReal.ofReal (95 / 100) := by
  refine lt_of_le_of_lt (gauss_upper (19596 / 10000) (by norm_num) 12 (by decide)) ?_
  rw [ENNReal.ofReal_lt_ofReal_iff (by norm_num)]
  have hp := Real.pi_pos
  rw [inv_mul_eq_div, div_lt_iff₀ (by positivity)]
  have : gaussTaylor 12 (19596 / 10000) / (95 / 100) < √(2 * Real.pi) := by
    refine Real.lt_sqrt_of_sq_lt ?_
    have hpi := Real.pi_gt_d6
    have : (gaussTaylor 12 (19596 / 10000) / (95 / 100)) ^ 2 < (2 * 3.141592 : ℝ) := by
      simp only [gaussTaylor, sum_range_succ, sum_range_zero, Nat.factorial]; norm_num
    linarith
  rw [div_lt_iff₀ (by norm_num)] at this
  linarith

end Medil

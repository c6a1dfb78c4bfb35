import Verif.Proofs.Resample
import Mathlib.Analysis.SpecialFunctions.Integrals.Basic
import Mathlib.MeasureTheory.Integral.IntervalIntegral.FundThmCalculus
/-
  Pairs of independent uniform variables: the part of their distance that is orthogonal to each of them.
-/
namespace Medil
open MeasureTheory Finset

/-- the uniform law -/
noncomputable def unif : Measure ℝ := volume.restrict (Set.Ioc 0 1)

instance : IsProbabilityMeasure unif := ⟨by unfold unif; simp⟩

theorem integral_unif (f : ℝ → ℝ) : ∫ u, f u ∂unif = ∫ u in (0 : ℝ)..1, f u := by
  unfold unif
  rw [intervalIntegral.integral_of_le zero_le_one]

/-- values outside the unit interval are moved to its ends -/
noncomputable def cl (u : ℝ) : ℝ := max 0 (min 1 u)

theorem cl_mem (u : ℝ) : 0 ≤ cl u ∧ cl u ≤ 1 := ⟨le_max_left _ _, max_le zero_le_one (min_le_left _ _)⟩

theorem cl_of_mem {u : ℝ} (h : u ∈ Set.Icc (0 : ℝ) 1) : cl u = u := by unfold cl; rw [min_eq_right h.2, max_eq_right h.1]

theorem cl_measurable : Measurable cl := by unfold cl; fun_prop

theorem integral_unif_cl (f : ℝ → ℝ) : ∫ u, f (cl u) ∂unif = ∫ u in (0 : ℝ)..1, f u := by
  rw [integral_unif]
  refine intervalIntegral.integral_congr fun u hu => ?_
  rw [Set.uIcc_of_le zero_le_one] at hu
  rw [cl_of_mem hu]

/-- the distance, without the parts that depend on one variable only -/
noncomputable def pairPart (u v : ℝ) : ℝ := |cl u - cl v| - 2 / 3 + cl u * (1 - cl u) + cl v * (1 - cl v)

theorem pairPart_comm (u v : ℝ) : pairPart u v = pairPart v u := by unfold pairPart; rw [abs_sub_comm]; ring

theorem pairPart_bound (u v : ℝ) : |pairPart u v| ≤ 1 := by
  unfold pairPart
  have ha := cl_mem u
  have hb := cl_mem v
  have h1 : |cl u - cl v| ≤ 1 := abs_sub_le_iff.mpr ⟨by linarith, by linarith⟩
  have h2 := abs_nonneg (cl u - cl v)
  have h3 : cl u * (1 - cl u) ≤ 1 / 4 := by nlinarith [sq_nonneg (cl u - 1 / 2)]
  have h4 : cl v * (1 - cl v) ≤ 1 / 4 := by nlinarith [sq_nonneg (cl v - 1 / 2)]
  have h5 : 0 ≤ cl u * (1 - cl u) := mul_nonneg ha.1 (by linarith)
  have h6 : 0 ≤ cl v * (1 - cl v) := mul_nonneg hb.1 (by linarith)
  rw [abs_le]
  constructor <;> linarith

theorem pairPart_measurable : Measurable fun p : ℝ × ℝ => pairPart p.1 p.2 := by
  unfold pairPart
  have := cl_measurable
  fun_prop

/-- the mean distance from a point of the unit interval -/
theorem integral_dist {a : ℝ} (h0 : 0 ≤ a) (h1 : a ≤ 1) : ∫ v in (0 : ℝ)..1, |a - v| = 1 / 2 - a * (1 - a) := by
  have hi : ∀ x y : ℝ, IntervalIntegrable (fun v => |a - v|) volume x y := fun x y => (by fun_prop : Continuous fun v => |a - v|).intervalIntegrable _ _
  rw [← intervalIntegral.integral_add_adjacent_intervals (hi 0 a) (hi a 1)]
  have e1 : ∫ v in (0 : ℝ)..a, |a - v| = ∫ v in (0 : ℝ)..a, (a - v) := intervalIntegral.integral_congr fun v hv => by
    rw [Set.uIcc_of_le h0] at hv
    exact abs_of_nonneg (by linarith [hv.2])
  have e2 : ∫ v in a..1, |a - v| = ∫ v in a..1, (v - a) := intervalIntegral.integral_congr fun v hv => by
    rw [Set.uIcc_of_le h1] at hv
    rw [abs_sub_comm]
    exact abs_of_nonneg (by linarith [hv.1])
  rw [e1, e2, intervalIntegral.integral_sub (by simp) (by simp), intervalIntegral.integral_sub (by simp) (by simp)]
  simp
  ring

theorem integral_linear (c x y : ℝ) : ∫ v in x..y, c * v = c * ((y ^ 2 - x ^ 2) / 2) := by
  rw [intervalIntegral.integral_const_mul c (fun v => v), integral_id]

theorem poly_integral (c0 c1 c2 c3 c4 : ℝ) : ∫ v in (0 : ℝ)..1, (c0 + c1 * v + c2 * v ^ 2 + c3 * v ^ 3 + c4 * v ^ 4) =
    c0 + c1 / 2 + c2 / 3 + c3 / 4 + c4 / 5 := by
  have hi : ∀ f : ℝ → ℝ, Continuous f → IntervalIntegrable f volume 0 1 := fun f hf => hf.intervalIntegrable _ _
  rw [intervalIntegral.integral_add (hi _ (by fun_prop)) (hi _ (by fun_prop)), intervalIntegral.integral_add (hi _ (by fun_prop)) (hi _ (by fun_prop)),
    intervalIntegral.integral_add (hi _ (by fun_prop)) (hi _ (by fun_prop)), intervalIntegral.integral_add (hi _ (by fun_prop)) (hi _ (by fun_prop))]
  simp only [intervalIntegral.integral_const_mul, intervalIntegral.integral_const, integral_pow, integral_linear, smul_eq_mul]
  norm_num
  ring

/-- the part is orthogonal to each variable -/
theorem pairPart_mean (u : ℝ) : ∫ v, pairPart u v ∂unif = 0 := by
  unfold pairPart
  obtain ⟨a, ha⟩ : ∃ a, a = cl u := ⟨_, rfl⟩
  have hm := cl_mem u
  rw [← ha] at hm ⊢
  rw [integral_unif_cl fun v => |a - v| - 2 / 3 + a * (1 - a) + v * (1 - v)]
  have e : ∀ v : ℝ, |a - v| - 2 / 3 + a * (1 - a) + v * (1 - v) = |a - v| + ((a * (1 - a) - 2 / 3) + 1 * v + (-1) * v ^ 2 + 0 * v ^ 3 + 0 * v ^ 4) := fun v => by ring
  simp only [e]
  rw [intervalIntegral.integral_add ((by fun_prop : Continuous fun v => |a - v|).intervalIntegrable _ _)
    ((by fun_prop : Continuous _).intervalIntegrable _ _), integral_dist hm.1 hm.2, poly_integral]
  ring

/-- the mean product with the distance -/
theorem pairPart_dist : ∫ u, ∫ v, pairPart u v * |cl u - cl v| ∂unif ∂unif = 2 / 45 := by
  have h1 : ∀ u : ℝ, ∫ v, pairPart u v * |cl u - cl v| ∂unif =
      ∫ v in (0 : ℝ)..1, ((cl u - v) ^ 2 + (cl u * (1 - cl u) - 2 / 3) * |cl u - v| + v * (1 - v) * |cl u - v|) := by
    intro u
    unfold pairPart
    rw [integral_unif_cl fun v => (|cl u - v| - 2 / 3 + cl u * (1 - cl u) + v * (1 - v)) * |cl u - v|]
    refine intervalIntegral.integral_congr fun v _ => ?_
    rw [← sq_abs (cl u - v)]
    ring
  have h2 : ∀ a : ℝ, 0 ≤ a → a ≤ 1 → ∫ v in (0 : ℝ)..1, v * (1 - v) * |a - v| = 1 / 12 - a / 6 + a ^ 3 / 3 - a ^ 4 / 6 := by
    intro a h0 h1
    have hi : ∀ x y : ℝ, IntervalIntegrable (fun v => v * (1 - v) * |a - v|) volume x y := fun x y =>
      (by fun_prop : Continuous fun v => v * (1 - v) * |a - v|).intervalIntegrable _ _
    rw [← intervalIntegral.integral_add_adjacent_intervals (hi 0 a) (hi a 1)]
    have e1 : ∫ v in (0 : ℝ)..a, v * (1 - v) * |a - v| = ∫ v in (0 : ℝ)..a, (a * v - (1 + a) * v ^ 2 + v ^ 3) := intervalIntegral.integral_congr fun v hv => by
      rw [Set.uIcc_of_le h0] at hv
      rw [abs_of_nonneg (by linarith [hv.2])]
      ring
    have e2 : ∫ v in a..1, v * (1 - v) * |a - v| = ∫ v in a..1, ((1 + a) * v ^ 2 - a * v - v ^ 3) := intervalIntegral.integral_congr fun v hv => by
      rw [Set.uIcc_of_le h1] at hv
      rw [abs_sub_comm, abs_of_nonneg (by linarith [hv.1])]
      ring
    have hj : ∀ (f : ℝ → ℝ) (x y : ℝ), Continuous f → IntervalIntegrable f volume x y := fun f x y hf => hf.intervalIntegrable _ _
    rw [e1, e2, intervalIntegral.integral_add (hj _ _ _ (by fun_prop)) (hj _ _ _ (by fun_prop)), intervalIntegral.integral_sub (hj _ _ _ (by fun_prop)) (hj _ _ _ (by fun_prop)),
      intervalIntegral.integral_sub (hj _ _ _ (by fun_prop)) (hj _ _ _ (by fun_prop)), intervalIntegral.integral_sub (hj _ _ _ (by fun_prop)) (hj _ _ _ (by fun_prop))]
    simp only [intervalIntegral.integral_const_mul, integral_pow, integral_linear]
    norm_num
    ring
  have h3 : ∀ a : ℝ, 0 ≤ a → a ≤ 1 → ∫ v in (0 : ℝ)..1, ((a - v) ^ 2 + (a * (1 - a) - 2 / 3) * |a - v| + v * (1 - v) * |a - v|) =
      (1 / 3 - a + a ^ 2) + (a * (1 - a) - 2 / 3) * (1 / 2 - a * (1 - a)) + (1 / 12 - a / 6 + a ^ 3 / 3 - a ^ 4 / 6) := by
    intro a h0 h1
    have hj : ∀ (f : ℝ → ℝ) (x y : ℝ), Continuous f → IntervalIntegrable f volume x y := fun f x y hf => hf.intervalIntegrable _ _
    rw [intervalIntegral.integral_add (hj _ _ _ (by fun_prop)) (hj _ _ _ (by fun_prop)), intervalIntegral.integral_add (hj _ _ _ (by fun_prop)) (hj _ _ _ (by fun_prop)),
      h2 a h0 h1, intervalIntegral.integral_const_mul, integral_dist h0 h1]
    have e : ∀ v : ℝ, (a - v) ^ 2 = a ^ 2 + (-2 * a) * v + 1 * v ^ 2 + 0 * v ^ 3 + 0 * v ^ 4 := fun v => by ring
    simp only [e]
    rw [poly_integral]
    ring
  have h4 : ∀ u : ℝ, ∫ v, pairPart u v * |cl u - cl v| ∂unif =
      (fun a : ℝ => (1 / 3 - a + a ^ 2) + (a * (1 - a) - 2 / 3) * (1 / 2 - a * (1 - a)) + (1 / 12 - a / 6 + a ^ 3 / 3 - a ^ 4 / 6)) (cl u) := fun u =>
    (h1 u).trans (h3 _ (cl_mem u).1 (cl_mem u).2)
  simp only [h4]
  rw [integral_unif_cl fun a : ℝ => (1 / 3 - a + a ^ 2) + (a * (1 - a) - 2 / 3) * (1 / 2 - a * (1 - a)) + (1 / 12 - a / 6 + a ^ 3 / 3 - a ^ 4 / 6)]
  have e : ∀ a : ℝ, (1 / 3 - a + a ^ 2) + (a * (1 - a) - 2 / 3) * (1 / 2 - a * (1 - a)) + (1 / 12 - a / 6 + a ^ 3 / 3 - a ^ 4 / 6) =
      1 / 12 + 0 * a + (-7 / 6) * a ^ 2 + (7 / 3) * a ^ 3 + (-7 / 6) * a ^ 4 := fun a => by ring
  simp only [e]
  rw [poly_integral]
  norm_num

/-- the sign of `a - c` -/
noncomputable def sgn3 (c a : ℝ) : ℝ := if c < a then 1 else if a < c then -1 else 0

/-- how much `c` is between `a` and `b` (twice) -/
noncomputable def betw (a b c : ℝ) : ℝ := |sgn3 c a - sgn3 c b|

theorem betw_bound (a b c : ℝ) : |betw a b c| ≤ 2 := by
  unfold betw sgn3
  rw [abs_abs]
  split_ifs <;> norm_num

theorem betw_comm (a b c : ℝ) : betw a b c = betw b a c := by unfold betw; exact abs_sub_comm _ _

theorem betw_measurable : Measurable fun p : ℝ × ℝ × ℝ => betw p.1 p.2.1 p.2.2 := by
  unfold betw sgn3
  refine continuous_abs.measurable.comp (Measurable.sub ?_ ?_)
  · exact Measurable.ite (measurableSet_lt (by fun_prop) (by fun_prop)) measurable_const
      (Measurable.ite (measurableSet_lt (by fun_prop) (by fun_prop)) measurable_const measurable_const)
  · exact Measurable.ite (measurableSet_lt (by fun_prop) (by fun_prop)) measurable_const
      (Measurable.ite (measurableSet_lt (by fun_prop) (by fun_prop)) measurable_const measurable_const)

theorem betw_mean (a b : ℝ) : ∫ c, betw a b c ∂unif = 2 * |cl a - cl b| := by
  wlog hab : a ≤ b generalizing a b
  · simp only [betw_comm a b]
    rw [this b a (not_le.mp hab).le, abs_sub_comm]
  have e : (fun c => betw a b c) =ᵐ[unif] (Set.Ioc a b).indicator fun _ => 2 := by
    have hn : ∀ x : ℝ, ∀ᵐ c ∂unif, c ≠ x := fun x => by
      unfold unif
      exact ae_restrict_of_ae (Measure.ae_ne volume x)
    filter_upwards [hn a, hn b] with c hca hcb
    unfold betw sgn3 Set.indicator
    simp only [Set.mem_Ioc]
    rcases lt_or_gt_of_ne hca with h1 | h1
    · have h2 : c < b := lt_of_lt_of_le h1 hab
      rw [if_pos h1, if_pos h2, if_neg fun h => absurd h.1 (not_lt.mpr h1.le)]
      norm_num
    · rcases lt_or_gt_of_ne hcb with h2 | h2
      · rw [if_neg (not_lt.mpr h1.le), if_pos h1, if_pos h2, if_pos ⟨h1, h2.le⟩]
        norm_num
      · rw [if_neg (not_lt.mpr h1.le), if_pos h1, if_neg (not_lt.mpr h2.le), if_pos h2, if_neg fun h => absurd h.2 (not_le.mpr h2)]
        norm_num
  rw [integral_congr_ae e, integral_indicator measurableSet_Ioc, setIntegral_const, smul_eq_mul, mul_comm]
  congr 1
  unfold unif
  rw [measureReal_def, Measure.restrict_apply measurableSet_Ioc, Set.Ioc_inter_Ioc, Real.volume_Ioc, abs_sub_comm]
  have h3 : cl b - cl a = max 0 (min b 1 - max a 0) := by
    unfold cl
    rcases le_total b 0 with hb0 | hb0
    · rw [min_eq_right (hb0.trans zero_le_one), min_eq_right (hab.trans (hb0.trans zero_le_one)), max_eq_left hb0, max_eq_left (hab.trans hb0),
        max_eq_right (hab.trans hb0), max_eq_left]
      · ring
      · rw [min_eq_left (hb0.trans zero_le_one)]; linarith
    · rcases le_total a 1 with ha1 | ha1
      · have : max 0 (min 1 b) = min b 1 := by rw [min_comm, max_eq_right (le_min hb0 zero_le_one)]
        rw [this, min_eq_right ha1, max_comm a 0, max_eq_right (a := (0 : ℝ)) (b := min b 1 - max 0 a)]
        rw [sub_nonneg]
        exact max_le (le_min hb0 zero_le_one) (le_min hab ha1)
      · rw [min_eq_left ha1, min_eq_left (ha1.trans hab), min_eq_right (ha1.trans hab), max_eq_left (zero_le_one.trans ha1), sub_self, max_eq_left (b := 1 - a) (by linarith)]
  have h4 : 0 ≤ cl b - cl a := by rw [h3]; exact le_max_left _ _
  rw [abs_of_nonneg h4, h3, ENNReal.toReal_ofReal']
  exact max_comm _ _

end Medil

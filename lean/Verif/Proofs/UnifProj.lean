import Verif.Proofs.UnifRank
import Mathlib.Analysis.SpecificLimits.Basic
/-
  The statistic of `xicorr` for independent uniform variables is close to a sum of parts of distances.
-/
namespace Medil
open MeasureTheory Finset Equiv Filter Topology
variable {n : ℕ}

/-- the sum of the parts of the distances of neighbours -/
noncomputable def stepSum (z : Fin n → ℝ) : ℝ := ∑ k ∈ range (n - 1), step z k

/-- the studentised statistic, from the distances of the ranks of neighbours -/
noncomputable def zOf (n : ℕ) (d : ℝ) : ℝ := Real.sqrt n * xiOf n d / Real.sqrt ((2 * n ^ 2 + 7) / (5 * (n ^ 2 - 1)))

theorem stepSum_measurable : Measurable fun z : Fin n → ℝ => stepSum z := steps_measurable _

theorem stepSum_bound (z : Fin n → ℝ) : |stepSum z| ≤ n := by
  refine (steps_bound z _).trans ?_
  rw [card_range]
  exact_mod_cast Nat.sub_le _ _

theorem stepSum_sq (hn : 1 ≤ n) : ∫ z, stepSum z ^ 2 ∂unifs n = ((n : ℝ) - 1) * (2 / 45) := by
  unfold stepSum
  rw [steps_sq _ fun k hk => by have := mem_range.mp hk; omega, card_range, Nat.cast_sub hn, Nat.cast_one]

theorem stepSum_mean : ∫ z, stepSum z ∂unifs n = 0 := by
  unfold stepSum
  rw [integral_finsetSum _ fun k _ => bounded_integrable (step_measurable k) fun z => step_bound z k]
  exact sum_eq_zero fun k _ => step_mean k

theorem stepSum_rankDist (hn : 1 ≤ n) : ((n : ℝ) - 1) * (((n : ℝ) - 2) * (4 / 45) - 8) ≤ ∫ z, stepSum z * rankDist z ∂unifs n := by
  unfold stepSum
  have hi : ∀ k, Integrable (fun z : Fin n → ℝ => step z k * rankDist z) (unifs n) := fun k =>
    bounded_integrable (c := 2 * n * n) ((step_measurable k).mul rankDist_measurable) fun z => by
      rw [abs_mul]
      calc _ ≤ 1 * (2 * (n : ℝ) * n) := mul_le_mul (step_bound z k) (rankDist_bound z) (abs_nonneg _) zero_le_one
        _ = _ := one_mul _
  simp only [sum_mul]
  rw [integral_finsetSum _ fun k _ => hi k]
  have : ∀ k ∈ range (n - 1), ((n : ℝ) - 2) * (4 / 45) - 8 ≤ ∫ z, step z k * rankDist z ∂unifs n := fun k hk => by
    have := (abs_le.mp (step_rankDist (n := n) k (by have := mem_range.mp hk; omega))).1
    linarith
  refine le_trans (le_of_eq ?_) (sum_le_sum this)
  rw [sum_const, card_range, nsmul_eq_mul, Nat.cast_sub hn, Nat.cast_one]

theorem xiOf_bound (d : ℝ) (hd : |d| ≤ 2 * n * n) (hn : 2 ≤ n) : |xiOf n d| ≤ 1 + 3 / (2 * ((n : ℝ) ^ 2 - 1)) * (2 * n * n) := by
  have hn2 : (2 : ℝ) ≤ n := by exact_mod_cast hn
  have hc : 0 ≤ 3 / (2 * ((n : ℝ) ^ 2 - 1)) := div_nonneg (by norm_num) (by nlinarith)
  unfold xiOf
  refine (abs_sub _ _).trans ?_
  rw [abs_one, abs_mul, abs_of_nonneg hc]
  gcongr

theorem xiOf_measurable : Measurable fun z : Fin n → ℝ => xiOf n (rankDist z) := by
  have := rankDist_measurable (n := n)
  unfold xiOf
  fun_prop

/-- the mean product of the statistic and the sum -/
theorem stepSum_xi (hn : 2 ≤ n) : ∫ z, xiOf n (rankDist z) * stepSum z ∂unifs n ≤
    -(3 / (2 * ((n : ℝ) ^ 2 - 1))) * (((n : ℝ) - 1) * (((n : ℝ) - 2) * (4 / 45) - 8)) := by
  have hn2 : (2 : ℝ) ≤ n := by exact_mod_cast hn
  have hc : 0 ≤ 3 / (2 * ((n : ℝ) ^ 2 - 1)) := div_nonneg (by norm_num) (by nlinarith)
  have e : ∀ z : Fin n → ℝ, xiOf n (rankDist z) * stepSum z = stepSum z - 3 / (2 * ((n : ℝ) ^ 2 - 1)) * (stepSum z * rankDist z) := fun z => by
    unfold xiOf; ring
  have i1 : Integrable (fun z : Fin n → ℝ => stepSum z) (unifs n) := bounded_integrable stepSum_measurable stepSum_bound
  have i2 : Integrable (fun z : Fin n → ℝ => 3 / (2 * ((n : ℝ) ^ 2 - 1)) * (stepSum z * rankDist z)) (unifs n) :=
    (bounded_integrable (c := n * (2 * n * n)) (stepSum_measurable.mul rankDist_measurable) fun z => by
      rw [Pi.mul_apply, abs_mul]
      exact mul_le_mul (stepSum_bound z) (rankDist_bound z) (abs_nonneg _) (by positivity)).const_mul _
  simp only [e]
  rw [integral_sub i1 i2, stepSum_mean, integral_const_mul, zero_sub, neg_mul]
  exact neg_le_neg (mul_le_mul_of_nonneg_left (stepSum_rankDist (by omega)) hc)

/-- the mean square distance of the studentised statistic from the normalised sum -/
theorem proj_sq (hn : 4 ≤ n) (κ : ℝ) (hκ : 0 ≤ κ) (v : ℝ) (hv : v = (2 * (n : ℝ) ^ 2 + 7) / (5 * (n ^ 2 - 1))) :
    ∫ z, (zOf n (rankDist z) + κ / Real.sqrt n * stepSum z) ^ 2 ∂unifs n ≤
      n * (((n : ℝ) - 2) * (4 * n - 7) / (10 * ((n : ℝ) + 1) * ((n : ℝ) - 1) ^ 2)) / v -
        2 * κ / Real.sqrt v * (3 / (2 * ((n : ℝ) ^ 2 - 1)) * (((n : ℝ) - 1) * (((n : ℝ) - 2) * (4 / 45) - 8))) + κ ^ 2 / n * (((n : ℝ) - 1) * (2 / 45)) := by
  have hn4 : (4 : ℝ) ≤ n := by exact_mod_cast hn
  have hn0 : (0 : ℝ) < n := by linarith
  have hd : 0 < 5 * ((n : ℝ) ^ 2 - 1) := by nlinarith
  have hv0 : 0 < v := by rw [hv]; positivity
  have hs0 : 0 < Real.sqrt v := Real.sqrt_pos.mpr hv0
  have hsn : 0 < Real.sqrt n := Real.sqrt_pos.mpr hn0
  have hsn2 : Real.sqrt n ^ 2 = n := Real.sq_sqrt hn0.le
  have hs2 : Real.sqrt v ^ 2 = v := Real.sq_sqrt hv0.le
  have e : ∀ z : Fin n → ℝ, (zOf n (rankDist z) + κ / Real.sqrt n * stepSum z) ^ 2 =
      n / v * xiOf n (rankDist z) ^ 2 + 2 * κ / Real.sqrt v * (xiOf n (rankDist z) * stepSum z) + κ ^ 2 / n * stepSum z ^ 2 := by
    intro z
    unfold zOf
    rw [← hv]
    calc (Real.sqrt n * xiOf n (rankDist z) / Real.sqrt v + κ / Real.sqrt n * stepSum z) ^ 2
        = Real.sqrt n ^ 2 / Real.sqrt v ^ 2 * xiOf n (rankDist z) ^ 2 + 2 * κ / Real.sqrt v * (xiOf n (rankDist z) * stepSum z) + κ ^ 2 / Real.sqrt n ^ 2 * stepSum z ^ 2 := by
          field_simp
          ring
      _ = _ := by rw [hsn2, hs2]
  obtain ⟨B, hB⟩ : ∃ B, B = 1 + 3 / (2 * ((n : ℝ) ^ 2 - 1)) * (2 * n * n) := ⟨_, rfl⟩
  have hb : ∀ z : Fin n → ℝ, |xiOf n (rankDist z)| ≤ B := fun z => by rw [hB]; exact xiOf_bound _ (rankDist_bound z) (by omega)
  have hB0 : 0 ≤ B := (abs_nonneg _).trans (hb fun _ => 0)
  have i1 : Integrable (fun z : Fin n → ℝ => n / v * xiOf n (rankDist z) ^ 2) (unifs n) :=
    (bounded_integrable (c := B ^ 2) (xiOf_measurable.pow_const 2) fun z => by rw [abs_pow]; exact pow_le_pow_left₀ (abs_nonneg _) (hb z) 2).const_mul _
  have i2 : Integrable (fun z : Fin n → ℝ => 2 * κ / Real.sqrt v * (xiOf n (rankDist z) * stepSum z)) (unifs n) :=
    (bounded_integrable (c := B * n) (xiOf_measurable.mul stepSum_measurable) fun z => by
      rw [Pi.mul_apply, abs_mul]; exact mul_le_mul (hb z) (stepSum_bound z) (abs_nonneg _) hB0).const_mul _
  have i3 : Integrable (fun z : Fin n → ℝ => κ ^ 2 / n * stepSum z ^ 2) (unifs n) :=
    (bounded_integrable (c := (n : ℝ) ^ 2) (stepSum_measurable.pow_const 2) fun z => by
      rw [abs_pow]; exact pow_le_pow_left₀ (abs_nonneg _) (stepSum_bound z) 2).const_mul _
  have i12 : Integrable (fun z : Fin n → ℝ => n / v * xiOf n (rankDist z) ^ 2 + 2 * κ / Real.sqrt v * (xiOf n (rankDist z) * stepSum z)) (unifs n) := i1.add i2
  simp only [e]
  rw [integral_add i12 i3, integral_add i1 i2, integral_const_mul, integral_const_mul, integral_const_mul, integral_xiOf_sq hn, stepSum_sq (by omega)]
  have h := mul_le_mul_of_nonneg_left (stepSum_xi (n := n) (by omega)) (show 0 ≤ 2 * κ / Real.sqrt v by positivity)
  have e2 : (n : ℝ) / v * (((n : ℝ) - 2) * (4 * n - 7) / (10 * ((n : ℝ) + 1) * ((n : ℝ) - 1) ^ 2)) =
      n * (((n : ℝ) - 2) * (4 * n - 7) / (10 * ((n : ℝ) + 1) * ((n : ℝ) - 1) ^ 2)) / v := by ring
  rw [e2]
  linarith

/-- it tends to 0 -/
theorem proj_tendsto : Tendsto (fun n : ℕ => ∫ z, (zOf n (rankDist z) + Real.sqrt (45 / 2) / Real.sqrt n * stepSum z) ^ 2 ∂unifs n) atTop (𝓝 0) := by
  obtain ⟨κ, hκ⟩ : ∃ κ, κ = Real.sqrt (45 / 2) := ⟨_, rfl⟩
  have hκ0 : 0 ≤ κ := by rw [hκ]; exact Real.sqrt_nonneg _
  have hκ2 : κ ^ 2 = 45 / 2 := by rw [hκ]; exact Real.sq_sqrt (by norm_num)
  rw [← hκ]
  let V : ℝ → ℝ := fun x => (2 + 7 * x ^ 2) / (5 * (1 - x ^ 2))
  let R : ℝ → ℝ := fun x => (1 - 2 * x) * (4 - 7 * x) / (10 * (1 + x) * (1 - x) ^ 2) / V x -
    2 * κ / Real.sqrt (V x) * (3 / 2 * ((1 - 2 * x) * (4 / 45) - 8 * x) / (1 + x)) + (1 - x)
  have hV0 : V 0 = 2 / 5 := by simp [V]
  have hVc : ContinuousAt V 0 := by
    refine ContinuousAt.div (by fun_prop) (by fun_prop) (by norm_num)
  have hR0 : R 0 = 0 := by
    have h1 : κ = 15 / 2 * Real.sqrt (2 / 5) := by
      rw [hκ, show (45 : ℝ) / 2 = (15 / 2) ^ 2 * (2 / 5) by norm_num, Real.sqrt_mul (by positivity), Real.sqrt_sq (by norm_num)]
    have h2 : 0 < Real.sqrt (2 / 5 : ℝ) := Real.sqrt_pos.mpr (by norm_num)
    simp only [R, hV0]
    rw [h1]
    field_simp
    norm_num
  have hRc : ContinuousAt R 0 := by
    have hs : ContinuousAt (fun x => Real.sqrt (V x)) 0 := hVc.sqrt
    refine ((ContinuousAt.div (ContinuousAt.div (by fun_prop) (by fun_prop) (by norm_num)) hVc (by rw [hV0]; norm_num)).sub
      ((ContinuousAt.div (by fun_prop) hs (by rw [hV0]; exact (Real.sqrt_pos.mpr (by norm_num)).ne')).mul
        (ContinuousAt.div (by fun_prop) (by fun_prop) (by norm_num)))).add (by fun_prop)
  have hlim : Tendsto (fun n : ℕ => R (1 / (n : ℝ))) atTop (𝓝 0) := by
    have := hRc.tendsto.comp tendsto_one_div_atTop_nhds_zero_nat
    rwa [hR0] at this
  refine squeeze_zero' (Eventually.of_forall fun n => integral_nonneg fun z => sq_nonneg _) ?_ hlim
  filter_upwards [eventually_ge_atTop 4] with n hn
  have hn4 : (4 : ℝ) ≤ n := by exact_mod_cast hn
  have hn0 : (n : ℝ) ≠ 0 := by linarith
  have hn1 : (n : ℝ) - 1 ≠ 0 := by linarith
  have hn2 : (n : ℝ) + 1 ≠ 0 := by linarith
  have hn3 : (n : ℝ) ^ 2 - 1 ≠ 0 := by nlinarith
  refine (proj_sq hn κ hκ0 _ rfl).trans (le_of_eq ?_)
  have eV : (2 * (n : ℝ) ^ 2 + 7) / (5 * (n ^ 2 - 1)) = V (1 / n) := by
    simp only [V]
    have : (1 : ℝ) - (1 / n) ^ 2 = (n ^ 2 - 1) / n ^ 2 := by field_simp
    rw [this]
    field_simp
  have e1 : (n : ℝ) * (((n : ℝ) - 2) * (4 * n - 7) / (10 * ((n : ℝ) + 1) * ((n : ℝ) - 1) ^ 2)) =
      (1 - 2 * (1 / n)) * (4 - 7 * (1 / n)) / (10 * (1 + 1 / (n : ℝ)) * (1 - 1 / n) ^ 2) := by
    have a1 : (1 : ℝ) - 1 / n = (n - 1) / n := by field_simp
    have a2 : (1 : ℝ) + 1 / n = (n + 1) / n := by field_simp
    rw [a1, a2]
    field_simp
  have e2 : 3 / (2 * ((n : ℝ) ^ 2 - 1)) * (((n : ℝ) - 1) * (((n : ℝ) - 2) * (4 / 45) - 8)) =
      3 / 2 * ((1 - 2 * (1 / n)) * (4 / 45) - 8 * (1 / n)) / (1 + 1 / (n : ℝ)) := by
    have a2 : (1 : ℝ) + 1 / n = (n + 1) / n := by field_simp
    rw [a2, show (n : ℝ) ^ 2 - 1 = (n - 1) * (n + 1) by ring]
    field_simp
  have e3 : κ ^ 2 / n * (((n : ℝ) - 1) * (2 / 45)) = 1 - 1 / n := by
    rw [hκ2]
    field_simp
  rw [eV, e1, e2, e3]

end Medil

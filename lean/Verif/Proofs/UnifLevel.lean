import Verif.Proofs.UnifLimit
import Mathlib.Probability.CDF
import Mathlib.MeasureTheory.Measure.Portmanteau
import Mathlib.MeasureTheory.Measure.LevyConvergence
/-
  The p-values of `xicorr` for independent uniform variables are in the limit uniformly distributed.
-/
namespace Medil
open MeasureTheory ProbabilityTheory Finset Filter Topology
variable {n : ℕ}

/-- the distribution function of the standard normal law -/
noncomputable def normCdf : ℝ → ℝ := cdf (gaussianReal 0 1)

theorem normCdf_continuous : Continuous normCdf := by
  have hna : NullSingletonClass (gaussianReal 0 1) := nullSingletonClass_gaussianReal (by norm_num)
  rw [continuous_iff_continuousAt]
  intro a
  unfold normCdf
  rw [(monotone_cdf _).continuousAt_iff_leftLim_eq_rightLim, StieltjesFunction.rightLim_eq]
  have h1 := (cdf (gaussianReal 0 1)).measure_singleton a
  rw [measure_cdf, measure_singleton, eq_comm, ENNReal.ofReal_eq_zero] at h1
  have h2 := (monotone_cdf (gaussianReal 0 1)).leftLim_le (le_refl a)
  exact le_antisymm h2 (by linarith)

theorem normCdf_strictMono : StrictMono normCdf := by
  intro a b hab
  have hop : (gaussianReal 0 1).IsOpenPosMeasure := (gaussianReal_absolutelyContinuous' 0 (v := 1) (by norm_num)).isOpenPosMeasure
  have h1 : 0 < gaussianReal 0 1 (Set.Ioo a b) := isOpen_Ioo.measure_pos _ (Set.nonempty_Ioo.mpr hab)
  have h2 : 0 < (gaussianReal 0 1).real (Set.Ioo a b) := by rw [measureReal_def]; exact ENNReal.toReal_pos h1.ne' (by finiteness)
  unfold normCdf
  rw [cdf_eq_real, cdf_eq_real]
  have h3 : (gaussianReal 0 1).real (Set.Iic a) + (gaussianReal 0 1).real (Set.Ioo a b) = (gaussianReal 0 1).real (Set.Iic a ∪ Set.Ioo a b) :=
    (measureReal_union (Set.disjoint_left.mpr fun x h1 h2 => absurd h2.1 (not_lt.mpr h1)) measurableSet_Ioo).symm
  have h4 : (gaussianReal 0 1).real (Set.Iic a ∪ Set.Ioo a b) ≤ (gaussianReal 0 1).real (Set.Iic b) :=
    measureReal_mono (Set.union_subset (Set.Iic_subset_Iic.mpr hab.le) fun x hx => hx.2.le)
  linarith

/-- small p-values are large values of the statistic -/
theorem normTail {level : ℝ} (h0 : 0 < level) (h1 : level < 1) : ∃ q, {t : ℝ | 1 - normCdf t < level} = Set.Ioi q ∧ gaussianReal 0 1 (Set.Ioi q) = ENNReal.ofReal level := by
  have hb : ∀ᶠ t in atBot, normCdf t < 1 - level := (tendsto_cdf_atBot (gaussianReal 0 1)).eventually_lt_const (by linarith)
  have ht : ∀ᶠ t in atTop, 1 - level < normCdf t := (tendsto_cdf_atTop (gaussianReal 0 1)).eventually_const_lt (by linarith)
  obtain ⟨a, ha⟩ := hb.exists
  obtain ⟨b, hb⟩ := ht.exists
  obtain ⟨q, hq⟩ := mem_range_of_exists_le_of_exists_ge normCdf_continuous ⟨a, ha.le⟩ ⟨b, hb.le⟩
  refine ⟨q, ?_, ?_⟩
  · ext t
    simp only [Set.mem_ofPred_eq, Set.mem_Ioi]
    rw [← normCdf_strictMono.lt_iff_lt (a := q), hq]
    constructor <;> intro h <;> linarith
  · have h2 : (gaussianReal 0 1).real (Set.Iic q) = 1 - level := by rw [← cdf_eq_real]; exact hq
    rw [← Set.compl_Iic]
    have h3 := probReal_compl_eq_one_sub (μ := gaussianReal 0 1) (measurableSet_Iic (a := q))
    rw [h2] at h3
    rw [← ofReal_measureReal, h3]
    congr 1
    ring

/-- the studentised statistic with the given variance -/
noncomputable def zWith (v : ℕ → ℝ) (n : ℕ) (d : ℝ) : ℝ := Real.sqrt n * xiOf n d / Real.sqrt (v n)

/-- the variance in use when there are no ties -/
noncomputable def tieFreeVar (ties : Bool) (n : ℕ) : ℝ := if ties then (2 * n ^ 2 + 7) / (5 * ((n : ℝ) ^ 2 - 1)) else 2 / 5

theorem zOf_sq_le (hn : 4 ≤ n) : ∫ z, zOf n (rankDist z) ^ 2 ∂unifs n ≤ 1 := by
  have hn4 : (4 : ℝ) ≤ n := by exact_mod_cast hn
  have hd : 0 < 5 * ((n : ℝ) ^ 2 - 1) := by nlinarith
  obtain ⟨v, hv⟩ : ∃ v, v = (2 * (n : ℝ) ^ 2 + 7) / (5 * (n ^ 2 - 1)) := ⟨_, rfl⟩
  have hv5 : 2 / 5 ≤ v := by rw [hv, div_le_div_iff₀ (by norm_num) hd]; nlinarith
  have hv0 : 0 < v := by linarith
  have e : ∀ z : Fin n → ℝ, zOf n (rankDist z) ^ 2 = n / v * xiOf n (rankDist z) ^ 2 := fun z => by
    unfold zOf
    rw [← hv, div_pow, mul_pow, Real.sq_sqrt (by linarith), Real.sq_sqrt hv0.le]
    ring
  simp only [e]
  rw [integral_const_mul, integral_xiOf_sq hn]
  have h1 : (0 : ℝ) < (10 * ((n : ℝ) + 1) * ((n : ℝ) - 1) ^ 2) := by
    have : (0 : ℝ) < ((n : ℝ) - 1) ^ 2 := by nlinarith
    positivity
  have h2 : (n : ℝ) * (((n : ℝ) - 2) * (4 * n - 7) / (10 * ((n : ℝ) + 1) * ((n : ℝ) - 1) ^ 2)) ≤ 2 / 5 := by
    rw [← mul_div_assoc, div_le_div_iff₀ h1 (by norm_num)]
    nlinarith [sq_nonneg ((n : ℝ) - 4), mul_nonneg (show (0 : ℝ) ≤ n by linarith) (sq_nonneg ((n : ℝ) - 1))]
  calc (n : ℝ) / v * (((n : ℝ) - 2) * (4 * n - 7) / (10 * ((n : ℝ) + 1) * ((n : ℝ) - 1) ^ 2))
      = n * (((n : ℝ) - 2) * (4 * n - 7) / (10 * ((n : ℝ) + 1) * ((n : ℝ) - 1) ^ 2)) / v := by ring
    _ ≤ v / v := by gcongr; exact h2.trans hv5
    _ = 1 := div_self hv0.ne'

theorem tieFreeVar_ratio (ties : Bool) : Tendsto (fun n : ℕ => Real.sqrt (tieFreeVar true n) / Real.sqrt (tieFreeVar ties n)) atTop (𝓝 1) := by
  have h1 : Tendsto (fun n : ℕ => tieFreeVar true n) atTop (𝓝 (2 / 5)) := by
    have hx := tendsto_one_div_atTop_nhds_zero_nat (𝕜 := ℝ)
    have h2 : Tendsto (fun n : ℕ => (2 + 7 * (1 / (n : ℝ)) ^ 2) / (5 * (1 - (1 / (n : ℝ)) ^ 2))) atTop (𝓝 ((2 + 7 * 0 ^ 2) / (5 * (1 - 0 ^ 2)))) :=
      Tendsto.div (((hx.pow 2).const_mul 7).const_add 2) (((hx.pow 2).const_sub 1).const_mul 5) (by norm_num)
    rw [show ((2 : ℝ) + 7 * 0 ^ 2) / (5 * (1 - 0 ^ 2)) = 2 / 5 by norm_num] at h2
    refine h2.congr' ?_
    filter_upwards [eventually_ge_atTop 2] with n hn
    have hn2 : (2 : ℝ) ≤ n := by exact_mod_cast hn
    have hn0 : (n : ℝ) ≠ 0 := by linarith
    have hn3 : (n : ℝ) ^ 2 - 1 ≠ 0 := by nlinarith
    unfold tieFreeVar
    rw [if_pos rfl]
    have : (1 : ℝ) - (1 / n) ^ 2 = (n ^ 2 - 1) / n ^ 2 := by field_simp
    rw [this]
    field_simp
  have hs : 0 < Real.sqrt (2 / 5 : ℝ) := Real.sqrt_pos.mpr (by norm_num)
  have h3 : Tendsto (fun n : ℕ => tieFreeVar ties n) atTop (𝓝 (2 / 5)) := by
    cases ties
    · simp only [tieFreeVar]
      exact tendsto_const_nhds
    · exact h1
  have := (h1.sqrt).div (h3.sqrt) hs.ne'
  rwa [div_self hs.ne'] at this

theorem zWith_measurable (v : ℕ → ℝ) : Measurable fun z : Fin n → ℝ => zWith v n (rankDist z) := by
  have := xiOf_measurable (n := n)
  unfold zWith
  fun_prop

/-- the characteristic function with either variance -/
theorem zWith_charFun (ties : Bool) (t : ℝ) :
    Tendsto (fun n : ℕ => charFun ((unifs n).map fun z => zWith (tieFreeVar ties) n (rankDist z)) t) atTop (𝓝 (Complex.exp (-(t : ℂ) ^ 2 / 2))) := by
  obtain ⟨c, hc⟩ : ∃ c : ℕ → ℝ, c = fun n => Real.sqrt (tieFreeVar true n) / Real.sqrt (tieFreeVar ties n) := ⟨_, rfl⟩
  have hcl : Tendsto c atTop (𝓝 1) := by rw [hc]; exact tieFreeVar_ratio ties
  have hz := zOf_charFun t
  have hdiff : Tendsto (fun n : ℕ => charFun ((unifs n).map fun z => zWith (tieFreeVar ties) n (rankDist z)) t -
      charFun ((unifs n).map fun z => zOf n (rankDist z)) t) atTop (𝓝 0) := by
    rw [Metric.tendsto_nhds]
    intro ε hε
    obtain ⟨δ, hδ, hδe⟩ : ∃ δ > 0, |t| * δ ≤ ε / 3 := by
      refine ⟨ε / 3 / (|t| + 1), by positivity, ?_⟩
      rw [← mul_div_assoc, div_le_iff₀ (by positivity)]
      nlinarith [abs_nonneg t]
    have h1 : Tendsto (fun n => |t| * ((c n - 1) ^ 2 / δ)) atTop (𝓝 0) := by
      have := ((((hcl.sub_const 1).pow 2).div_const δ).const_mul |t|)
      simpa using this
    filter_upwards [h1.eventually_lt_const (show 0 < ε / 3 by positivity), eventually_ge_atTop 4] with n h2 hn
    rw [dist_zero_right]
    have hn4 : (4 : ℝ) ≤ n := by exact_mod_cast hn
    have hv : 0 < tieFreeVar true n := by
      unfold tieFreeVar
      rw [if_pos rfl]
      have : 0 < 5 * ((n : ℝ) ^ 2 - 1) := by nlinarith
      positivity
    have e : ∀ z : Fin n → ℝ, zWith (tieFreeVar ties) n (rankDist z) - zOf n (rankDist z) = (c n - 1) * zOf n (rankDist z) := fun z => by
      have e1 : zOf n (rankDist z) = Real.sqrt n * xiOf n (rankDist z) / Real.sqrt (tieFreeVar true n) := rfl
      rw [e1, hc]
      unfold zWith
      have := (Real.sqrt_pos.mpr hv).ne'
      field_simp
    obtain ⟨B, hB⟩ := zOf_bound (n := n) (by omega)
    have hi : Integrable (fun z : Fin n → ℝ => (zWith (tieFreeVar ties) n (rankDist z) - zOf n (rankDist z)) ^ 2) (unifs n) := by
      simp only [e, mul_pow]
      exact (sq_integrable zOf_measurable hB).const_mul _
    have h3 := charFun_close (zWith_measurable _) zOf_measurable hi t hδ
    have h4 : ∫ z, (zWith (tieFreeVar ties) n (rankDist z) - zOf n (rankDist z)) ^ 2 ∂unifs n ≤ (c n - 1) ^ 2 := by
      simp only [e, mul_pow]
      rw [integral_const_mul]
      exact mul_le_of_le_one_right (sq_nonneg _) (zOf_sq_le hn)
    have h5 : |t| * (δ + (∫ z, (zWith (tieFreeVar ties) n (rankDist z) - zOf n (rankDist z)) ^ 2 ∂unifs n) / δ) ≤ |t| * δ + |t| * ((c n - 1) ^ 2 / δ) := by
      rw [mul_add]
      gcongr
    linarith
  have := hdiff.add hz
  simpa using this

/-- **the p-values are in the limit uniform** -/
theorem unifs_level (ties : Bool) {level : ℝ} (h0 : 0 < level) (h1 : level < 1) :
    Tendsto (fun n : ℕ => (unifs n).real {z | 1 - normCdf (zWith (tieFreeVar ties) n (rankDist z)) < level}) atTop (𝓝 level) := by
  let P : ℕ → ProbabilityMeasure ℝ := fun n => ⟨(unifs n).map fun z => zWith (tieFreeVar ties) n (rankDist z),
    Measure.isProbabilityMeasure_map (zWith_measurable _).aemeasurable⟩
  let Q : ProbabilityMeasure ℝ := ⟨gaussianReal 0 1, inferInstance⟩
  have hw : Tendsto P atTop (𝓝 Q) := by
    refine ProbabilityMeasure.tendsto_iff_tendsto_charFun.2 fun t => ?_
    have := zWith_charFun ties t
    simpa [P, Q, charFun_gaussianReal, neg_div] using this
  obtain ⟨q, hq, hql⟩ := normTail h0 h1
  have hna : NullSingletonClass (gaussianReal 0 1) := nullSingletonClass_gaussianReal (by norm_num)
  have hf : (Q : Measure ℝ) (frontier (Set.Ioi q)) = 0 := by
    rw [frontier_Ioi]
    exact measure_singleton (μ := gaussianReal 0 1) q
  have h := ProbabilityMeasure.tendsto_measure_of_null_frontier_of_tendsto' hw hf
  have h' : Tendsto (fun n => ((P n : Measure ℝ) (Set.Ioi q)).toReal) atTop (𝓝 ((Q : Measure ℝ) (Set.Ioi q)).toReal) :=
    (ENNReal.tendsto_toReal (by finiteness)).comp h
  have e1 : ((Q : Measure ℝ) (Set.Ioi q)).toReal = level := by
    show (gaussianReal 0 1 (Set.Ioi q)).toReal = level
    rw [hql, ENNReal.toReal_ofReal h0.le]
  rw [e1] at h'
  refine h'.congr fun n => ?_
  show ((unifs n).map (fun z => zWith (tieFreeVar ties) n (rankDist z)) (Set.Ioi q)).toReal = _
  rw [Measure.map_apply (zWith_measurable _) measurableSet_Ioi, ← hq]
  rfl

end Medil

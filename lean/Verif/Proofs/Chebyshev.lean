import Verif.Proofs.Consistency
import Verif.Spec.Prob
/-
  Probabilistic part of the consistency of `GaussianMCM._estimate_udg`: Chebyshev's inequality for the averages.
-/
namespace Medil
open MeasureTheory ProbabilityTheory Finset Filter Topology
variable {M : Nat}

/-- Chebyshev's inequality for an average of independent variables with common mean -/
theorem chebyshev_avg {Ω : Type} [MeasurableSpace Ω] {μ : Measure Ω} [IsProbabilityMeasure μ] {n : ℕ} (hn : 0 < n)
    (Y : Fin n → Ω → ℝ) (hi : iIndepFun Y μ) (hL : ∀ k, MemLp (Y k) 2 μ) (m K : ℝ) (hm : ∀ k, ∫ ω, Y k ω ∂μ = m)
    (hK : ∀ k, Var[Y k; μ] ≤ K) {δ : ℝ} (hδ : 0 < δ) :
    μ {ω | δ ≤ |(∑ k, Y k ω) / n - m|} ≤ ENNReal.ofReal (K / (n * δ ^ 2)) := by
  have hn' : (0 : ℝ) < n := by exact_mod_cast hn
  have hS : MemLp (∑ k, Y k) 2 μ := memLp_finsetSum' _ fun k _ => hL k
  have hc := meas_ge_le_variance_div_sq hS (mul_pos hn' hδ)
  have hmean : ∫ ω, (∑ k, Y k) ω ∂μ = n * m := by
    simp only [Finset.sum_apply]
    rw [integral_finsetSum _ fun k _ => (hL k).integrable one_le_two]
    simp [hm]
  have hvar : Var[∑ k, Y k; μ] ≤ n * K := by
    rw [IndepFun.variance_sum (fun k _ => hL k) fun k _ l _ hkl => hi.indepFun hkl]
    refine (sum_le_sum fun k _ => hK k).trans ?_
    simp
  refine (measure_mono fun ω hω => ?_).trans (hc.trans (ENNReal.ofReal_le_ofReal ?_))
  · simp only [Set.mem_ofPred_eq] at hω ⊢
    rw [hmean]
    have e : (∑ k, Y k) ω - n * m = n * ((∑ k, Y k ω) / n - m) := by
      simp only [Finset.sum_apply]
      field_simp
    rw [e, abs_mul, abs_of_pos hn']
    exact mul_le_mul_of_nonneg_left hω hn'.le
  · have : K / (n * δ ^ 2) = n * K / (n * δ) ^ 2 := by field_simp
    rw [this]
    exact div_le_div_of_nonneg_right hvar (by positivity)

/-- `∫ X²Y² ≤ K` if both centred fourth moments are at most `K`, and the square is integrable -/
theorem prod_memLp {Ω : Type} [MeasurableSpace Ω] {μ : Measure Ω} [IsProbabilityMeasure μ] {X Y : Ω → ℝ}
    (hX : MemLp X 4 μ) (hY : MemLp Y 4 μ) : MemLp (fun ω => X ω * Y ω) 2 μ := by
  have : ENNReal.HolderTriple 4 4 2 := ⟨by
    rw [show (4 : ENNReal) = 2 * 2 by norm_num, ENNReal.mul_inv (by simp) (by simp), ← two_mul, ← mul_assoc,
      ENNReal.mul_inv_cancel (by simp) (by simp), one_mul]⟩
  exact hY.mul hX

theorem pow4_integrable {Ω : Type} [MeasurableSpace Ω] {μ : Measure Ω} [IsProbabilityMeasure μ] {X : Ω → ℝ}
    (hX : MemLp X 4 μ) : Integrable (fun ω => X ω ^ 4) μ := by
  have := (prod_memLp hX hX).integrable_sq
  exact this.congr (Eventually.of_forall fun ω => by ring)

theorem prod_var {Ω : Type} [MeasurableSpace Ω] {μ : Measure Ω} [IsProbabilityMeasure μ] {X Y : Ω → ℝ} {K : ℝ}
    (hX : MemLp X 4 μ) (hY : MemLp Y 4 μ) (h1 : ∫ ω, X ω ^ 4 ∂μ ≤ K) (h2 : ∫ ω, Y ω ^ 4 ∂μ ≤ K) :
    Var[fun ω => X ω * Y ω; μ] ≤ K := by
  have hp := prod_memLp hX hY
  refine (variance_le_expectation_sq hp.aestronglyMeasurable).trans ?_
  have h4 := (pow4_integrable hX)
  have h5 := (pow4_integrable hY)
  calc ∫ ω, ((fun ω => X ω * Y ω) ^ 2) ω ∂μ ≤ ∫ ω, (1 / 2 * X ω ^ 4 + 1 / 2 * Y ω ^ 4) ∂μ := by
        refine integral_mono hp.integrable_sq ((h4.const_mul _).add (h5.const_mul _)) fun ω => ?_
        simp only [Pi.pow_apply]
        nlinarith [sq_nonneg (X ω ^ 2 - Y ω ^ 2)]
    _ = 1 / 2 * ∫ ω, X ω ^ 4 ∂μ + 1 / 2 * ∫ ω, Y ω ^ 4 ∂μ := by
        rw [integral_add (h4.const_mul _) (h5.const_mul _), integral_const_mul, integral_const_mul]
    _ ≤ K := by linarith

theorem lin_var {Ω : Type} [MeasurableSpace Ω] {μ : Measure Ω} [IsProbabilityMeasure μ] {X : Ω → ℝ} {K : ℝ}
    (hX : MemLp X 4 μ) (h1 : ∫ ω, X ω ^ 4 ∂μ ≤ K) : Var[X; μ] ≤ 1 + K := by
  have hX2 : MemLp X 2 μ := hX.mono_exponent (by norm_num)
  refine (variance_le_expectation_sq hX.aestronglyMeasurable).trans ?_
  have h4 := (pow4_integrable hX)
  calc ∫ ω, (X ^ 2) ω ∂μ ≤ ∫ ω, (1 + X ω ^ 4) ∂μ := by
        refine integral_mono hX2.integrable_sq ((integrable_const _).add h4) fun ω => ?_
        simp only [Pi.pow_apply]
        nlinarith [sq_nonneg (X ω ^ 2 - 1), sq_nonneg (X ω)]
    _ = 1 + ∫ ω, X ω ^ 4 ∂μ := by
        rw [integral_add (integrable_const _) h4]; simp
    _ ≤ 1 + K := by linarith

variable {Ω : Type} [MeasurableSpace Ω] {μ : Measure Ω} [IsProbabilityMeasure μ] {n : ℕ} {s : Ω → Fin n → Fin M → ℝ}
  {m : Fin M → ℝ} {C : Fin M → Fin M → ℝ} {K : ℝ}

theorem IndepRows.centred (h : IndepRows μ s m C K) (a : Fin n) (i : Fin M) : MemLp (fun ω => s ω a i - m i) 4 μ :=
  (h.moments a i).sub (memLp_const (m i))

theorem IndepRows.mean_bound (h : IndepRows μ s m C K) (hn : 0 < n) {δ : ℝ} (hδ : 0 < δ) (i : Fin M) :
    μ {ω | δ ≤ |(∑ k, (s ω k i - m i)) / n|} ≤ ENNReal.ofReal ((1 + K) / (n * δ ^ 2)) := by
  have hi : iIndepFun (fun k ω => s ω k i - m i) μ :=
    h.rows.comp (fun _ x => x i - m i) fun _ => (measurable_pi_apply i).sub_const _
  have := chebyshev_avg hn (fun k ω => s ω k i - m i) hi (fun k => (h.centred k i).mono_exponent (by norm_num)) 0 (1 + K)
    (fun k => by
      rw [integral_sub (((h.moments k i).mono_exponent (by norm_num : (1 : ENNReal) ≤ 4)).integrable le_rfl) (integrable_const _), h.mean_eq]
      simp)
    (fun k => lin_var (h.centred k i) (h.fourth k i)) hδ
  simpa using this

theorem IndepRows.cov_bound (h : IndepRows μ s m C K) (hn : 0 < n) {δ : ℝ} (hδ : 0 < δ) (i j : Fin M) :
    μ {ω | δ ≤ |(∑ k, (s ω k i - m i) * (s ω k j - m j)) / n - C i j|} ≤ ENNReal.ofReal ((1 + K) / (n * δ ^ 2)) := by
  have hi : iIndepFun (fun k ω => (s ω k i - m i) * (s ω k j - m j)) μ :=
    h.rows.comp (fun _ x => (x i - m i) * (x j - m j)) fun _ =>
      ((measurable_pi_apply i).sub_const _).mul ((measurable_pi_apply j).sub_const _)
  exact chebyshev_avg hn (fun k ω => (s ω k i - m i) * (s ω k j - m j)) hi (fun k => prod_memLp (h.centred k i) (h.centred k j))
    (C i j) (1 + K)
    (fun k => by
      have := h.cov_eq k i j
      rw [covariance, h.mean_eq, h.mean_eq] at this
      exact this)
    (fun k => (prod_var (h.centred k i) (h.centred k j) (h.fourth k i) (h.fourth k j)).trans (by linarith)) hδ

theorem IndepRows.near (h : IndepRows μ s m C K) (hn : 0 < n) {δ : ℝ} (hδ : 0 < δ) :
    μ {ω | ¬ Near m C δ (s ω)} ≤ (M + M * M) * ENNReal.ofReal ((1 + K) / (n * δ ^ 2)) := by
  have hsub : {ω | ¬ Near m C δ (s ω)} ⊆ (⋃ i, {ω | δ ≤ |(∑ k, (s ω k i - m i)) / n|}) ∪
      ⋃ i, ⋃ j, {ω | δ ≤ |(∑ k, (s ω k i - m i) * (s ω k j - m j)) / n - C i j|} := by
    intro ω hω
    by_contra hc
    simp only [Set.mem_union, Set.mem_iUnion, Set.mem_ofPred_eq, not_or, not_exists, not_le] at hc
    exact hω ⟨hc.1, hc.2⟩
  refine (measure_mono hsub).trans ((measure_union_le _ _).trans ?_)
  rw [add_mul]
  refine add_le_add ?_ ?_
  · refine (measure_iUnion_fintype_le _ _).trans ((sum_le_sum fun i _ => h.mean_bound hn hδ i).trans ?_)
    simp
  · refine (measure_iUnion_fintype_le _ _).trans ((sum_le_sum fun i _ => (measure_iUnion_fintype_le _ _).trans
      (sum_le_sum fun j _ => h.cov_bound hn hδ i j)).trans ?_)
    simp [mul_assoc]

/-- with the tolerance `√(c log n / n)` the probability of being far from the population values tends to 0 -/
theorem near_prob (K c : ℝ) (hc : 0 < c) (M : ℕ) : Tendsto (fun n : ℕ => (M + M * M : ENNReal) * ENNReal.ofReal ((1 + K) / (n * tol c n ^ 2))) atTop (𝓝 0) := by
  have h1 : Tendsto (fun n : ℕ => (1 + K) / (c * Real.log n)) atTop (𝓝 0) :=
    tendsto_const_nhds.div_atTop ((Real.tendsto_log_atTop.comp tendsto_natCast_atTop_atTop).const_mul_atTop hc)
  have h2 : Tendsto (fun n : ℕ => (1 + K) / (n * tol c n ^ 2)) atTop (𝓝 0) := by
    refine h1.congr' ?_
    filter_upwards [eventually_gt_atTop 0] with n hn
    have : (n : ℝ) ≠ 0 := by positivity
    rw [tol_sq hc.le]
    field_simp
  have h3 := ENNReal.tendsto_ofReal h2
  rw [ENNReal.ofReal_zero] at h3
  have := ENNReal.Tendsto.const_mul (a := (M + M * M : ENNReal)) h3 (Or.inr (by finiteness))
  simpa using this

end Medil

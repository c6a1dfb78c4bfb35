import Verif.Proofs.DcovPower
import Verif.Props.Dcov
import Mathlib.Probability.Distributions.Uniform
/-
  C167: the power of `estimate_UDG(sample, "dcov_fast")`.
-/
namespace Medil
open Finset MeasureTheory ProbabilityTheory Filter Topology
variable {M : Nat}

/-- Chebyshev's inequality for the average of a bounded function of independent rows with a common law -/
theorem IIDRows.avg {Ω : Type} [MeasurableSpace Ω] {μ : Measure Ω} [IsProbabilityMeasure μ] {n : ℕ} {s : Ω → Fin n → Fin M → ℝ}
    {ν : Measure (Fin M → ℝ)} (h : IIDRows μ s ν) (hn : 0 < n) {φ : (Fin M → ℝ) → ℝ} (hφ : Measurable φ) {B : ℝ}
    (hB : ∀ x, |φ x| ≤ B) {δ : ℝ} (hδ : 0 < δ) :
    μ {ω | δ ≤ |(∑ k, φ (s ω k)) / n - ∫ x, φ x ∂ν|} ≤ ENNReal.ofReal (B ^ 2 / (n * δ ^ 2)) := by
  have hm : ∀ k, AEStronglyMeasurable (fun ω => φ (s ω k)) μ := fun k => (hφ.comp_aemeasurable (h.meas k)).aestronglyMeasurable
  have hL : ∀ k, MemLp (fun ω => φ (s ω k)) 2 μ := fun k =>
    MemLp.of_bound (hm k) B (Eventually.of_forall fun ω => by rw [Real.norm_eq_abs]; exact hB _)
  refine chebyshev_avg hn (fun k ω => φ (s ω k)) (h.rows.comp (fun _ => φ) fun _ => hφ) hL (∫ x, φ x ∂ν) (B ^ 2) (fun k => ?_)
    (fun k => ?_) hδ
  · rw [← h.law k, integral_map (h.meas k) hφ.aestronglyMeasurable]
  · refine (variance_le_expectation_sq (hm k)).trans ?_
    calc ∫ ω, ((fun ω => φ (s ω k)) ^ 2) ω ∂μ ≤ ∫ _, B ^ 2 ∂μ := by
          refine integral_mono (hL k).integrable_sq (integrable_const _) fun ω => ?_
          simp only [Pi.pow_apply]
          rw [← sq_abs]
          exact pow_le_pow_left₀ (abs_nonneg _) (hB _) 2
      _ = B ^ 2 := by simp

/-- Markov's inequality for the second moments -/
theorem IIDRows.second {Ω : Type} [MeasurableSpace Ω] {μ : Measure Ω} [IsProbabilityMeasure μ] {n : ℕ} {s : Ω → Fin n → Fin M → ℝ}
    {ν : Measure (Fin M → ℝ)} (h : IIDRows μ s ν) (hn : 0 < n) (i j : Fin M) (h2i : MemLp (fun x : Fin M → ℝ => x i) 2 ν)
    (h2j : MemLp (fun x : Fin M → ℝ => x j) 2 ν) {T : ℝ} (hT : 0 < T) :
    μ {ω | T ≤ (∑ k, (s ω k i ^ 2 + s ω k j ^ 2)) / n} ≤ ENNReal.ofReal ((∫ x, (x i ^ 2 + x j ^ 2) ∂ν) / T) := by
  have hn0 : (0 : ℝ) < n := by exact_mod_cast hn
  have hi : Integrable (fun x : Fin M → ℝ => x i ^ 2 + x j ^ 2) ν := h2i.integrable_sq.add h2j.integrable_sq
  have hk : ∀ k, Integrable (fun ω => s ω k i ^ 2 + s ω k j ^ 2) μ := fun k => by
    rw [← h.law k] at hi
    exact hi.comp_aemeasurable (h.meas k)
  have hik : ∀ k, ∫ ω, (s ω k i ^ 2 + s ω k j ^ 2) ∂μ = ∫ x, (x i ^ 2 + x j ^ 2) ∂ν := fun k => by
    conv_rhs => rw [← h.law k]
    rw [integral_map (h.meas k) (by rw [h.law k]; exact hi.aestronglyMeasurable)]
  have hI : Integrable (fun ω => (∑ k, (s ω k i ^ 2 + s ω k j ^ 2)) / (n : ℝ)) μ := (integrable_finsetSum _ fun k _ => hk k).div_const _
  have hmean : ∫ ω, (∑ k, (s ω k i ^ 2 + s ω k j ^ 2)) / (n : ℝ) ∂μ = ∫ x, (x i ^ 2 + x j ^ 2) ∂ν := by
    rw [integral_div, integral_finsetSum _ fun k _ => hk k]
    simp only [hik, sum_const, card_univ, Fintype.card_fin, nsmul_eq_mul]
    field_simp
  have := mul_meas_ge_le_integral_of_nonneg (Eventually.of_forall fun ω => by
    show 0 ≤ (∑ k, (s ω k i ^ 2 + s ω k j ^ 2)) / (n : ℝ); positivity) hI T
  rw [hmean] at this
  rw [← ofReal_measureReal (μ := μ)]
  exact ENNReal.ofReal_le_ofReal ((le_div_iff₀ hT).mpr (by linarith))

/-- a sufficient condition for an edge -/
theorem dcovFast_join {N : ℕ} (hN : 0 < N) (lib : TestLib ℝ N) (s : Fin N → Fin M → ℝ) (level : ℝ) {i j : Fin M} (hij : i ≠ j)
    {p q r t κ T : ℝ} (hpq : p < q) (hrt : r < t) (hκ : 0 < κ) (hc : 0 < lib.critVal level)
    (h1 : κ ≤ |(∑ k, ramp p q (s k i) * ramp r t (s k j)) / N - (∑ k, ramp p q (s k i)) / N * ((∑ k, ramp r t (s k j)) / N)|)
    (h2 : (∑ k, (s k i ^ 2 + s k j ^ 2)) / N ≤ T)
    (h3 : lib.critVal level * (1 + T) ^ 2 + 4 * T ≤ N * (2 * κ ^ 2 / ((q - p) * (t - r)))) :
    ∃ u, estimateUDG lib s (.name "dcov_fast") level = .ok (u, none) ∧ u i j = true := by
  have hN0 : (0 : ℝ) < N := by exact_mod_cast hN
  refine ⟨_, rfl, ?_⟩
  unfold clearDiag
  rw [if_neg hij]
  beta_reduce
  rw [dbar_eq, dbar_eq]
  have hη : 0 < (q - p) * (t - r) := mul_pos (sub_pos.mpr hpq) (sub_pos.mpr hrt)
  have g1 := sampleDcov_ge (fun k => s k i) (fun k => s k j) hpq hrt
  have g2 : 4 * κ ^ 2 / ((q - p) * (t - r)) ≤ sampleDcov (fun k => s k i) (fun k => s k j) := by
    rw [div_le_iff₀ hη, mul_comm (sampleDcov _ _)]
    refine le_trans ?_ g1
    rw [← sq_abs (_ - _)]
    exact mul_le_mul_of_nonneg_left (pow_le_pow_left₀ hκ.le h1 2) (by norm_num)
  have hS : 0 < sampleDcov (fun k => s k i) (fun k => s k j) := lt_of_lt_of_le (by positivity) g2
  have hd : 0 < meanDist (fun k => s k i) * meanDist (fun k => s k j) := hS.trans_le (sampleDcov_le _ _ hN)
  have g3 := dcov_entry s i j
  have g4 : (∑ k, centredDist (fun k => s k i) k k * centredDist (fun k => s k j) k k) / (N : ℝ) ^ 2 ≤ 8 * T / N := by
    rw [sq, ← div_div]
    refine div_le_div_of_nonneg_right ?_ hN0.le
    rw [div_le_iff₀ hN0]
    rw [div_le_iff₀ hN0] at h2
    have := diag_le (fun k => s k i) (fun k => s k j)
    linarith
  have hx2 : ∀ l : Fin M, 0 ≤ (∑ k, s k l ^ 2) / (N : ℝ) := fun l => by positivity
  have hsum : (∑ k, s k i ^ 2) / (N : ℝ) + (∑ k, s k j ^ 2) / N ≤ T := by
    rw [← add_div, ← sum_add_distrib]; exact h2
  have g5 : meanDist (fun k => s k i) ≤ 1 + T := (meanDist_le _).trans (by linarith [hx2 i, hx2 j])
  have g6 : meanDist (fun k => s k j) ≤ 1 + T := (meanDist_le _).trans (by linarith [hx2 i, hx2 j])
  have g7 : meanDist (fun k => s k i) * meanDist (fun k => s k j) ≤ (1 + T) ^ 2 := by
    rw [sq]
    exact mul_le_mul g5 g6 (meanDist_nonneg _) ((meanDist_nonneg _).trans g5)
  unfold Fl.div
  rw [if_neg hd.ne']
  refine decide_eq_true ((le_div_iff₀ hd).mpr ?_)
  have g8 := mul_le_mul_of_nonneg_left g7 hc.le
  have g9 : (N : ℝ) * (2 * κ ^ 2 / ((q - p) * (t - r)) - 4 * T / N) ≤ N * (dcov s).1 i j := by
    refine mul_le_mul_of_nonneg_left ?_ hN0.le
    have e1 : 4 * κ ^ 2 / ((q - p) * (t - r)) = 2 * (2 * κ ^ 2 / ((q - p) * (t - r))) := by ring
    have e2 : 8 * T / (N : ℝ) = 2 * (4 * T / N) := by ring
    linarith
  have g10 : (N : ℝ) * (2 * κ ^ 2 / ((q - p) * (t - r)) - 4 * T / N) = N * (2 * κ ^ 2 / ((q - p) * (t - r))) - 4 * T := by
    field_simp
  linarith

/-- two dependent columns have correlated ramps, also in large samples -/
theorem ramp_cov (ν : Measure (Fin M → ℝ)) [IsProbabilityMeasure ν] (i j : Fin M)
    (hdep : ¬ IndepFun (fun x : Fin M → ℝ => x i) (fun x => x j) ν) :
    ∃ p q r t κ : ℝ, p < q ∧ r < t ∧ 0 < κ ∧ ∀ ε : ENNReal, 0 < ε → ∃ n0, 0 < n0 ∧ ∀ n, n0 ≤ n → ∀ (Ω : Type) [MeasurableSpace Ω]
      (μ : Measure Ω) [IsProbabilityMeasure μ] (s : Ω → Fin n → Fin M → ℝ), IIDRows μ s ν →
      μ {ω | ¬ κ ≤ |(∑ k, ramp p q (s ω k i) * ramp r t (s ω k j)) / n - (∑ k, ramp p q (s ω k i)) / n * ((∑ k, ramp r t (s ω k j)) / n)|} ≤ ε := by
  -- two correlated ramps
  have hex : ∃ p q r t : ℝ, p < q ∧ r < t ∧ ∫ x, ramp p q (x i) * ramp r t (x j) ∂ν -
      (∫ x, ramp p q (x i) ∂ν) * ∫ x, ramp r t (x j) ∂ν ≠ 0 := by
    by_contra hcon
    push Not at hcon
    exact hdep (indep_of_ramps (measurable_pi_apply i) (measurable_pi_apply j) fun p q r t hpq hrt =>
      sub_eq_zero.mp (hcon p q r t hpq hrt))
  obtain ⟨p, q, r, t, hpq, hrt, hcov⟩ := hex
  obtain ⟨a, ha⟩ : ∃ a, a = ∫ x, ramp p q (x i) * ramp r t (x j) ∂ν := ⟨_, rfl⟩
  obtain ⟨b, hb⟩ : ∃ b, b = ∫ x, ramp p q (x i) ∂ν := ⟨_, rfl⟩
  obtain ⟨d, hd⟩ : ∃ d, d = ∫ x, ramp r t (x j) ∂ν := ⟨_, rfl⟩
  rw [← ha, ← hb, ← hd] at hcov
  have hq : 0 < q - p := sub_pos.mpr hpq
  have ht : 0 < t - r := sub_pos.mpr hrt
  obtain ⟨κ, hκ⟩ : ∃ κ, κ = |a - b * d| / 2 := ⟨_, rfl⟩
  have hκ0 : 0 < κ := by rw [hκ]; have := abs_pos.mpr hcov; positivity
  refine ⟨p, q, r, t, κ, hpq, hrt, hκ0, fun ε hε => ?_⟩
  obtain ⟨B, hB⟩ : ∃ B, B = 1 + (q - p) + (t - r) := ⟨_, rfl⟩
  have hB1 : 1 ≤ B := by linarith
  obtain ⟨δ, hδ⟩ : ∃ δ, δ = κ / B := ⟨_, rfl⟩
  have hδ0 : 0 < δ := by rw [hδ]; positivity
  have hδκ : δ * B = κ := by rw [hδ]; field_simp
  have hn1 : Tendsto (fun n : ℕ => 3 * ENNReal.ofReal ((B ^ 2) ^ 2 / (n * δ ^ 2))) atTop (𝓝 0) := by
    have h1 : Tendsto (fun n : ℕ => (B ^ 2) ^ 2 / (n * δ ^ 2)) atTop (𝓝 0) :=
      tendsto_const_nhds.div_atTop (tendsto_natCast_atTop_atTop.atTop_mul_const (by positivity))
    have h2 := ENNReal.tendsto_ofReal h1
    rw [ENNReal.ofReal_zero] at h2
    simpa using ENNReal.Tendsto.const_mul (a := 3) h2 (Or.inr (by finiteness))
  obtain ⟨n0, h0⟩ := eventually_atTop.mp ((hn1.eventually (gt_mem_nhds hε)).and (eventually_gt_atTop 0))
  refine ⟨n0, (h0 n0 le_rfl).2, fun n hn Ω _ μ _ s hs => ?_⟩
  obtain ⟨h3, hn0⟩ := h0 n hn
  have rg : ∀ x, |ramp p q x| ≤ q - p ∧ |ramp r t x| ≤ t - r := fun x =>
    ⟨by rw [abs_of_nonneg (ramp_mem hpq.le x).1]; exact (ramp_mem hpq.le x).2,
      by rw [abs_of_nonneg (ramp_mem hrt.le x).1]; exact (ramp_mem hrt.le x).2⟩
  have m1 : Measurable fun x : Fin M → ℝ => ramp p q (x i) := (ramp_measurable p q).comp (measurable_pi_apply i)
  have m2 : Measurable fun x : Fin M → ℝ => ramp r t (x j) := (ramp_measurable r t).comp (measurable_pi_apply j)
  have hBB : B ≤ B ^ 2 := by nlinarith
  have E1 := hs.avg hn0 (m1.mul m2) (B := B ^ 2) (fun x => by
    rw [Pi.mul_apply, abs_mul, sq]
    exact mul_le_mul ((rg _).1.trans (by linarith)) ((rg _).2.trans (by linarith)) (abs_nonneg _) (by linarith)) hδ0
  have E2 := hs.avg hn0 m1 (B := B ^ 2) (fun x => (rg _).1.trans (by linarith)) hδ0
  have E3 := hs.avg hn0 m2 (B := B ^ 2) (fun x => (rg _).2.trans (by linarith)) hδ0
  refine (measure_mono (t := {ω | δ ≤ |(∑ k, ramp p q (s ω k i) * ramp r t (s ω k j)) / n - a|} ∪
    {ω | δ ≤ |(∑ k, ramp p q (s ω k i)) / n - b|} ∪ {ω | δ ≤ |(∑ k, ramp r t (s ω k j)) / n - d|}) ?_).trans ?_
  · intro ω hω
    by_contra hcon
    simp only [Set.mem_union, Set.mem_ofPred_eq, not_or, not_le] at hcon
    obtain ⟨⟨c1, c2⟩, c3⟩ := hcon
    refine hω ?_
    obtain ⟨A, hA⟩ : ∃ A, A = (∑ k, ramp p q (s ω k i) * ramp r t (s ω k j)) / n := ⟨_, rfl⟩
    obtain ⟨G, hG⟩ : ∃ G, G = (∑ k, ramp p q (s ω k i)) / n := ⟨_, rfl⟩
    obtain ⟨H, hH⟩ : ∃ H, H = (∑ k, ramp r t (s ω k j)) / n := ⟨_, rfl⟩
    rw [← hA] at c1
    rw [← hG] at c2
    rw [← hH] at c3
    rw [← hA, ← hG, ← hH]
    have hn0' : (0 : ℝ) < n := by exact_mod_cast hn0
    have hGb : |G| ≤ q - p := by
      rw [hG, abs_div, abs_of_pos hn0', div_le_iff₀ hn0']
      refine (abs_sum_le_sum_abs _ _).trans ((sum_le_sum fun k _ => (rg (s ω k i)).1).trans (le_of_eq ?_))
      simp only [sum_const, card_univ, Fintype.card_fin, nsmul_eq_mul]; ring
    have hdb : |d| ≤ t - r := by
      rw [hd, abs_of_nonneg (integral_nonneg fun x => (ramp_mem hrt.le _).1)]
      calc ∫ x, ramp r t (x j) ∂ν ≤ ∫ _, (t - r) ∂ν := by
            refine integral_mono ?_ (integrable_const _) fun x => (ramp_mem hrt.le _).2
            exact (MemLp.of_bound (p := 1) m2.aestronglyMeasurable (t - r) (Eventually.of_forall fun x => by
              rw [Real.norm_eq_abs]; exact (rg _).2)).integrable le_rfl
        _ = t - r := by simp
    have e : A - G * H = (a - b * d) + ((A - a) - (G - b) * d - G * (H - d)) := by ring
    have e2 : |(A - a) - (G - b) * d - G * (H - d)| ≤ κ := by
      rw [← hδκ, hB]
      refine (abs_sub _ _).trans ((add_le_add_left (abs_sub _ _) _).trans ?_)
      rw [abs_mul, abs_mul]
      have f1 := mul_le_mul c2.le hdb (abs_nonneg _) hδ0.le
      have f2 := mul_le_mul hGb c3.le (abs_nonneg _) hq.le
      linarith
    have e3 : |a - b * d| = 2 * κ := by rw [hκ]; ring
    have e4 := abs_sub_abs_le_abs_sub (a - b * d) (A - G * H)
    rw [show (a - b * d) - (A - G * H) = -((A - a) - (G - b) * d - G * (H - d)) by rw [e]; ring, abs_neg] at e4
    linarith
  · refine le_trans ?_ h3.le
    refine (measure_union_le _ _).trans ((add_le_add_left (measure_union_le _ _) _).trans ?_)
    rw [show (3 : ENNReal) = 1 + 1 + 1 by norm_num, add_mul, add_mul, one_mul, ha, hb, hd]
    exact add_le_add (add_le_add E1 E2) E3

/-- the second moments stay bounded with high probability -/
theorem second_bound (ν : Measure (Fin M → ℝ)) [IsProbabilityMeasure ν] (i j : Fin M) (h2i : MemLp (fun x : Fin M → ℝ => x i) 2 ν)
    (h2j : MemLp (fun x : Fin M → ℝ => x j) 2 ν) (ε : ENNReal) (hε : 0 < ε) : ∃ T : ℝ, 0 < T ∧ ∀ n, 0 < n → ∀ (Ω : Type) [MeasurableSpace Ω]
      (μ : Measure Ω) [IsProbabilityMeasure μ] (s : Ω → Fin n → Fin M → ℝ), IIDRows μ s ν →
      μ {ω | ¬ (∑ k, (s ω k i ^ 2 + s ω k j ^ 2)) / n ≤ T} ≤ ε := by
  have h1 : Tendsto (fun T : ℝ => (∫ x, (x i ^ 2 + x j ^ 2) ∂ν) / T) atTop (𝓝 0) := tendsto_const_nhds.div_atTop tendsto_id
  have h3 := ENNReal.tendsto_ofReal h1
  rw [ENNReal.ofReal_zero] at h3
  obtain ⟨T, h4, hT0⟩ := ((h3.eventually (gt_mem_nhds hε)).and (eventually_gt_atTop 0)).exists
  refine ⟨T, hT0, fun n hn Ω _ μ _ s hs => (measure_mono fun ω hω => ?_).trans ((hs.second hn i j h2i h2j hT0).trans h4.le)⟩
  simp only [Set.mem_ofPred_eq, not_le] at hω ⊢
  exact hω.le

/-- one pair of columns -/
theorem dcov_power_pair (ν : Measure (Fin M → ℝ)) [IsProbabilityMeasure ν] (h2 : ∀ i, MemLp (fun x : Fin M → ℝ => x i) 2 ν)
    (level c : ℝ) (hc : 0 < c) (ε : ENNReal) (hε : 0 < ε) (i j : Fin M) (hij : i ≠ j)
    (hdep : ¬ IndepFun (fun x : Fin M → ℝ => x i) (fun x => x j) ν) :
    ∃ n0, ∀ n, n0 ≤ n → ∀ (Ω : Type) [MeasurableSpace Ω] (μ : Measure Ω) [IsProbabilityMeasure μ] (s : Ω → Fin n → Fin M → ℝ),
      IIDRows μ s ν → ∀ lib : TestLib ℝ n, lib.critVal level = c →
      μ {ω | ¬ ∃ u, estimateUDG lib (s ω) (.name "dcov_fast") level = .ok (u, none) ∧ u i j = true} ≤ ε := by
  obtain ⟨p, q, r, t, κ, hpq, hrt, hκ0, hcov⟩ := ramp_cov ν i j hdep
  obtain ⟨n1, hn1, hcov⟩ := hcov (ε / 2) (ENNReal.half_pos hε.ne')
  obtain ⟨T, hT0, hT⟩ := second_bound ν i j (h2 i) (h2 j) (ε / 2) (ENNReal.half_pos hε.ne')
  have hq : 0 < q - p := sub_pos.mpr hpq
  have ht : 0 < t - r := sub_pos.mpr hrt
  have hn2 : Tendsto (fun n : ℕ => (n : ℝ) * (2 * κ ^ 2 / ((q - p) * (t - r)))) atTop atTop :=
    tendsto_natCast_atTop_atTop.atTop_mul_const (by positivity)
  obtain ⟨n0, h0⟩ := eventually_atTop.mp ((hn2.eventually_ge_atTop (c * (1 + T) ^ 2 + 4 * T)).and (eventually_ge_atTop n1))
  refine ⟨n0, fun n hn Ω _ μ _ s hs lib hl => ?_⟩
  obtain ⟨h4, hn1n⟩ := h0 n hn
  have hn0 : 0 < n := by omega
  refine (measure_mono fun ω hω => ?_).trans ((measure_union_le _ _).trans ((add_le_add (hcov n hn1n Ω μ s hs) (hT n hn0 Ω μ s hs)).trans
    (ENNReal.add_halves ε).le))
  by_contra hcon
  simp only [Set.mem_union, Set.mem_ofPred_eq, not_or, not_not] at hcon
  exact hω (dcovFast_join hn0 lib (s ω) level hij hpq hrt hκ0 (hl ▸ hc) hcon.1 hcon.2 (by rw [hl]; exact h4))

/-- **C167** `estimate_UDG(sample, "dcov_fast")` finds every dependence: for independent rows with a common law with finite second
moments and a positive critical value, from some number of rows on, with probability as close to 1 as wanted, every two columns that
are not independent are joined. -/
theorem C167_dcov_power (ν : Measure (Fin M → ℝ)) [IsProbabilityMeasure ν] (h2 : ∀ i, MemLp (fun x : Fin M → ℝ => x i) 2 ν)
    (level c : ℝ) (hc : 0 < c) (ε : ENNReal) (hε : 0 < ε) :
    ∃ n0, ∀ n, n0 ≤ n → ∀ (Ω : Type) [MeasurableSpace Ω] (μ : Measure Ω) [IsProbabilityMeasure μ] (s : Ω → Fin n → Fin M → ℝ),
      IIDRows μ s ν → ∀ lib : TestLib ℝ n, lib.critVal level = c →
      μ {ω | ¬ ∃ u, estimateUDG lib (s ω) (.name "dcov_fast") level = .ok (u, none) ∧
        ∀ i j, i ≠ j → ¬ IndepFun (fun x : Fin M → ℝ => x i) (fun x => x j) ν → u i j = true} ≤ ε := by
  obtain ⟨ε', hε', hsum⟩ : ∃ ε' : ENNReal, 0 < ε' ∧ (M * M : ℕ) * ε' ≤ ε := by
    refine ⟨ε / ((M * M : ℕ) + 1), ENNReal.div_pos hε.ne' (by finiteness), ?_⟩
    rw [← mul_div_assoc]
    refine ENNReal.div_le_of_le_mul ?_
    rw [mul_comm]
    gcongr
    exact le_self_add
  have key : ∀ i j : Fin M, ∃ n0, ∀ n, n0 ≤ n → i ≠ j → ¬ IndepFun (fun x : Fin M → ℝ => x i) (fun x => x j) ν →
      ∀ (Ω : Type) [MeasurableSpace Ω] (μ : Measure Ω) [IsProbabilityMeasure μ] (s : Ω → Fin n → Fin M → ℝ),
      IIDRows μ s ν → ∀ lib : TestLib ℝ n, lib.critVal level = c →
      μ {ω | ¬ ∃ u, estimateUDG lib (s ω) (.name "dcov_fast") level = .ok (u, none) ∧ u i j = true} ≤ ε' := by
    intro i j
    by_cases hij : i = j
    · exact ⟨0, fun n _ h => absurd hij h⟩
    by_cases hd : IndepFun (fun x : Fin M → ℝ => x i) (fun x => x j) ν
    · exact ⟨0, fun n _ _ h => absurd hd h⟩
    obtain ⟨n0, h0⟩ := dcov_power_pair ν h2 level c hc ε' hε' i j hij hd
    exact ⟨n0, fun n hn _ _ => h0 n hn⟩
  choose R hR using key
  refine ⟨univ.sup fun i => univ.sup fun j => R i j, fun n hn Ω _ μ _ s hs lib hl => ?_⟩
  have hRn : ∀ i j, R i j ≤ n := fun i j =>
    le_trans (le_trans (le_sup (f := fun j => R i j) (mem_univ j)) (le_sup (f := fun i => univ.sup fun j => R i j) (mem_univ i))) hn
  have hsub : {ω | ¬ ∃ u, estimateUDG lib (s ω) (.name "dcov_fast") level = .ok (u, none) ∧
      ∀ i j, i ≠ j → ¬ IndepFun (fun x : Fin M → ℝ => x i) (fun x => x j) ν → u i j = true} ⊆
      ⋃ i, ⋃ j, {ω | i ≠ j ∧ ¬ IndepFun (fun x : Fin M → ℝ => x i) (fun x => x j) ν ∧
        ¬ ∃ u, estimateUDG lib (s ω) (.name "dcov_fast") level = .ok (u, none) ∧ u i j = true} := by
    intro ω hω
    by_contra hcon
    simp only [Set.mem_iUnion, Set.mem_ofPred_eq, not_exists, not_and] at hcon
    refine hω ⟨_, rfl, fun i j hij hd => ?_⟩
    obtain ⟨u, h, hu⟩ : ∃ u, estimateUDG lib (s ω) (.name "dcov_fast") level = .ok (u, none) ∧ u i j = true := by
      by_contra hno
      exact hcon i j hij hd fun u h hu => hno ⟨u, h, hu⟩
    have e := (rfl : estimateUDG lib (s ω) (.name "dcov_fast") level = .ok (_, none)).symm.trans h
    injection e with e
    have e' := (Prod.ext_iff.mp e).1
    dsimp only at e'
    rw [e']
    exact hu
  refine (measure_mono hsub).trans (le_trans ?_ hsum)
  refine (measure_iUnion_fintype_le _ _).trans ((sum_le_sum fun i _ => (measure_iUnion_fintype_le _ _).trans
    (sum_le_sum fun j _ => show _ ≤ ε' from ?_)).trans ?_)
  · by_cases hij : i = j
    · refine le_trans (measure_mono (t := ∅) fun ω hω => absurd hij hω.1) (by simp)
    by_cases hd : IndepFun (fun x : Fin M → ℝ => x i) (fun x => x j) ν
    · refine le_trans (measure_mono (t := ∅) fun ω hω => absurd hd hω.2.1) (by simp)
    exact (measure_mono fun ω hω => hω.2.2).trans (hR i j n (hRn i j) hij hd Ω μ s hs lib hl)
  · simp only [sum_const, card_univ, Fintype.card_fin, nsmul_eq_mul]
    push_cast
    rw [mul_assoc]

/-- independent rows with any common law exist -/
theorem iidRows_exists (ν : Measure (Fin M → ℝ)) [IsProbabilityMeasure ν] (n : ℕ) :
    IIDRows (Measure.pi fun _ : Fin n => ν) (fun ω => ω) ν where
  rows := iIndepFun_pi (X := fun _ x => x) fun _ => aemeasurable_id
  meas := fun a => (measurable_pi_apply a).aemeasurable
  law := fun a => (measurePreserving_eval (fun _ : Fin n => ν) a).map_eq

/-- the uniform law on the points `(-1, 1)`, `(0, 0)` and `(1, 1)`: uncorrelated, but not independent -/
noncomputable def squaresLaw : Measure (Fin 2 → ℝ) :=
  (PMF.uniformOfFintype (Fin 3)).toMeasure.map ![![-1, 1], ![0, 0], ![1, 1]]

instance : IsProbabilityMeasure squaresLaw := Measure.isProbabilityMeasure_map measurable_from_top.aemeasurable

theorem squaresLaw_moments (i : Fin 2) : MemLp (fun x : Fin 2 → ℝ => x i) 2 squaresLaw := by
  refine (memLp_map_measure_iff (measurable_pi_apply i).aestronglyMeasurable measurable_from_top.aemeasurable).mpr ?_
  refine MemLp.of_bound measurable_from_top.aestronglyMeasurable 1 (Eventually.of_forall fun k => ?_)
  fin_cases k <;> fin_cases i <;> simp

theorem squaresLaw_dep : ¬ IndepFun (fun x : Fin 2 → ℝ => x 0) (fun x => x 1) squaresLaw := by
  intro h
  have h1 := h.measure_inter_preimage_eq_mul (Set.Iio 0) (Set.Iio 1) measurableSet_Iio measurableSet_Iio
  have h2 : ∀ S : Set (Fin 2 → ℝ), MeasurableSet S → squaresLaw S = ((PMF.uniformOfFintype (Fin 3)).toMeasure
      ((![![-1, 1], ![0, 0], ![1, 1]] : Fin 3 → Fin 2 → ℝ) ⁻¹' S)) := fun S hS => Measure.map_apply measurable_from_top hS
  have m0 : MeasurableSet ((fun x : Fin 2 → ℝ => x 0) ⁻¹' Set.Iio 0) := measurable_pi_apply 0 measurableSet_Iio
  have m1 : MeasurableSet ((fun x : Fin 2 → ℝ => x 1) ⁻¹' Set.Iio 1) := measurable_pi_apply 1 measurableSet_Iio
  rw [h2 _ (m0.inter m1), h2 _ m0, h2 _ m1] at h1
  have e0 : ((![![-1, 1], ![0, 0], ![1, 1]] : Fin 3 → Fin 2 → ℝ) ⁻¹' ((fun x : Fin 2 → ℝ => x 0) ⁻¹' Set.Iio 0)) = {0} := by
    ext k; fin_cases k <;> simp
  have e1 : ((![![-1, 1], ![0, 0], ![1, 1]] : Fin 3 → Fin 2 → ℝ) ⁻¹' ((fun x : Fin 2 → ℝ => x 1) ⁻¹' Set.Iio 1)) = {1} := by
    ext k; fin_cases k <;> simp
  rw [Set.preimage_inter, e0, e1, PMF.toMeasure_apply_singleton _ _ (measurableSet_singleton _),
    PMF.toMeasure_apply_singleton _ _ (measurableSet_singleton _)] at h1
  simp at h1

-- the hypotheses are met: enough rows of this law are joined with probability at least 99 %
example : ∃ n0, ∀ n, n0 ≤ n → ∀ lib : TestLib ℝ n, lib.critVal 0.05 = 3.84 →
    (Measure.pi fun _ : Fin n => squaresLaw) {ω | ¬ ∃ u, estimateUDG lib ω (.name "dcov_fast") 0.05 = .ok (u, none) ∧ u 0 1 = true} ≤ 1 / 100 := by
  obtain ⟨n0, h0⟩ := C167_dcov_power squaresLaw squaresLaw_moments 0.05 3.84 (by norm_num) (1 / 100) (by simp)
  refine ⟨n0, fun n hn lib hl => (measure_mono fun ω hω => ?_).trans (h0 n hn _ _ _ (iidRows_exists squaresLaw n) lib hl)⟩
  rintro ⟨u, h, hu⟩
  exact hω ⟨u, h, hu 0 1 (by decide) squaresLaw_dep⟩

end Medil

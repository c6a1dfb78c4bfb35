import Verif.Proofs.UnifBlocks
/-
  The studentised statistic of `xicorr` for independent uniform variables tends to the normal distribution.
-/
namespace Medil
open MeasureTheory ProbabilityTheory Finset Filter Topology
variable {n : ℕ}

/-- the places of the kept parts -/
def keptSet (b L : ℕ) : Finset ℕ := (range L ×ˢ range b).image fun p => p.1 * (b + 1) + p.2

theorem kept_injOn (b L : ℕ) : Set.InjOn (fun p : ℕ × ℕ => p.1 * (b + 1) + p.2) ((range L ×ˢ range b : Finset (ℕ × ℕ)) : Set (ℕ × ℕ)) := by
  rintro ⟨p, q⟩ hp ⟨p', q'⟩ hp' e
  simp only [coe_product, coe_range, Set.mem_prod, Set.mem_Iio] at hp hp'
  simp only at e
  have h1 : (p * (b + 1) + q) / (b + 1) = p := by rw [mul_comm, Nat.mul_add_div (by omega), Nat.div_eq_of_lt (by omega), add_zero]
  have h2 : (p' * (b + 1) + q') / (b + 1) = p' := by rw [mul_comm, Nat.mul_add_div (by omega), Nat.div_eq_of_lt (by omega), add_zero]
  have h3 : p = p' := by rw [← h1, ← h2, e]
  rw [h3] at e
  exact Prod.ext h3 (by simpa using e)

theorem keptSet_card (b L : ℕ) : (keptSet b L).card = L * b := by
  unfold keptSet
  rw [card_image_of_injOn (kept_injOn b L), card_product, card_range, card_range]

theorem keptSum_set (b L : ℕ) (z : Fin n → ℝ) : keptSum b L z = ∑ k ∈ keptSet b L, step z k := by
  unfold keptSum keptSet
  rw [sum_image (kept_injOn b L), sum_product]

theorem keptSet_sub {b L : ℕ} (h : L * (b + 1) ≤ n) : keptSet b L ⊆ range (n - 1) := by
  intro k hk
  simp only [keptSet, mem_image, mem_product, mem_range] at hk
  obtain ⟨⟨p, q⟩, ⟨h1, h2⟩, rfl⟩ := hk
  have h3 : (p + 1) * (b + 1) ≤ L * (b + 1) := Nat.mul_le_mul_right _ h1
  simp only [mem_range]
  have : p * (b + 1) + q + 1 < n := by simp only at h2; nlinarith
  omega

theorem keptSum_measurable (b L : ℕ) : Measurable fun z : Fin n → ℝ => keptSum b L z := by
  simp only [keptSum_set]
  exact steps_measurable _

theorem keptSum_sq {b L : ℕ} (h : L * (b + 1) ≤ n) : ∫ z, keptSum b L z ^ 2 ∂unifs n = L * b * (2 / 45) := by
  simp only [keptSum_set]
  rw [steps_sq _ fun k hk => by have := mem_range.mp (keptSet_sub h hk); omega, keptSet_card]
  push_cast
  ring

theorem dropped_sq {b L : ℕ} (h : L * (b + 1) ≤ n) (hn : 1 ≤ n) : ∫ z, (stepSum z - keptSum b L z) ^ 2 ∂unifs n = ((n : ℝ) - 1 - L * b) * (2 / 45) := by
  have e : ∀ z : Fin n → ℝ, stepSum z - keptSum b L z = ∑ k ∈ range (n - 1) \ keptSet b L, step z k := fun z => by
    unfold stepSum
    rw [keptSum_set, ← sum_sdiff (keptSet_sub h), add_sub_cancel_right]
  simp only [e]
  rw [steps_sq _ fun k hk => by have := mem_range.mp (mem_sdiff.mp hk).1; omega, card_sdiff_of_subset (keptSet_sub h), keptSet_card, card_range,
    Nat.cast_sub (by have := card_le_card (keptSet_sub h); rwa [keptSet_card, card_range] at this), Nat.cast_sub hn]
  push_cast
  ring

theorem keptSum_bound (b L : ℕ) (z : Fin n → ℝ) : |keptSum b L z| ≤ L * b := by
  rw [keptSum_set]
  refine (steps_bound z _).trans (le_of_eq ?_)
  rw [keptSet_card]
  push_cast
  ring

/-- the normalised sums with and without the dropped parts -/
theorem kept_close {b L : ℕ} (hL : 1 ≤ L) (h : L * (b + 1) ≤ n) (h' : n < (L + 1) * (b + 1)) :
    ∫ z, (Real.sqrt (45 / 2) / Real.sqrt n * stepSum z - Real.sqrt (45 / 2) / Real.sqrt (L * (b + 1 : ℕ)) * keptSum b L z) ^ 2 ∂unifs n ≤ 2 / (b + 1) + 4 * b / n := by
  have hN : 1 ≤ L * (b + 1) := Nat.mul_pos hL (by omega)
  have hn1 : 1 ≤ n := hN.trans h
  have hn0 : (0 : ℝ) < n := by exact_mod_cast hn1
  have hb1 : (0 : ℝ) < (b : ℝ) + 1 := by positivity
  have hLr : (1 : ℝ) ≤ L := by exact_mod_cast hL
  have hr : (L : ℝ) * (b + 1) ≤ n := by exact_mod_cast h
  have hr' : (n : ℝ) ≤ (L + 1) * (b + 1) - 1 := by
    have : n + 1 ≤ (L + 1) * (b + 1) := h'
    have : ((n + 1 : ℕ) : ℝ) ≤ ((L + 1) * (b + 1) : ℕ) := by exact_mod_cast this
    push_cast at this
    linarith
  obtain ⟨κ, hκ⟩ : ∃ κ, κ = Real.sqrt (45 / 2) := ⟨_, rfl⟩
  have hκ2 : κ ^ 2 = 45 / 2 := by rw [hκ]; exact Real.sq_sqrt (by norm_num)
  rw [← hκ]
  obtain ⟨N, hNe⟩ : ∃ N : ℝ, N = L * (b + 1 : ℕ) := ⟨_, rfl⟩
  have hNe' : N = L * (b + 1) := by rw [hNe]; push_cast; ring
  have hN0 : 0 < N := by rw [hNe']; positivity
  rw [← hNe]
  have hsn : 0 < Real.sqrt n := Real.sqrt_pos.mpr hn0
  have hsn2 : Real.sqrt n ^ 2 = n := Real.sq_sqrt hn0.le
  have hsN : 0 < Real.sqrt N := Real.sqrt_pos.mpr hN0
  have hsN2 : Real.sqrt N ^ 2 = N := Real.sq_sqrt hN0.le
  have hle : Real.sqrt N ≤ Real.sqrt n := Real.sqrt_le_sqrt (by rw [hNe']; exact hr)
  have hc : (κ / Real.sqrt n - κ / Real.sqrt N) ^ 2 * (L * b * (2 / 45)) ≤ b / n := by
    have e1 : (κ / Real.sqrt n - κ / Real.sqrt N) ^ 2 = 45 / 2 * ((Real.sqrt n - Real.sqrt N) ^ 2 / (n * N)) := by
      rw [← hκ2]
      calc _ = κ ^ 2 * ((Real.sqrt n - Real.sqrt N) ^ 2 / (Real.sqrt n ^ 2 * Real.sqrt N ^ 2)) := by field_simp; ring
        _ = _ := by rw [hsn2, hsN2]
    have e2 : (Real.sqrt n - Real.sqrt N) ^ 2 ≤ n - N := by nlinarith
    have e3 : n - N ≤ b := by rw [hNe']; linarith
    have e4 : (L : ℝ) * b ≤ N := by rw [hNe']; nlinarith
    rw [e1]
    calc 45 / 2 * ((Real.sqrt n - Real.sqrt N) ^ 2 / (n * N)) * (L * b * (2 / 45)) = (Real.sqrt n - Real.sqrt N) ^ 2 / n * ((L * b) / N) := by field_simp
      _ ≤ (b : ℝ) / n * 1 := by
        gcongr
        · exact e2.trans e3
        · exact (div_le_one hN0).mpr e4
      _ = _ := mul_one _
  have hd : κ ^ 2 / n * (((n : ℝ) - 1 - L * b) * (2 / 45)) ≤ 1 / (b + 1) + b / n := by
    rw [hκ2]
    have e1 : (n : ℝ) - 1 - L * b ≤ L + b := by nlinarith
    have e2 : (L : ℝ) / n ≤ 1 / (b + 1) := by rw [div_le_div_iff₀ hn0 hb1]; linarith
    calc 45 / 2 / (n : ℝ) * (((n : ℝ) - 1 - L * b) * (2 / 45)) = ((n : ℝ) - 1 - L * b) / n := by field_simp
      _ ≤ (L + b) / n := by gcongr
      _ = L / n + b / n := add_div _ _ _
      _ ≤ _ := by gcongr
  have hsb : ∀ z : Fin n → ℝ, |stepSum z - keptSum b L z| ≤ n + L * b := fun z =>
    (abs_sub _ _).trans (add_le_add (stepSum_bound z) (keptSum_bound b L z))
  have hmd : Measurable fun z : Fin n → ℝ => stepSum z - keptSum b L z := stepSum_measurable.sub (keptSum_measurable b L)
  have i1 : Integrable (fun z : Fin n → ℝ => 2 * (κ ^ 2 / n) * (stepSum z - keptSum b L z) ^ 2) (unifs n) :=
    (bounded_integrable (c := (n + L * b : ℝ) ^ 2) (hmd.pow_const 2) fun z => by
      rw [abs_pow]; exact pow_le_pow_left₀ (abs_nonneg _) (hsb z) 2).const_mul _
  have i2 : Integrable (fun z : Fin n → ℝ => 2 * (κ / Real.sqrt n - κ / Real.sqrt N) ^ 2 * keptSum b L z ^ 2) (unifs n) :=
    (bounded_integrable (c := (L * b : ℝ) ^ 2) ((keptSum_measurable b L).pow_const 2) fun z => by
      rw [abs_pow]; exact pow_le_pow_left₀ (abs_nonneg _) (keptSum_bound b L z) 2).const_mul _
  have i12 : Integrable (fun z : Fin n → ℝ => 2 * (κ ^ 2 / n) * (stepSum z - keptSum b L z) ^ 2 + 2 * (κ / Real.sqrt n - κ / Real.sqrt N) ^ 2 * keptSum b L z ^ 2) (unifs n) := i1.add i2
  have hp : ∀ z : Fin n → ℝ, (κ / Real.sqrt n * stepSum z - κ / Real.sqrt N * keptSum b L z) ^ 2 ≤
      2 * (κ ^ 2 / n) * (stepSum z - keptSum b L z) ^ 2 + 2 * (κ / Real.sqrt n - κ / Real.sqrt N) ^ 2 * keptSum b L z ^ 2 := by
    intro z
    have e : κ ^ 2 / n = (κ / Real.sqrt n) ^ 2 := by rw [div_pow, hsn2]
    rw [e]
    nlinarith [sq_nonneg (κ / Real.sqrt n * (stepSum z - keptSum b L z) - (κ / Real.sqrt n - κ / Real.sqrt N) * keptSum b L z)]
  refine (integral_mono_of_nonneg (Eventually.of_forall fun z => sq_nonneg _) i12 (Eventually.of_forall hp)).trans ?_
  rw [integral_add i1 i2, integral_const_mul, integral_const_mul, dropped_sq h hn1, keptSum_sq h]
  have e : (2 : ℝ) / (b + 1) + 4 * b / n = 2 * (1 / (b + 1) + b / n) + 2 * (b / n) := by ring
  rw [e]
  linarith

/-- characteristic functions of variables close in mean square -/
theorem charFun_close {Ω : Type} [MeasurableSpace Ω] {μ : Measure Ω} [IsProbabilityMeasure μ] {f g : Ω → ℝ} (hf : Measurable f) (hg : Measurable g)
    (hi : Integrable (fun ω => (f ω - g ω) ^ 2) μ) (t : ℝ) {δ : ℝ} (hδ : 0 < δ) :
    ‖charFun (μ.map f) t - charFun (μ.map g) t‖ ≤ |t| * (δ + (∫ ω, (f ω - g ω) ^ 2 ∂μ) / δ) := by
  have ix : ∀ {x : Ω → ℝ}, Measurable x → Integrable (fun ω => Complex.exp (t * x ω * Complex.I)) μ := fun {x} hx => by
    refine Integrable.of_bound (C := 1) ?_ (Eventually.of_forall fun ω => ?_)
    · have : Measurable fun ω => Complex.exp (t * x ω * Complex.I) := by fun_prop
      exact this.aestronglyMeasurable
    · rw [← Complex.ofReal_mul, Complex.norm_exp_ofReal_mul_I]
  have hm : ∀ {x : Ω → ℝ}, Measurable x → charFun (μ.map x) t = ∫ ω, Complex.exp (t * x ω * Complex.I) ∂μ := fun {x} hx => by
    rw [charFun_apply_real, integral_map hx.aemeasurable]
    have : Measurable fun y : ℝ => Complex.exp (t * y * Complex.I) := by fun_prop
    exact this.aestronglyMeasurable
  rw [hm hf, hm hg, ← integral_sub (ix hf) (ix hg)]
  have hb : ∀ ω, ‖Complex.exp (t * f ω * Complex.I) - Complex.exp (t * g ω * Complex.I)‖ ≤ |t| * (δ + (f ω - g ω) ^ 2 / δ) := fun ω => by
    have e : Complex.exp (t * f ω * Complex.I) - Complex.exp (t * g ω * Complex.I) =
        Complex.exp ((t * g ω : ℝ) * Complex.I) * (Complex.exp (Complex.I * (t * (f ω - g ω) : ℝ)) - 1) := by
      rw [mul_sub, ← Complex.exp_add, mul_one]
      congr 1
      · congr 1; push_cast; ring
      · congr 1; push_cast; ring
    rw [e, norm_mul, Complex.norm_exp_ofReal_mul_I, one_mul]
    refine (Real.norm_exp_I_mul_ofReal_sub_one_le).trans ?_
    rw [Real.norm_eq_abs, abs_mul]
    refine mul_le_mul_of_nonneg_left ?_ (abs_nonneg _)
    have h1 : |f ω - g ω| ^ 2 = (f ω - g ω) ^ 2 := sq_abs _
    rw [← h1, ← sub_nonneg]
    have : δ + |f ω - g ω| ^ 2 / δ - |f ω - g ω| = ((δ - |f ω - g ω|) ^ 2 + δ * |f ω - g ω|) / δ := by field_simp; ring
    rw [this]
    positivity
  have hI : Integrable (fun ω => |t| * (δ + (f ω - g ω) ^ 2 / δ)) μ := ((integrable_const δ).add (hi.div_const δ)).const_mul _
  refine (norm_integral_le_of_norm_le hI (Eventually.of_forall hb)).trans (le_of_eq ?_)
  rw [integral_const_mul, integral_add (integrable_const δ) (hi.div_const δ), integral_const, integral_div]
  simp

theorem zOf_measurable : Measurable fun z : Fin n → ℝ => zOf n (rankDist z) := by
  have := xiOf_measurable (n := n)
  unfold zOf
  fun_prop

theorem zOf_bound (hn : 2 ≤ n) : ∃ B : ℝ, ∀ z : Fin n → ℝ, |zOf n (rankDist z)| ≤ B := by
  refine ⟨Real.sqrt n * (1 + 3 / (2 * ((n : ℝ) ^ 2 - 1)) * (2 * n * n)) / Real.sqrt ((2 * n ^ 2 + 7) / (5 * (n ^ 2 - 1))), fun z => ?_⟩
  unfold zOf
  rw [abs_div, abs_mul, abs_of_nonneg (Real.sqrt_nonneg _), abs_of_nonneg (Real.sqrt_nonneg _)]
  gcongr
  exact xiOf_bound _ (rankDist_bound z) hn

/-- a bounded measurable function has an integrable square -/
theorem sq_integrable {Ω : Type} [MeasurableSpace Ω] {μ : Measure Ω} [IsProbabilityMeasure μ] {f : Ω → ℝ} (hf : Measurable f) {B : ℝ} (hB : ∀ ω, |f ω| ≤ B) :
    Integrable (fun ω => f ω ^ 2) μ :=
  bounded_integrable (c := B ^ 2) (hf.pow_const 2) fun ω => by rw [abs_pow]; exact pow_le_pow_left₀ (abs_nonneg _) (hB ω) 2

/-- the studentised statistic and the normalised sum over blocks -/
theorem zOf_kept {b L : ℕ} (hL : 1 ≤ L) (h : L * (b + 1) ≤ n) (h' : n < (L + 1) * (b + 1)) (hn : 2 ≤ n) :
    Integrable (fun z : Fin n → ℝ => (zOf n (rankDist z) - -(Real.sqrt (45 / 2) / Real.sqrt (L * (b + 1 : ℕ))) * keptSum b L z) ^ 2) (unifs n) ∧
    ∫ z, (zOf n (rankDist z) - -(Real.sqrt (45 / 2) / Real.sqrt (L * (b + 1 : ℕ))) * keptSum b L z) ^ 2 ∂unifs n ≤
      2 * (∫ z, (zOf n (rankDist z) + Real.sqrt (45 / 2) / Real.sqrt n * stepSum z) ^ 2 ∂unifs n) + 2 * (2 / (b + 1) + 4 * b / n) := by
  obtain ⟨B, hB⟩ := zOf_bound hn
  obtain ⟨κ, hκ⟩ : ∃ κ, κ = Real.sqrt (45 / 2) / Real.sqrt n := ⟨_, rfl⟩
  obtain ⟨ν, hν⟩ : ∃ ν, ν = Real.sqrt (45 / 2) / Real.sqrt (L * (b + 1 : ℕ)) := ⟨_, rfl⟩
  have hk := kept_close hL h h'
  rw [← hκ, ← hν] at hk
  rw [← hκ, ← hν]
  have m1 := zOf_measurable (n := n)
  have m2 := stepSum_measurable (n := n)
  have m3 := keptSum_measurable (n := n) b L
  have j1 : Integrable (fun z : Fin n → ℝ => (zOf n (rankDist z) - -ν * keptSum b L z) ^ 2) (unifs n) :=
    sq_integrable (B := B + |-ν| * (L * b)) (by fun_prop) fun z => (abs_sub _ _).trans (add_le_add (hB z) (by
      rw [abs_mul]; exact mul_le_mul_of_nonneg_left (keptSum_bound b L z) (abs_nonneg _)))
  have j2 : Integrable (fun z : Fin n → ℝ => 2 * (zOf n (rankDist z) + κ * stepSum z) ^ 2) (unifs n) :=
    (sq_integrable (B := B + |κ| * n) (by fun_prop) fun z => (abs_add_le _ _).trans (add_le_add (hB z) (by
      rw [abs_mul]; exact mul_le_mul_of_nonneg_left (stepSum_bound z) (abs_nonneg _)))).const_mul _
  have j3 : Integrable (fun z : Fin n → ℝ => 2 * (κ * stepSum z - ν * keptSum b L z) ^ 2) (unifs n) :=
    (sq_integrable (B := |κ| * n + |ν| * (L * b)) (by fun_prop) fun z => (abs_sub _ _).trans (add_le_add
      (by rw [abs_mul]; exact mul_le_mul_of_nonneg_left (stepSum_bound z) (abs_nonneg _))
      (by rw [abs_mul]; exact mul_le_mul_of_nonneg_left (keptSum_bound b L z) (abs_nonneg _)))).const_mul _
  have j23 : Integrable (fun z : Fin n → ℝ => 2 * (zOf n (rankDist z) + κ * stepSum z) ^ 2 + 2 * (κ * stepSum z - ν * keptSum b L z) ^ 2) (unifs n) := j2.add j3
  refine ⟨j1, ?_⟩
  refine (integral_mono j1 j23 fun z => ?_).trans ?_
  · show (zOf n (rankDist z) - -ν * keptSum b L z) ^ 2 ≤ 2 * (zOf n (rankDist z) + κ * stepSum z) ^ 2 + 2 * (κ * stepSum z - ν * keptSum b L z) ^ 2
    nlinarith [sq_nonneg (zOf n (rankDist z) + κ * stepSum z + (κ * stepSum z - ν * keptSum b L z))]
  · rw [integral_add j2 j3, integral_const_mul, integral_const_mul]
    linarith

/-- the characteristic function of the studentised statistic -/
theorem zOf_charFun (t : ℝ) : Tendsto (fun n : ℕ => charFun ((unifs n).map fun z => zOf n (rankDist z)) t) atTop (𝓝 (Complex.exp (-(t : ℂ) ^ 2 / 2))) := by
  rw [Metric.tendsto_atTop]
  intro ε hε
  obtain ⟨δ, hδ, hδe⟩ : ∃ δ > 0, |t| * δ ≤ ε / 6 := by
    refine ⟨ε / 6 / (|t| + 1), by positivity, ?_⟩
    rw [← mul_div_assoc, div_le_iff₀ (by positivity)]
    nlinarith [abs_nonneg t]
  -- the number of variables of a block
  have hexp : Tendsto (fun b : ℕ => Complex.exp (-((t : ℂ) ^ 2 * (b / (b + 1))) / 2)) atTop (𝓝 (Complex.exp (-(t : ℂ) ^ 2 / 2))) := by
    have h1 : Tendsto (fun b : ℕ => ((b : ℂ) / (b + 1))) atTop (𝓝 1) := tendsto_natCast_div_add_atTop (1 : ℂ)
    have h2 := ((h1.const_mul ((t : ℂ) ^ 2)).neg.div_const 2)
    rw [mul_one] at h2
    exact (Complex.continuous_exp.tendsto _).comp h2
  have hsm : Tendsto (fun b : ℕ => |t| * (4 * (1 / ((b : ℝ) + 1))) / δ) atTop (𝓝 0) := by
    have := ((tendsto_one_div_add_atTop_nhds_zero_nat (𝕜 := ℝ)).const_mul 4).const_mul |t|
    simpa using this.div_const δ
  have ev := ((Metric.tendsto_nhds.mp hexp (ε / 6) (by positivity)).and
    (hsm.eventually_lt_const (show 0 < ε / 6 by positivity))).and (eventually_ge_atTop 1)
  obtain ⟨b, ⟨hb1, hb2⟩, hb⟩ := ev.exists
  -- the number of variables
  have hL : Tendsto (fun n : ℕ => n / (b + 1)) atTop atTop := Nat.tendsto_div_const_atTop (by omega)
  have hlim := (blocks_charFun hb (-t)).comp hL
  have hr : Tendsto (fun n : ℕ => |t| * (2 * (∫ z, (zOf n (rankDist z) + Real.sqrt (45 / 2) / Real.sqrt n * stepSum z) ^ 2 ∂unifs n)) / δ) atTop (𝓝 0) := by
    have := (proj_tendsto.const_mul 2).const_mul |t|
    simpa using this.div_const δ
  have hq : Tendsto (fun n : ℕ => |t| * (2 * (4 * b / (n : ℝ))) / δ) atTop (𝓝 0) := by
    have := ((tendsto_const_div_atTop_nhds_zero_nat (4 * b : ℝ)).const_mul 2).const_mul |t|
    simpa using this.div_const δ
  have ev2 := (((Metric.tendsto_nhds.mp hlim (ε / 6) (by positivity)).and (hr.eventually_lt_const (show 0 < ε / 6 by positivity))).and
    (hq.eventually_lt_const (show 0 < ε / 6 by positivity))).and (eventually_ge_atTop (b + 2))
  obtain ⟨n0, hn0⟩ := eventually_atTop.mp ev2
  refine ⟨n0, fun n hn => ?_⟩
  obtain ⟨⟨⟨h1, h2⟩, h3⟩, h4⟩ := hn0 n hn
  have k1 : 1 ≤ n / (b + 1) := (Nat.one_le_div_iff (by omega)).mpr (by omega)
  have k2 : n / (b + 1) * (b + 1) ≤ n := Nat.div_mul_le_self _ _
  have k3 : n < (n / (b + 1) + 1) * (b + 1) := by
    have := Nat.div_add_mod n (b + 1)
    have h6 := Nat.mod_lt n (show 0 < b + 1 by omega)
    nlinarith
  obtain ⟨q1, q2⟩ := zOf_kept k1 k2 k3 (n := n) (by omega)
  have c1 := charFun_close zOf_measurable ((keptSum_measurable b _).const_mul _) q1 t hδ
  rw [charFun_map_mul_comp (keptSum_measurable b _).aemeasurable, keptSum_charFun k2,
    show -(Real.sqrt (45 / 2) / Real.sqrt ((n / (b + 1) : ℕ) * (b + 1 : ℕ))) * t = Real.sqrt (45 / 2) / Real.sqrt ((n / (b + 1) : ℕ) * (b + 1 : ℕ)) * -t by ring] at c1
  have c2 : |t| * (δ + (∫ z, (zOf n (rankDist z) - -(Real.sqrt (45 / 2) / Real.sqrt ((n / (b + 1) : ℕ) * (b + 1 : ℕ))) * keptSum b (n / (b + 1)) z) ^ 2 ∂unifs n) / δ) ≤
      |t| * δ + (|t| * (2 * (∫ z, (zOf n (rankDist z) + Real.sqrt (45 / 2) / Real.sqrt n * stepSum z) ^ 2 ∂unifs n)) / δ +
        |t| * (4 * (1 / ((b : ℝ) + 1))) / δ + |t| * (2 * (4 * b / (n : ℝ))) / δ) := by
    have := div_le_div_of_nonneg_right (mul_le_mul_of_nonneg_left q2 (abs_nonneg t)) hδ.le
    calc _ = |t| * δ + |t| * (∫ z, (zOf n (rankDist z) - -(Real.sqrt (45 / 2) / Real.sqrt ((n / (b + 1) : ℕ) * (b + 1 : ℕ))) * keptSum b (n / (b + 1)) z) ^ 2 ∂unifs n) / δ := by ring
      _ ≤ _ := add_le_add_right this _
      _ = _ := by ring
  have c3 := c1.trans c2
  simp only [Function.comp, Complex.ofReal_neg, neg_sq] at h1
  rw [dist_eq_norm] at h1 hb1 ⊢
  have tri := norm_add₃_le (a := charFun ((unifs n).map fun z => zOf n (rankDist z)) t -
      charFun ((unifs (b + 1)).map (blockSum b)) (Real.sqrt (45 / 2) / Real.sqrt ((n / (b + 1) : ℕ) * (b + 1 : ℕ)) * -t) ^ (n / (b + 1)))
    (b := charFun ((unifs (b + 1)).map (blockSum b)) (Real.sqrt (45 / 2) / Real.sqrt ((n / (b + 1) : ℕ) * (b + 1 : ℕ)) * -t) ^ (n / (b + 1)) -
      Complex.exp (-((t : ℂ) ^ 2 * (b / (b + 1))) / 2))
    (c := Complex.exp (-((t : ℂ) ^ 2 * (b / (b + 1))) / 2) - Complex.exp (-(t : ℂ) ^ 2 / 2))
  rw [sub_add_sub_cancel, sub_add_sub_cancel] at tri
  linarith

end Medil

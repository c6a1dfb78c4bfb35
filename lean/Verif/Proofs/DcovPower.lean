import Verif.Proofs.Dcov
import Verif.Proofs.Chebyshev
/-
  Lower bounds for the sample distance covariance, and their probabilistic consequences.
-/
namespace Medil
open Finset

section algebra
variable {K : Type} [Field K] [LinearOrder K] [IsStrictOrderedRing K] {N : Nat}

/-- the number cut off below `p` and above `q`, minus `p` -/
def ramp (p q x : K) : K := min x q - min x p

/-- weighted Cauchy-Schwarz inequality on a product -/
theorem cs_prod {T S : Nat} (w : Fin T → K) (w' : Fin S → K) (hw : ∀ t, 0 ≤ w t) (hw' : ∀ s, 0 ≤ w' s)
    (e : Fin T → K) (e' : Fin S → K) (z : Fin T → Fin S → K) :
    (∑ t, ∑ s, w t * w' s * (e t * e' s * z t s)) ^ 2 ≤
      ((∑ t, w t * e t ^ 2) * ∑ s, w' s * e' s ^ 2) * ∑ t, ∑ s, w t * w' s * z t s ^ 2 := by
  obtain ⟨P, hP⟩ : ∃ P, P = (∑ t, w t * e t ^ 2) * ∑ s, w' s * e' s ^ 2 := ⟨_, rfl⟩
  obtain ⟨Q, hQ⟩ : ∃ Q, Q = ∑ t, ∑ s, w t * w' s * (e t * e' s * z t s) := ⟨_, rfl⟩
  obtain ⟨R, hR⟩ : ∃ R, R = ∑ t, ∑ s, w t * w' s * z t s ^ 2 := ⟨_, rfl⟩
  rw [← hP, ← hQ, ← hR]
  have hP' : P = ∑ t, ∑ s, w t * w' s * (e t * e' s) ^ 2 := by
    rw [hP, sum_mul_sum]
    exact sum_congr rfl fun t _ => sum_congr rfl fun s _ => by ring
  have key : ∀ a : K, 0 ≤ P * (a * a) + (-2 * Q) * a + R := by
    intro a
    have : P * (a * a) + (-2 * Q) * a + R = ∑ t, ∑ s, w t * w' s * (a * (e t * e' s) - z t s) ^ 2 := by
      rw [hP', hQ, hR]
      simp only [sum_mul, mul_sum, ← sum_add_distrib]
      exact sum_congr rfl fun t _ => sum_congr rfl fun s _ => by ring
    rw [this]
    exact sum_nonneg fun t _ => sum_nonneg fun s _ => mul_nonneg (mul_nonneg (hw t) (hw' s)) (sq_nonneg _)
  have := discrim_le_zero key
  unfold discrim at this
  nlinarith

/-- a Gram representation of a sample that also represents a ramp -/
theorem ramp_gram (x : Fin N → K) {p q : K} (hpq : p ≤ q) : ∃ (w : Fin (N + 2) → K) (u : Fin (N + 2) → Fin N → K) (e : Fin (N + 2) → K),
    (∀ t, 0 ≤ w t) ∧ (∀ k l, centredDist x k l = -2 * ∑ t, w t * ((u t k - (∑ m, u t m) / N) * (u t l - (∑ m, u t m) / N))) ∧
    (∀ k, ramp p q (x k) = ∑ t, w t * (e t * u t k)) ∧ ∑ t, w t * e t ^ 2 = q - p := by
  let x' : Fin (N + 2) → K := Fin.snoc (α := fun _ => K) (Fin.snoc (α := fun _ => K) x p) q
  have hx : ∀ k : Fin N, x' k.castSucc.castSucc = x k := fun k => by simp [x']
  have hp : x' (Fin.last N).castSucc = p := by simp [x']
  have hq : x' (Fin.last (N + 1)) = q := by simp [x']
  obtain ⟨c, w, u, hw, h⟩ := min_gram x' (by omega)
  refine ⟨w, fun t k => u t k.castSucc.castSucc, fun t => u t (Fin.last (N + 1)) - u t (Fin.last N).castSucc, hw, ?_, ?_, ?_⟩
  · intro k l
    rw [centredDist_min x c, ← dcentre_gram (N + 2) w fun t k => u t k.castSucc.castSucc]
    congr 2
    funext a b
    rw [← h, hx, hx]
  · intro k
    have h1 := h k.castSucc.castSucc (Fin.last (N + 1))
    have h2 := h k.castSucc.castSucc (Fin.last N).castSucc
    rw [hx, hq] at h1
    rw [hx, hp] at h2
    have : ramp p q (x k) = (min (x k) q - c) - (min (x k) p - c) := by unfold ramp; ring
    rw [this, h1, h2, ← sum_sub_distrib]
    exact sum_congr rfl fun t _ => by ring
  · have h1 := h (Fin.last (N + 1)) (Fin.last (N + 1))
    have h2 := h (Fin.last (N + 1)) (Fin.last N).castSucc
    have h3 := h (Fin.last N).castSucc (Fin.last N).castSucc
    rw [hq, min_self] at h1
    rw [hq, hp, min_eq_right hpq] at h2
    rw [hp, min_self] at h3
    have : q - p = (q - c) - 2 * (p - c) + (p - c) := by ring
    rw [this, h1]
    nth_rewrite 1 [h2]
    rw [h3, mul_sum, ← sum_sub_distrib, ← sum_add_distrib]
    exact sum_congr rfl fun t _ => by ring

/-- the sample distance covariance dominates the squared covariance of ramps of the two variables -/
theorem sampleDcov_ge (x y : Fin N → K) {p q r s : K} (hpq : p < q) (hrs : r < s) :
    4 * ((∑ k, ramp p q (x k) * ramp r s (y k)) / N - (∑ k, ramp p q (x k)) / N * ((∑ k, ramp r s (y k)) / N)) ^ 2 ≤
      (q - p) * (s - r) * sampleDcov x y := by
  rcases Nat.eq_zero_or_pos N with h0 | hN
  · subst h0; simp [sampleDcov]
  have hN0 : (N : K) ≠ 0 := by exact_mod_cast hN.ne'
  obtain ⟨w, u, e, hw, hx, hf, he⟩ := ramp_gram x hpq.le
  obtain ⟨w', v, e', hw', hy, hg, he'⟩ := ramp_gram y hrs.le
  have h1 := cs_prod w w' hw hw' e e' fun t s => ∑ k, (u t k - (∑ m, u t m) / N) * (v s k - (∑ m, v s m) / N)
  have h2 := sum_centred_gram x y w (fun t k => u t k - (∑ m, u t m) / N) w' (fun t k => v t k - (∑ m, v t m) / N) hx hy
  have hsum : ∀ t s, ∑ k, (u t k - (∑ m, u t m) / N) * (v s k - (∑ m, v s m) / N) =
      (∑ k, u t k * v s k) - (∑ m, u t m) * (∑ m, v s m) / N := by
    intro t s
    have : ∀ k, (u t k - (∑ m, u t m) / N) * (v s k - (∑ m, v s m) / N) = u t k * v s k - (∑ m, u t m) / N * v s k
        - (∑ m, v s m) / N * u t k + (∑ m, u t m) / N * ((∑ m, v s m) / N) := fun k => by ring
    simp only [this, sum_sub_distrib, sum_add_distrib, ← mul_sum, sum_const, card_univ, Fintype.card_fin, nsmul_eq_mul]
    field_simp
    ring
  have hcov : ∑ t, ∑ s, w t * w' s * (e t * e' s * ∑ k, (u t k - (∑ m, u t m) / N) * (v s k - (∑ m, v s m) / N)) =
      (∑ k, ramp p q (x k) * ramp r s (y k)) - (∑ k, ramp p q (x k)) * (∑ k, ramp r s (y k)) / N := by
    simp only [hsum, hf, hg]
    have e0 : ∀ k l, (∑ t, w t * (e t * u t k)) * ∑ s, w' s * (e' s * v s l) = ∑ t, ∑ s, w t * (e t * u t k) * (w' s * (e' s * v s l)) :=
      fun k l => sum_mul_sum _ _ _ _
    rw [sum_mul_sum univ univ (fun k => ∑ t, w t * (e t * u t k))]
    simp only [e0]
    have e1 : ∑ k, ∑ t, ∑ s, w t * (e t * u t k) * (w' s * (e' s * v s k)) =
        ∑ t, ∑ s, w t * w' s * (e t * e' s * ∑ k, u t k * v s k) := by
      rw [sum_comm]
      refine sum_congr rfl fun t _ => ?_
      rw [sum_comm]
      refine sum_congr rfl fun s _ => ?_
      rw [mul_sum, mul_sum]
      exact sum_congr rfl fun k _ => by ring
    have e2 : ∑ k, ∑ l, ∑ t, ∑ s, w t * (e t * u t k) * (w' s * (e' s * v s l)) =
        ∑ t, ∑ s, w t * w' s * (e t * e' s * ((∑ k, u t k) * ∑ k, v s k)) := by
      have : ∀ k, ∑ l, ∑ t, ∑ s, w t * (e t * u t k) * (w' s * (e' s * v s l)) =
          ∑ t, ∑ s, w t * w' s * (e t * e' s * (u t k * ∑ l, v s l)) := by
        intro k
        rw [sum_comm]
        refine sum_congr rfl fun t _ => ?_
        rw [sum_comm]
        refine sum_congr rfl fun s _ => ?_
        rw [mul_sum, mul_sum, mul_sum]
        exact sum_congr rfl fun k _ => by ring
      simp only [this]
      rw [sum_comm]
      refine sum_congr rfl fun t _ => ?_
      rw [sum_comm]
      refine sum_congr rfl fun s _ => ?_
      rw [sum_mul, mul_sum, mul_sum]
    rw [e1, e2, sum_div, ← sum_sub_distrib]
    refine sum_congr rfl fun t _ => ?_
    rw [sum_div, ← sum_sub_distrib]
    exact sum_congr rfl fun s _ => by ring
  rw [hcov, he, he'] at h1
  unfold sampleDcov
  rw [h2]
  have : ∀ a b c : K, a / N - b / N * (c / N) = (a - b * c / N) / N := fun a b c => by field_simp
  rw [this, div_pow, mul_div_assoc', mul_div_assoc']
  refine div_le_div_of_nonneg_right ?_ (by positivity)
  linarith

/-- the squares of the diagonal of the centred distances -/
theorem diag_sq_le (z : Fin N → K) : ∑ k, centredDist z k k ^ 2 ≤ 16 * ∑ k, z k ^ 2 := by
  rcases Nat.eq_zero_or_pos N with h0 | hN
  · subst h0; simp
  have hN0 : (0 : K) < N := by exact_mod_cast hN
  have h1 : ∀ k, centredDist z k k ^ 2 ≤ 4 * ((∑ m, |z k - z m|) / N) ^ 2 := by
    intro k
    have e : centredDist z k k = -(2 * ((∑ m, |z k - z m|) / N)) + (∑ p, ∑ m, |z p - z m|) / N ^ 2 := by
      unfold centredDist
      have : ∑ m, |z m - z k| = ∑ m, |z k - z m| := sum_congr rfl fun m _ => abs_sub_comm _ _
      rw [sub_self, abs_zero, this]; ring
    have h2 := centredDist_diag z k
    have h3 : 0 ≤ (∑ p, ∑ m, |z p - z m|) / (N : K) ^ 2 :=
      div_nonneg (sum_nonneg fun _ _ => sum_nonneg fun _ _ => abs_nonneg _) (by positivity)
    rw [e] at h2 ⊢
    nlinarith
  have h2 : ∀ k, ((∑ m, |z k - z m|) / N) ^ 2 ≤ (∑ m, 2 * (z k ^ 2 + z m ^ 2)) / N := by
    intro k
    rw [div_pow, sq (N : K), ← div_div]
    refine div_le_div_of_nonneg_right ?_ hN0.le
    rw [div_le_iff₀ hN0]
    have := sq_sum_le_card_mul_sum_sq (s := univ) (f := fun m => |z k - z m|)
    simp only [card_univ, Fintype.card_fin, sq_abs] at this
    rw [mul_comm]
    refine this.trans (mul_le_mul_of_nonneg_left (sum_le_sum fun m _ => ?_) hN0.le)
    nlinarith [sq_nonneg (z k + z m)]
  calc ∑ k, centredDist z k k ^ 2 ≤ ∑ k, 4 * ((∑ m, 2 * (z k ^ 2 + z m ^ 2)) / (N : K)) :=
        sum_le_sum fun k _ => (h1 k).trans (mul_le_mul_of_nonneg_left (h2 k) (by norm_num))
    _ = 16 * ∑ k, z k ^ 2 := by
        simp only [← mul_sum, sum_add_distrib, sum_const, card_univ, Fintype.card_fin, nsmul_eq_mul, ← sum_div]
        field_simp
        ring

/-- the diagonal term of `dcov` -/
theorem diag_le (x y : Fin N → K) :
    ∑ k, centredDist x k k * centredDist y k k ≤ 8 * ∑ k, (x k ^ 2 + y k ^ 2) := by
  calc ∑ k, centredDist x k k * centredDist y k k ≤ ∑ k, (centredDist x k k ^ 2 / 2 + centredDist y k k ^ 2 / 2) :=
        sum_le_sum fun k _ => by nlinarith [sq_nonneg (centredDist x k k - centredDist y k k)]
    _ ≤ 8 * ∑ k, (x k ^ 2 + y k ^ 2) := by
        simp only [sum_add_distrib, ← sum_div]
        linarith [diag_sq_le x, diag_sq_le y]

/-- the mean distance is bounded by the second moment -/
theorem meanDist_le (x : Fin N → K) : meanDist x ≤ 1 + (∑ k, x k ^ 2) / N := by
  rcases Nat.eq_zero_or_pos N with h0 | hN
  · subst h0; simp [meanDist]
  have hN0 : (0 : K) < N := by exact_mod_cast hN
  have h : ∀ k l, |x k - x l| ≤ 1 + (x k ^ 2 + x l ^ 2) / 2 := by
    intro k l
    rw [abs_le]
    constructor <;> nlinarith [sq_nonneg (x k - x l - 1), sq_nonneg (x k - x l + 1), sq_nonneg (x k - 1), sq_nonneg (x k + 1), sq_nonneg (x l - 1), sq_nonneg (x l + 1)]
  unfold meanDist
  rw [div_le_iff₀ (by positivity)]
  refine (sum_le_sum fun k _ => sum_le_sum fun l _ => h k l).trans (le_of_eq ?_)
  simp only [← mul_sum, sum_add_distrib, sum_const, card_univ, Fintype.card_fin, nsmul_eq_mul, ← sum_div]
  field_simp
  ring

end algebra

section prob
open MeasureTheory ProbabilityTheory Filter Topology

theorem ramp_mem {p q : ℝ} (hpq : p ≤ q) (x : ℝ) : 0 ≤ ramp p q x ∧ ramp p q x ≤ q - p := by
  unfold ramp
  constructor
  · exact sub_nonneg.mpr (min_le_min_left x hpq)
  · rcases le_total x p with h | h
    · rw [min_eq_left h, min_eq_left (h.trans hpq)]; linarith
    · rw [min_eq_right h]; linarith [min_le_right x q]

theorem ramp_measurable (p q : ℝ) : Measurable (ramp p q) := by
  unfold ramp; fun_prop

theorem ramp_tendsto (a x : ℝ) : Tendsto (fun n : ℕ => ((n : ℝ) + 1) * ramp a (a + 1 / ((n : ℝ) + 1)) x) atTop (𝓝 (if a < x then 1 else 0)) := by
  by_cases h : a < x
  · rw [if_pos h]
    refine tendsto_const_nhds.congr' ?_
    have h1 := (tendsto_one_div_add_atTop_nhds_zero_nat (𝕜 := ℝ)).eventually (gt_mem_nhds (sub_pos.mpr h))
    filter_upwards [h1] with n hn
    have : (n : ℝ) + 1 ≠ 0 := by positivity
    unfold ramp
    rw [min_eq_right h.le, min_eq_right (by linarith)]
    field_simp
    ring
  · rw [if_neg h]
    refine tendsto_const_nhds.congr fun n => ?_
    have : (0 : ℝ) < 1 / ((n : ℝ) + 1) := by positivity
    unfold ramp
    rw [min_eq_left (by linarith), min_eq_left (by linarith)]
    ring

/-- if all ramps of two variables are uncorrelated, then the variables are independent -/
theorem indep_of_ramps {Ω : Type} [MeasurableSpace Ω] {ν : Measure Ω} [IsProbabilityMeasure ν] {X Y : Ω → ℝ} (hX : Measurable X)
    (hY : Measurable Y) (h : ∀ p q r s : ℝ, p < q → r < s → ∫ ω, ramp p q (X ω) * ramp r s (Y ω) ∂ν =
      (∫ ω, ramp p q (X ω) ∂ν) * ∫ ω, ramp r s (Y ω) ∂ν) : IndepFun X Y ν := by
  let F : ℝ → ℕ → ℝ → ℝ := fun a n x => ((n : ℝ) + 1) * ramp a (a + 1 / ((n : ℝ) + 1)) x
  have hF0 : ∀ a n x, 0 ≤ F a n x ∧ F a n x ≤ 1 := by
    intro a n x
    have hp : (0 : ℝ) < 1 / ((n : ℝ) + 1) := by positivity
    have := ramp_mem (by linarith : a ≤ a + 1 / ((n : ℝ) + 1)) x
    refine ⟨mul_nonneg (by positivity) this.1, ?_⟩
    calc ((n : ℝ) + 1) * ramp a (a + 1 / ((n : ℝ) + 1)) x ≤ ((n : ℝ) + 1) * (1 / ((n : ℝ) + 1)) :=
          mul_le_mul_of_nonneg_left (by linarith [this.2]) (by positivity)
      _ = 1 := by field_simp
  have hFm : ∀ a n, Measurable (F a n) := fun a n => (ramp_measurable _ _).const_mul _
  have lim1 : ∀ (Z : Ω → ℝ), Measurable Z → ∀ a, Tendsto (fun n => ∫ ω, F a n (Z ω) ∂ν) atTop (𝓝 (ν.real (Z ⁻¹' Set.Ioi a))) := by
    intro Z hZ a
    have := tendsto_integral_of_dominated_convergence (μ := ν) (F := fun n ω => F a n (Z ω)) (f := fun ω => if a < Z ω then (1 : ℝ) else 0)
      (fun _ => 1) (fun n => ((hFm a n).comp hZ).aestronglyMeasurable) (integrable_const _)
      (fun n => Eventually.of_forall fun ω => by
        rw [Real.norm_eq_abs, abs_of_nonneg (hF0 a n _).1]; exact (hF0 a n _).2)
      (Eventually.of_forall fun ω => ramp_tendsto a (Z ω))
    have e : ∫ ω, (if a < Z ω then (1 : ℝ) else 0) ∂ν = ν.real (Z ⁻¹' Set.Ioi a) := by
      rw [← integral_indicator_one (hZ measurableSet_Ioi)]
      rfl
    rwa [e] at this
  have lim2 : ∀ a b, Tendsto (fun n => ∫ ω, F a n (X ω) * F b n (Y ω) ∂ν) atTop (𝓝 (ν.real (X ⁻¹' Set.Ioi a ∩ Y ⁻¹' Set.Ioi b))) := by
    intro a b
    have := tendsto_integral_of_dominated_convergence (μ := ν) (F := fun n ω => F a n (X ω) * F b n (Y ω))
      (f := fun ω => (if a < X ω then (1 : ℝ) else 0) * (if b < Y ω then (1 : ℝ) else 0))
      (fun _ => 1) (fun n => (((hFm a n).comp hX).mul ((hFm b n).comp hY)).aestronglyMeasurable) (integrable_const _)
      (fun n => Eventually.of_forall fun ω => by
        rw [Real.norm_eq_abs, abs_of_nonneg (mul_nonneg (hF0 a n _).1 (hF0 b n _).1)]
        exact mul_le_one₀ (hF0 a n _).2 (hF0 b n _).1 (hF0 b n _).2)
      (Eventually.of_forall fun ω => (ramp_tendsto a (X ω)).mul (ramp_tendsto b (Y ω)))
    have e : ∫ ω, (if a < X ω then (1 : ℝ) else 0) * (if b < Y ω then (1 : ℝ) else 0) ∂ν = ν.real (X ⁻¹' Set.Ioi a ∩ Y ⁻¹' Set.Ioi b) := by
      rw [← integral_indicator_one ((hX measurableSet_Ioi).inter (hY measurableSet_Ioi))]
      refine integral_congr_ae (Eventually.of_forall fun ω => ?_)
      by_cases h1 : a < X ω <;> by_cases h2 : b < Y ω <;> simp [Set.indicator, h1, h2]
    rwa [e] at this
  have key : ∀ a b, ν.real (X ⁻¹' Set.Ioi a ∩ Y ⁻¹' Set.Ioi b) = ν.real (X ⁻¹' Set.Ioi a) * ν.real (Y ⁻¹' Set.Ioi b) := by
    intro a b
    refine tendsto_nhds_unique (lim2 a b) (((lim1 X hX a).mul (lim1 Y hY b)).congr fun n => ?_)
    have hp : (0 : ℝ) < 1 / ((n : ℝ) + 1) := by positivity
    have := h a (a + 1 / ((n : ℝ) + 1)) b (b + 1 / ((n : ℝ) + 1)) (by linarith) (by linarith)
    have e : ∀ ω, F a n (X ω) * F b n (Y ω) = (((n : ℝ) + 1) * ((n : ℝ) + 1)) *
        (ramp a (a + 1 / ((n : ℝ) + 1)) (X ω) * ramp b (b + 1 / ((n : ℝ) + 1)) (Y ω)) := fun ω => by simp only [F]; ring
    simp only [e]
    simp only [F]
    rw [integral_const_mul, integral_const_mul, integral_const_mul, this]
    ring
  rw [IndepFun_iff_Indep]
  have gen : ∀ Z : Ω → ℝ, MeasurableSpace.comap Z inferInstance = MeasurableSpace.generateFrom ((Set.preimage Z) '' Set.range Set.Ioi) := by
    intro Z
    rw [← MeasurableSpace.comap_generateFrom, ← borel_eq_generateFrom_Ioi, ← BorelSpace.measurable_eq (α := ℝ)]
  refine IndepSets.indep hX.comap_le hY.comap_le (isPiSystem_Ioi.comap X) (isPiSystem_Ioi.comap Y) (gen X) (gen Y) ?_
  rw [IndepSets_iff]
  rintro _ _ ⟨_, ⟨a, rfl⟩, rfl⟩ ⟨_, ⟨b, rfl⟩, rfl⟩
  have := key a b
  simp only [Measure.real] at this
  rw [← ENNReal.toReal_mul] at this
  exact (ENNReal.toReal_eq_toReal_iff' (measure_ne_top _ _) (by finiteness)).mp this

end prob
end Medil

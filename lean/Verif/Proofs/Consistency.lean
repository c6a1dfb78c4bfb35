import Verif.Props.Gaussian
import Mathlib.Analysis.SpecialFunctions.Pow.Asymptotics
/-
  Deterministic part of the consistency of `GaussianMCM._estimate_udg`: when all averages are within `√(c log n / n)` of the
  population values, the estimated graph is the covariance graph, for large `n`.
-/
namespace Medil
open Finset Filter Topology
variable {M : Nat}

/-- the average of a function of the rows -/
noncomputable def avg {n : Nat} {α : Type} (g : α → ℝ) (s : Fin n → α) : ℝ := (∑ k, g (s k)) / n

/-- the sample covariance from averages of shifted columns -/
theorem sampleCov_avg {n : Nat} (hn : 2 ≤ n) (x y : Fin n → ℝ) (a b : ℝ) :
    sampleCov x y = (n : ℝ) / (n - 1) * ((∑ k, (x k - a) * (y k - b)) / n - (∑ k, (x k - a)) / n * ((∑ k, (y k - b)) / n)) := by
  have h0 : (n : ℝ) ≠ 0 := by positivity
  have h1 : (n : ℝ) - 1 ≠ 0 := by
    have : (2 : ℝ) ≤ n := by exact_mod_cast hn
    linarith
  unfold sampleCov sampleMean
  have e : ∀ k, (x k - (∑ k, x k) / n) * (y k - (∑ k, y k) / n) = (x k - a) * (y k - b) + (x k - a) * (b - (∑ k, y k) / n) +
      (a - (∑ k, x k) / n) * (y k - b) + (a - (∑ k, x k) / n) * (b - (∑ k, y k) / n) := fun k => by ring
  simp only [e, sum_add_distrib, ← sum_mul, ← mul_sum, sum_const, card_univ, Fintype.card_fin, nsmul_eq_mul, sum_sub_distrib]
  field_simp
  ring

/-- no edge: small covariance -/
theorem log_no_edge {n T : ℝ} (hn : 1 ≤ n) (hT : T ≤ Real.log n / (2 * n)) :
    ¬ Real.log (max (1 - T) (1 / 100000)) < -Real.log n / n := by
  have hn0 : 0 < n := by linarith
  have hl : Real.log n ≤ n := (Real.log_le_sub_one_of_pos hn0).trans (by linarith)
  have hl0 : 0 ≤ Real.log n := Real.log_nonneg hn
  set t := Real.log n / (2 * n) with ht
  have ht0 : 0 ≤ t := by positivity
  have ht1 : t ≤ 1 / 2 := by rw [ht, div_le_iff₀ (by linarith)]; linarith
  have e : -Real.log n / n = -(2 * t) := by rw [ht]; field_simp
  rw [e, not_lt]
  have h1 : 1 - t ≤ max (1 - T) (1 / 100000) := le_trans (by linarith) (le_max_left _ _)
  refine le_trans ?_ (Real.log_le_log (by linarith) h1)
  -- log (1 - t) ≥ 1 - 1 / (1 - t) = - t / (1 - t) ≥ -2 t
  have h2 := Real.one_sub_inv_le_log_of_pos (by linarith : 0 < 1 - t)
  refine le_trans ?_ h2
  have h3 : (1 - t)⁻¹ ≤ 1 + 2 * t := by
    rw [inv_le_comm₀ (by linarith) (by linarith), inv_le_iff_one_le_mul₀ (by linarith)]
    nlinarith
  linarith

/-- edge: covariance bounded away from 0 -/
theorem log_edge {t : ℝ} (ht : 0 < t) : ∀ᶠ n : ℕ in atTop, ∀ T : ℝ, t ≤ T →
    Real.log (max (1 - T) (1 / 100000)) < -Real.log n / n := by
  have hq : max (1 - t) (1 / 100000) < 1 := max_lt (by linarith) (by norm_num)
  have hl : Real.log (max (1 - t) (1 / 100000)) < 0 := Real.log_neg (lt_of_lt_of_le (by norm_num) (le_max_right _ _)) hq
  have h : Tendsto (fun n : ℕ => Real.log n / n) atTop (𝓝 0) := by
    have := Real.isLittleO_log_id_atTop.tendsto_div_nhds_zero
    exact this.comp tendsto_natCast_atTop_atTop
  filter_upwards [h.eventually (gt_mem_nhds (neg_pos.mpr hl))] with n hn T hT
  refine lt_of_le_of_lt (Real.log_le_log (lt_of_lt_of_le (by norm_num) (le_max_right _ _)) (max_le_max_right _ (by linarith : 1 - T ≤ 1 - t))) ?_
  rw [neg_div]
  linarith

/-- all averages of centred columns and of products of two of them are within `δ` of `0` and of `C` -/
def Near (m : Fin M → ℝ) (C : Fin M → Fin M → ℝ) (δ : ℝ) {n : Nat} (s : Fin n → Fin M → ℝ) : Prop :=
  (∀ i, |(∑ k, (s k i - m i)) / n| < δ) ∧ ∀ i j, |(∑ k, (s k i - m i) * (s k j - m j)) / n - C i j| < δ

/-- the tolerance -/
noncomputable def tol (c : ℝ) (n : ℕ) : ℝ := √(c * Real.log n / n)

theorem tol_tendsto (c : ℝ) : Tendsto (tol c) atTop (𝓝 0) := by
  have h : Tendsto (fun n : ℕ => Real.log n / n) atTop (𝓝 0) :=
    Real.isLittleO_log_id_atTop.tendsto_div_nhds_zero.comp tendsto_natCast_atTop_atTop
  have h2 : Tendsto (fun n : ℕ => c * Real.log n / n) atTop (𝓝 0) := by
    have := h.const_mul c
    simpa [mul_div_assoc] using this
  have := (Real.continuous_sqrt.tendsto 0).comp h2
  simp only [Real.sqrt_zero] at this
  exact this

theorem tol_sq {c : ℝ} (hc : 0 ≤ c) (n : ℕ) : tol c n ^ 2 = c * Real.log n / n := by
  unfold tol
  refine Real.sq_sqrt (div_nonneg (mul_nonneg hc ?_) (Nat.cast_nonneg n))
  exact Real.log_natCast_nonneg n

theorem ratio_bounds {n : ℕ} (hn : 2 ≤ n) : 1 ≤ (n : ℝ) / (n - 1) ∧ (n : ℝ) / (n - 1) ≤ 2 := by
  have : (2 : ℝ) ≤ n := by exact_mod_cast hn
  rw [le_div_iff₀ (by linarith), div_le_iff₀ (by linarith)]
  constructor <;> linarith

/-- the sample covariance is near `n / (n - 1)` times the population covariance -/
theorem near_cov {m : Fin M → ℝ} {C : Fin M → Fin M → ℝ} {δ : ℝ} {n : ℕ} (hn : 2 ≤ n) {s : Fin n → Fin M → ℝ} (h : Near m C δ s)
    (hδ : δ ≤ 1) (i j : Fin M) :
    |sampleCov (fun k => s k i) (fun k => s k j) - (n : ℝ) / (n - 1) * C i j| ≤ 4 * δ := by
  obtain ⟨r1, r2⟩ := ratio_bounds hn
  rw [sampleCov_avg hn _ _ (m i) (m j)]
  have hi := h.1 i
  have hj := h.1 j
  have hC := h.2 i j
  have hδ0 : 0 < δ := lt_of_le_of_lt (abs_nonneg _) hi
  generalize (n : ℝ) / (n - 1) = r at *
  generalize (∑ k, (s k i - m i)) / (n : ℝ) = a at *
  generalize (∑ k, (s k j - m j)) / (n : ℝ) = b at *
  generalize (∑ k, (s k i - m i) * (s k j - m j)) / (n : ℝ) = A at *
  have e : r * (A - a * b) - r * C i j = r * ((A - C i j) - a * b) := by ring
  rw [e, abs_mul, abs_of_nonneg (by linarith)]
  have h1 : |a * b| ≤ δ := by
    rw [abs_mul]
    nlinarith [abs_nonneg a, abs_nonneg b]
  have h2 : |A - C i j - a * b| ≤ 2 * δ := (abs_sub _ _).trans (by linarith)
  nlinarith [abs_nonneg (A - C i j - a * b)]

/-- the statistic for a pair with zero covariance -/
theorem near_no_edge {m : Fin M → ℝ} {C : Fin M → Fin M → ℝ} {c : ℝ} (hc : 0 < c) {n : ℕ} (hn : 2 ≤ n) {s : Fin n → Fin M → ℝ}
    (h : Near m C (tol c n) s) (hδ : tol c n ≤ 1) {i j : Fin M} (hi : 64 * c ≤ C i i) (hj : 64 * c ≤ C j j)
    (hδi : 8 * tol c n ≤ C i i) (hδj : 8 * tol c n ≤ C j j) (h0 : C i j = 0) :
    sampleCov (fun k => s k i) (fun k => s k j) * sampleCorr (fun k => s k i) (fun k => s k j) ≤ Real.log n / (2 * n) := by
  obtain ⟨r1, r2⟩ := ratio_bounds hn
  have hV : ∀ i, 64 * c ≤ C i i → 8 * tol c n ≤ C i i → √(32 * c) ≤ √(sampleCov (fun k => s k i) (fun k => s k i)) := by
    intro i hi hδi
    refine Real.sqrt_le_sqrt ?_
    have h1 := (abs_le.mp (near_cov hn h hδ i i)).1
    nlinarith
  have hS := near_cov hn h hδ i j
  rw [h0, mul_zero, sub_zero] at hS
  have hp := mul_le_mul (hV i hi hδi) (hV j hj hδj) (Real.sqrt_nonneg _) (Real.sqrt_nonneg _)
  rw [Real.mul_self_sqrt (by linarith)] at hp
  unfold sampleCorr
  generalize √(sampleCov (fun k => s k i) (fun k => s k i)) * √(sampleCov (fun k => s k j) (fun k => s k j)) = D at *
  generalize sampleCov (fun k => s k i) (fun k => s k j) = S at *
  have hD : 0 < D := by linarith
  have hsq : S ^ 2 ≤ 16 * tol c n ^ 2 := by
    have := sq_le_sq' (by linarith [neg_abs_le S, abs_nonneg S, hS] : -(4 * tol c n) ≤ |S|) hS
    rw [sq_abs] at this
    linarith
  rw [tol_sq hc.le] at hsq
  rw [← mul_div_assoc, ← sq, div_le_iff₀ hD]
  have hl : 0 ≤ Real.log n / (2 * n) := div_nonneg (Real.log_natCast_nonneg n) (by positivity)
  have e : 16 * (c * Real.log n / n) = Real.log n / (2 * n) * (32 * c) := by
    have : (n : ℝ) ≠ 0 := by positivity
    field_simp
    ring
  rw [e] at hsq
  exact hsq.trans (mul_le_mul_of_nonneg_left hp hl)

/-- the statistic for a pair with non-zero covariance -/
theorem near_edge {m : Fin M → ℝ} {C : Fin M → Fin M → ℝ} {δ : ℝ} {n : ℕ} (hn : 2 ≤ n) {s : Fin n → Fin M → ℝ}
    (h : Near m C δ s) (hδ : δ ≤ 1) {i j : Fin M} (hi : 0 < C i i) (hj : 0 < C j j)
    (hδi : 8 * δ ≤ C i i) (hδj : 8 * δ ≤ C j j) (hδC : 8 * δ ≤ |C i j|) :
    (C i j) ^ 2 / 4 / (√(2 * C i i + 4) * √(2 * C j j + 4)) ≤
      sampleCov (fun k => s k i) (fun k => s k j) * sampleCorr (fun k => s k i) (fun k => s k j) := by
  obtain ⟨r1, r2⟩ := ratio_bounds hn
  have hV : ∀ i, 0 < C i i → 8 * δ ≤ C i i → 0 < √(sampleCov (fun k => s k i) (fun k => s k i)) ∧
      √(sampleCov (fun k => s k i) (fun k => s k i)) ≤ √(2 * C i i + 4) := by
    intro i hi hδi
    have h1 := abs_le.mp (near_cov hn h hδ i i)
    exact ⟨Real.sqrt_pos.mpr (by nlinarith), Real.sqrt_le_sqrt (by nlinarith)⟩
  have hS : |C i j| / 2 ≤ |sampleCov (fun k => s k i) (fun k => s k j)| := by
    have h1 := near_cov hn h hδ i j
    have h2 : |(n : ℝ) / (n - 1) * C i j| ≤ |sampleCov (fun k => s k i) (fun k => s k j)| + 4 * δ := by
      have := abs_sub_abs_le_abs_sub ((n : ℝ) / (n - 1) * C i j) (sampleCov (fun k => s k i) (fun k => s k j))
      rw [abs_sub_comm] at this
      linarith
    rw [abs_mul, abs_of_nonneg (by linarith : 0 ≤ (n : ℝ) / (n - 1))] at h2
    nlinarith [abs_nonneg (C i j)]
  obtain ⟨pi, qi⟩ := hV i hi hδi
  obtain ⟨pj, qj⟩ := hV j hj hδj
  unfold sampleCorr
  rw [← mul_div_assoc, ← sq]
  refine div_le_div₀ (sq_nonneg _) ?_ (mul_pos pi pj) (mul_le_mul qi qj pj.le (Real.sqrt_nonneg _))
  have := pow_le_pow_left₀ (by positivity) hS 2
  rw [sq_abs, div_pow, sq_abs] at this
  linarith

theorem not_constant_of_pos {n : ℕ} {x : Fin n → ℝ} (h : 0 < sampleCov x x) : ¬ Constant x := by
  intro hc
  have e : ∀ k, x k - sampleMean x = 0 := by
    intro k
    have h0 : (n : ℝ) ≠ 0 := by exact_mod_cast k.pos.ne'
    unfold sampleMean
    rw [sum_congr rfl fun l _ => hc l k]
    simp [h0]
  unfold sampleCov at h
  simp [e] at h

/-- **the deterministic statement**: for a covariance matrix with positive diagonal there is a tolerance constant such that for
large `n` every dataset with averages near the population values has the covariance graph as estimated graph -/
theorem near_graph (hM : M ≠ 1) (m : Fin M → ℝ) (C : Fin M → Fin M → ℝ) (hsym : ∀ i j, C i j = C j i) (hpos : ∀ i, 0 < C i i) :
    ∃ c : ℝ, 0 < c ∧ ∀ᶠ n : ℕ in atTop, ∀ (hn : 2 ≤ n) (s : Fin n → Fin M → ℝ), Near m C (tol c n) s →
      ∃ U, estimateUdgCov (⟨n, hn, s⟩ : Dataset M) = .ok U ∧ ∀ i j, U i j = true ↔ i ≠ j ∧ C i j ≠ 0 := by
  obtain ⟨c, hc, hci⟩ : ∃ c : ℝ, 0 < c ∧ ∀ i, 64 * c ≤ C i i := by
    rcases isEmpty_or_nonempty (Fin M) with h | h
    · exact ⟨1, one_pos, fun i => h.elim i⟩
    · obtain ⟨i0, h0⟩ := Finite.exists_min fun i => C i i
      exact ⟨C i0 i0 / 64, by have := hpos i0; positivity, fun i => by have := h0 i; linarith⟩
  refine ⟨c, hc, ?_⟩
  have t1 : ∀ ε : ℝ, 0 < ε → ∀ᶠ n : ℕ in atTop, tol c n ≤ ε := fun ε hε =>
    ((tol_tendsto c).eventually (gt_mem_nhds hε)).mono fun n hn => le_of_lt hn
  have t2 : ∀ᶠ n : ℕ in atTop, ∀ i, 8 * tol c n ≤ C i i := eventually_all.mpr fun i =>
    (t1 (C i i / 8) (by have := hpos i; positivity)).mono fun n hn => by linarith
  have t3 : ∀ᶠ n : ℕ in atTop, ∀ i j, C i j ≠ 0 → 8 * tol c n ≤ |C i j| := eventually_all.mpr fun i => eventually_all.mpr fun j => by
    by_cases h0 : C i j = 0
    · exact Eventually.of_forall fun n hn => absurd h0 hn
    · exact (t1 (|C i j| / 8) (by have := abs_pos.mpr h0; positivity)).mono fun n hn _ => by linarith
  have t4 : ∀ᶠ n : ℕ in atTop, ∀ i j, C i j ≠ 0 → ∀ T : ℝ, (C i j) ^ 2 / 4 / (√(2 * C i i + 4) * √(2 * C j j + 4)) ≤ T →
      Real.log (max (1 - T) (1 / 100000)) < -Real.log n / n := eventually_all.mpr fun i => eventually_all.mpr fun j => by
    by_cases h0 : C i j = 0
    · exact Eventually.of_forall fun n hn => absurd h0 hn
    · have hp : 0 < (C i j) ^ 2 / 4 / (√(2 * C i i + 4) * √(2 * C j j + 4)) := by
        have := hpos i
        have := hpos j
        positivity
      exact (log_edge hp).mono fun n hn _ => hn
  filter_upwards [t1 1 one_pos, t2, t3, t4] with n h1 h2 h3 h4 hn s hs
  obtain ⟨U, hU, hUs, hUd, hUe⟩ := (C60_estimated_graph (⟨n, hn, s⟩ : Dataset M)).2 hM
  refine ⟨U, hU, ?_⟩
  have hnc : ∀ i, ¬ Constant fun k => s k i := fun i => not_constant_of_pos (by
    have ha := (abs_le.mp (near_cov hn hs h1 i i)).1
    obtain ⟨r1, -⟩ := ratio_bounds hn
    have := hpos i
    have := h2 i
    nlinarith)
  have hlt : ∀ i j, i < j → (U i j = true ↔ C i j ≠ 0) := by
    intro i j hij
    rw [hUe i j hij]
    constructor
    · rintro ⟨-, -, h⟩ h0
      refine log_no_edge (n := n) (by exact_mod_cast (by omega : 1 ≤ n)) ?_ h
      exact near_no_edge hc hn hs h1 (hci i) (hci j) (h2 i) (h2 j) h0
    · intro h0
      exact ⟨hnc i, hnc j, h4 i j h0 _ (near_edge hn hs h1 (hpos i) (hpos j) (h2 i) (h2 j) (h3 i j h0))⟩
  intro i j
  rcases lt_trichotomy i j with h | h | h
  · rw [hlt i j h]; simp [h.ne]
  · subst h; simp [hUd]
  · rw [hUs, hlt j i h, hsym j i]; simp [h.ne']

end Medil

import Verif.Spec.Bic
import Verif.Props.Gaussian
import Mathlib.Algebra.BigOperators.Field
import Mathlib.Analysis.Complex.ExponentialBounds
/-
  Property theorem C189: is the graph estimated by `GaussianMCM` optimal for the Bayesian information criterion?
-/
namespace Medil
open Finset
variable {M N : Nat}

/-- sum of the products of the deviations from the means -/
noncomputable def devProd (x y : Fin N → ℝ) : ℝ := ∑ k, (x k - sampleMean x) * (y k - sampleMean y)

theorem devProd_self_nonneg (x : Fin N → ℝ) : 0 ≤ devProd x x := sum_nonneg fun _ _ => mul_self_nonneg _

theorem devProd_cs (x y : Fin N → ℝ) : devProd x y ^ 2 ≤ devProd x x * devProd y y := by
  have := sum_mul_sq_le_sq_mul_sq univ (fun k => x k - sampleMean x) fun k => y k - sampleMean y
  simp only [sq] at this ⊢
  exact this

theorem shifted_sum (hN : 0 < N) (x y : Fin N → ℝ) (μ ν : ℝ) :
    ∑ k, (x k - μ) * (y k - ν) = devProd x y + N * ((sampleMean x - μ) * (sampleMean y - ν)) := by
  have h0 : (N : ℝ) ≠ 0 := by positivity
  have hx : ∑ k, x k = N * sampleMean x := by unfold sampleMean; field_simp
  have hy : ∑ k, y k = N * sampleMean y := by unfold sampleMean; field_simp
  unfold devProd
  generalize sampleMean x = a at *
  generalize sampleMean y = b at *
  have e : ∀ k, (x k - μ) * (y k - ν) = (x k - a) * (y k - b) + ((a - μ) * (y k - b) + (b - ν) * (x k - a) + (a - μ) * (b - ν)) := fun k => by ring
  simp only [e, sum_add_distrib, ← mul_sum, sum_sub_distrib, hx, hy, sum_const, card_univ, Fintype.card_fin, nsmul_eq_mul]
  ring

/-- minus twice the log likelihood -/
theorem bic_eq (p : Binormal) (c : Nat) (hN : 0 < N) (x y : Fin N → ℝ) :
    bic p c x y = N * (2 * Real.log (2 * Real.pi)) + N * Real.log (p.var1 * p.var2 - p.cov ^ 2) +
      (p.var2 * devProd x x - 2 * p.cov * devProd x y + p.var1 * devProd y y) / (p.var1 * p.var2 - p.cov ^ 2) +
      N * (p.var2 * (sampleMean x - p.mean1) ^ 2 - 2 * p.cov * ((sampleMean x - p.mean1) * (sampleMean y - p.mean2)) +
        p.var1 * (sampleMean y - p.mean2) ^ 2) / (p.var1 * p.var2 - p.cov ^ 2) + c * Real.log N := by
  have hD : 0 < p.var1 * p.var2 - p.cov ^ 2 := sub_pos.mpr p.cov_lt
  generalize hDe : p.var1 * p.var2 - p.cov ^ 2 = D at *
  have hpi : 0 < 2 * Real.pi := by positivity
  have hd : ∀ k, p.density (x k) (y k) ≠ 0 := fun k => by unfold Binormal.density; rw [hDe]; positivity
  unfold bic Binormal.likelihood
  rw [Real.log_prod fun k _ => hd k]
  have hk : ∀ k, -2 * Real.log (p.density (x k) (y k)) = 2 * Real.log (2 * Real.pi) + Real.log D +
      (p.var2 * ((x k - p.mean1) * (x k - p.mean1)) - 2 * p.cov * ((x k - p.mean1) * (y k - p.mean2)) +
        p.var1 * ((y k - p.mean2) * (y k - p.mean2))) / D := by
    intro k
    unfold Binormal.density
    rw [hDe, Real.log_div (Real.exp_ne_zero _) (by positivity), Real.log_exp, Real.log_mul hpi.ne' (by positivity), Real.log_sqrt hD.le]
    field_simp
    ring
  rw [mul_sum, sum_congr rfl fun k _ => hk k, sum_add_distrib, ← sum_div, sum_add_distrib, sum_add_distrib, sum_sub_distrib, ← mul_sum, ← mul_sum, ← mul_sum, ← mul_sum,
    shifted_sum hN, shifted_sum hN, shifted_sum hN]
  simp only [sum_const, card_univ, Fintype.card_fin, nsmul_eq_mul]
  field_simp
  ring

theorem trace_sq {a b c s t u : ℝ} (ha : 0 < a) (hb : 0 < b) (hD : c ^ 2 < a * b) :
    4 * ((a * b - c ^ 2) * (s * t - u ^ 2)) ≤ (b * s - 2 * c * u + a * t) ^ 2 := by
  have e : (b * s - 2 * c * u + a * t) ^ 2 - 4 * ((a * b - c ^ 2) * (s * t - u ^ 2)) =
      (b * s - a * t) ^ 2 + 4 * ((a * u - c * s) * (b * u - c * t)) := by ring
  have hrel : b * (a * u - c * s) - a * (b * u - c * t) = -c * (b * s - a * t) := by ring
  have key : 0 ≤ (b * s - a * t) ^ 2 + 4 * ((a * u - c * s) * (b * u - c * t)) := by
    rcases eq_or_ne c 0 with rfl | hc
    · have : 0 ≤ (a * u - 0 * s) * (b * u - 0 * t) := by
        have : (a * u - 0 * s) * (b * u - 0 * t) = a * b * u ^ 2 := by ring
        rw [this]; positivity
      positivity
    · generalize a * u - c * s = p at *
      generalize b * u - c * t = q at *
      generalize b * s - a * t = w at *
      rcases le_or_gt 0 (p * q) with hpq | hpq
      · positivity
      · have h1 : c ^ 2 * w ^ 2 = (b * p - a * q) ^ 2 := by rw [hrel]; ring
        have h2 : -4 * (a * b) * (p * q) ≤ (b * p - a * q) ^ 2 := by nlinarith [sq_nonneg (b * p + a * q)]
        have h3 : -4 * c ^ 2 * (p * q) ≤ c ^ 2 * w ^ 2 := by rw [h1]; nlinarith
        have hc2 : 0 < c ^ 2 := by positivity
        by_contra hn
        push Not at hn
        nlinarith
  linarith

/-- the deviance of a normal distribution is least at the sample covariance -/
theorem logdet_ge {a b c s t u : ℝ} (ha : 0 < a) (hb : 0 < b) (hD : c ^ 2 < a * b) (hs : 0 < s) (ht : 0 < t) (hu : u ^ 2 < s * t) :
    Real.log (s * t - u ^ 2) + 2 ≤ Real.log (a * b - c ^ 2) + (b * s - 2 * c * u + a * t) / (a * b - c ^ 2) := by
  have hsq := trace_sq (s := s) (t := t) (u := u) ha hb hD
  have hd : 0 < a * b - c ^ 2 := by linarith
  have he : 0 < s * t - u ^ 2 := by linarith
  have hT : 0 ≤ b * s - 2 * c * u + a * t := by
    have h1 : (2 * c * u) ^ 2 ≤ (b * s + a * t) ^ 2 := by
      have h2 : c ^ 2 * u ^ 2 ≤ (a * b) * (s * t) := mul_le_mul hD.le hu.le (sq_nonneg _) (by positivity)
      nlinarith [sq_nonneg (b * s - a * t)]
    have := abs_le_of_sq_le_sq' h1 (by positivity)
    linarith [this.2]
  have hq : 2 * Real.sqrt ((s * t - u ^ 2) / (a * b - c ^ 2)) ≤ (b * s - 2 * c * u + a * t) / (a * b - c ^ 2) := by
    refine le_of_sq_le_sq ?_ (by positivity)
    rw [mul_pow, Real.sq_sqrt (by positivity), div_pow, ← mul_div_assoc, div_le_div_iff₀ hd (by positivity)]
    nlinarith
  have hl : Real.log ((s * t - u ^ 2) / (a * b - c ^ 2)) = 2 * Real.log (Real.sqrt ((s * t - u ^ 2) / (a * b - c ^ 2))) := by
    rw [Real.log_sqrt (by positivity)]; ring
  have hl2 := Real.log_le_sub_one_of_pos (Real.sqrt_pos.mpr (show 0 < (s * t - u ^ 2) / (a * b - c ^ 2) by positivity))
  rw [Real.log_div he.ne' hd.ne'] at hl
  linarith

/-- minus twice the log likelihood of an independent pair is least at the sample variances -/
theorem bic_indep_ge (hN : 0 < N) (x y : Fin N → ℝ) (hx : 0 < devProd x x) (hy : 0 < devProd y y) (q : Binormal) (hq : q.cov = 0) (c : Nat) :
    N * (2 * Real.log (2 * Real.pi)) + N * (Real.log (devProd x x / N * (devProd y y / N)) + 2) + c * Real.log N ≤ bic q c x y := by
  have hN' : (0 : ℝ) < N := by exact_mod_cast hN
  rw [bic_eq q c hN x y, hq]
  have h := logdet_ge (a := q.var1) (b := q.var2) (c := 0) (s := devProd x x / N) (t := devProd y y / N) (u := 0) q.var1_pos q.var2_pos
    (by have := q.cov_lt; rw [hq] at this; exact this) (by positivity) (by positivity) (by
      rw [zero_pow two_ne_zero]; positivity)
  have hab : 0 < q.var1 * q.var2 := mul_pos q.var1_pos q.var2_pos
  have hv1 := q.var1_pos
  have hv2 := q.var2_pos
  simp only [zero_pow two_ne_zero, sub_zero, mul_zero, zero_mul] at h ⊢
  have h2 := mul_le_mul_of_nonneg_left h hN'.le
  have h3 : 0 ≤ N * (q.var2 * (sampleMean x - q.mean1) ^ 2 + q.var1 * (sampleMean y - q.mean2) ^ 2) / (q.var1 * q.var2) := by positivity
  have h4 : N * (Real.log (q.var1 * q.var2) + (q.var2 * (devProd x x / N) + q.var1 * (devProd y y / N)) / (q.var1 * q.var2)) =
      N * Real.log (q.var1 * q.var2) + (q.var2 * devProd x x + q.var1 * devProd y y) / (q.var1 * q.var2) := by
    field_simp
  rw [h4] at h2
  linarith

/-- the pair of independent normal distributions with the means and variances of the samples -/
noncomputable def indepFit (hN : 0 < N) (x y : Fin N → ℝ) (hx : 0 < devProd x x) (hy : 0 < devProd y y) : Binormal :=
  { mean1 := sampleMean x, mean2 := sampleMean y, var1 := devProd x x / N, var2 := devProd y y / N, cov := 0
    var1_pos := div_pos hx (by exact_mod_cast hN), var2_pos := div_pos hy (by exact_mod_cast hN)
    cov_lt := by
      rw [zero_pow two_ne_zero]
      exact mul_pos (div_pos hx (by exact_mod_cast hN)) (div_pos hy (by exact_mod_cast hN)) }

theorem bic_indepFit (hN : 0 < N) (x y : Fin N → ℝ) (hx : 0 < devProd x x) (hy : 0 < devProd y y) (c : Nat) :
    bic (indepFit hN x y hx hy) c x y =
      N * (2 * Real.log (2 * Real.pi)) + N * (Real.log (devProd x x / N * (devProd y y / N)) + 2) + c * Real.log N := by
  have hN' : (0 : ℝ) < N := by exact_mod_cast hN
  rw [bic_eq _ c hN x y]
  simp only [indepFit, sub_self, zero_pow two_ne_zero, sub_zero, mul_zero, zero_mul, add_zero, zero_div]
  field_simp
  ring

/-- the normal distribution with the means and variances of the samples and a covariance `t` times theirs -/
theorem bic_depFit (hN : 0 < N) (x y : Fin N → ℝ) (hx : 0 < devProd x x) (hy : 0 < devProd y y) (t : ℝ)
    (ht : t ^ 2 * devProd x y ^ 2 < devProd x x * devProd y y) (c : Nat) : ∃ p : Binormal, bic p c x y =
      N * (2 * Real.log (2 * Real.pi)) + N * (Real.log (devProd x x / N * (devProd y y / N)) +
        (Real.log (1 - t ^ 2 * devProd x y ^ 2 / (devProd x x * devProd y y)) +
        2 * (1 - t * devProd x y ^ 2 / (devProd x x * devProd y y)) / (1 - t ^ 2 * devProd x y ^ 2 / (devProd x x * devProd y y)))) + c * Real.log N := by
  have hN' : (0 : ℝ) < N := by exact_mod_cast hN
  have hP : 0 < devProd x x * devProd y y := mul_pos hx hy
  have hlt : (t * (devProd x y / N)) ^ 2 < devProd x x / N * (devProd y y / N) := by
    rw [← mul_div_assoc, div_pow, div_mul_div_comm, mul_pow, sq (N : ℝ)]
    exact div_lt_div_of_pos_right ht (by positivity)
  refine ⟨{ mean1 := sampleMean x, mean2 := sampleMean y, var1 := devProd x x / N, var2 := devProd y y / N, cov := t * (devProd x y / N)
            var1_pos := by positivity, var2_pos := by positivity, cov_lt := hlt }, ?_⟩
  have hfac : 0 < 1 - t ^ 2 * devProd x y ^ 2 / (devProd x x * devProd y y) := by
    rw [sub_pos, div_lt_one hP]; exact ht
  have hdet : devProd x x / N * (devProd y y / N) - (t * (devProd x y / N)) ^ 2 =
      devProd x x / N * (devProd y y / N) * (1 - t ^ 2 * devProd x y ^ 2 / (devProd x x * devProd y y)) := by
    field_simp
  rw [bic_eq _ c hN x y]
  simp only [sub_self, zero_pow two_ne_zero, mul_zero, add_zero, zero_div]
  rw [hdet, Real.log_mul (by positivity) hfac.ne']
  have hne := hfac.ne'
  generalize hF : 1 - t ^ 2 * devProd x y ^ 2 / (devProd x x * devProd y y) = F at *
  field_simp
  ring

/-- **C189** the criterion for a pair of samples: it prefers dependence iff both vary and `1 - r² < exp(-log(N)/N)` for their correlation `r` -/
theorem prefers_iff (hN : 2 ≤ N) (x y : Fin N → ℝ) (hx : 0 < devProd x x) (hy : 0 < devProd y y) :
    PrefersDependence x y ↔ 1 - devProd x y ^ 2 / (devProd x x * devProd y y) < Real.exp (-Real.log N / N) := by
  have hN0 : 0 < N := by omega
  have hN' : (0 : ℝ) < N := by exact_mod_cast hN0
  have hP : 0 < devProd x x * devProd y y := mul_pos hx hy
  have hcs := devProd_cs x y
  constructor
  · rintro ⟨p, hp⟩
    rcases hcs.lt_or_eq with hlt | heq
    · have h1 := hp _ (show (indepFit hN0 x y hx hy).cov = 0 from rfl)
      rw [bic_indepFit, bic_eq p 5 hN0] at h1
      have hD : 0 < p.var1 * p.var2 - p.cov ^ 2 := sub_pos.mpr p.cov_lt
      have h2 := logdet_ge (a := p.var1) (b := p.var2) (c := p.cov) (s := devProd x x / N) (t := devProd y y / N) (u := devProd x y / N)
        p.var1_pos p.var2_pos p.cov_lt (by positivity) (by positivity) (by
          rw [div_pow, div_mul_div_comm, sq (N : ℝ)]
          exact div_lt_div_of_pos_right hlt (by positivity))
      have h3 := mul_le_mul_of_nonneg_left h2 hN'.le
      have h4 : N * (Real.log (p.var1 * p.var2 - p.cov ^ 2) +
          (p.var2 * (devProd x x / N) - 2 * p.cov * (devProd x y / N) + p.var1 * (devProd y y / N)) / (p.var1 * p.var2 - p.cov ^ 2)) =
          N * Real.log (p.var1 * p.var2 - p.cov ^ 2) +
          (p.var2 * devProd x x - 2 * p.cov * devProd x y + p.var1 * devProd y y) / (p.var1 * p.var2 - p.cov ^ 2) := by
        field_simp
      rw [h4] at h3
      have h5 : 0 ≤ N * (p.var2 * (sampleMean x - p.mean1) ^ 2 - 2 * p.cov * ((sampleMean x - p.mean1) * (sampleMean y - p.mean2)) +
          p.var1 * (sampleMean y - p.mean2) ^ 2) / (p.var1 * p.var2 - p.cov ^ 2) := by
        refine div_nonneg (mul_nonneg hN'.le ?_) hD.le
        have := p.cov_lt
        have v1 := p.var1_pos
        have v2 := p.var2_pos
        generalize sampleMean x - p.mean1 = A
        generalize sampleMean y - p.mean2 = B
        have h6 : 0 ≤ p.var1 * (p.var2 * A ^ 2 - 2 * p.cov * (A * B) + p.var1 * B ^ 2) := by
          have : p.var1 * (p.var2 * A ^ 2 - 2 * p.cov * (A * B) + p.var1 * B ^ 2) =
              (p.var1 * B - p.cov * A) ^ 2 + (p.var1 * p.var2 - p.cov ^ 2) * A ^ 2 := by ring
          rw [this]; positivity
        exact nonneg_of_mul_nonneg_right h6 v1
      have hdet : devProd x x / N * (devProd y y / N) - (devProd x y / N) ^ 2 =
          devProd x x / N * (devProd y y / N) * (1 - devProd x y ^ 2 / (devProd x x * devProd y y)) := by
        field_simp
      have hfac : 0 < 1 - devProd x y ^ 2 / (devProd x x * devProd y y) := by
        rw [sub_pos, div_lt_one hP]; exact hlt
      rw [hdet, Real.log_mul (by positivity) hfac.ne'] at h3
      rw [← Real.log_lt_iff_lt_exp hfac, lt_div_iff₀ hN']
      push_cast at h1
      nlinarith
    · rw [heq, div_self hP.ne', sub_self]
      exact Real.exp_pos _
  · intro h
    have hE : Real.log N / N = -(-Real.log N / N) := by ring
    rcases hcs.lt_or_eq with hlt | heq
    · obtain ⟨p, hp⟩ := bic_depFit hN0 x y hx hy 1 (by simpa using hlt) 5
      refine ⟨p, fun q hq => lt_of_lt_of_le ?_ (bic_indep_ge hN0 x y hx hy q hq 4)⟩
      have hfac : 0 < 1 - devProd x y ^ 2 / (devProd x x * devProd y y) := by
        rw [sub_pos, div_lt_one hP]; exact hlt
      rw [hp]
      simp only [one_pow, one_mul]
      rw [mul_div_assoc, div_self hfac.ne']
      rw [← Real.log_lt_iff_lt_exp hfac, lt_div_iff₀ hN'] at h
      push_cast
      nlinarith
    · obtain ⟨ε, hε, hε1, hε2⟩ : ∃ ε : ℝ, 0 < ε ∧ ε < 1 ∧ ε < Real.exp (-Real.log N / N) :=
        ⟨min (1 / 2) (Real.exp (-Real.log N / N) / 2), lt_min (by norm_num) (by positivity), lt_of_le_of_lt (min_le_left _ _) (by norm_num),
          lt_of_le_of_lt (min_le_right _ _) (half_lt_self (Real.exp_pos _))⟩
      have hs : Real.sqrt (1 - ε) ^ 2 = 1 - ε := Real.sq_sqrt (by linarith)
      have ht0 : 0 ≤ Real.sqrt (1 - ε) := Real.sqrt_nonneg _
      have ht1 : Real.sqrt (1 - ε) ≤ 1 := by rw [Real.sqrt_le_iff]; constructor <;> linarith
      obtain ⟨p, hp⟩ := bic_depFit hN0 x y hx hy (Real.sqrt (1 - ε)) (by rw [hs, heq]; nlinarith) 5
      refine ⟨p, fun q hq => lt_of_lt_of_le ?_ (bic_indep_ge hN0 x y hx hy q hq 4)⟩
      rw [hp, heq, mul_div_cancel_right₀ _ hP.ne', mul_div_cancel_right₀ _ hP.ne', hs, sub_sub_cancel]
      have hle : 2 * (1 - Real.sqrt (1 - ε)) / ε ≤ 2 := by
        rw [div_le_iff₀ hε]
        nlinarith
      rw [← Real.log_lt_iff_lt_exp hε, lt_div_iff₀ hN'] at hε2
      push_cast
      nlinarith

theorem devProd_comm (x y : Fin N → ℝ) : devProd x y = devProd y x := sum_congr rfl fun _ _ => mul_comm _ _

theorem devProd_zero_of_constant (hN : 0 < N) (x : Fin N → ℝ) (h : Constant x) : devProd x x = 0 := by
  have h0 : (N : ℝ) ≠ 0 := by positivity
  refine sum_eq_zero fun k _ => ?_
  have : sampleMean x = x k := by
    unfold sampleMean
    rw [sum_congr rfl fun l _ => h l k, sum_const, card_univ, Fintype.card_fin, nsmul_eq_mul]
    field_simp
  rw [this, sub_self, mul_zero]

theorem devProd_pos (x : Fin N → ℝ) (h : ¬ Constant x) : 0 < devProd x x := by
  refine (devProd_self_nonneg x).lt_of_ne fun h0 => h fun k l => ?_
  have h1 := (sum_eq_zero_iff_of_nonneg fun i _ => mul_self_nonneg (x i - sampleMean x)).mp h0.symm
  have hk := mul_self_eq_zero.mp (h1 k (mem_univ _))
  have hl := mul_self_eq_zero.mp (h1 l (mem_univ _))
  linarith

/-- with the roles of the two measurements exchanged -/
def Binormal.swap (p : Binormal) : Binormal :=
  { mean1 := p.mean2, mean2 := p.mean1, var1 := p.var2, var2 := p.var1, cov := p.cov, var1_pos := p.var2_pos, var2_pos := p.var1_pos
    cov_lt := by rw [mul_comm]; exact p.cov_lt }

theorem bic_swap (p : Binormal) (c : Nat) (x y : Fin N → ℝ) : bic p.swap c y x = bic p c x y := by
  unfold bic Binormal.likelihood
  have : ∀ k, p.swap.density (y k) (x k) = p.density (x k) (y k) := by
    intro k
    unfold Binormal.density Binormal.swap
    simp only [mul_comm p.var2 p.var1]
    congr 3
    ring
  simp only [this]

theorem PrefersDependence.symm {x y : Fin N → ℝ} (h : PrefersDependence x y) : PrefersDependence y x := by
  obtain ⟨p, hp⟩ := h
  refine ⟨p.swap, fun q hq => ?_⟩
  rw [bic_swap, ← bic_swap q]
  exact hp _ hq

/-- independent normal distributions fit a constant measurement arbitrarily well -/
theorem not_prefers_constant (hN : 0 < N) (x y : Fin N → ℝ) (h : Constant x) : ¬ PrefersDependence x y := by
  rintro ⟨p, hp⟩
  have hN' : (0 : ℝ) < N := by exact_mod_cast hN
  generalize hB : bic p 5 x y = B at hp
  have key : ∀ e : ℝ, B < N * (2 * Real.log (2 * Real.pi)) + N * e + devProd y y + 4 * Real.log N := by
    intro e
    have := hp { mean1 := sampleMean x, mean2 := sampleMean y, var1 := Real.exp e, var2 := 1, cov := 0, var1_pos := Real.exp_pos _
                 var2_pos := one_pos, cov_lt := by rw [zero_pow two_ne_zero, mul_one]; exact Real.exp_pos _ } rfl
    rw [bic_eq _ 4 hN x y, devProd_zero_of_constant hN x h] at this
    have he := (Real.exp_pos e).ne'
    simp only [sub_self, zero_pow two_ne_zero, sub_zero, mul_one, mul_zero, zero_mul, zero_add, Real.log_exp, zero_div, add_zero,
      mul_div_cancel_left₀ _ he] at this
    exact_mod_cast this
  have := key ((B - (N * (2 * Real.log (2 * Real.pi)) + devProd y y + 4 * Real.log N)) / N)
  rw [mul_div_cancel₀ _ hN'.ne'] at this
  linarith

/-- the threshold is above the lower clip of the estimation -/
theorem clip_lt (hN : 0 < N) : (1 / 100000 : ℝ) < Real.exp (-Real.log N / N) := by
  have hN' : (0 : ℝ) < N := by exact_mod_cast hN
  have h1 : -1 ≤ -Real.log N / N := by
    rw [le_div_iff₀ hN']
    have := Real.log_le_sub_one_of_pos hN'
    linarith
  have h2 := Real.exp_le_exp.mpr h1
  have h3 := Real.exp_one_lt_d9
  rw [Real.exp_neg] at h2
  refine lt_of_lt_of_le ?_ h2
  rw [one_div]
  exact inv_strictAnti₀ (Real.exp_pos _) (by linarith)

/-- column `i` of a dataset -/
abbrev col (d : Dataset M) (i : Fin M) : Fin d.size → ℝ := fun k => d.val k i

theorem cov_mul_corr (hN : 2 ≤ N) (x y : Fin N → ℝ) (hx : 0 < devProd x x) (hy : 0 < devProd y y) :
    sampleCov x y * sampleCorr x y = devProd x y ^ 2 / (devProd x x * devProd y y) * (Real.sqrt (sampleCov x x) * Real.sqrt (sampleCov y y)) := by
  have hn : (0 : ℝ) < (N : ℝ) - 1 := by
    have : (2 : ℝ) ≤ N := by exact_mod_cast hN
    linarith
  have e : ∀ u v : Fin N → ℝ, sampleCov u v = devProd u v / ((N : ℝ) - 1) := fun _ _ => rfl
  have hsx : Real.sqrt (sampleCov x x) ^ 2 = devProd x x / ((N : ℝ) - 1) := by rw [e]; exact Real.sq_sqrt (by positivity)
  have hsy : Real.sqrt (sampleCov y y) ^ 2 = devProd y y / ((N : ℝ) - 1) := by rw [e]; exact Real.sq_sqrt (by positivity)
  have px : 0 < Real.sqrt (sampleCov x x) := Real.sqrt_pos.mpr (by rw [e]; positivity)
  have py : 0 < Real.sqrt (sampleCov y y) := Real.sqrt_pos.mpr (by rw [e]; positivity)
  unfold sampleCorr
  rw [e x y]
  generalize Real.sqrt (sampleCov x x) = s at *
  generalize Real.sqrt (sampleCov y y) = t at *
  rw [eq_div_iff hn.ne'] at hsx hsy
  rw [← hsx, ← hsy]
  field_simp

/-- the estimated edges in terms of the squared correlation -/
theorem edge_iff (d : Dataset M) (hM : M ≠ 1) : ∃ U, estimateUdgCov d = .ok U ∧ Symm U ∧ ∀ i j, i < j →
    (U i j = true ↔ 0 < devProd (col d i) (col d i) ∧ 0 < devProd (col d j) (col d j) ∧
      1 - devProd (col d i) (col d j) ^ 2 / (devProd (col d i) (col d i) * devProd (col d j) (col d j)) *
        (Real.sqrt (sampleCov (col d i) (col d i)) * Real.sqrt (sampleCov (col d j) (col d j))) < Real.exp (-Real.log d.size / d.size)) := by
  obtain ⟨U, hU, hs, -, h⟩ := (C60_estimated_graph d).2 hM
  refine ⟨U, hU, hs, fun i j hij => (h i j hij).trans ?_⟩
  have h0 : 0 < d.size := by have := d.two_le; omega
  constructor
  · rintro ⟨hi, hj, hl⟩
    have pi := devProd_pos _ hi
    have pj := devProd_pos _ hj
    refine ⟨pi, pj, ?_⟩
    rw [cov_mul_corr d.two_le _ _ pi pj, Real.log_lt_iff_lt_exp (lt_max_of_lt_right (by norm_num))] at hl
    exact (le_max_left _ _).trans_lt hl
  · rintro ⟨pi, pj, hl⟩
    refine ⟨fun hc => pi.ne' (devProd_zero_of_constant h0 _ hc), fun hc => pj.ne' (devProd_zero_of_constant h0 _ hc), ?_⟩
    rw [cov_mul_corr d.two_le _ _ pi pj, Real.log_lt_iff_lt_exp (lt_max_of_lt_right (by norm_num))]
    exact max_lt hl (clip_lt h0)

/-- **C189** (refuted) the estimated graph joins exactly the pairs of measurements whose dependence is preferred by the Bayesian information
criterion -/
def C189_statement : Prop := ∀ (M : Nat) (d : Dataset M), M ≠ 1 → ∃ U, estimateUdgCov d = .ok U ∧
  ∀ i j, i ≠ j → (U i j = true ↔ PrefersDependence (fun k => d.val k i) fun k => d.val k j)

/-- two proportional measurements with small variances: the dependence is preferred, and no edge is found -/
theorem C189_false : ¬ C189_statement := by
  intro h
  obtain ⟨U, hU, hk⟩ := h 2 (twoPoints (1 / 10) 1) (by norm_num)
  rw [twoPoints_no_edge (1 / 10) 1 (by norm_num) (by norm_num) (by norm_num)] at hU
  cases hU
  have hx : ∀ a b : ℝ, ∀ i j : Fin 2, devProd (col (twoPoints a b) i) (col (twoPoints a b) j) =
      (if i = 0 then a else b) * (if j = 0 then a else b) / 2 := by
    intro a b i j
    show ∑ k : Fin 2, _ = _
    unfold sampleMean col twoPoints
    simp only [Fin.sum_univ_two]
    by_cases hi : i = 0 <;> by_cases hj : j = 0 <;> simp [hi, hj] <;> ring
  have h2 : PrefersDependence (col (twoPoints (1 / 10) 1) 0) (col (twoPoints (1 / 10) 1) 1) := by
    rw [prefers_iff (twoPoints (1 / 10) 1).two_le _ _ (by rw [hx]; norm_num) (by rw [hx]; norm_num)]
    simp only [hx]
    norm_num
    exact Real.exp_pos _
  have h3 := (hk 0 1 (by decide)).mpr h2
  simp at h3

/-- **C189** measurements of unit variance, or constant: the edges are exactly the pairs whose dependence is preferred -/
theorem C189_standardized_partial (d : Dataset M) (hM : M ≠ 1)
    (hd : ∀ i, Constant (fun k => d.val k i) ∨ sampleCov (fun k => d.val k i) (fun k => d.val k i) = 1) :
    ∃ U, estimateUdgCov d = .ok U ∧ ∀ i j, i ≠ j → (U i j = true ↔ PrefersDependence (fun k => d.val k i) fun k => d.val k j) := by
  obtain ⟨U, hU, hs, h⟩ := edge_iff d hM
  refine ⟨U, hU, ?_⟩
  have h0 : 0 < d.size := by have := d.two_le; omega
  have key : ∀ i j, i < j → (U i j = true ↔ PrefersDependence (fun k => d.val k i) fun k => d.val k j) := by
    intro i j hij
    rw [h i j hij]
    rcases hd i with hi | hi
    · have := devProd_zero_of_constant h0 _ hi
      refine ⟨fun hh => absurd hh.1 (by rw [this]; exact lt_irrefl _), fun hp => absurd hp (not_prefers_constant h0 _ _ hi)⟩
    rcases hd j with hj | hj
    · have := devProd_zero_of_constant h0 _ hj
      refine ⟨fun hh => absurd hh.2.1 (by rw [this]; exact lt_irrefl _), fun hp => absurd hp.symm (not_prefers_constant h0 _ _ hj)⟩
    have hne : ∀ i, sampleCov (col d i) (col d i) = 1 → 0 < devProd (col d i) (col d i) := by
      intro i hi
      refine devProd_pos _ fun hc => ?_
      have : sampleCov (col d i) (col d i) = devProd (col d i) (col d i) / ((d.size : ℝ) - 1) := rfl
      rw [this, devProd_zero_of_constant h0 _ hc, zero_div] at hi
      norm_num at hi
    rw [prefers_iff d.two_le _ _ (hne i hi) (hne j hj), hi, hj, Real.sqrt_one, mul_one, mul_one]
    exact ⟨fun hh => hh.2.2, fun hh => ⟨hne i hi, hne j hj, hh⟩⟩
  intro i j hij
  rcases lt_or_gt_of_ne hij with hlt | hgt
  · exact key i j hlt
  · rw [hs i j]
    exact (key j i hgt).trans ⟨PrefersDependence.symm, PrefersDependence.symm⟩

/-- **C189** whatever the variances: if the standard deviations of two measurements have a product of at least 1 then a preferred dependence is found,
and if it is at most 1 then every edge found is a preferred dependence -/
theorem C189_one_sided_partial (d : Dataset M) (hM : M ≠ 1) : ∃ U, estimateUdgCov d = .ok U ∧ ∀ i j, i ≠ j →
    (1 ≤ Real.sqrt (sampleCov (fun k => d.val k i) fun k => d.val k i) * Real.sqrt (sampleCov (fun k => d.val k j) fun k => d.val k j) →
      PrefersDependence (fun k => d.val k i) (fun k => d.val k j) → U i j = true) ∧
    (Real.sqrt (sampleCov (fun k => d.val k i) fun k => d.val k i) * Real.sqrt (sampleCov (fun k => d.val k j) fun k => d.val k j) ≤ 1 →
      U i j = true → PrefersDependence (fun k => d.val k i) fun k => d.val k j) := by
  obtain ⟨U, hU, hs, h⟩ := edge_iff d hM
  refine ⟨U, hU, ?_⟩
  have h0 : 0 < d.size := by have := d.two_le; omega
  have key : ∀ i j, i < j →
      (1 ≤ Real.sqrt (sampleCov (col d i) (col d i)) * Real.sqrt (sampleCov (col d j) (col d j)) →
        PrefersDependence (col d i) (col d j) → U i j = true) ∧
      (Real.sqrt (sampleCov (col d i) (col d i)) * Real.sqrt (sampleCov (col d j) (col d j)) ≤ 1 →
        U i j = true → PrefersDependence (col d i) (col d j)) := by
    intro i j hij
    have hr : 0 ≤ devProd (col d i) (col d j) ^ 2 / (devProd (col d i) (col d i) * devProd (col d j) (col d j)) :=
      div_nonneg (sq_nonneg _) (mul_nonneg (devProd_self_nonneg _) (devProd_self_nonneg _))
    constructor
    · intro h1 hp
      have pi : 0 < devProd (col d i) (col d i) := devProd_pos _ fun hc => not_prefers_constant h0 _ _ hc hp
      have pj : 0 < devProd (col d j) (col d j) := devProd_pos _ fun hc => not_prefers_constant h0 _ _ hc hp.symm
      rw [prefers_iff d.two_le _ _ pi pj] at hp
      rw [h i j hij]
      exact ⟨pi, pj, by nlinarith [mul_le_mul_of_nonneg_left h1 hr]⟩
    · intro h1 hu
      obtain ⟨pi, pj, hl⟩ := (h i j hij).mp hu
      rw [prefers_iff d.two_le _ _ pi pj]
      nlinarith [mul_le_mul_of_nonneg_left h1 hr]
  intro i j hij
  rcases lt_or_gt_of_ne hij with hlt | hgt
  · exact key i j hlt
  · rw [hs i j]
    refine ⟨fun h1 hp => (key j i hgt).1 ?_ hp.symm, fun h1 hu => ((key j i hgt).2 ?_ hu).symm⟩
    · rw [mul_comm]; exact h1
    · rw [mul_comm]; exact h1

/-- a dataset with unit variances, an edge and a preferred dependence -/
theorem C189_example : (∀ i, sampleCov (fun k => (twoPoints (Real.sqrt 2) (Real.sqrt 2)).val k i)
      (fun k => (twoPoints (Real.sqrt 2) (Real.sqrt 2)).val k i) = 1) ∧
    estimateUdgCov (twoPoints (Real.sqrt 2) (Real.sqrt 2)) = .ok (BMat.of fun i j => decide (i ≠ j)) ∧
    PrefersDependence (fun k => (twoPoints (Real.sqrt 2) (Real.sqrt 2)).val k 0) fun k => (twoPoints (Real.sqrt 2) (Real.sqrt 2)).val k 1 := by
  have h2 : 0 < Real.sqrt 2 := Real.sqrt_pos.mpr two_pos
  have hm : Real.sqrt 2 * Real.sqrt 2 = 2 := Real.mul_self_sqrt two_pos.le
  have h1 : ∀ i, sampleCov (fun k => (twoPoints (Real.sqrt 2) (Real.sqrt 2)).val k i)
      (fun k => (twoPoints (Real.sqrt 2) (Real.sqrt 2)).val k i) = 1 := by
    intro i
    have := twoPoints_cov (Real.sqrt 2) (Real.sqrt 2) i i
    rw [ite_self, hm, div_self two_ne_zero] at this
    exact this
  have he := twoPoints_edge (Real.sqrt 2) (Real.sqrt 2) h2 h2 hm.ge
  refine ⟨h1, he, ?_⟩
  obtain ⟨U, hU, hk⟩ := C189_standardized_partial (twoPoints (Real.sqrt 2) (Real.sqrt 2)) (by norm_num) fun i => Or.inr (h1 i)
  rw [he] at hU
  cases hU
  exact (hk 0 1 (by decide)).mp (by simp)

end Medil

import Verif.Proofs.Resample
import Verif.Proofs.StepApprox
/-
  Rows sorted by the first component: neighbours agree in the second component more often than other rows.
-/
namespace Medil
open MeasureTheory Finset
variable {n m : ℕ}

theorem integral_add5 {β : Type} [MeasurableSpace β] {P : Measure β} {f1 f2 f3 f4 f5 : β → ℝ} (h1 : Integrable f1 P) (h2 : Integrable f2 P)
    (h3 : Integrable f3 P) (h4 : Integrable f4 P) (h5 : Integrable f5 P) :
    Integrable (fun z => f1 z + f2 z + f3 z + f4 z + f5 z) P ∧ ∫ z, (f1 z + f2 z + f3 z + f4 z + f5 z) ∂P =
      (∫ z, f1 z ∂P) + (∫ z, f2 z ∂P) + (∫ z, f3 z ∂P) + (∫ z, f4 z ∂P) + ∫ z, f5 z ∂P := by
  have a2 : Integrable (fun z => f1 z + f2 z) P := h1.add h2
  have a3 : Integrable (fun z => f1 z + f2 z + f3 z) P := a2.add h3
  have a4 : Integrable (fun z => f1 z + f2 z + f3 z + f4 z) P := a3.add h4
  refine ⟨a4.add h5, ?_⟩
  rw [integral_add a4 h5, integral_add a3 h4, integral_add a2 h3, integral_add h1 h2]

/-- the mean of the absolute value, from the second moment -/
theorem l1_of_l2 {β : Type} [MeasurableSpace β] {P : Measure β} [IsProbabilityMeasure P] {S : β → ℝ} (hS : Integrable S P)
    (hS2 : Integrable (fun z => S z ^ 2) P) {c : ℝ} (hc : 0 < c) (h : ∫ z, S z ^ 2 ∂P ≤ c ^ 2) : ∫ z, |S z| ∂P ≤ c := by
  calc ∫ z, |S z| ∂P ≤ ∫ z, ((1 / (2 * c)) * S z ^ 2 + c / 2) ∂P := by
        refine integral_mono hS.abs ((hS2.const_mul _).add (integrable_const _)) fun z => ?_
        have h1 : 0 ≤ (|S z| - c) ^ 2 := sq_nonneg _
        rw [sub_sq, sq_abs] at h1
        dsimp only
        rw [one_div_mul_eq_div, div_add_div _ _ (by positivity) (by norm_num), le_div_iff₀ (by positivity)]
        nlinarith
    _ = (1 / (2 * c)) * (∫ z, S z ^ 2 ∂P) + c / 2 := by
        rw [integral_add (hS2.const_mul _) (integrable_const _), integral_const_mul]
        simp
    _ ≤ (1 / (2 * c)) * c ^ 2 + c / 2 := by
        have := mul_le_mul_of_nonneg_left h (show 0 ≤ 1 / (2 * c) by positivity)
        linarith
    _ = c := by field_simp; ring

/-- sums of orthogonal bounded functions -/
theorem orth_sum {β : Type} [MeasurableSpace β] {P : Measure β} [IsProbabilityMeasure P] (H : Fin n → β → ℝ) (hm : ∀ j, Measurable (H j)) {c : ℝ}
    (hc0 : 0 < c) (hc : ∀ j z, |H j z| ≤ c) (hO : ∀ i j, i ≠ j → ∫ z, H i z * H j z ∂P = 0) (hn : 0 < n) :
    Integrable (fun z => ∑ j, H j z) P ∧ ∫ z, |∑ j, H j z| ∂P ≤ c * √n := by
  have hp : ∀ i j z, |H i z * H j z| ≤ c * c := fun i j z => by
    rw [abs_mul]; exact mul_le_mul (hc i z) (hc j z) (abs_nonneg _) hc0.le
  have hI : ∀ j, Integrable (H j) P := fun j => bounded_integrable (hm j) (hc j)
  have hI2 : ∀ i j, Integrable (fun z => H i z * H j z) P := fun i j => bounded_integrable ((hm i).mul (hm j)) (hp i j)
  have hSI : Integrable (fun z => ∑ j, H j z) P := integrable_finsetSum _ fun j _ => hI j
  have e : ∀ z, (∑ j, H j z) ^ 2 = ∑ i, ∑ j, H i z * H j z := fun z => by rw [sq, sum_mul_sum]
  refine ⟨hSI, l1_of_l2 hSI ?_ ?_ ?_⟩
  · simp only [e]
    exact integrable_finsetSum _ fun i _ => integrable_finsetSum _ fun j _ => hI2 i j
  · have : (0 : ℝ) < n := by exact_mod_cast hn
    positivity
  · simp only [e]
    rw [integral_finsetSum _ fun i _ => integrable_finsetSum _ fun j _ => hI2 i j]
    calc ∑ i, ∫ z, ∑ j, H i z * H j z ∂P ≤ ∑ i : Fin n, ∑ j : Fin n, (if i = j then c * c else 0) := by
          refine sum_le_sum fun i _ => ?_
          rw [integral_finsetSum _ fun j _ => hI2 i j]
          refine sum_le_sum fun j _ => ?_
          split_ifs with h
          · calc ∫ z, H i z * H j z ∂P ≤ ∫ _z, c * c ∂P :=
                  integral_mono (hI2 i j) (integrable_const _) fun z => (abs_le.mp (hp i j z)).2
              _ = c * c := by simp
          · exact (hO i j h).le
      _ = (c * √n) ^ 2 := by
          simp only [sum_ite_eq, mem_univ, if_true, sum_const, card_univ, Fintype.card_fin, nsmul_eq_mul]
          rw [mul_pow, Real.sq_sqrt (by positivity)]
          ring

/-- sums over independent rows of a bounded function of mean 0 -/
theorem rows_sum {α : Type} [MeasurableSpace α] (ν : Measure α) [IsProbabilityMeasure ν] {f : α → ℝ} (hm : Measurable f) {c : ℝ} (hc0 : 0 < c)
    (hc : ∀ w, |f w| ≤ c) (h0 : ∫ w, f w ∂ν = 0) (hn : 0 < n) :
    Integrable (fun z : Fin n → α => ∑ a, f (z a)) (Measure.pi fun _ => ν) ∧
      ∫ z : Fin n → α, |∑ a, f (z a)| ∂(Measure.pi fun _ => ν) ≤ c * √n := by
  have hme : ∀ a : Fin n, Measurable fun z : Fin n → α => f (z a) := fun a => hm.comp (measurable_pi_apply a)
  refine orth_sum (P := Measure.pi fun _ : Fin n => ν) (fun a z => f (z a)) hme hc0 (fun a z => hc _) (fun i j hij => ?_) hn
  refine integral_resample_zero ν i ((hme i).mul (hme j)) (c := c * c) (fun z => ?_) fun z => ?_
  · rw [abs_mul]; exact mul_le_mul (hc _) (hc _) (abs_nonneg _) hc0.le
  · simp only [Function.update_self, Function.update_of_ne hij.symm]
    rw [integral_mul_const, h0, zero_mul]

theorem rows_mean {α : Type} [MeasurableSpace α] (ν : Measure α) [IsProbabilityMeasure ν] {f : α → ℝ} (hf : Integrable f ν) :
    Integrable (fun z : Fin n → α => ∑ a, f (z a)) (Measure.pi fun _ => ν) ∧
      ∫ z : Fin n → α, ∑ a, f (z a) ∂(Measure.pi fun _ => ν) = n * ∫ w, f w ∂ν := by
  have hI : ∀ a : Fin n, Integrable (fun z : Fin n → α => f (z a)) (Measure.pi fun _ => ν) := fun a =>
    (measurePreserving_eval (fun _ : Fin n => ν) a).integrable_comp_of_integrable hf
  refine ⟨integrable_finsetSum _ fun a _ => hI a, ?_⟩
  rw [integral_finsetSum _ fun a _ => hI a]
  have : ∀ a : Fin n, ∫ z : Fin n → α, f (z a) ∂(Measure.pi fun _ => ν) = ∫ w, f w ∂ν := fun a => by
    have hp := measurePreserving_eval (fun _ : Fin n => ν) a
    conv_rhs => rw [← hp.map_eq]
    rw [integral_map hp.measurable.aemeasurable (by rw [hp.map_eq]; exact hf.aestronglyMeasurable)]
  simp [this]

/-- the algebra of one pair of neighbours -/
theorem neighbour_alg {g g' μ μ' : ℝ} (hg : 0 ≤ g ∧ g ≤ 1) (hg' : 0 ≤ g' ∧ g' ≤ 1) (hμ : 0 ≤ μ ∧ μ ≤ 1) (hμ' : 0 ≤ μ' ∧ μ' ≤ 1) :
    (g' - g) ^ 2 ≤ ((g' - μ') - (g - μ)) ^ 2 + 3 * |μ' - μ| := by
  have h1 : (g' - g) ^ 2 = ((g' - μ') - (g - μ)) ^ 2 + (μ' - μ) * (2 * (g' - g) - (μ' - μ)) := by ring
  rw [h1]
  have h2 : |2 * (g' - g) - (μ' - μ)| ≤ 3 := by
    rw [abs_le]; constructor <;> linarith [hg.1, hg.2, hg'.1, hg'.2, hμ.1, hμ.2, hμ'.1, hμ'.2]
  have h3 : (μ' - μ) * (2 * (g' - g) - (μ' - μ)) ≤ |μ' - μ| * 3 := by
    refine (le_abs_self _).trans ?_
    rw [abs_mul]
    exact mul_le_mul_of_nonneg_left h2 (abs_nonneg _)
  linarith

/-- sums over neighbours count every row at most twice -/
theorem sum_neighbours_le (F : Fin (m + 1) → ℝ) (hF : ∀ a, 0 ≤ F a) (τ : Equiv.Perm (Fin (m + 1))) :
    ∑ k : Fin m, (F (τ k.succ) + F (τ k.castSucc)) ≤ 2 * ∑ a, F a := by
  have e : ∑ a, F a = ∑ k, F (τ k) := (Equiv.sum_comp τ F).symm
  rw [sum_add_distrib, e]
  have h1 := Fin.sum_univ_succ fun k => F (τ k)
  have h2 := Fin.sum_univ_castSucc fun k => F (τ k)
  have := hF (τ 0)
  have := hF (τ (Fin.last m))
  linarith

/-- all pairs of rows, for a function with values 0 and 1 -/
theorem pairs_bool (g : Fin n → ℝ) (hg : ∀ a, g a = 0 ∨ g a = 1) (hn : 0 < n) {p : ℝ} (hp : 0 ≤ p ∧ p ≤ 1) :
    2 * n * (p * (1 - p)) - 2 * |∑ a, (g a - p)| ≤ (1 / n) * ∑ a, ∑ b, (g a - g b) ^ 2 := by
  have hn0 : (0 : ℝ) < n := by exact_mod_cast hn
  have e1 : ∀ a b, (g a - g b) ^ 2 = g a + g b - 2 * (g a * g b) := fun a b => by
    rcases hg a with h | h <;> rcases hg b with h' | h' <;> rw [h, h'] <;> norm_num
  obtain ⟨G, hG⟩ : ∃ G, G = ∑ a, g a := ⟨_, rfl⟩
  have e2 : ∑ a, ∑ b, (g a - g b) ^ 2 = 2 * n * G - 2 * G ^ 2 := by
    simp only [e1, sum_sub_distrib, sum_add_distrib, ← mul_sum, ← sum_mul, sum_const, card_univ, Fintype.card_fin, nsmul_eq_mul, ← hG]
    ring
  have e3 : ∑ a, (g a - p) = G - n * p := by rw [sum_sub_distrib, hG]; simp
  have hg01 : ∀ a, 0 ≤ g a ∧ g a ≤ 1 := fun a => by rcases hg a with h | h <;> rw [h] <;> norm_num
  have hG0 : 0 ≤ G := by rw [hG]; exact sum_nonneg fun a _ => (hg01 a).1
  have hG1 : G ≤ n := by
    rw [hG]
    calc ∑ a, g a ≤ ∑ _a : Fin n, (1 : ℝ) := sum_le_sum fun a _ => (hg01 a).2
      _ = n := by simp
  rw [e2, e3]
  obtain ⟨x, hx⟩ : ∃ x, x = G / n := ⟨_, rfl⟩
  have hGx : G = n * x := by rw [hx]; field_simp
  have hx0 : 0 ≤ x ∧ x ≤ 1 := by rw [hx]; exact ⟨by positivity, (div_le_one hn0).mpr hG1⟩
  have e4 : (1 / n : ℝ) * (2 * n * G - 2 * G ^ 2) = 2 * n * (x * (1 - x)) := by rw [hGx]; field_simp
  rw [e4, hGx, ← mul_sub, abs_mul, abs_of_pos hn0]
  have h5 : p * (1 - p) - |x - p| ≤ x * (1 - x) := by
    have : p * (1 - p) - x * (1 - x) = (x - p) * (x + p - 1) := by ring
    have h6 : (x - p) * (x + p - 1) ≤ |x - p| * 1 := by
      refine (le_abs_self _).trans ?_
      rw [abs_mul]
      refine mul_le_mul_of_nonneg_left ?_ (abs_nonneg _)
      rw [abs_le]; constructor <;> linarith [hx0.1, hx0.2, hp.1, hp.2]
    linarith
  nlinarith

/-- **excess** When the rows are sorted by the first component, neighbours differ in the event `A` of the second component less often than all
pairs, by the squared covariance of `A` with each half-line of the first component, up to an error that is small in mean. -/
theorem adj_excess (ν : Measure (ℝ × ℝ)) [IsProbabilityMeasure ν] {A : Set ℝ} (hA : MeasurableSet A) (s : ℝ) {η : ℝ} (hη : 0 < η) :
    ∃ n0, ∀ m, n0 ≤ m + 1 → ∀ (σ : (Fin (m + 1) → ℝ) → Equiv.Perm (Fin (m + 1))), (∀ τ, MeasurableSet {x | σ x = τ}) →
      (∀ x : Fin (m + 1) → ℝ, Monotone fun k => x (σ x k)) →
      ∃ Err : (Fin (m + 1) → ℝ × ℝ) → ℝ, Integrable Err (Measure.pi fun _ => ν) ∧ (∀ z, 0 ≤ Err z) ∧
        ∫ z, Err z ∂(Measure.pi fun _ => ν) ≤ η * (m + 1 : ℕ) ∧
        ∀ z, ∑ k : Fin m, (A.indicator (fun _ => (1 : ℝ)) (z (σ (fun a => (z a).1) k.succ)).2 -
            A.indicator (fun _ => 1) (z (σ (fun a => (z a).1) k.castSucc)).2) ^ 2 ≤
          (1 / (m + 1 : ℕ)) * ∑ a, ∑ b, (A.indicator (fun _ => (1 : ℝ)) (z a).2 - A.indicator (fun _ => 1) (z b).2) ^ 2 -
          2 * (m + 1 : ℕ) * (ν.real {w | w.1 ≤ s ∧ w.2 ∈ A} - ν.real {w | w.1 ≤ s} * ν.real {w | w.2 ∈ A}) ^ 2 + Err z := by
  obtain ⟨μ, hμm, hμ1, hμO⟩ := cond_mean ν hA
  obtain ⟨g, hg⟩ : ∃ g : ℝ × ℝ → ℝ, g = fun w => A.indicator (fun _ => 1) w.2 := ⟨_, rfl⟩
  obtain ⟨u, hu⟩ : ∃ u : ℝ → ℝ, u = fun x => (Set.Iic s).indicator (fun _ => 1) x := ⟨_, rfl⟩
  have hgm : Measurable g := by rw [hg]; exact (measurable_const.indicator hA).comp measurable_snd
  have hum : Measurable u := by rw [hu]; exact measurable_const.indicator measurableSet_Iic
  have hgb : ∀ w, g w = 0 ∨ g w = 1 := fun w => by
    rw [hg]; by_cases h : w.2 ∈ A <;> simp [h]
  have hg1 : ∀ w, 0 ≤ g w ∧ g w ≤ 1 := fun w => by rcases hgb w with h | h <;> rw [h] <;> norm_num
  have hub : ∀ x, u x = 0 ∨ u x = 1 := fun x => by
    rw [hu]; by_cases h : x ≤ s <;> simp [Set.indicator, h]
  have hu1 : ∀ x, 0 ≤ u x ∧ u x ≤ 1 := fun x => by rcases hub x with h | h <;> rw [h] <;> norm_num
  have bI : ∀ {f : ℝ × ℝ → ℝ}, Measurable f → (∀ w, |f w| ≤ 1) → Integrable f ν := fun hf h => bounded_integrable hf h
  have ab1 : ∀ {t : ℝ}, 0 ≤ t ∧ t ≤ 1 → |t| ≤ 1 := fun h => by rw [abs_of_nonneg h.1]; exact h.2
  have hgI : Integrable g ν := bI hgm fun w => ab1 (hg1 w)
  have hm1 : Measurable fun w : ℝ × ℝ => μ w.1 := hμm.comp measurable_fst
  have hu1m : Measurable fun w : ℝ × ℝ => u w.1 := hum.comp measurable_fst
  have hmI : Integrable (fun w : ℝ × ℝ => μ w.1) ν := bI hm1 fun w => ab1 (hμ1 _)
  have huI : Integrable (fun w : ℝ × ℝ => u w.1) ν := bI hu1m fun w => ab1 (hu1 _)
  have mul01 : ∀ {a b : ℝ}, 0 ≤ a ∧ a ≤ 1 → 0 ≤ b ∧ b ≤ 1 → 0 ≤ a * b ∧ a * b ≤ 1 := fun ha hb =>
    ⟨mul_nonneg ha.1 hb.1, mul_le_one₀ ha.2 hb.1 hb.2⟩
  have hmmI : Integrable (fun w : ℝ × ℝ => μ w.1 * μ w.1) ν := bI (hm1.mul hm1) fun w => ab1 (mul01 (hμ1 _) (hμ1 _))
  have hmgI : Integrable (fun w : ℝ × ℝ => μ w.1 * g w) ν := bI (hm1.mul hgm) fun w => ab1 (mul01 (hμ1 _) (hg1 _))
  have hugI : Integrable (fun w : ℝ × ℝ => u w.1 * g w) ν := bI (hu1m.mul hgm) fun w => ab1 (mul01 (hu1 _) (hg1 _))
  have humI : Integrable (fun w : ℝ × ℝ => u w.1 * μ w.1) ν := bI (hu1m.mul hm1) fun w => ab1 (mul01 (hu1 _) (hμ1 _))
  have hO : ∀ ψ : ℝ → ℝ, Measurable ψ → ∀ c, (∀ x, |ψ x| ≤ c) → ∫ w, ψ w.1 * (g w - μ w.1) ∂ν = 0 := by rw [hg]; exact hμO
  -- the moments
  obtain ⟨p, hp⟩ : ∃ p, p = ∫ w, g w ∂ν := ⟨_, rfl⟩
  obtain ⟨q, hq⟩ : ∃ q, q = ∫ w, u w.1 ∂ν := ⟨_, rfl⟩
  obtain ⟨M2, hM2⟩ : ∃ M2, M2 = ∫ w, μ w.1 * μ w.1 ∂ν := ⟨_, rfl⟩
  obtain ⟨κ, hκ⟩ : ∃ κ, κ = (∫ w, u w.1 * g w ∂ν) - q * p := ⟨_, rfl⟩
  have hpm : ∫ w, μ w.1 ∂ν = p := by
    have := hO (fun _ => 1) measurable_const 1 (by simp)
    simp only [one_mul] at this
    rw [integral_sub hgI hmI] at this
    linarith
  have hmg : ∫ w, μ w.1 * g w ∂ν = M2 := by
    have := hO μ hμm 1 fun x => ab1 (hμ1 x)
    simp only [mul_sub] at this
    rw [integral_sub hmgI hmmI] at this
    linarith
  have hum' : ∫ w, u w.1 * μ w.1 ∂ν = κ + q * p := by
    have := hO u hum 1 fun x => ab1 (hu1 x)
    simp only [mul_sub] at this
    rw [integral_sub hugI humI] at this
    linarith
  have hp01 : 0 ≤ p ∧ p ≤ 1 := by
    rw [hp]
    refine ⟨integral_nonneg fun w => (hg1 w).1, ?_⟩
    calc ∫ w, g w ∂ν ≤ ∫ _w, 1 ∂ν := integral_mono hgI (integrable_const _) fun w => (hg1 w).2
      _ = 1 := by simp
  have hq1 : q ≤ 1 := by
    rw [hq]
    calc ∫ w, u w.1 ∂ν ≤ ∫ _w, 1 ∂ν := integral_mono huI (integrable_const _) fun w => (hu1 _).2
      _ = 1 := by simp
  have hM2k : p ^ 2 + κ ^ 2 ≤ M2 := by
    have h0 : 0 ≤ ∫ w, (μ w.1 - p - κ * u w.1) ^ 2 ∂ν := integral_nonneg fun w => sq_nonneg _
    have e : ∀ w : ℝ × ℝ, (μ w.1 - p - κ * u w.1) ^ 2 = μ w.1 * μ w.1 + (-(2 * p)) * μ w.1 + p ^ 2 + (-(2 * κ)) * (u w.1 * μ w.1) +
        (2 * p * κ + κ ^ 2) * u w.1 := fun w => by
      have : u w.1 ^ 2 = u w.1 := by rcases hub w.1 with h | h <;> rw [h] <;> norm_num
      linear_combination κ ^ 2 * this
    simp only [e] at h0
    rw [(integral_add5 hmmI (hmI.const_mul (-(2 * p))) (integrable_const (p ^ 2)) (humI.const_mul (-(2 * κ))) (huI.const_mul (2 * p * κ + κ ^ 2))).2,
      integral_const_mul, integral_const_mul, integral_const_mul, hpm, hum', ← hq, ← hM2] at h0
    simp only [integral_const, probReal_univ, smul_eq_mul, one_mul] at h0
    have : κ ^ 2 * q ≤ κ ^ 2 := by nlinarith [sq_nonneg κ]
    nlinarith
  have hκe : κ = ν.real {w | w.1 ≤ s ∧ w.2 ∈ A} - ν.real {w | w.1 ≤ s} * ν.real {w | w.2 ∈ A} := by
    have e1 : p = ν.real {w | w.2 ∈ A} := by
      have hme : MeasurableSet {w : ℝ × ℝ | w.2 ∈ A} := measurable_snd hA
      rw [hp, ← integral_indicator_one hme, hg]; rfl
    have e2 : q = ν.real {w | w.1 ≤ s} := by
      have hme : MeasurableSet {w : ℝ × ℝ | w.1 ≤ s} := measurable_fst measurableSet_Iic
      rw [hq, ← integral_indicator_one hme, hu]; rfl
    have e3 : ∫ w, u w.1 * g w ∂ν = ν.real {w | w.1 ≤ s ∧ w.2 ∈ A} := by
      have hme : MeasurableSet {w : ℝ × ℝ | w.1 ≤ s ∧ w.2 ∈ A} := (measurable_fst measurableSet_Iic).inter (measurable_snd hA)
      rw [← integral_indicator_one hme, hu, hg]
      congr 1
      funext w
      by_cases h1 : w.1 ≤ s <;> by_cases h2 : w.2 ∈ A <;> simp [Set.indicator, h1, h2]
    rw [hκ, e1, e2, e3]
  rw [← hκe]
  clear hκe
  obtain ⟨e, he⟩ : ∃ e : ℝ × ℝ → ℝ, e = fun w => g w - μ w.1 := ⟨_, rfl⟩
  have hem : Measurable e := by rw [he]; exact hgm.sub hm1
  have he1 : ∀ w, |e w| ≤ 1 := fun w => by
    rw [he, abs_le]; have := hg1 w; have := hμ1 w.1
    constructor <;> dsimp only <;> linarith
  have hev : ∫ w, e w ^ 2 ∂ν = p - M2 := by
    have e' : ∀ w, e w ^ 2 = g w + μ w.1 * μ w.1 - 2 * (μ w.1 * g w) := fun w => by
      have : g w ^ 2 = g w := by rcases hgb w with h | h <;> rw [h] <;> norm_num
      rw [he]
      linear_combination this
    simp only [e']
    have hgm2 : Integrable (fun w => g w + μ w.1 * μ w.1) ν := hgI.add hmmI
    rw [integral_sub hgm2 (hmgI.const_mul _), integral_add hgI hmmI, integral_const_mul, hmg, ← hp, ← hM2]
    ring
  have heI : Integrable (fun w => e w ^ 2) ν := bI (hem.pow_const 2) fun w => by
    rw [abs_of_nonneg (sq_nonneg _)]; exact (sq_le_one_iff_abs_le_one _).mpr (he1 w)
  -- the approximation
  obtain ⟨φ, V, C, hφm, hφC, hφV, hφ⟩ := exists_varBound ν.fst (f := μ) (bounded_integrable hμm fun x => ab1 (hμ1 x)) (show 0 < η / 18 by linarith)
  have hV0 : 0 ≤ V := (hφV 0 (fun _ => 0) monotone_const).trans' (by simp)
  obtain ⟨d, hd⟩ : ∃ d : ℝ × ℝ → ℝ, d = fun w => |μ w.1 - φ w.1| := ⟨_, rfl⟩
  have hdm : Measurable d := by rw [hd]; exact continuous_abs.measurable.comp (hm1.sub (hφm.comp measurable_fst))
  have hdI : Integrable d ν := by
    refine bounded_integrable hdm (c := 1 + C) fun w => ?_
    rw [hd]
    dsimp only
    rw [abs_abs]
    exact (abs_sub _ _).trans (add_le_add (ab1 (hμ1 _)) (hφC _))
  have hdi : ∫ w, d w ∂ν ≤ η / 18 := by
    have : ∫ x, |μ x - φ x| ∂ν.fst = ∫ w, d w ∂ν := by
      unfold Measure.fst
      have hme : Measurable fun x => |μ x - φ x| := continuous_abs.measurable.comp (hμm.sub hφm)
      rw [integral_map measurable_fst.aemeasurable hme.aestronglyMeasurable, hd]
    rw [← this]; exact hφ
  obtain ⟨n1, hn1⟩ := exists_nat_ge ((18 / η) ^ 2)
  obtain ⟨n2, hn2⟩ := exists_nat_ge (9 * V / η)
  refine ⟨max n1 n2, fun m hm σ hσ hmono => ?_⟩
  obtain ⟨N, hN⟩ : ∃ N : ℝ, N = ((m + 1 : ℕ) : ℝ) := ⟨_, rfl⟩
  have hN0 : 0 < N := by rw [hN]; positivity
  have hNn1 : (18 / η) ^ 2 ≤ N := hn1.trans (by rw [hN]; exact_mod_cast (le_max_left _ _).trans hm)
  have hNn2 : 9 * V / η ≤ N := hn2.trans (by rw [hN]; exact_mod_cast (le_max_right _ _).trans hm)
  obtain ⟨T, hT⟩ : ∃ T : (Fin (m + 1) → ℝ × ℝ) → ℝ, T = fun z => ∑ k : Fin m, e (z (σ (fun a => (z a).1) k.castSucc)) * e (z (σ (fun a => (z a).1) k.succ)) := ⟨_, rfl⟩
  obtain ⟨hTm, hT2⟩ := neighbour_products hem he1 (by rw [he]; exact hO) σ hσ
  rw [← hT] at hTm
  have hT2' : ∫ z, T z ^ 2 ∂(Measure.pi fun _ : Fin (m + 1) => ν) ≤ m := by rw [hT]; exact hT2
  have hTb : ∀ z, |T z| ≤ m := fun z => by
    rw [hT]
    refine (abs_sum_le_sum_abs _ _).trans ?_
    calc ∑ k : Fin m, |e (z (σ (fun a => (z a).1) k.castSucc)) * e (z (σ (fun a => (z a).1) k.succ))| ≤ ∑ _k : Fin m, (1 : ℝ) :=
          sum_le_sum fun k _ => by rw [abs_mul]; exact mul_le_one₀ (he1 _) (abs_nonneg _) (he1 _)
      _ = m := by simp
  have hTI : Integrable T (Measure.pi fun _ : Fin (m + 1) => ν) := bounded_integrable hTm hTb
  have hT1 : ∫ z, |T z| ∂(Measure.pi fun _ : Fin (m + 1) => ν) ≤ √N := by
    refine l1_of_l2 hTI (bounded_integrable (hTm.pow_const 2) (c := (m : ℝ) ^ 2) fun z => ?_) (by positivity) ?_
    · rw [abs_of_nonneg (sq_nonneg _), ← sq_abs]
      exact pow_le_pow_left₀ (abs_nonneg _) (hTb z) 2
    · rw [Real.sq_sqrt hN0.le, hN]
      exact hT2'.trans (by push_cast; linarith)
  obtain ⟨hE2I, hE2⟩ := rows_sum (n := m + 1) ν (f := fun w => e w ^ 2 - (p - M2)) ((hem.pow_const 2).sub_const _) one_pos (fun w => by
      have h1 : 0 ≤ e w ^ 2 := sq_nonneg _
      have h2 : e w ^ 2 ≤ 1 := (sq_le_one_iff_abs_le_one _).mpr (he1 w)
      have h3 : 0 ≤ p - M2 := by rw [← hev]; exact integral_nonneg fun w => sq_nonneg _
      have h4 : p - M2 ≤ 1 := by nlinarith [sq_nonneg p, sq_nonneg κ, hp01.2]
      rw [abs_le]; constructor <;> linarith) (by
      rw [integral_sub heI (integrable_const _), hev]; simp) (Nat.succ_pos m)
  obtain ⟨hGI, hG⟩ := rows_sum (n := m + 1) ν (f := fun w => g w - p) (hgm.sub_const _) one_pos (fun w => by
      have := hg1 w
      rw [abs_le]; constructor <;> linarith [hp01.1, hp01.2]) (by
      rw [integral_sub hgI (integrable_const _), ← hp]; simp) (Nat.succ_pos m)
  obtain ⟨hDI, hD⟩ := rows_mean (n := m + 1) ν hdI
  rw [← hN] at hE2 hG hD
  rw [one_mul] at hE2 hG
  rw [← hN]
  refine ⟨fun z => 2 * |∑ a, (e (z a) ^ 2 - (p - M2))| + 2 * |T z| + 3 * V + 6 * ∑ a, d (z a) + 2 * |∑ a, (g (z a) - p)|, ?_, ?_, ?_, ?_⟩
  · exact (integral_add5 (hE2I.abs.const_mul 2) (hTI.abs.const_mul 2) (integrable_const (3 * V)) (hDI.const_mul 6) (hGI.abs.const_mul 2)).1
  · intro z
    have : 0 ≤ ∑ a, d (z a) := sum_nonneg fun a _ => by rw [hd]; exact abs_nonneg _
    positivity
  · rw [(integral_add5 (hE2I.abs.const_mul 2) (hTI.abs.const_mul 2) (integrable_const (3 * V)) (hDI.const_mul 6) (hGI.abs.const_mul 2)).2,
      integral_const_mul, integral_const_mul, integral_const_mul, integral_const_mul, integral_const_mul, hD]
    simp only [integral_const, probReal_univ, smul_eq_mul, one_mul]
    have h1 : √N * 18 ≤ N * η := by
      have h2 : 18 / η ≤ √N := Real.le_sqrt_of_sq_le hNn1
      rw [div_le_iff₀ hη] at h2
      calc √N * 18 ≤ √N * (√N * η) := mul_le_mul_of_nonneg_left h2 (Real.sqrt_nonneg _)
        _ = N * η := by rw [← mul_assoc, Real.mul_self_sqrt hN0.le]
    have h2 : 9 * V ≤ N * η := by rwa [div_le_iff₀ hη] at hNn2
    have h3 := mul_le_mul_of_nonneg_left hdi hN0.le
    linarith
  · intro z
    obtain ⟨τ, hτ⟩ : ∃ τ, τ = σ fun a => (z a).1 := ⟨_, rfl⟩
    have hmo := hmono fun a => (z a).1
    rw [← hτ] at hmo
    have hTz : T z = ∑ k : Fin m, e (z (τ k.castSucc)) * e (z (τ k.succ)) := by rw [hT, hτ]
    have hpairs := pairs_bool (fun a => g (z a)) (fun a => hgb _) (Nat.succ_pos m) hp01
    rw [← hN] at hpairs
    have hvar := hφV m (fun k => (z (τ k)).1) hmo
    have hsumd := sum_neighbours_le (fun a => d (z a)) (fun a => by rw [hd]; exact abs_nonneg _) τ
    have hsume := sum_neighbours_le (fun a => e (z a) ^ 2) (fun a => sq_nonneg _) τ
    have hstep : ∀ k : Fin m, (g (z (τ k.succ)) - g (z (τ k.castSucc))) ^ 2 ≤
        (e (z (τ k.succ)) ^ 2 + e (z (τ k.castSucc)) ^ 2) - 2 * (e (z (τ k.castSucc)) * e (z (τ k.succ))) +
        3 * |φ (z (τ k.succ)).1 - φ (z (τ k.castSucc)).1| + 3 * (d (z (τ k.succ)) + d (z (τ k.castSucc))) := by
      intro k
      have h1 := neighbour_alg (hg1 (z (τ k.castSucc))) (hg1 (z (τ k.succ))) (hμ1 (z (τ k.castSucc)).1) (hμ1 (z (τ k.succ)).1)
      have h2 : |μ (z (τ k.succ)).1 - μ (z (τ k.castSucc)).1| ≤ |φ (z (τ k.succ)).1 - φ (z (τ k.castSucc)).1| + (d (z (τ k.succ)) + d (z (τ k.castSucc))) := by
        rw [hd]
        dsimp only
        have e1 : μ (z (τ k.succ)).1 - μ (z (τ k.castSucc)).1 = (φ (z (τ k.succ)).1 - φ (z (τ k.castSucc)).1) +
          (μ (z (τ k.succ)).1 - φ (z (τ k.succ)).1) - (μ (z (τ k.castSucc)).1 - φ (z (τ k.castSucc)).1) := by ring
        rw [e1]
        refine (abs_sub _ _).trans ?_
        linarith [abs_add_le (φ (z (τ k.succ)).1 - φ (z (τ k.castSucc)).1) (μ (z (τ k.succ)).1 - φ (z (τ k.succ)).1)]
      have h3 : ((g (z (τ k.succ)) - μ (z (τ k.succ)).1) - (g (z (τ k.castSucc)) - μ (z (τ k.castSucc)).1)) ^ 2 =
          (e (z (τ k.succ)) ^ 2 + e (z (τ k.castSucc)) ^ 2) - 2 * (e (z (τ k.castSucc)) * e (z (τ k.succ))) := by rw [he]; ring
      rw [h3] at h1
      linarith
    have hsum := sum_le_sum fun k (_ : k ∈ univ) => hstep k
    rw [sum_add_distrib, sum_add_distrib, sum_sub_distrib, ← mul_sum, ← mul_sum, ← mul_sum, ← hTz] at hsum
    have hE : ∑ a, e (z a) ^ 2 ≤ N * (p - M2) + |∑ a, (e (z a) ^ 2 - (p - M2))| := by
      have : ∑ a, (e (z a) ^ 2 - (p - M2)) = (∑ a, e (z a) ^ 2) - N * (p - M2) := by
        rw [sum_sub_distrib, hN]; simp; ring
      have h := le_abs_self (∑ a, (e (z a) ^ 2 - (p - M2)))
      linarith
    have hTa := neg_abs_le (T z)
    have hM := mul_le_mul_of_nonneg_left hM2k hN0.le
    have goal : ∑ k : Fin m, (g (z (τ k.succ)) - g (z (τ k.castSucc))) ^ 2 ≤ 1 / N * ∑ a, ∑ b, (g (z a) - g (z b)) ^ 2 - 2 * N * κ ^ 2 +
        (2 * |∑ a, (e (z a) ^ 2 - (p - M2))| + 2 * |T z| + 3 * V + 6 * ∑ a, d (z a) + 2 * |∑ a, (g (z a) - p)|) := by
      linarith
    rw [← hτ]
    rw [hg] at goal ⊢
    exact goal

end Medil

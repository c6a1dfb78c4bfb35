import Verif.Proofs.UnifPair
/-
  Independent uniform variables in a row: the sum of the parts of the distances of neighbours.
-/
namespace Medil
open MeasureTheory Finset
variable {n : ℕ}

/-- independent uniform variables -/
noncomputable def unifs (n : ℕ) : Measure (Fin n → ℝ) := Measure.pi fun _ => unif

instance : IsProbabilityMeasure (unifs n) := by unfold unifs; infer_instance

/-- drawing one variable again -/
theorem integral_redraw (a : Fin n) {H : (Fin n → ℝ) → ℝ} (hm : Measurable H) {c : ℝ} (hc : ∀ z, |H z| ≤ c) :
    ∫ z, H z ∂unifs n = ∫ z, ∫ w, H (Function.update z a w) ∂unif ∂unifs n := by
  unfold unifs
  have hp := measurePreserving_resample unif a
  nth_rw 1 [← hp.map_eq]
  rw [integral_map hp.measurable.aemeasurable hm.aestronglyMeasurable, integral_prod]
  exact bounded_integrable (hm.comp hp.measurable) fun z => hc _

/-- two different variables -/
theorem integral_two (a b : Fin n) (hab : a ≠ b) {F : ℝ × ℝ → ℝ} (hm : Measurable F) {c : ℝ} (hc : ∀ p, |F p| ≤ c) :
    ∫ z, F (z a, z b) ∂unifs n = ∫ u, ∫ v, F (u, v) ∂unif ∂unif := by
  have h1 : Measurable fun z : Fin n → ℝ => F (z a, z b) := hm.comp (by fun_prop)
  rw [integral_redraw b h1 fun z => hc _]
  simp only [Function.update_self, Function.update_of_ne hab]
  have h2 : Measurable fun u : ℝ => ∫ v, F (u, v) ∂unif := (StronglyMeasurable.integral_prod_right (f := fun u v => F (u, v)) hm.stronglyMeasurable).measurable
  have h3 : ∀ u : ℝ, |∫ v, F (u, v) ∂unif| ≤ c := fun u => by
    have := norm_integral_le_of_norm_le_const (μ := unif) (f := fun v => F (u, v)) (C := c) (Filter.Eventually.of_forall fun v => hc _)
    simpa using this
  have h4 := integral_redraw (n := n) a (H := fun z => ∫ v, F (z a, v) ∂unif) (h2.comp (measurable_pi_apply a)) fun z => h3 _
  simp only [Function.update_self] at h4
  rw [h4]
  simp

/-- the part of the distance of two variables is orthogonal to what does not depend on one of them -/
theorem pairPart_orth (a b : Fin n) (hab : a ≠ b) {F : (Fin n → ℝ) → ℝ} (hm : Measurable F) {c : ℝ} (hc : ∀ z, |F z| ≤ c)
    (hF : ∀ z w, F (Function.update z a w) = F z) : ∫ z, pairPart (z a) (z b) * F z ∂unifs n = 0 := by
  have h1 : Measurable fun z : Fin n → ℝ => pairPart (z a) (z b) * F z :=
    (pairPart_measurable.comp (by fun_prop : Measurable fun z : Fin n → ℝ => (z a, z b))).mul hm
  have h2 : ∀ z : Fin n → ℝ, |pairPart (z a) (z b) * F z| ≤ c := fun z => by
    rw [abs_mul]
    calc _ ≤ 1 * c := mul_le_mul (pairPart_bound _ _) (hc z) (abs_nonneg _) zero_le_one
      _ = c := one_mul c
  rw [integral_redraw a h1 h2]
  simp only [Function.update_self, Function.update_of_ne hab.symm, hF, integral_mul_const]
  have : ∀ z : Fin n → ℝ, ∫ w, pairPart w (z b) ∂unif = 0 := fun z => by
    simp only [fun w => pairPart_comm w (z b)]
    exact pairPart_mean _
  simp [this]

/-- the part of the distance of the variables `k` and `k + 1` -/
noncomputable def step (z : Fin n → ℝ) (k : ℕ) : ℝ := if h : k + 1 < n then pairPart (z ⟨k, by omega⟩) (z ⟨k + 1, h⟩) else 0

theorem step_measurable (k : ℕ) : Measurable fun z : Fin n → ℝ => step z k := by
  unfold step
  split_ifs with h
  · exact pairPart_measurable.comp (by fun_prop : Measurable fun z : Fin n → ℝ => (z ⟨k, by omega⟩, z ⟨k + 1, h⟩))
  · exact measurable_const

theorem step_bound (z : Fin n → ℝ) (k : ℕ) : |step z k| ≤ 1 := by
  unfold step
  split_ifs
  · exact pairPart_bound _ _
  · simp

/-- orthogonality, by the first or the second variable -/
theorem step_orth (k : ℕ) {F : (Fin n → ℝ) → ℝ} (hm : Measurable F) {c : ℝ} (hc : ∀ z, |F z| ≤ c)
    (hF : (∃ a : Fin n, a.val = k ∧ ∀ z w, F (Function.update z a w) = F z) ∨ ∃ a : Fin n, a.val = k + 1 ∧ ∀ z w, F (Function.update z a w) = F z) :
    ∫ z, step z k * F z ∂unifs n = 0 := by
  by_cases h : k + 1 < n
  · simp only [step, dif_pos h]
    rcases hF with ⟨a, ha, hF⟩ | ⟨a, ha, hF⟩
    · have e : a = ⟨k, by omega⟩ := Fin.ext ha
      rw [e] at hF
      exact pairPart_orth _ _ (by simp [Fin.ext_iff]) hm hc hF
    · have e : a = ⟨k + 1, h⟩ := Fin.ext ha
      rw [e] at hF
      simp only [fun z : Fin n → ℝ => pairPart_comm (z ⟨k, by omega⟩) (z ⟨k + 1, h⟩)]
      exact pairPart_orth _ _ (by simp [Fin.ext_iff]) hm hc hF
  · simp [step, h]

theorem step_update (z : Fin n → ℝ) (k : ℕ) (a : Fin n) (w : ℝ) (h1 : a.val ≠ k) (h2 : a.val ≠ k + 1) : step (Function.update z a w) k = step z k := by
  unfold step
  split_ifs with h
  · rw [Function.update_of_ne (fun e => h1 (by rw [← e])), Function.update_of_ne (fun e => h2 (by rw [← e]))]
  · rfl

theorem step_mean (k : ℕ) : ∫ z, step z k ∂unifs n = 0 := by
  by_cases h : k + 1 < n
  · have := step_orth (n := n) k (F := fun _ => 1) measurable_const (c := 1) (by simp) (Or.inl ⟨⟨k, by omega⟩, rfl, fun _ _ => rfl⟩)
    simpa using this
  · simp [step, h]

theorem step_cross (k l : ℕ) (hkl : k < l) : ∫ z, step z k * step z l ∂unifs n = 0 := by
  by_cases h : k + 1 < n
  · exact step_orth k (step_measurable l) (fun z => step_bound z l)
      (Or.inl ⟨⟨k, by omega⟩, rfl, fun z w => step_update z l _ w (by simp; omega) (by simp; omega)⟩)
  · simp [step, h]

/-- the product with the distance -/
theorem step_dist (k : ℕ) (h : k + 1 < n) : ∫ z, step z k * |cl (z ⟨k, by omega⟩) - cl (z ⟨k + 1, h⟩)| ∂unifs n = 2 / 45 := by
  simp only [step, dif_pos h]
  have hm : Measurable fun p : ℝ × ℝ => pairPart p.1 p.2 * |cl p.1 - cl p.2| := by
    have := cl_measurable
    exact pairPart_measurable.mul (by fun_prop)
  have hb : ∀ p : ℝ × ℝ, |pairPart p.1 p.2 * (|cl p.1 - cl p.2|)| ≤ 1 := fun p => by
    rw [abs_mul, abs_abs]
    have ha := cl_mem p.1
    have hb := cl_mem p.2
    exact mul_le_one₀ (pairPart_bound _ _) (abs_nonneg _) (abs_sub_le_iff.mpr ⟨by linarith, by linarith⟩)
  rw [integral_two ⟨k, by omega⟩ ⟨k + 1, h⟩ (by simp [Fin.ext_iff]) hm hb]
  exact pairPart_dist

theorem cl_part_measurable (a : Fin n) : Measurable fun z : Fin n → ℝ => cl (z a) * (1 - cl (z a)) := by
  have := cl_measurable.comp (measurable_pi_apply (X := fun _ : Fin n => ℝ) a)
  exact Measurable.mul this (measurable_const.sub this)

theorem cl_part_bound (u : ℝ) : |cl u * (1 - cl u)| ≤ 1 := by
  have := cl_mem u
  rw [abs_mul]
  exact mul_le_one₀ (abs_le.mpr ⟨by linarith, by linarith⟩) (abs_nonneg _) (abs_le.mpr ⟨by linarith, by linarith⟩)

theorem step_sq (k : ℕ) (h : k + 1 < n) : ∫ z, step z k * step z k ∂unifs n = 2 / 45 := by
  have e : ∀ z : Fin n → ℝ, step z k * step z k = step z k * |cl (z ⟨k, by omega⟩) - cl (z ⟨k + 1, h⟩)| + (-(2 / 3)) * step z k +
      step z k * (cl (z ⟨k, by omega⟩) * (1 - cl (z ⟨k, by omega⟩))) + step z k * (cl (z ⟨k + 1, h⟩) * (1 - cl (z ⟨k + 1, h⟩))) := by
    intro z
    have : step z k = |cl (z ⟨k, by omega⟩) - cl (z ⟨k + 1, h⟩)| - 2 / 3 + cl (z ⟨k, by omega⟩) * (1 - cl (z ⟨k, by omega⟩)) +
        cl (z ⟨k + 1, h⟩) * (1 - cl (z ⟨k + 1, h⟩)) := by
      unfold step
      rw [dif_pos h]
      rfl
    calc step z k * step z k = step z k * (|cl (z ⟨k, by omega⟩) - cl (z ⟨k + 1, h⟩)| - 2 / 3 + cl (z ⟨k, by omega⟩) * (1 - cl (z ⟨k, by omega⟩)) +
        cl (z ⟨k + 1, h⟩) * (1 - cl (z ⟨k + 1, h⟩))) := by rw [← this]
      _ = _ := by ring
  have hms := step_measurable (n := n) k
  have hbs := fun z : Fin n → ℝ => step_bound z k
  have hmd : Measurable fun z : Fin n → ℝ => |cl (z ⟨k, by omega⟩) - cl (z ⟨k + 1, h⟩)| := by
    have := cl_measurable
    fun_prop
  have hbd : ∀ z : Fin n → ℝ, |(|cl (z ⟨k, by omega⟩) - cl (z ⟨k + 1, h⟩)|)| ≤ 1 := fun z => by
    rw [abs_abs]
    have ha := cl_mem (z ⟨k, by omega⟩)
    have hb := cl_mem (z ⟨k + 1, h⟩)
    exact abs_sub_le_iff.mpr ⟨by linarith, by linarith⟩
  have hi : ∀ F : (Fin n → ℝ) → ℝ, Measurable F → (∀ z, |F z| ≤ 1) → Integrable (fun z => step z k * F z) (unifs n) := fun F hF hb =>
    bounded_integrable (c := 1) (hms.mul hF) fun z => by rw [abs_mul]; exact mul_le_one₀ (hbs z) (abs_nonneg _) (hb z)
  have i1 := hi _ hmd hbd
  have i2 : Integrable (fun z : Fin n → ℝ => (-(2 / 3)) * step z k) (unifs n) := (bounded_integrable hms hbs).const_mul _
  have i3 := hi _ (cl_part_measurable ⟨k, by omega⟩) fun z => cl_part_bound _
  have i4 := hi _ (cl_part_measurable ⟨k + 1, h⟩) fun z => cl_part_bound _
  simp only [e]
  have i12 : Integrable (fun z : Fin n → ℝ => step z k * |cl (z ⟨k, by omega⟩) - cl (z ⟨k + 1, h⟩)| + (-(2 / 3)) * step z k) (unifs n) := i1.add i2
  have i123 : Integrable (fun z : Fin n → ℝ => step z k * |cl (z ⟨k, by omega⟩) - cl (z ⟨k + 1, h⟩)| + (-(2 / 3)) * step z k +
      step z k * (cl (z ⟨k, by omega⟩) * (1 - cl (z ⟨k, by omega⟩)))) (unifs n) := i12.add i3
  rw [integral_add i123 i4, integral_add i12 i3, integral_add i1 i2, step_dist k h, integral_const_mul, step_mean]
  have z1 : ∫ z, step z k * (cl (z ⟨k, by omega⟩) * (1 - cl (z ⟨k, by omega⟩))) ∂unifs n = 0 :=
    step_orth k (cl_part_measurable _) (fun z => cl_part_bound _) (Or.inr ⟨⟨k + 1, h⟩, rfl, fun z w => by
      rw [Function.update_of_ne (by simp [Fin.ext_iff])]⟩)
  have z2 : ∫ z, step z k * (cl (z ⟨k + 1, h⟩) * (1 - cl (z ⟨k + 1, h⟩))) ∂unifs n = 0 :=
    step_orth k (cl_part_measurable _) (fun z => cl_part_bound _) (Or.inl ⟨⟨k, by omega⟩, rfl, fun z w => by
      rw [Function.update_of_ne (by simp [Fin.ext_iff])]⟩)
  rw [z1, z2]
  ring

/-- the second moment of a sum of parts -/
theorem steps_sq (A : Finset ℕ) (hA : ∀ k ∈ A, k + 1 < n) : ∫ z, (∑ k ∈ A, step z k) ^ 2 ∂unifs n = A.card * (2 / 45) := by
  have e : ∀ z : Fin n → ℝ, (∑ k ∈ A, step z k) ^ 2 = ∑ k ∈ A, ∑ l ∈ A, step z k * step z l := fun z => by rw [pow_two, sum_mul_sum]
  have hi : ∀ k l, Integrable (fun z : Fin n → ℝ => step z k * step z l) (unifs n) := fun k l =>
    bounded_integrable (c := 1) ((step_measurable k).mul (step_measurable l)) fun z => by
      rw [abs_mul]; exact mul_le_one₀ (step_bound z k) (abs_nonneg _) (step_bound z l)
  simp only [e]
  rw [integral_finsetSum _ fun k _ => integrable_finsetSum _ fun l _ => hi k l]
  have : ∀ k ∈ A, ∫ z, ∑ l ∈ A, step z k * step z l ∂unifs n = 2 / 45 := by
    intro k hk
    rw [integral_finsetSum _ fun l _ => hi k l, sum_eq_single_of_mem k hk]
    · exact step_sq k (hA k hk)
    · intro l _ hlk
      rcases lt_or_gt_of_ne hlk with h | h
      · simp only [fun z : Fin n → ℝ => mul_comm (step z k) (step z l)]
        exact step_cross l k h
      · exact step_cross k l h
  rw [sum_congr rfl this, sum_const, nsmul_eq_mul]

theorem steps_bound (z : Fin n → ℝ) (A : Finset ℕ) : |∑ k ∈ A, step z k| ≤ A.card := by
  refine (abs_sum_le_sum_abs _ _).trans ((sum_le_sum fun k _ => step_bound z k).trans ?_)
  simp

theorem steps_measurable (A : Finset ℕ) : Measurable fun z : Fin n → ℝ => ∑ k ∈ A, step z k :=
  Finset.measurable_fun_sum _ fun k _ => step_measurable k

/-! ### the distances of the ranks -/

/-- the sum of the distances of the (signed) ranks of neighbours -/
noncomputable def rankDist (z : Fin n → ℝ) : ℝ :=
  ∑ k ∈ range (n - 1), if h : k + 1 < n then ∑ j, betw (z ⟨k, by omega⟩) (z ⟨k + 1, h⟩) (z j) else 0

/-- the term of `rankDist` -/
theorem term_measurable (a b c : Fin n) : Measurable fun z : Fin n → ℝ => betw (z a) (z b) (z c) :=
  betw_measurable.comp (by fun_prop : Measurable fun z : Fin n → ℝ => (z a, z b, z c))

/-- a term that does not depend on both variables of the part -/
theorem step_term_zero (k : ℕ) (hk : k + 1 < n) (a b c : Fin n)
    (h : (a.val ≠ k ∧ b.val ≠ k ∧ c.val ≠ k) ∨ (a.val ≠ k + 1 ∧ b.val ≠ k + 1 ∧ c.val ≠ k + 1)) :
    ∫ z, step z k * betw (z a) (z b) (z c) ∂unifs n = 0 := by
  refine step_orth k (term_measurable a b c) (fun z => betw_bound _ _ _) ?_
  rcases h with ⟨h1, h2, h3⟩ | ⟨h1, h2, h3⟩
  · refine Or.inl ⟨⟨k, by omega⟩, rfl, fun z w => ?_⟩
    rw [Function.update_of_ne (fun e => h1 (by rw [e])), Function.update_of_ne (fun e => h2 (by rw [e])), Function.update_of_ne (fun e => h3 (by rw [e]))]
  · refine Or.inr ⟨⟨k + 1, hk⟩, rfl, fun z w => ?_⟩
    rw [Function.update_of_ne (fun e => h1 (by rw [e])), Function.update_of_ne (fun e => h2 (by rw [e])), Function.update_of_ne (fun e => h3 (by rw [e]))]

/-- the main terms -/
theorem step_term_main (k : ℕ) (hk : k + 1 < n) (c : Fin n) (h1 : c.val ≠ k) (h2 : c.val ≠ k + 1) :
    ∫ z, step z k * betw (z ⟨k, by omega⟩) (z ⟨k + 1, hk⟩) (z c) ∂unifs n = 4 / 45 := by
  have hm : Measurable fun z : Fin n → ℝ => step z k * betw (z ⟨k, by omega⟩) (z ⟨k + 1, hk⟩) (z c) :=
    (step_measurable (n := n) k).mul (term_measurable (n := n) ⟨k, by omega⟩ ⟨k + 1, hk⟩ c)
  have hb : ∀ z : Fin n → ℝ, |step z k * betw (z ⟨k, by omega⟩) (z ⟨k + 1, hk⟩) (z c)| ≤ 2 := fun z => by
    rw [abs_mul]
    calc _ ≤ 1 * 2 := mul_le_mul (step_bound z k) (betw_bound _ _ _) (abs_nonneg _) zero_le_one
      _ = 2 := one_mul 2
  rw [integral_redraw c hm hb]
  have e : ∀ (z : Fin n → ℝ) (w : ℝ), step (Function.update z c w) k * betw (Function.update z c w ⟨k, by omega⟩) (Function.update z c w ⟨k + 1, hk⟩) (Function.update z c w c) =
      step z k * betw (z ⟨k, by omega⟩) (z ⟨k + 1, hk⟩) w := by
    intro z w
    rw [step_update z k c w h1 h2, Function.update_self, Function.update_of_ne (fun e => h1 (by rw [← e])), Function.update_of_ne (fun e => h2 (by rw [← e]))]
  simp only [e, integral_const_mul, betw_mean]
  have : ∀ z : Fin n → ℝ, step z k * (2 * |cl (z ⟨k, by omega⟩) - cl (z ⟨k + 1, hk⟩)|) = 2 * (step z k * |cl (z ⟨k, by omega⟩) - cl (z ⟨k + 1, hk⟩)|) := fun z => by ring
  simp only [this]
  rw [integral_const_mul, step_dist k hk]
  norm_num

theorem step_term_bound (k : ℕ) (a b c : Fin n) : |∫ z, step z k * betw (z a) (z b) (z c) ∂unifs n| ≤ 2 := by
  have hb : ∀ z : Fin n → ℝ, ‖step z k * betw (z a) (z b) (z c)‖ ≤ 2 := fun z => by
    rw [Real.norm_eq_abs, abs_mul]
    calc _ ≤ 1 * 2 := mul_le_mul (step_bound z k) (betw_bound _ _ _) (abs_nonneg _) zero_le_one
      _ = 2 := one_mul 2
  have := norm_integral_le_of_norm_le_const (μ := unifs n) (Filter.Eventually.of_forall hb)
  simpa using this

theorem one_index (k : ℕ) : ∑ j : Fin n, (if j.val = k then (1 : ℝ) else 0) ≤ 1 := by
  by_cases h : k < n
  · rw [sum_eq_single_of_mem (⟨k, h⟩ : Fin n) (mem_univ _)]
    · simp
    · intro j _ hj
      exact if_neg fun e => hj (Fin.ext e)
  · rw [sum_eq_zero fun j _ => if_neg (by have := j.isLt; omega)]
    exact zero_le_one

theorem one_number (m k : ℕ) : ∑ l ∈ range m, (if l = k then (1 : ℝ) else 0) ≤ 1 := by
  rw [sum_ite_eq']
  split_ifs <;> norm_num

theorem one_number' (m k : ℕ) : ∑ l ∈ range m, (if l + 1 = k then (1 : ℝ) else 0) ≤ 1 := by
  rcases k with - | k
  · simp
  · simpa using one_number m k

/-- the product of the distances of the ranks and a part -/
theorem step_rankDist (k : ℕ) (hk : k + 1 < n) : |∫ z, step z k * rankDist z ∂unifs n - ((n : ℝ) - 2) * (4 / 45)| ≤ 8 := by
  obtain ⟨I, hI⟩ : ∃ I : ℕ → Fin n → ℝ, I = fun l j => if h : l + 1 < n then ∫ z, step z k * betw (z ⟨l, by omega⟩) (z ⟨l + 1, h⟩) (z j) ∂unifs n else 0 :=
    ⟨_, rfl⟩
  have hi : ∀ a b c : Fin n, Integrable (fun z : Fin n → ℝ => step z k * betw (z a) (z b) (z c)) (unifs n) := fun a b c =>
    bounded_integrable (c := 2) ((step_measurable k).mul (term_measurable a b c)) fun z => by
      rw [abs_mul]
      calc _ ≤ 1 * 2 := mul_le_mul (step_bound z k) (betw_bound _ _ _) (abs_nonneg _) zero_le_one
        _ = 2 := one_mul 2
  have e : ∫ z, step z k * rankDist z ∂unifs n = ∑ l ∈ range (n - 1), ∑ j, I l j := by
    have e1 : ∀ z : Fin n → ℝ, step z k * rankDist z = ∑ l ∈ range (n - 1), ∑ j, if h : l + 1 < n then step z k * betw (z ⟨l, by omega⟩) (z ⟨l + 1, h⟩) (z j) else 0 := by
      intro z
      unfold rankDist
      rw [mul_sum]
      refine sum_congr rfl fun l _ => ?_
      split_ifs with h
      · rw [mul_sum]
      · simp
    simp only [e1]
    have hi' : ∀ l j, Integrable (fun z : Fin n → ℝ => if h : l + 1 < n then step z k * betw (z ⟨l, by omega⟩) (z ⟨l + 1, h⟩) (z j) else 0) (unifs n) := fun l j => by
      split_ifs with h
      · exact hi _ _ _
      · exact integrable_zero _ _ _
    rw [integral_finsetSum _ fun l _ => integrable_finsetSum _ fun j _ => hi' l j]
    refine sum_congr rfl fun l _ => ?_
    rw [integral_finsetSum _ fun j _ => hi' l j]
    refine sum_congr rfl fun j _ => ?_
    rw [hI]
    dsimp only
    split_ifs with h
    · rfl
    · simp
  have em : ((n : ℝ) - 2) * (4 / 45) = ∑ l ∈ range (n - 1), ∑ j : Fin n, if l = k then (if j.val = k ∨ j.val = k + 1 then 0 else (4 / 45 : ℝ)) else 0 := by
    rw [sum_eq_single_of_mem k (mem_range.mpr (by omega))]
    · simp only [if_true]
      have e2 : ∀ j : Fin n, (if j.val = k ∨ j.val = k + 1 then 0 else (4 / 45 : ℝ)) = 4 / 45 - (if j = ⟨k, by omega⟩ then 4 / 45 else 0) - (if j = ⟨k + 1, hk⟩ then 4 / 45 else 0) := by
        intro j
        simp only [Fin.ext_iff]
        by_cases h1 : j.val = k
        · simp [h1]
        · by_cases h2 : j.val = k + 1
          · simp [h2]
          · simp [h1, h2]
      simp only [e2, sum_sub_distrib, sum_ite_eq', mem_univ, if_true, sum_const, card_univ, Fintype.card_fin, nsmul_eq_mul]
      ring
    · intro l _ hl
      simp [hl]
  rw [e, em, ← sum_sub_distrib]
  simp only [← sum_sub_distrib]
  have hle : ∀ l ∈ range (n - 1), ∀ j : Fin n, |I l j - if l = k then (if j.val = k ∨ j.val = k + 1 then 0 else (4 / 45 : ℝ)) else 0| ≤
      2 * ((if l = k then 1 else 0) * (if j.val = k then 1 else 0)) + 2 * ((if l = k then 1 else 0) * (if j.val = k + 1 then 1 else 0)) +
      2 * ((if l = k + 1 then 1 else 0) * (if j.val = k then 1 else 0)) + 2 * ((if l + 1 = k then 1 else 0) * (if j.val = k + 1 then 1 else 0)) := by
    intro l hl j
    have hl' : l + 1 < n := by have := mem_range.mp hl; omega
    have hb : |I l j| ≤ 2 := by rw [hI]; simp only [dif_pos hl']; exact step_term_bound _ _ _ _
    by_cases h1 : l = k
    · subst h1
      by_cases h2 : j.val = l
      · simp [h2]; simpa using hb
      · by_cases h3 : j.val = l + 1
        · simp [h3]; simpa using hb
        · have : I l j = 4 / 45 := by rw [hI]; simp only [dif_pos hl']; exact step_term_main l hl' j h2 h3
          simp [h2, h3, this]
    · rw [if_neg h1, sub_zero]
      have hz : (¬ (l = k + 1 ∧ j.val = k)) → (¬ (l + 1 = k ∧ j.val = k + 1)) → I l j = 0 := by
        intro h2 h3
        rw [hI]; simp only [dif_pos hl']
        refine step_term_zero k hk _ _ _ ?_
        dsimp only
        omega
      have hnn : ∀ p : Prop, [Decidable p] → (0 : ℝ) ≤ if p then 1 else 0 := fun p _ => by split_ifs <;> norm_num
      by_cases h2 : l = k + 1 ∧ j.val = k
      · rw [if_pos h2.1, if_pos h2.2, if_neg h1]
        have := mul_nonneg (hnn (l + 1 = k)) (hnn (j.val = k + 1))
        linarith
      · by_cases h3 : l + 1 = k ∧ j.val = k + 1
        · rw [if_pos h3.1, if_pos h3.2, if_neg h1]
          have := mul_nonneg (hnn (l = k + 1)) (hnn (j.val = k))
          linarith
        · rw [hz h2 h3, abs_zero]
          have a1 := mul_nonneg (hnn (l = k)) (hnn (j.val = k))
          have a2 := mul_nonneg (hnn (l = k)) (hnn (j.val = k + 1))
          have a3 := mul_nonneg (hnn (l = k + 1)) (hnn (j.val = k))
          have a4 := mul_nonneg (hnn (l + 1 = k)) (hnn (j.val = k + 1))
          linarith
  refine (abs_sum_le_sum_abs _ _).trans ((sum_le_sum fun l hl => (abs_sum_le_sum_abs _ _).trans (sum_le_sum fun j _ => hle l hl j)).trans ?_)
  simp only [sum_add_distrib, ← mul_sum]
  simp only [← sum_mul]
  have hn0 : ∀ i : ℕ, 0 ≤ ∑ j : Fin n, (if j.val = i then (1 : ℝ) else 0) := fun i => sum_nonneg fun j _ => by split_ifs <;> norm_num
  have m1 := mul_le_one₀ (one_number (n - 1) k) (hn0 k) (one_index k)
  have m2 := mul_le_one₀ (one_number (n - 1) k) (hn0 (k + 1)) (one_index (k + 1))
  have m3 := mul_le_one₀ (one_number (n - 1) (k + 1)) (hn0 k) (one_index k)
  have m4 := mul_le_one₀ (one_number' (n - 1) k) (hn0 (k + 1)) (one_index (k + 1))
  linarith

end Medil

import Verif.Proofs.UnifProj
import Mathlib.Probability.ProductMeasure
import Mathlib.Probability.Independence.CharacteristicFunction
import Mathlib.Probability.CentralLimitTheorem
/-
  Sums over separate blocks of independent uniform variables.
-/
namespace Medil
open MeasureTheory ProbabilityTheory Finset Filter Topology
variable {n : ℕ}

/-- some of the variables -/
theorem unifs_precomp {ι : Type} [Fintype ι] (e : ι → Fin n) (he : Function.Injective e) :
    MeasurePreserving (fun z : Fin n → ℝ => fun i => z (e i)) (unifs n) (Measure.pi fun _ : ι => unif) := by
  refine ⟨by fun_prop, ?_⟩
  have h1 : iIndepFun (fun (i : Fin n) (z : Fin n → ℝ) => z i) (unifs n) :=
    iIndepFun_pi (μ := fun _ : Fin n => unif) (X := fun _ => id) fun _ => aemeasurable_id
  have h2 := h1.precomp he
  rw [iIndepFun_iff_map_fun_eq_pi_map (fun i => (measurable_pi_apply (e i)).aemeasurable)] at h2
  rw [show (fun z : Fin n → ℝ => fun i => z (e i)) = fun ω i => ω (e i) from rfl, h2]
  congr 1
  funext i
  exact (measurePreserving_eval (fun _ : Fin n => unif) (e i)).map_eq

/-- the place of variable `r` of block `l` -/
def place {b L : ℕ} (h : L * (b + 1) ≤ n) (p : Fin L × Fin (b + 1)) : Fin n :=
  ⟨p.1.val * (b + 1) + p.2.val, by
    have h1 := p.1.isLt
    have h2 := p.2.isLt
    have h3 : (p.1.val + 1) * (b + 1) ≤ L * (b + 1) := Nat.mul_le_mul_right _ h1
    nlinarith⟩

theorem place_injective {b L : ℕ} (h : L * (b + 1) ≤ n) : Function.Injective (place (n := n) h) := by
  rintro ⟨p, q⟩ ⟨p', q'⟩ e
  have e' : p.val * (b + 1) + q.val = p'.val * (b + 1) + q'.val := congrArg Fin.val e
  have h1 : (p.val * (b + 1) + q.val) / (b + 1) = p.val := by
    rw [mul_comm, Nat.mul_add_div (by omega), Nat.div_eq_of_lt q.isLt, add_zero]
  have h2 : (p'.val * (b + 1) + q'.val) / (b + 1) = p'.val := by
    rw [mul_comm, Nat.mul_add_div (by omega), Nat.div_eq_of_lt q'.isLt, add_zero]
  have h3 : p.val = p'.val := by rw [← h1, ← h2, e']
  have h4 : q.val = q'.val := by rw [h3] at e'; omega
  exact Prod.ext (Fin.ext h3) (Fin.ext h4)

/-- the blocks are independent -/
theorem unifs_blocks {b L : ℕ} (h : L * (b + 1) ≤ n) :
    MeasurePreserving (fun z : Fin n → ℝ => fun (l : Fin L) (r : Fin (b + 1)) => z (place h (l, r))) (unifs n) (Measure.pi fun _ : Fin L => unifs (b + 1)) := by
  have h1 := unifs_precomp (n := n) (place h) (place_injective h)
  have h2 : MeasurePreserving (MeasurableEquiv.curry (Fin L) (Fin (b + 1)) ℝ) (Measure.pi fun _ : Fin L × Fin (b + 1) => unif) (Measure.pi fun _ : Fin L => unifs (b + 1)) := by
    refine ⟨MeasurableEquiv.measurable _, ?_⟩
    have := Measure.infinitePi_map_curry (ι := Fin L) (κ := Fin (b + 1)) (X := ℝ) fun _ _ => unif
    simp only [Measure.infinitePi_eq_pi] at this
    exact this
  exact h2.comp h1

/-- the sum over a block -/
noncomputable def blockSum (b : ℕ) (u : Fin (b + 1) → ℝ) : ℝ := ∑ k ∈ range b, step u k

theorem blockSum_measurable (b : ℕ) : Measurable (blockSum b) := steps_measurable _

/-- the sum over `L` blocks -/
noncomputable def keptSum (b L : ℕ) (z : Fin n → ℝ) : ℝ := ∑ l ∈ range L, ∑ r ∈ range b, step z (l * (b + 1) + r)

theorem keptSum_blocks {b L : ℕ} (h : L * (b + 1) ≤ n) (z : Fin n → ℝ) :
    keptSum b L z = ∑ l : Fin L, blockSum b fun r => z (place h (l, r)) := by
  unfold keptSum
  rw [← Fin.sum_univ_eq_sum_range (fun l => ∑ r ∈ range b, step z (l * (b + 1) + r))]
  refine sum_congr rfl fun l _ => ?_
  unfold blockSum
  refine sum_congr rfl fun r hr => ?_
  have hr' := mem_range.mp hr
  have h3 : (l.val + 1) * (b + 1) ≤ L * (b + 1) := Nat.mul_le_mul_right _ l.isLt
  have h4 : l.val * (b + 1) + r + 1 < n := by nlinarith
  have h5 : r + 1 < b + 1 := by omega
  unfold step
  rw [dif_pos h4, dif_pos h5]
  rfl

/-- the characteristic function of the sum over the blocks -/
theorem keptSum_charFun {b L : ℕ} (h : L * (b + 1) ≤ n) (t : ℝ) :
    charFun ((unifs n).map fun z => keptSum b L z) t = charFun ((unifs (b + 1)).map (blockSum b)) t ^ L := by
  have hp := unifs_blocks (n := n) h
  have e : (fun z : Fin n → ℝ => keptSum b L z) =
      (fun p : Fin L → ℝ => ∑ l, p l) ∘ (fun w : Fin L → Fin (b + 1) → ℝ => fun l => blockSum b (w l)) ∘
        fun z => fun (l : Fin L) (r : Fin (b + 1)) => z (place h (l, r)) := by
    funext z
    exact keptSum_blocks h z
  have hm : Measurable fun w : Fin L → Fin (b + 1) → ℝ => fun l => blockSum b (w l) :=
    measurable_pi_lambda _ fun l => (blockSum_measurable b).comp (measurable_pi_apply l)
  rw [e, ← Measure.map_map (by fun_prop) (hm.comp hp.measurable), ← Measure.map_map hm hp.measurable, hp.map_eq]
  have : IsProbabilityMeasure ((unifs (b + 1)).map (blockSum b)) := Measure.isProbabilityMeasure_map (blockSum_measurable b).aemeasurable
  rw [Measure.pi_map_pi (μ := fun _ : Fin L => unifs (b + 1)) (f := fun _ => blockSum b) fun _ => (blockSum_measurable b).aemeasurable,
    charFun_map_sum_pi_eq_prod]
  simp

/-- the limit of the characteristic function, for a growing number of blocks -/
theorem blocks_charFun {b : ℕ} (hb : 1 ≤ b) (t : ℝ) :
    Tendsto (fun L : ℕ => charFun ((unifs (b + 1)).map (blockSum b)) (Real.sqrt (45 / 2) / Real.sqrt (L * (b + 1 : ℕ)) * t) ^ L) atTop
      (𝓝 (Complex.exp (-((t : ℂ) ^ 2 * (b / (b + 1))) / 2))) := by
  have hb0 : (0 : ℝ) < b := by exact_mod_cast hb
  obtain ⟨c, hc⟩ : ∃ c, c = Real.sqrt (45 / (2 * b)) := ⟨_, rfl⟩
  have hc2 : c ^ 2 = 45 / (2 * b) := by rw [hc]; exact Real.sq_sqrt (by positivity)
  have hc0 : 0 < c := by rw [hc]; exact Real.sqrt_pos.mpr (by positivity)
  have hbm : ∀ u : Fin (b + 1) → ℝ, |blockSum b u| ≤ b := fun u => by
    have := steps_bound u (range b)
    rwa [card_range] at this
  have h0 : (unifs (b + 1))[fun u => c * blockSum b u] = 0 := by
    rw [integral_const_mul]
    have : ∫ u, blockSum b u ∂unifs (b + 1) = 0 := stepSum_mean (n := b + 1)
    rw [this, mul_zero]
  have h1 : (unifs (b + 1))[(fun u => c * blockSum b u) ^ 2] = 1 := by
    have e : ∀ u : Fin (b + 1) → ℝ, ((fun u => c * blockSum b u) ^ 2) u = c ^ 2 * blockSum b u ^ 2 := fun u => by
      show (c * blockSum b u) ^ 2 = _
      ring
    simp only [e]
    rw [integral_const_mul, show ∫ u, blockSum b u ^ 2 ∂unifs (b + 1) = _ from stepSum_sq (n := b + 1) (by omega), hc2]
    push_cast
    field_simp
    ring
  have h2 := tendsto_charFun_inv_sqrt_mul_pow (P := unifs (b + 1)) (X := fun u => c * blockSum b u)
    ((blockSum_measurable b).const_mul c).aemeasurable h0 h1 (t * Real.sqrt (b / (b + 1)))
  have e2 : ((t * Real.sqrt (b / (b + 1)) : ℝ) : ℂ) ^ 2 = (t : ℂ) ^ 2 * (b / (b + 1)) := by
    rw [← Complex.ofReal_pow, mul_pow, Real.sq_sqrt (by positivity)]
    push_cast
    ring
  have e3 : ∀ L : ℕ, charFun ((unifs (b + 1)).map fun u => c * blockSum b u) ((Real.sqrt L)⁻¹ * (t * Real.sqrt (b / (b + 1)))) =
      charFun ((unifs (b + 1)).map (blockSum b)) (Real.sqrt (45 / 2) / Real.sqrt (L * (b + 1 : ℕ)) * t) := by
    intro L
    rw [charFun_map_mul_comp (blockSum_measurable b).aemeasurable]
    congr 1
    rw [hc, Real.sqrt_mul (by positivity), Real.sqrt_div (by positivity), Real.sqrt_div (by positivity), Real.sqrt_div (by positivity), Real.sqrt_mul (by norm_num)]
    have hsb : 0 < Real.sqrt b := Real.sqrt_pos.mpr hb0
    have hsb1 : 0 < Real.sqrt (b + 1) := Real.sqrt_pos.mpr (by positivity)
    push_cast
    by_cases hL : Real.sqrt L = 0
    · simp [hL]
    · field_simp
  simp only [e3] at h2
  rw [e2] at h2
  exact h2

end Medil

import Mathlib.MeasureTheory.Function.ContinuousMapDense
import Mathlib.Probability.Kernel.Disintegration.Integral
import Mathlib.Topology.UniformSpace.HeineCantor
import Mathlib.Algebra.Order.Floor.Semiring
/-
  Functions of one real variable: approximation in mean by functions of bounded variation; conditional means.
-/
namespace Medil
open MeasureTheory Finset

/-- the total variation of `φ` along increasing sequences is at most `V` -/
def VarBound (φ : ℝ → ℝ) (V : ℝ) : Prop :=
  ∀ (m : ℕ) (t : Fin (m + 1) → ℝ), Monotone t → ∑ k : Fin m, |φ (t k.succ) - φ (t k.castSucc)| ≤ V

theorem sum_fin_telescope (m : ℕ) (Ψ : Fin (m + 1) → ℝ) : ∑ k : Fin m, (Ψ k.succ - Ψ k.castSucc) = Ψ (Fin.last m) - Ψ 0 := by
  induction m with
  | zero => simp
  | succ m ih =>
    rw [Fin.sum_univ_castSucc]
    have := ih (fun k => Ψ k.castSucc)
    simp only [Fin.succ_castSucc, Fin.castSucc_zero] at this ⊢
    rw [this, Fin.succ_last]
    ring

/-- every bounded function is close in mean to one of bounded variation -/
theorem exists_varBound (μ : Measure ℝ) [IsProbabilityMeasure μ] {f : ℝ → ℝ} (hf : Integrable f μ) {η : ℝ} (hη : 0 < η) :
    ∃ φ V C, Measurable φ ∧ (∀ x, |φ x| ≤ C) ∧ VarBound φ V ∧ ∫ x, |f x - φ x| ∂μ ≤ η := by
  obtain ⟨g, hgs, hgi, hgc, hgI⟩ := hf.exists_hasCompactSupport_integral_sub_le (half_pos hη)
  obtain ⟨C, hC⟩ := hgs.exists_bound_of_continuous hgc
  obtain ⟨R, hR0, hR⟩ := hgs.exists_pos_le_norm
  obtain ⟨δ, hδ0, hδ⟩ := Metric.uniformContinuous_iff.mp (hgs.uniformContinuous_of_continuous hgc) (η / 2) (half_pos hη)
  simp only [Real.norm_eq_abs, Real.dist_eq] at hC hR hδ hgi
  have hC0 : 0 ≤ C := (abs_nonneg _).trans (hC 0)
  obtain ⟨d, hd⟩ : ∃ d, d = δ / 2 := ⟨_, rfl⟩
  have hd0 : 0 < d := by rw [hd]; linarith
  obtain ⟨cl, hcl⟩ : ∃ cl : ℝ → ℝ, cl = fun x => max (-R) (min R x) := ⟨_, rfl⟩
  obtain ⟨cell, hcell⟩ : ∃ cell : ℝ → ℕ, cell = fun x => ⌊(cl x + R) / d⌋₊ := ⟨_, rfl⟩
  have hclm : Monotone cl := by
    rw [hcl]
    exact fun a b h => max_le_max_left _ (min_le_min_left _ h)
  have hcm : Monotone cell := fun a b h => by
    rw [hcell]
    exact Nat.floor_mono (div_le_div_of_nonneg_right (by linarith [hclm h]) hd0.le)
  have hclR : ∀ x, -R ≤ cl x ∧ cl x ≤ R := fun x => by
    rw [hcl]
    exact ⟨le_max_left _ _, max_le (by linarith) (min_le_left _ _)⟩
  have hgcl : ∀ x, g (cl x) = g x := by
    intro x
    rw [hcl]
    dsimp only
    rcases le_total R x with h | h
    · rw [min_eq_left h, max_eq_right (by linarith), hR R (by rw [abs_of_pos hR0]), hR x (by rw [abs_of_pos (by linarith)]; exact h)]
    · rw [min_eq_right h]
      rcases le_total x (-R) with h' | h'
      · rw [max_eq_left h', hR (-R) (by rw [abs_neg, abs_of_pos hR0]), hR x (by rw [abs_of_neg (by linarith)]; linarith)]
      · rw [max_eq_right h']
  have hcK : ∀ x, (cell x : ℝ) ≤ 2 * R / d := by
    intro x
    rw [hcell]
    have h0 : 0 ≤ (cl x + R) / d := div_nonneg (by linarith [(hclR x).1]) hd0.le
    refine (Nat.floor_le h0).trans (div_le_div_of_nonneg_right (by linarith [(hclR x).2]) hd0.le)
  have hnear : ∀ x, |cl x - ((cell x : ℝ) * d - R)| < δ := by
    intro x
    have h0 : 0 ≤ (cl x + R) / d := div_nonneg (by linarith [(hclR x).1]) hd0.le
    have h1 := Nat.floor_le h0
    have h2 := Nat.lt_floor_add_one ((cl x + R) / d)
    have e : (cell x : ℝ) = (⌊(cl x + R) / d⌋₊ : ℝ) := by rw [hcell]
    rw [← e] at h1 h2
    rw [le_div_iff₀ hd0] at h1
    rw [div_lt_iff₀ hd0] at h2
    rw [abs_lt]
    constructor <;> nlinarith
  refine ⟨fun x => g ((cell x : ℝ) * d - R), 2 * C * (2 * R / d), C, ?_, fun x => hC _, ?_, ?_⟩
  · exact hgc.measurable.comp ((((measurable_from_top (f := fun k : ℕ => (k : ℝ))).comp hcm.measurable).mul_const d).sub_const R)
  · intro m t ht
    calc ∑ k : Fin m, |g ((cell (t k.succ) : ℝ) * d - R) - g ((cell (t k.castSucc) : ℝ) * d - R)|
        ≤ ∑ k : Fin m, (2 * C * (cell (t k.succ) : ℝ) - 2 * C * (cell (t k.castSucc) : ℝ)) := by
          refine sum_le_sum fun k _ => ?_
          have hle := hcm (ht (Fin.castSucc_lt_succ (i := k)).le)
          rcases hle.eq_or_lt with e | e
          · rw [e]; simp
          · have h1 : (cell (t k.castSucc) : ℝ) + 1 ≤ cell (t k.succ) := by exact_mod_cast e
            have h2 := abs_sub (g ((cell (t k.succ) : ℝ) * d - R)) (g ((cell (t k.castSucc) : ℝ) * d - R))
            have h3 := hC ((cell (t k.succ) : ℝ) * d - R)
            have h4 := hC ((cell (t k.castSucc) : ℝ) * d - R)
            nlinarith
      _ = 2 * C * (cell (t (Fin.last m)) : ℝ) - 2 * C * (cell (t 0) : ℝ) := sum_fin_telescope m fun k => 2 * C * (cell (t k) : ℝ)
      _ ≤ 2 * C * (2 * R / d) := by
          have h1 := hcK (t (Fin.last m))
          have h2 : (0 : ℝ) ≤ 2 * C * (cell (t 0) : ℝ) := by positivity
          have := mul_le_mul_of_nonneg_left h1 (show 0 ≤ 2 * C by linarith)
          linarith
  · have hφm : Measurable fun x => g ((cell x : ℝ) * d - R) :=
      hgc.measurable.comp ((((measurable_from_top (f := fun k : ℕ => (k : ℝ))).comp hcm.measurable).mul_const d).sub_const R)
    have hφI : Integrable (fun x => g ((cell x : ℝ) * d - R)) μ :=
      Integrable.of_bound hφm.aestronglyMeasurable C (Filter.Eventually.of_forall fun x => hC _)
    calc ∫ x, |f x - g ((cell x : ℝ) * d - R)| ∂μ ≤ ∫ x, (|f x - g x| + η / 2) ∂μ := by
          refine integral_mono (hf.sub hφI).abs ((hf.sub hgI).abs.add (integrable_const _)) fun x => ?_
          have h1 := abs_sub_le (f x) (g x) (g ((cell x : ℝ) * d - R))
          have h2 := hδ (hnear x)
          rw [hgcl] at h2
          dsimp only
          linarith
      _ = (∫ x, |f x - g x| ∂μ) + η / 2 := by
          have hI : Integrable (fun x => |f x - g x|) μ := (hf.sub hgI).abs
          rw [integral_add hI (integrable_const _)]
          simp
      _ ≤ η := by linarith

/-- the conditional probability that the second component is in `A`, given the first -/
theorem cond_mean (ν : Measure (ℝ × ℝ)) [IsProbabilityMeasure ν] {A : Set ℝ} (hA : MeasurableSet A) :
    ∃ m : ℝ → ℝ, Measurable m ∧ (∀ x, 0 ≤ m x ∧ m x ≤ 1) ∧
      ∀ ψ : ℝ → ℝ, Measurable ψ → ∀ c, (∀ x, |ψ x| ≤ c) → ∫ w, ψ w.1 * (A.indicator (fun _ => 1) w.2 - m w.1) ∂ν = 0 := by
  refine ⟨fun x => (ν.condKernel x).real A, ?_, fun x => ⟨measureReal_nonneg, measureReal_le_one⟩, fun ψ hψ c hc => ?_⟩
  · exact (ν.condKernel.measurable_coe hA).ennreal_toReal
  have hm : Measurable fun x => (ν.condKernel x).real A := (ν.condKernel.measurable_coe hA).ennreal_toReal
  have hi : Measurable fun y : ℝ => A.indicator (fun _ => (1 : ℝ)) y := measurable_const.indicator hA
  have hib : ∀ y : ℝ, 0 ≤ A.indicator (fun _ => (1 : ℝ)) y ∧ A.indicator (fun _ => (1 : ℝ)) y ≤ 1 := fun y => by
    by_cases h : y ∈ A <;> simp [h]
  have hI : Integrable (fun w : ℝ × ℝ => ψ w.1 * (A.indicator (fun _ => 1) w.2 - (ν.condKernel w.1).real A)) ν := by
    refine Integrable.of_bound ((hψ.comp measurable_fst).mul ((hi.comp measurable_snd).sub (hm.comp measurable_fst))).aestronglyMeasurable (c * 1)
      (Filter.Eventually.of_forall fun w => ?_)
    rw [Real.norm_eq_abs, abs_mul]
    refine mul_le_mul (hc _) ?_ (abs_nonneg _) ((abs_nonneg _).trans (hc 0))
    have h1 := hib w.2
    have h2 : 0 ≤ (ν.condKernel w.1).real A := measureReal_nonneg
    have h3 : (ν.condKernel w.1).real A ≤ 1 := measureReal_le_one
    rw [abs_le]
    constructor <;> linarith
  rw [← Measure.integral_condKernel hI]
  have : ∀ x, ∫ y, ψ x * (A.indicator (fun _ => 1) y - (ν.condKernel x).real A) ∂(ν.condKernel x) = 0 := by
    intro x
    rw [integral_const_mul, integral_sub ((integrable_const _).indicator hA) (integrable_const _), integral_indicator_const _ hA]
    simp
  simp only [this, integral_zero]

end Medil

import Mathlib.MeasureTheory.Constructions.Pi
import Mathlib.MeasureTheory.Integral.Prod
import Mathlib.Probability.ProbabilityMassFunction.Basic
import Mathlib.GroupTheory.Perm.Basic
import Mathlib.Data.Fintype.Perm
import Mathlib.MeasureTheory.Function.L1Space.Integrable
/-
  Independent rows: integrals that vanish, by drawing one row again.
-/
namespace Medil
open MeasureTheory Finset
variable {α : Type} [MeasurableSpace α] {n m : ℕ}

/-- replacing one of the independent rows by a new one does not change the law -/
theorem measurePreserving_resample (ν : Measure α) [IsProbabilityMeasure ν] (a : Fin n) :
    MeasurePreserving (fun p : (Fin n → α) × α => Function.update p.1 a p.2) ((Measure.pi fun _ : Fin n => ν).prod ν) (Measure.pi fun _ : Fin n => ν) := by
  have hm : Measurable fun p : (Fin n → α) × α => Function.update p.1 a p.2 := measurable_update'
  refine ⟨hm, (Measure.pi_eq fun s hs => ?_).symm⟩
  rw [Measure.map_apply hm (MeasurableSet.univ_pi hs)]
  have e : (fun p : (Fin n → α) × α => Function.update p.1 a p.2) ⁻¹' (Set.univ.pi s) = (Set.univ.pi (Function.update s a Set.univ)) ×ˢ s a := by
    ext ⟨z, w⟩
    simp only [Set.mem_preimage, Set.mem_pi, Set.mem_univ, true_implies, Set.mem_prod]
    constructor
    · intro h
      refine ⟨fun i => ?_, by simpa using h a⟩
      by_cases hi : i = a
      · subst hi; simp
      · have := h i
        rwa [Function.update_of_ne hi] at this ⊢
    · rintro ⟨h1, h2⟩ i
      by_cases hi : i = a
      · subst hi; simpa using h2
      · have := h1 i
        rwa [Function.update_of_ne hi] at this ⊢
  rw [e, Measure.prod_prod, Measure.pi_pi, ← Finset.mul_prod_erase univ (fun i => ν (s i)) (mem_univ a),
    ← Finset.mul_prod_erase univ (fun i => ν (Function.update s a Set.univ i)) (mem_univ a)]
  rw [Function.update_self, measure_univ, one_mul, mul_comm]
  congr 1
  refine prod_congr rfl fun i hi => ?_
  rw [Function.update_of_ne (ne_of_mem_erase hi)]

theorem bounded_integrable {β : Type} [MeasurableSpace β] {P : Measure β} [IsProbabilityMeasure P] {H : β → ℝ} (hm : Measurable H) {c : ℝ} (hc : ∀ z, |H z| ≤ c) :
    Integrable H P :=
  Integrable.of_bound hm.aestronglyMeasurable c (Filter.Eventually.of_forall fun z => by rw [Real.norm_eq_abs]; exact hc z)

/-- the integral of a function is 0 if it is 0 on average over each choice of row `a` -/
theorem integral_resample_zero (ν : Measure α) [IsProbabilityMeasure ν] (a : Fin n) {H : (Fin n → α) → ℝ} (hm : Measurable H) {c : ℝ}
    (hc : ∀ z, |H z| ≤ c) (h0 : ∀ z, ∫ w, H (Function.update z a w) ∂ν = 0) : ∫ z, H z ∂(Measure.pi fun _ : Fin n => ν) = 0 := by
  have hp := measurePreserving_resample ν a
  rw [← hp.map_eq, integral_map hp.measurable.aemeasurable hm.aestronglyMeasurable, integral_prod]
  · simp [h0]
  · exact bounded_integrable (hm.comp hp.measurable) fun z => hc _

/-- an order of the rows that depends on the first components only, and errors that are orthogonal to the first components: the sum of
the products of neighbours has a second moment of at most `m` -/
theorem neighbour_products {ν : Measure (ℝ × ℝ)} [IsProbabilityMeasure ν] {e : ℝ × ℝ → ℝ} (hem : Measurable e) (he1 : ∀ w, |e w| ≤ 1)
    (hO : ∀ ψ : ℝ → ℝ, Measurable ψ → ∀ c, (∀ x, |ψ x| ≤ c) → ∫ w, ψ w.1 * e w ∂ν = 0)
    (σ : (Fin (m + 1) → ℝ) → Equiv.Perm (Fin (m + 1))) (hσ : ∀ τ, MeasurableSet {x | σ x = τ}) :
    Measurable (fun z : Fin (m + 1) → ℝ × ℝ => ∑ k : Fin m, e (z (σ (fun a => (z a).1) k.castSucc)) * e (z (σ (fun a => (z a).1) k.succ))) ∧
    ∫ z, (∑ k : Fin m, e (z (σ (fun a => (z a).1) k.castSucc)) * e (z (σ (fun a => (z a).1) k.succ))) ^ 2 ∂(Measure.pi fun _ : Fin (m + 1) => ν) ≤ m := by
  classical
  obtain ⟨I, hI⟩ : ∃ I : Equiv.Perm (Fin (m + 1)) → (Fin (m + 1) → ℝ × ℝ) → ℝ, I = fun τ z => if σ (fun a => (z a).1) = τ then 1 else 0 := ⟨_, rfl⟩
  have hIm : ∀ τ, Measurable (I τ) := fun τ => by
    rw [hI]
    refine Measurable.ite ?_ measurable_const measurable_const
    exact (by fun_prop : Measurable fun z : Fin (m + 1) → ℝ × ℝ => fun a => (z a).1) (hσ τ)
  have hI1 : ∀ τ z, |I τ z| ≤ 1 := fun τ z => by rw [hI]; dsimp only; split_ifs <;> simp
  -- sums over all orders
  have hsum : ∀ (F : Equiv.Perm (Fin (m + 1)) → (Fin (m + 1) → ℝ × ℝ) → ℝ) (z : Fin (m + 1) → ℝ × ℝ),
      F (σ fun a => (z a).1) z = ∑ τ, I τ z * F τ z := by
    intro F z
    rw [hI]
    simp
  have hez : ∀ a : Fin (m + 1), Measurable fun z : Fin (m + 1) → ℝ × ℝ => e (z a) := fun a => hem.comp (measurable_pi_apply a)
  have hmul : ∀ a b : ℝ, |a| ≤ 1 → |b| ≤ 1 → |a * b| ≤ 1 := fun a b ha hb => by
    rw [abs_mul]; exact mul_le_one₀ ha (abs_nonneg _) hb
  -- the product of four errors, for a fixed order
  obtain ⟨F, hF⟩ : ∃ F : Fin m → Fin m → Equiv.Perm (Fin (m + 1)) → (Fin (m + 1) → ℝ × ℝ) → ℝ, F = fun k l τ z =>
    (e (z (τ k.castSucc)) * e (z (τ k.succ))) * (e (z (τ l.castSucc)) * e (z (τ l.succ))) := ⟨_, rfl⟩
  have hFm : ∀ k l τ, Measurable (F k l τ) := fun k l τ => by
    rw [hF]
    exact ((hez _).mul (hez _)).mul ((hez _).mul (hez _))
  have hF1 : ∀ k l τ z, |F k l τ z| ≤ 1 := fun k l τ z => by
    rw [hF]
    exact hmul _ _ (hmul _ _ (he1 _) (he1 _)) (hmul _ _ (he1 _) (he1 _))
  have hIFm : ∀ k l τ, Measurable fun z => I τ z * F k l τ z := fun k l τ => (hIm τ).mul (hFm k l τ)
  have hIF1 : ∀ k l τ z, |I τ z * F k l τ z| ≤ 1 := fun k l τ z => hmul _ _ (hI1 _ _) (hF1 _ _ _ _)
  have hzero : ∀ k l : Fin m, k < l → ∀ τ, ∫ z, I τ z * F k l τ z ∂(Measure.pi fun _ : Fin (m + 1) => ν) = 0 := by
    intro k l hkl τ
    refine integral_resample_zero ν (τ k.castSucc) (hIFm k l τ) (hIF1 k l τ) fun z => ?_
    have n1 : τ k.succ ≠ τ k.castSucc := fun h => by
      have := τ.injective h
      exact absurd (congrArg Fin.val this) (by simp)
    have n2 : τ l.castSucc ≠ τ k.castSucc := fun h => by
      have := τ.injective h
      have := congrArg Fin.val this
      simp only [Fin.val_castSucc] at this
      omega
    have n3 : τ l.succ ≠ τ k.castSucc := fun h => by
      have := τ.injective h
      have := congrArg Fin.val this
      simp only [Fin.val_castSucc, Fin.val_succ] at this
      omega
    obtain ⟨r, hr⟩ : ∃ r, r = e (z (τ k.succ)) * (e (z (τ l.castSucc)) * e (z (τ l.succ))) := ⟨_, rfl⟩
    have key := hO (fun x => (if σ (Function.update (fun a => (z a).1) (τ k.castSucc) x) = τ then 1 else 0) * r) ?_ |r| ?_
    · rw [← key]
      congr 1
      funext w
      rw [hI, hF]
      dsimp only
      rw [Function.update_self, Function.update_of_ne n1, Function.update_of_ne n2, Function.update_of_ne n3, hr]
      have : (fun a => (Function.update z (τ k.castSucc) w a).1) = Function.update (fun a => (z a).1) (τ k.castSucc) w.1 := by
        funext a
        by_cases ha : a = τ k.castSucc
        · subst ha; simp
        · simp [Function.update_of_ne ha]
      rw [this]
      ring
    · refine Measurable.mul_const (Measurable.ite ?_ measurable_const measurable_const) _
      exact (measurable_update (fun a => (z a).1)) (hσ τ)
    · intro x
      rw [abs_mul]
      split_ifs <;> simp
  have hint : ∀ k l, Integrable (fun z => ∑ τ, I τ z * F k l τ z) (Measure.pi fun _ : Fin (m + 1) => ν) := fun k l =>
    integrable_finsetSum _ fun τ _ => bounded_integrable (hIFm k l τ) (hIF1 k l τ)
  have hval : ∀ k l, ∫ z, (∑ τ, I τ z * F k l τ z) ∂(Measure.pi fun _ : Fin (m + 1) => ν) ≤ if k = l then 1 else 0 := by
    intro k l
    split_ifs with hkl
    · have : ∀ z, ∑ τ, I τ z * F k l τ z ≤ 1 := fun z => by
        rw [← hsum (F k l) z]
        exact (abs_le.mp (hF1 _ _ _ _)).2
      calc ∫ z, (∑ τ, I τ z * F k l τ z) ∂(Measure.pi fun _ : Fin (m + 1) => ν) ≤ ∫ _z, 1 ∂(Measure.pi fun _ : Fin (m + 1) => ν) :=
            integral_mono (hint k l) (integrable_const _) this
        _ = 1 := by simp
    · rw [integral_finsetSum _ fun τ _ => bounded_integrable (hIFm k l τ) (hIF1 k l τ)]
      refine le_of_eq (sum_eq_zero fun τ _ => ?_)
      rcases lt_or_gt_of_ne hkl with h | h
      · exact hzero k l h τ
      · rw [← hzero l k h τ]
        congr 1
        funext z
        rw [hF]
        ring
  refine ⟨?_, ?_⟩
  · have : (fun z : Fin (m + 1) → ℝ × ℝ => ∑ k : Fin m, e (z (σ (fun a => (z a).1) k.castSucc)) * e (z (σ (fun a => (z a).1) k.succ))) =
        fun z => ∑ τ, I τ z * ∑ k : Fin m, e (z (τ k.castSucc)) * e (z (τ k.succ)) := by
      funext z
      exact hsum (fun τ z => ∑ k : Fin m, e (z (τ k.castSucc)) * e (z (τ k.succ))) z
    rw [this]
    exact Finset.measurable_sum _ fun τ _ => (hIm τ).mul (Finset.measurable_sum _ fun k _ => (hez _).mul (hez _))
  · have : ∀ z : Fin (m + 1) → ℝ × ℝ, (∑ k : Fin m, e (z (σ (fun a => (z a).1) k.castSucc)) * e (z (σ (fun a => (z a).1) k.succ))) ^ 2 =
        ∑ k, ∑ l, ∑ τ, I τ z * F k l τ z := by
      intro z
      rw [sq, sum_mul_sum]
      refine sum_congr rfl fun k _ => sum_congr rfl fun l _ => ?_
      rw [← hsum (F k l) z, hF]
    simp only [this]
    rw [integral_finsetSum _ fun k _ => integrable_finsetSum _ fun l _ => hint k l]
    calc ∑ k, ∫ z, ∑ l, ∑ τ, I τ z * F k l τ z ∂(Measure.pi fun _ : Fin (m + 1) => ν)
        ≤ ∑ k : Fin m, ∑ l : Fin m, (if k = l then (1 : ℝ) else 0) := by
          refine sum_le_sum fun k _ => ?_
          rw [integral_finsetSum _ fun l _ => hint k l]
          exact sum_le_sum fun l _ => hval k l
      _ = m := by simp

end Medil

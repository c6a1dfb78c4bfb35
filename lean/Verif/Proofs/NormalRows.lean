import Verif.Spec.Prob
import Verif.Spec.Gaussian
/-
  Normal arrays under linear maps, for the property theorems C103, C104.
-/
namespace Medil
open MeasureTheory ProbabilityTheory Finset

variable {Ω : Type} [MeasurableSpace Ω] {μ : Measure Ω} {size k M : Nat}

theorem NormalRows.memLp {X : Ω → Fin size → Fin k → ℝ} {mean : Fin k → ℝ} {C : Fin k → Fin k → ℝ}
    (h : NormalRows μ X mean C) (a : Fin size) (i : Fin k) : MemLp (fun ω => X ω a i) 2 μ :=
  (h.normal.eval (X := fun p : Fin size × Fin k => fun ω => X ω p.1 p.2) (a, i)).memLp_two

/-- rows `z W + e` -/
theorem NormalRows.linear {z : Ω → Fin size → Fin k → ℝ} {e : Ω → Fin size → Fin M → ℝ} {mean v : Fin M → ℝ}
    (hz : NormalRows μ z (fun _ => 0) (fun i j => if i = j then 1 else 0))
    (he : NormalRows μ e mean (fun i j => if i = j then v i else 0)) (hind : IndepFun z e μ)
    (W : Fin k → Fin M → ℝ) :
    NormalRows μ (fun ω a j => (∑ r, z ω a r * W r j) + e ω a j) mean (modelCov W v) := by
  have := hz.normal.isProbabilityMeasure
  have hcross : ∀ a r b j, cov[fun ω => z ω a r, fun ω => e ω b j; μ] = 0 := by
    intro a r b j
    refine IndepFun.covariance_eq_zero ?_ (hz.memLp a r) (he.memLp b j)
    exact hind.comp (φ := fun f => f a r) (ψ := fun f => f b j) (by fun_prop) (by fun_prop)
  have hjoint : HasGaussianLaw (fun ω => (fun p : Fin size × Fin k => z ω p.1 p.2,
      fun p : Fin size × Fin M => e ω p.1 p.2)) μ := by
    refine IndepFun.hasGaussianLaw hz.normal he.normal ?_
    exact hind.comp (φ := fun f => fun p : Fin size × Fin k => f p.1 p.2)
      (ψ := fun f => fun p : Fin size × Fin M => f p.1 p.2) (by fun_prop) (by fun_prop)
  refine ⟨?_, ?_, ?_⟩
  · let L : ((Fin size × Fin k → ℝ) × (Fin size × Fin M → ℝ)) →ₗ[ℝ] (Fin size × Fin M → ℝ) :=
      { toFun := fun x p => (∑ r, x.1 (p.1, r) * W r p.2) + x.2 p
        map_add' := by
          intro x y; ext p
          simp only [Prod.fst_add, Prod.snd_add, Pi.add_apply, add_mul, sum_add_distrib]
          ring
        map_smul' := by
          intro c x; ext p
          simp only [Prod.smul_fst, Prod.smul_snd, Pi.smul_apply, smul_eq_mul, RingHom.id_apply, mul_add,
            mul_sum]
          congr 1
          exact sum_congr rfl fun r _ => by ring }
    exact hjoint.map_fun L.toContinuousLinearMap
  · intro a j
    have hzi : ∀ r, Integrable (fun ω => z ω a r * W r j) μ := fun r =>
      ((hz.memLp a r).integrable (by norm_num)).mul_const _
    rw [integral_add (integrable_finsetSum _ fun r _ => hzi r) ((he.memLp a j).integrable (by norm_num)),
      integral_finsetSum _ fun r _ => hzi r, he.mean_eq]
    simp [integral_mul_const, hz.mean_eq]
  · intro a b i j
    have hL : ∀ c l, MemLp (fun ω => ∑ r, z ω c r * W r l) 2 μ := fun c l =>
      memLp_finsetSum _ fun r _ => (hz.memLp c r).mul_const _
    have h1 : (fun ω => (∑ r, z ω a r * W r i) + e ω a i) =
      (fun ω => ∑ r, z ω a r * W r i) + fun ω => e ω a i := rfl
    have h2 : (fun ω => (∑ r, z ω b r * W r j) + e ω b j) =
      (fun ω => ∑ r, z ω b r * W r j) + fun ω => e ω b j := rfl
    have hze : ∀ a i b j, cov[fun ω => ∑ r, z ω a r * W r i, fun ω => e ω b j; μ] = 0 := by
      intro a i b j
      rw [covariance_fun_sum_left (fun r => (hz.memLp a r).mul_const _) (he.memLp b j)]
      exact sum_eq_zero fun r _ => by rw [covariance_mul_const_left, hcross, zero_mul]
    rw [h1, h2, covariance_add_left (hL a i) (he.memLp a i) ((hL b j).add (he.memLp b j)),
      covariance_add_right (hL a i) (hL b j) (he.memLp b j),
      covariance_add_right (he.memLp a i) (hL b j) (he.memLp b j), hze, covariance_comm (fun ω => e ω a i), hze, he.cov_eq,
      covariance_fun_sum_fun_sum (fun r => (hz.memLp a r).mul_const _) (fun r => (hz.memLp b r).mul_const _)]
    simp only [covariance_mul_const_left, covariance_mul_const_right, hz.cov_eq]
    unfold modelCov
    by_cases hab : a = b
    · subst hab
      simp
    · simp [hab]

/-- disjoint sets of columns without covariance are independent -/
theorem NormalRows.indep {X : Ω → Fin size → Fin M → ℝ} {mean : Fin M → ℝ} {C : Fin M → Fin M → ℝ}
    (h : NormalRows μ X mean C) (S T : Finset (Fin M)) (hC : ∀ i ∈ S, ∀ j ∈ T, C i j = 0) :
    IndepFun (fun ω (q : Fin size × S) => X ω q.1 q.2) (fun ω (q : Fin size × T) => X ω q.1 q.2) μ := by
  refine HasGaussianLaw.indepFun_of_covariance_eval (X := fun (q : Fin size × S) ω => X ω q.1 q.2)
    (Y := fun (q : Fin size × T) ω => X ω q.1 q.2) ?_ ?_
  · let L : (Fin size × Fin M → ℝ) →ₗ[ℝ] ((Fin size × S → ℝ) × (Fin size × T → ℝ)) :=
      { toFun := fun x => (fun q => x (q.1, q.2), fun q => x (q.1, q.2))
        map_add' := fun _ _ => rfl
        map_smul' := fun _ _ => rfl }
    exact h.normal.map_fun L.toContinuousLinearMap
  · intro q q'
    rw [h.cov_eq, hC _ q.2.2 _ q'.2.2]
    simp

theorem NormalRows.not_indep {X : Ω → Fin size → Fin M → ℝ} {mean : Fin M → ℝ} {C : Fin M → Fin M → ℝ}
    (h : NormalRows μ X mean C) (a : Fin size) (i j : Fin M) (hC : C i j ≠ 0) :
    ¬ IndepFun (fun ω => X ω a i) (fun ω => X ω a j) μ := by
  intro hind
  have h1 := hind.covariance_eq_zero (h.memLp a i) (h.memLp a j)
  rw [h.cov_eq, if_pos rfl] at h1
  exact hC h1

/-- rows are independent of each other -/
theorem NormalRows.rows_indep {X : Ω → Fin size → Fin M → ℝ} {mean : Fin M → ℝ} {C : Fin M → Fin M → ℝ}
    (h : NormalRows μ X mean C) : iIndepFun (fun a ω => X ω a) μ := by
  refine HasGaussianLaw.iIndepFun_of_covariance_eval (X := fun (a : Fin size) (i : Fin M) ω => X ω a i) ?_ ?_
  · let L : (Fin size × Fin M → ℝ) →ₗ[ℝ] (Fin size → Fin M → ℝ) :=
      { toFun := fun x a i => x (a, i)
        map_add' := fun _ _ => rfl
        map_smul' := fun _ _ => rfl }
    exact h.normal.map_fun L.toContinuousLinearMap
  · intro a b hab i j
    rw [h.cov_eq, if_neg hab]

end Medil

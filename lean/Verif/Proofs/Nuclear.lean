import Mathlib.Analysis.Matrix.Order
import Mathlib.Analysis.Matrix.PosDef
import Mathlib.Analysis.CStarAlgebra.Matrix
import Mathlib.Analysis.Matrix.HermitianFunctionalCalculus
import Mathlib.Analysis.SpecialFunctions.ContinuousFunctionalCalculus.Rpow.Isometric
import Verif.Spec.Nuclear
/-
  The nuclear norm is continuous, non-negative, and zero exactly at the zero matrix.
-/
namespace Medil
open Matrix Finset

theorem nuclearNorm_congr {k k' m : Nat} (W : Matrix (Fin k) (Fin m) ℝ) (W' : Matrix (Fin k') (Fin m) ℝ)
    (h : Wᵀ * W = W'ᵀ * W') : nuclearNorm W = nuclearNorm W' := by
  unfold nuclearNorm
  have h' : Wᴴ * W = W'ᴴ * W' := h
  simp only [h']

theorem nuclearNorm_nonneg {k m : Nat} (W : Matrix (Fin k) (Fin m) ℝ) : 0 ≤ nuclearNorm W :=
  sum_nonneg fun _ _ => Real.sqrt_nonneg _

theorem nuclearNorm_eq_zero {k m : Nat} (W : Matrix (Fin k) (Fin m) ℝ) : nuclearNorm W = 0 ↔ W = 0 := by
  have ht := (isHermitian_conjTranspose_mul_self W).trace_eq_sum_eigenvalues
  have hn := eigenvalues_conjTranspose_mul_self_nonneg W
  constructor
  · intro h
    have h1 := (sum_eq_zero_iff_of_nonneg fun i _ => Real.sqrt_nonneg _).mp h
    have h2 : ∀ i, (isHermitian_conjTranspose_mul_self W).eigenvalues i = 0 := fun i =>
      (Real.sqrt_eq_zero (hn i)).mp (h1 i (mem_univ _))
    rw [← trace_conjTranspose_mul_self_eq_zero_iff, ht]
    simp only [RCLike.ofReal_real_eq_id, id_eq]
    exact sum_eq_zero fun i _ => h2 i
  · rintro rfl
    have h0 : ∑ i, (isHermitian_conjTranspose_mul_self (0 : Matrix (Fin k) (Fin m) ℝ)).eigenvalues i = 0 := by
      have : (0 : ℝ) = ∑ i, (isHermitian_conjTranspose_mul_self (0 : Matrix (Fin k) (Fin m) ℝ)).eigenvalues i := by
        simpa using ht
      exact this.symm
    have h1 := (sum_eq_zero_iff_of_nonneg fun i _ => hn i).mp h0
    exact sum_eq_zero fun i hi => by rw [h1 i hi, Real.sqrt_zero]

open scoped MatrixOrder ComplexOrder Matrix.Norms.L2Operator

theorem trace_sqrt {m : Nat} (A : Matrix (Fin m) (Fin m) ℝ) (hA : A.PosSemidef) :
    (CFC.sqrt A).trace = ∑ i, Real.sqrt (hA.isHermitian.eigenvalues i) := by
  have h0 : 0 ≤ A := hA.nonneg
  rw [CFC.sqrt_eq_real_sqrt A h0, cfcₙ_eq_cfc, hA.isHermitian.cfc_eq, IsHermitian.cfc, Unitary.conjStarAlgAut_apply,
    Matrix.trace_mul_comm, ← Matrix.mul_assoc]
  simp

theorem nuclearNorm_continuous {k m : Nat} : Continuous fun W : Matrix (Fin k) (Fin m) ℝ => nuclearNorm W := by
  have h1 : ∀ W : Matrix (Fin k) (Fin m) ℝ, nuclearNorm W = (CFC.sqrt (Wᴴ * W)).trace := fun W =>
    (trace_sqrt _ (posSemidef_conjTranspose_mul_self W)).symm
  simp only [h1]
  have h2 : Continuous fun W : Matrix (Fin k) (Fin m) ℝ => Wᴴ * W := by fun_prop
  have h3 : Continuous fun W : Matrix (Fin k) (Fin m) ℝ => CFC.sqrt (Wᴴ * W) :=
    CFC.continuousOn_sqrt.comp_continuous h2 fun W => (posSemidef_conjTranspose_mul_self W).nonneg
  exact h3.matrix_trace

end Medil

import Mathlib.LinearAlgebra.Matrix.PosDef
import Mathlib.Analysis.Matrix.PosDef
import Mathlib.Analysis.Matrix.Order
import Mathlib.Analysis.Matrix.Spectrum
import Mathlib.Analysis.SpecialFunctions.Log.Basic
/-
  `trace N - log det N` on positive definite matrices.
-/
namespace Medil
open Finset Matrix

theorem trace_sub_log_det {m : Nat} (N : Matrix (Fin m) (Fin m) ℝ) (hN : N.PosDef) :
    (m : ℝ) ≤ N.trace - Real.log N.det ∧ (N.trace - Real.log N.det = m ↔ N = 1) := by
  classical
  have hp := hN.eigenvalues_pos
  have ht : N.trace = ∑ i, hN.isHermitian.eigenvalues i := by
    simpa using hN.isHermitian.trace_eq_sum_eigenvalues
  have hd : N.det = ∏ i, hN.isHermitian.eigenvalues i := by
    simpa using hN.isHermitian.det_eq_prod_eigenvalues
  have hl : Real.log N.det = ∑ i, Real.log (hN.isHermitian.eigenvalues i) := by
    rw [hd]; exact Real.log_prod fun i _ => (hp i).ne'
  have hs : N.trace - Real.log N.det - m =
      ∑ i, (hN.isHermitian.eigenvalues i - 1 - Real.log (hN.isHermitian.eigenvalues i)) := by
    rw [ht, hl]; simp only [sum_sub_distrib]; simp; ring
  have hnn : ∀ i, 0 ≤ hN.isHermitian.eigenvalues i - 1 - Real.log (hN.isHermitian.eigenvalues i) := fun i => by
    have := Real.log_le_sub_one_of_pos (hp i); linarith
  refine ⟨by have := sum_nonneg (s := univ) fun i _ => hnn i; linarith, fun h => ?_, fun h => ?_⟩
  · have h0 : ∑ i, (hN.isHermitian.eigenvalues i - 1 - Real.log (hN.isHermitian.eigenvalues i)) = 0 := by
      rw [← hs]; linarith
    have h1 := (sum_eq_zero_iff_of_nonneg fun i _ => hnn i).mp h0
    have h2 : ∀ i, hN.isHermitian.eigenvalues i = 1 := by
      intro i
      by_contra hne
      have := Real.log_lt_sub_one_of_pos (hp i) hne
      have := h1 i (mem_univ _)
      linarith
    have h3 := hN.isHermitian.spectral_theorem
    have h4 : (diagonal (RCLike.ofReal ∘ hN.isHermitian.eigenvalues) : Matrix (Fin m) (Fin m) ℝ) = 1 := by
      rw [← diagonal_one]
      congr 1
      funext i
      simp [h2 i]
    rw [h4, map_one] at h3
    exact h3
  · subst h; simp

open scoped MatrixOrder ComplexOrder in
theorem posSemidef_factor {m : Nat} {S : Matrix (Fin m) (Fin m) ℝ} (hS : S.PosSemidef) :
    ∃ B : Matrix (Fin m) (Fin m) ℝ, S = Bᴴ * B := by
  obtain ⟨B, h⟩ := CStarAlgebra.nonneg_iff_eq_star_mul_self.mp hS.nonneg
  exact ⟨B, h⟩

theorem posDef_factor {m : Nat} {S : Matrix (Fin m) (Fin m) ℝ} (hS : S.PosDef) :
    ∃ B : Matrix (Fin m) (Fin m) ℝ, IsUnit B ∧ S = Bᴴ * B := by
  obtain ⟨B, h⟩ := posSemidef_factor hS.posSemidef
  refine ⟨B, ?_, h⟩
  rw [Matrix.isUnit_iff_isUnit_det, isUnit_iff_ne_zero]
  intro h0
  have := hS.det_pos
  rw [h, det_mul, h0, mul_zero] at this
  exact this.false

/-- the Gaussian likelihood is largest at the sample covariance -/
theorem likelihood_max {m : Nat} (S C : Matrix (Fin m) (Fin m) ℝ) (hS : S.PosDef) (hC : C.PosDef) :
    (m : ℝ) + Real.log S.det ≤ (S * C⁻¹).trace + Real.log C.det ∧
    ((S * C⁻¹).trace + Real.log C.det = m + Real.log S.det ↔ C = S) := by
  classical
  obtain ⟨B, hB, hSB⟩ := posDef_factor hS
  subst hSB
  have hBu : IsUnit B.det := (Matrix.isUnit_iff_isUnit_det B).mp hB
  have hN : (B * C⁻¹ * Bᴴ).PosDef :=
    hC.inv.mul_mul_conjTranspose_same (Matrix.vecMul_injective_of_isUnit hB)
  have ht : (B * C⁻¹ * Bᴴ).trace = (Bᴴ * B * C⁻¹).trace := by
    rw [Matrix.trace_mul_comm, Matrix.mul_assoc]
  have hd : Real.log (B * C⁻¹ * Bᴴ).det = Real.log (Bᴴ * B).det - Real.log C.det := by
    have e : (B * C⁻¹ * Bᴴ).det = (Bᴴ * B).det * (C.det)⁻¹ := by
      rw [det_mul, det_mul, det_mul, det_nonsing_inv, Ring.inverse_eq_inv']; ring
    rw [e, Real.log_mul hS.det_pos.ne' (inv_ne_zero hC.det_pos.ne'), Real.log_inv]; ring
  obtain ⟨h1, h2⟩ := trace_sub_log_det _ hN
  rw [ht, hd] at h1 h2
  refine ⟨by linarith, ?_⟩
  have e1 : ((Bᴴ * B * C⁻¹).trace + Real.log C.det = m + Real.log (Bᴴ * B).det) ↔
      ((Bᴴ * B * C⁻¹).trace - (Real.log (Bᴴ * B).det - Real.log C.det) = m) := by
    constructor <;> intro h <;> linarith
  rw [e1, h2]
  have hCu : IsUnit C.det := hC.det_pos.ne'.isUnit
  constructor
  · intro h
    have h3 : B * (C⁻¹ * Bᴴ) = 1 := by rw [← Matrix.mul_assoc]; exact h
    have h4 : C⁻¹ * Bᴴ * B = 1 := mul_eq_one_comm.mp h3
    calc C = C * (C⁻¹ * Bᴴ * B) := by rw [h4, Matrix.mul_one]
      _ = C * C⁻¹ * (Bᴴ * B) := by simp only [Matrix.mul_assoc]
      _ = Bᴴ * B := by rw [Matrix.mul_nonsing_inv _ hCu, Matrix.one_mul]
  · intro h
    have h4 : C⁻¹ * Bᴴ * B = 1 := by
      rw [Matrix.mul_assoc, ← h, Matrix.nonsing_inv_mul _ hCu]
    have h3 : B * (C⁻¹ * Bᴴ) = 1 := mul_eq_one_comm.mp h4
    rw [Matrix.mul_assoc]; exact h3

end Medil

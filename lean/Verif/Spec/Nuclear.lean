import Mathlib.Analysis.Matrix.PosDef
/-
  The nuclear norm of a matrix: `weight.norm("nuc")` (models.py:412), `norm(W, "nuc")` (models.py:597).
-/
namespace Medil
open Matrix

/-- the nuclear norm: the sum of the singular values, the square roots of the eigenvalues of `W'W` -/
noncomputable def nuclearNorm {k m : Nat} (W : Matrix (Fin k) (Fin m) ℝ) : ℝ :=
  ∑ i, Real.sqrt ((isHermitian_conjTranspose_mul_self W).eigenvalues i)

end Medil

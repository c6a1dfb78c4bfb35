import Mathlib.Analysis.SpecialFunctions.Exp
import Mathlib.Analysis.SpecialFunctions.Sqrt
import Mathlib.Algebra.BigOperators.Fin
/-
  Model of `compute_gauss_kernel` (scripts/developing.py:621-627).  Floats are exact reals; `sigmax = 0` (division by zero) is outside
  the theorems.
-/
namespace Medil
open Finset

/-- an entry of `squareform(pdist(x, 'euclidean'))` (scripts/developing.py:625) -/
noncomputable def euclid {N p : Nat} (x : Fin N → Fin p → ℝ) (i j : Fin N) : ℝ := Real.sqrt (∑ a, (x i a - x j a) ^ 2)

/-- `compute_gauss_kernel(x, sigmay, sigmax)` (scripts/developing.py:621-627) for an array `x` with `N` rows and `p` columns -/
noncomputable def gaussKernel {N p : Nat} (x : Fin N → Fin p → ℝ) (sigmay sigmax : ℝ) (i j : Fin N) : ℝ :=
  sigmay * Real.exp (-(euclid x i j ^ 2) / (2 * sigmax ^ 2))

end Medil

import Verif.Spec.Gaussian
/-
  Vocabulary for the properties of `DevMedil`; nothing here mentions the model.
-/
namespace Medil
open Finset

/-- a `k × m` matrix read row by row from the first `k * m` entries of `x` -/
def fullWeights {dim : Nat} (k m : Nat) (x : Fin dim → ℝ) (r : Fin k) (j : Fin m) : ℝ := entryAt x (r.val * m + j.val)

/-- the sum of the absolute values of the entries -/
noncomputable def sumAbs {k m : Nat} (W : Fin k → Fin m → ℝ) : ℝ := ∑ r, ∑ j, |W r j|

end Medil

import Verif.Spec.Gaussian
/-
  Specification of the least squares problem solved by `GaussianMCM.fit` (medil/models.py:88-105).
-/
namespace Medil
open Finset

/-- the weights `W` on the structure `B` and the error variances `v` are a best approximation, in the sum of squared differences, of the
matrix `S`: no other weights on `B` and error variances do better -/
def LeastSquares {M : Nat} (S : Fin M → Fin M → ℝ) (B : List (BVec M)) (W : Fin B.length → Fin M → ℝ) (v : Fin M → ℝ) : Prop :=
  OnStructure B W ∧ ∀ (W' : Fin B.length → Fin M → ℝ) (v' : Fin M → ℝ), OnStructure B W' → sqDist S (modelCov W v) ≤ sqDist S (modelCov W' v')

/-- two measurements have a common parent -/
def CommonParent {M : Nat} (B : List (BVec M)) (i j : Fin M) : Prop := ∃ r : Fin B.length, B[r] i = true ∧ B[r] j = true

open Classical in
/-- the sum of the squares of the entries of `S` for pairs of different measurements without a common parent -/
noncomputable def unexplained {M : Nat} (S : Fin M → Fin M → ℝ) (B : List (BVec M)) : ℝ :=
  ∑ i, ∑ j, if i ≠ j ∧ ¬ CommonParent B i j then S i j ^ 2 else 0

end Medil

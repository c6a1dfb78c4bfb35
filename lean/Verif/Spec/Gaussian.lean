import Verif.Spec
import Mathlib.Analysis.SpecialFunctions.Log.Basic
import Mathlib.Algebra.BigOperators.Fin
/-
  Vocabulary for the properties of `GaussianMCM`; nothing here mentions the model.
-/
namespace Medil
open Finset

/-- the mean of a sample -/
noncomputable def sampleMean {N : Nat} (x : Fin N → ℝ) : ℝ := (∑ k, x k) / N

/-- the (unbiased) sample covariance -/
noncomputable def sampleCov {N : Nat} (x y : Fin N → ℝ) : ℝ :=
  (∑ k, (x k - sampleMean x) * (y k - sampleMean y)) / ((N : ℝ) - 1)

/-- Pearson's correlation of two non-constant samples -/
noncomputable def sampleCorr {N : Nat} (x y : Fin N → ℝ) : ℝ :=
  sampleCov x y / (Real.sqrt (sampleCov x x) * Real.sqrt (sampleCov y y))

/-- a sample in which every observation has the same value -/
def Constant {N : Nat} (x : Fin N → ℝ) : Prop := ∀ k l, x k = x l

/-- a positive definite matrix -/
def PosDefinite {M : Nat} (C : Fin M → Fin M → ℝ) : Prop :=
  (∀ i j, C i j = C j i) ∧ ∀ x : Fin M → ℝ, x ≠ 0 → 0 < ∑ i, ∑ j, x i * C i j * x j

/-- the covariance of the measurements `z'W + e` for independent standard normal latents `z` and
independent errors with variances `v` -/
noncomputable def modelCov {k M : Nat} (W : Fin k → Fin M → ℝ) (v : Fin M → ℝ) (i j : Fin M) : ℝ :=
  (∑ r, W r i * W r j) + if i = j then v i else 0

/-- the sum of squared differences of two matrices -/
noncomputable def sqDist {M : Nat} (A B : Fin M → Fin M → ℝ) : ℝ := ∑ i, ∑ j, (A i j - B i j) ^ 2

/-- weights that are zero outside the structure -/
def OnStructure {M : Nat} (B : List (BVec M)) (W : Fin B.length → Fin M → ℝ) : Prop :=
  ∀ r j, B[r] j = false → W r j = 0

/-- the number of ones of `B` that come before position `(r, j)` when the matrix is read row by row -/
def onesBefore {M : Nat} (B : List (BVec M)) (r : Fin B.length) (j : Fin M) : Nat :=
  (univ.filter fun e : Fin B.length × Fin M => B[e.1] e.2 = true ∧ (e.1 < r ∨ e.1 = r ∧ e.2 < j)).card

/-- entry `k` of a vector -/
def entryAt {dim : Nat} (x : Fin dim → ℝ) (k : Nat) : ℝ := if h : k < dim then x ⟨k, h⟩ else 0

/-- the weight matrix whose entries on the ones of `B`, read row by row, are the entries of `x` -/
def weightsOf {M dim : Nat} (B : List (BVec M)) (x : Fin dim → ℝ) (r : Fin B.length) (j : Fin M) : ℝ :=
  if B[r] j then entryAt x (onesBefore B r j) else 0

/-- the `M` entries of `x` that follow the weights -/
def variancesOf {M dim : Nat} (numWeights : Nat) (x : Fin dim → ℝ) (j : Fin M) : ℝ := entryAt x (numWeights + j)

end Medil

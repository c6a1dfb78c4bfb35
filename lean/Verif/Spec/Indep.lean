import Mathlib.Algebra.BigOperators.Group.Finset.Basic
import Mathlib.Algebra.Order.Group.Unbundled.Abs
import Mathlib.Algebra.Order.Field.Basic
import Mathlib.Data.Fintype.Basic
/-
  Vocabulary for the properties of `medil.independence_testing`; nothing here mentions the model.
-/
namespace Medil
open Finset
variable {K : Type} [Field K] [LinearOrder K] {N : Nat}

/-- the doubly centred distance matrix of a sample of one variable: distance minus the mean distance from
`k`, minus the mean distance from `l`, plus the mean distance -/
def centredDist (x : Fin N → K) (k l : Fin N) : K :=
  |x k - x l| - (∑ m, |x k - x m|) / N - (∑ m, |x m - x l|) / N + (∑ p, ∑ m, |x p - x m|) / N ^ 2

/-- the (squared) sample distance covariance -/
def sampleDcov (x y : Fin N → K) : K := (∑ k, ∑ l, centredDist x k l * centredDist y k l) / N ^ 2

/-- the mean distance between two observations of one variable (`d_bars`) -/
def meanDist (x : Fin N → K) : K := (∑ k, ∑ l, |x k - x l|) / (N : K) ^ 2

/-- the joint empirical distribution of two columns is the product of the empirical distributions of each -/
def EmpIndep (x y : Fin N → K) : Prop :=
  ∀ a b, N * (univ.filter fun k => x k = a ∧ y k = b).card = (univ.filter fun k => x k = a).card * (univ.filter fun k => y k = b).card

end Medil

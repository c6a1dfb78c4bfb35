import Verif.Spec
import Mathlib.Algebra.Order.Ring.Unbundled.Rat
import Mathlib.Data.Rat.Floor
import Mathlib.Algebra.Field.Rat
import Mathlib.Algebra.Ring.Parity
import Mathlib.Data.Fintype.Prod
import Mathlib.Algebra.Order.Ring.Abs
import Mathlib.Algebra.Order.Group.Unbundled.Abs
/-
  Vocabulary for the properties of `medil.sample`; nothing here mentions the model.
-/
namespace Medil
variable {n : Nat}

/-- `z` is `x` rounded to the nearest integer, halves to the even one -/
def IsRounded (x : ℚ) (z : Int) : Prop := |x - z| ≤ 1 / 2 ∧ (|x - z| = 1 / 2 → Even z)

/-- the number of edges (ones) of a biadjacency matrix -/
def numOnes (B : List (BVec n)) : Nat := (B.map fun r => (children r).card).sum

/-- the number of edges of an undirected graph -/
def numUEdges (A : BMat n) : Nat := (Finset.univ.filter fun e : Fin n × Fin n => e.1 < e.2 ∧ A e.1 e.2 = true).card

end Medil

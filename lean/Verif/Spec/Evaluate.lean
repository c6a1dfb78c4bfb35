import Verif.Spec
import Mathlib.Algebra.BigOperators.Group.Finset.Basic
import Mathlib.Algebra.Field.Defs
import Mathlib.Logic.Equiv.Basic
/-
  Vocabulary for the properties of `medil.evaluate`; nothing here mentions the model.
-/
namespace Medil
open Finset
variable {n : Nat} {K : Type} [Field K]

/-- squared Euclidean distance of `P`, its rows rearranged by `σ`, to `T`, after applying `f` to the
entries (`f = id`, or the absolute value) -/
def matchDist {m : Nat} (f : K → K) (P T : Fin m → Fin n → K) (σ : Equiv.Perm (Fin m)) : K :=
  ∑ i, ∑ j, (f (P (σ i) j) - f (T i j)) ^ 2

/-- `T` (entries converted by `cast`) padded with zero rows -/
def padded {m l : Nat} (cast : K → K) (T : Fin l → Fin n → K) : Fin m → Fin n → K :=
  fun i j => if h : i.val < l then cast (T ⟨i, h⟩ j) else 0

/-- the number of common parents of `i` and `j` -/
def commonParents (B : List (BVec n)) (i j : Fin n) : Nat :=
  (B.filter fun r => r i && r j).length

/-- a row without children -/
def zeroRow : BVec n := BVec.of fun _ => false

end Medil

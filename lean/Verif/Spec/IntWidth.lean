import Verif.Spec.Evaluate
import Verif.Model.IntWidth
/-
  Vocabulary for C211 and C212; only the description of an integer type (bits, signed or not) is taken from the model.
-/
namespace Medil

/-- `z` is a value of the type `t` -/
def IntType.Fits (t : IntType) (z : Int) : Prop :=
  if t.signed then -(2 : Int) ^ t.bits ≤ 2 * z ∧ 2 * z < (2 : Int) ^ t.bits else 0 ≤ z ∧ z < (2 : Int) ^ t.bits

end Medil

import Verif.Model.FloatMinPerm
import Verif.Spec.Evaluate
/-
  The standard model of floating-point arithmetic.
-/
namespace Medil

/-- Results of absolute value at most `Ω` do not overflow; they have relative error at most `u`, and products an additional absolute
error of at most `η` (underflow).  Absolute values, zero and comparisons are exact.  IEEE double precision is such an arithmetic with
`u = 2^(-53)`, `η = 2^(-1075)` and `Ω` the largest double. -/
structure FloatLib.StandardModel (a : FloatLib) (u η Ω : ℝ) : Prop where
  zero : a.val (a.ofNat 0) = some 0
  add : ∀ x y r q, a.val x = some r → a.val y = some q → |r + q| ≤ Ω → ∃ z, a.val (a.add x y) = some z ∧ |z - (r + q)| ≤ u * |r + q|
  sub : ∀ x y r q, a.val x = some r → a.val y = some q → |r - q| ≤ Ω → ∃ z, a.val (a.sub x y) = some z ∧ |z - (r - q)| ≤ u * |r - q|
  mul : ∀ x y r q, a.val x = some r → a.val y = some q → |r * q| ≤ Ω →
    ∃ z, a.val (a.mul x y) = some z ∧ |z - r * q| ≤ u * |r * q| + η
  abs : ∀ x r, a.val x = some r → a.val (a.abs x) = some |r|
  lt : ∀ x y r q, a.val x = some r → a.val y = some q → a.lt x y = decide (r < q)

end Medil

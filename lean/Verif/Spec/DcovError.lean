import Verif.Model.Rounded
/-
  Floating-point arithmetic with a relative error bound and an unbounded range of exponents.
-/
namespace Medil

/-- every operation on numbers gives a number with relative error at most `u`; absolute values and comparisons are exact -/
structure FloatLib.RelativeModel (a : FloatLib) (u : ℝ) : Prop where
  add : ∀ x y r q, a.val x = some r → a.val y = some q → ∃ z, a.val (a.add x y) = some z ∧ |z - (r + q)| ≤ u * |r + q|
  sub : ∀ x y r q, a.val x = some r → a.val y = some q → ∃ z, a.val (a.sub x y) = some z ∧ |z - (r - q)| ≤ u * |r - q|
  mul : ∀ x y r q, a.val x = some r → a.val y = some q → ∃ z, a.val (a.mul x y) = some z ∧ |z - r * q| ≤ u * |r * q|
  div : ∀ x y r q, a.val x = some r → a.val y = some q → q ≠ 0 → ∃ z, a.val (a.div x y) = some z ∧ |z - r / q| ≤ u * |r / q|
  fma : ∀ x y t r q p, a.val x = some r → a.val y = some q → a.val t = some p →
    ∃ z, a.val (a.fma x y t) = some z ∧ |z - (r * q + p)| ≤ u * |r * q + p|
  abs : ∀ x r, a.val x = some r → a.val (a.abs x) = some |r|
  ge : ∀ x y r q, a.val x = some r → a.val y = some q → a.ge x y = decide (q ≤ r)

end Medil

import Verif.Model.Rounded
/-
  How nan behaves in a floating-point arithmetic (IEEE 754).
-/
namespace Medil

/-- operations with a nan operand give nan, comparisons with nan are false -/
structure FloatLib.NanLaws (a : FloatLib) : Prop where
  add_left : ∀ x y, a.isNan x = true → a.isNan (a.add x y) = true
  add_right : ∀ x y, a.isNan y = true → a.isNan (a.add x y) = true
  sub_left : ∀ x y, a.isNan x = true → a.isNan (a.sub x y) = true
  sub_right : ∀ x y, a.isNan y = true → a.isNan (a.sub x y) = true
  mul_left : ∀ x y, a.isNan x = true → a.isNan (a.mul x y) = true
  mul_right : ∀ x y, a.isNan y = true → a.isNan (a.mul x y) = true
  div_left : ∀ x y, a.isNan x = true → a.isNan (a.div x y) = true
  div_right : ∀ x y, a.isNan y = true → a.isNan (a.div x y) = true
  fma_left : ∀ x y z, a.isNan x = true → a.isNan (a.fma x y z) = true
  fma_right : ∀ x y z, a.isNan z = true → a.isNan (a.fma x y z) = true
  abs : ∀ x, a.isNan x = true → a.isNan (a.abs x) = true
  log : ∀ x, a.isNan x = true → a.isNan (a.log x) = true
  clipLow : ∀ x, a.isNan x = true → a.isNan (a.clipLow x) = true
  ge_left : ∀ x y, a.isNan x = true → a.ge x y = false
  lt_left : ∀ x y, a.isNan x = true → a.lt x y = false
  lt_right : ∀ x y, a.isNan y = true → a.lt x y = false

end Medil

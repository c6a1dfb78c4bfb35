import Verif.Spec.NanLaws
import Verif.Model.RoundedXi
/-
  How infinities behave in a floating-point arithmetic (IEEE 754).
-/
namespace Medil

/-- nan or plus infinity -/
def FloatLib.PosBad (a : FloatLib) (x : a.F) : Prop := a.isNan x = true ∨ (a.val x = none ∧ a.lt (a.ofNat 0) x = true)

/-- nan or minus infinity -/
def FloatLib.NegBad (a : FloatLib) (x : a.F) : Prop := a.isNan x = true ∨ (a.val x = none ∧ a.lt x (a.ofNat 0) = true)

/-- a float that is not a finite number is nan or an infinity, operations with infinities give infinities of the right sign or nan, the
difference of two infinities with the same sign is nan, nothing is greater than plus infinity -/
structure FloatLib.InfLaws (a : FloatLib) : Prop extends a.NanLaws where
  fma_mid : ∀ x y z, a.isNan y = true → a.isNan (a.fma x y z) = true
  cases : ∀ x, a.val x = none → a.PosBad x ∨ a.NegBad x
  nan_val : ∀ x, a.isNan x = true → a.val x = none
  sub_none : ∀ x y, (a.val x = none ∨ a.val y = none) → a.val (a.sub x y) = none
  abs_none : ∀ x, a.val x = none → a.PosBad (a.abs x)
  sq_none : ∀ x, a.val x = none → a.PosBad (a.mul x x)
  add_pos : ∀ x y, (a.PosBad x ∨ a.PosBad y) → a.PosBad (a.add x y)
  add_neg : ∀ x y, (a.NegBad x ∨ a.NegBad y) → a.NegBad (a.add x y)
  div_pos : ∀ x n, 0 < n → a.PosBad x → a.PosBad (a.div x (a.ofNat n))
  div_neg : ∀ x n, 0 < n → a.NegBad x → a.NegBad (a.div x (a.ofNat n))
  sub_pos : ∀ x y, a.PosBad x → a.PosBad y → a.isNan (a.sub x y) = true
  sub_neg : ∀ x y, a.NegBad x → a.NegBad y → a.isNan (a.sub x y) = true
  lt_pos : ∀ x y, a.PosBad y → a.PosBad x → a.lt x y = false

/-- nan in the functions that only `xicorr` uses -/
structure FloatXiLib.NanXiLaws (a : FloatXiLib) : Prop extends a.toFloatLib.NanLaws where
  nan : a.isNan a.nan = true
  cdf : ∀ x, a.isNan x = true → a.isNan (a.cdf x) = true
  neg_nan : ∀ x, a.isNan x = true → a.isNan (a.neg x) = true

/-- the sign reverses comparisons -/
def FloatLib.NegReverses (a : FloatLib) : Prop :=
  ∀ x y, a.isNan x = false → a.isNan y = false → a.lt (a.neg x) (a.neg y) = a.lt y x

end Medil

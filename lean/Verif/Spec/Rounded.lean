import Verif.Model.Rounded
/-
  What it means for a floating-point arithmetic to be accurate up to `ε`.
-/
namespace Medil
namespace FloatLib

/-- the float `x` is the real number `r` up to rounding: unless `r` is so large that overflow is allowed, `x` is finite with relative error
at most `ε`, or absolute error at most `ε` in the range of underflow; and zero is exact -/
def Approx (a : FloatLib) (ε : ℝ) (x : a.F) (r : ℝ) : Prop :=
  |r| ≤ 1 / ε → ∃ z, a.val x = some z ∧ |z - r| ≤ ε * (|r| + 1) ∧ (r = 0 → z = 0)

/-- an arithmetic that rounds with error at most `ε` and overflows at `1 / ε` or later.  IEEE double precision is one with
`ε = 2 ^ (-52)`, if `sqrt` and `log` are computed with an error of at most one unit in the last place. -/
structure Accurate (a : FloatLib) (ε : ℝ) : Prop where
  ofNat : ∀ n, Approx a ε (a.ofNat n) n
  add : ∀ x y r q, a.val x = some r → a.val y = some q → Approx a ε (a.add x y) (r + q)
  sub : ∀ x y r q, a.val x = some r → a.val y = some q → Approx a ε (a.sub x y) (r - q)
  mul : ∀ x y r q, a.val x = some r → a.val y = some q → Approx a ε (a.mul x y) (r * q)
  div : ∀ x y r q, a.val x = some r → a.val y = some q → q ≠ 0 → Approx a ε (a.div x y) (r / q)
  fma : ∀ x y w r q t, a.val x = some r → a.val y = some q → a.val w = some t → Approx a ε (a.fma x y w) (r * q + t)
  abs : ∀ x r, a.val x = some r → a.val (a.abs x) = some |r|
  neg : ∀ x r, a.val x = some r → a.val (a.neg x) = some (-r)
  sqrt : ∀ x r, a.val x = some r → 0 ≤ r → Approx a ε (a.sqrt x) (Real.sqrt r)
  log : ∀ x r, a.val x = some r → 0 < r → Approx a ε (a.log x) (Real.log r)
  clipLow : ∀ x r, a.val x = some r → ∃ lo, |lo - 1 / 100000| ≤ ε ∧ a.val (a.clipLow x) = some (max r lo)
  clipOne : ∀ x r, a.val x = some r → a.val (a.clipOne x) = some (max (-1) (min r 1))
  clipOne_range : ∀ x, a.isNan x = false → ∃ z, a.val (a.clipOne x) = some z ∧ |z| ≤ 1
  ge : ∀ x y r q, a.val x = some r → a.val y = some q → a.ge x y = decide (q ≤ r)
  lt : ∀ x y r q, a.val x = some r → a.val y = some q → a.lt x y = decide (r < q)
  nan_div : ∀ x y, a.val x = some 0 → a.val y = some 0 → a.isNan (a.div x y) = true
  nan_ge : ∀ x y, a.isNan x = true → a.ge x y = false
  nan_lt : ∀ x y, a.isNan x = true → a.lt x y = false
  nan_clipOne : ∀ x, a.isNan x = true → a.isNan (a.clipOne x) = true
  nan_mul : ∀ x y, a.isNan y = true → a.isNan (a.mul x y) = true
  nan_sub : ∀ x y, a.isNan y = true → a.isNan (a.sub x y) = true
  nan_clipLow : ∀ x, a.isNan x = true → a.isNan (a.clipLow x) = true
  nan_log : ∀ x, a.isNan x = true → a.isNan (a.log x) = true

end FloatLib
end Medil

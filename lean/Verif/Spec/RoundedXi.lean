import Verif.Model.RoundedXi
import Verif.Spec.Rounded
/-
  What it means for the floating-point arithmetic of `xicorr` to be accurate up to `ε`.
-/
namespace Medil

/-- accurate operations; half-integers up to `1 / ε` are exact; the sorting routines sort, and `argsort` treats ties as `srt` does (it only
compares numbers); `norm.cdf` is `Φ` with an error of at most `ε` -/
structure AccurateXi (a : FloatXiLib) (srt : ArgSort ℝ) (Φ : ℝ → ℝ) (ε : ℝ) : Prop where
  base : a.toFloatLib.Accurate ε
  notNan : ∀ x r, a.val x = some r → a.isNan x = false
  half : ∀ k : Nat, (k : ℝ) ≤ 1 / ε → a.val (a.half k) = some ((k : ℝ) / 2)
  argsort : ∀ {n : Nat} (f : Fin n → a.F) (z : Fin n → ℝ), (∀ i, a.val (f i) = some (z i)) → a.argsort f = srt.sort z
  sort : ∀ {n : Nat} (f : Fin n → a.F) (z : Fin n → ℝ), (∀ i, a.val (f i) = some (z i)) → Monotone fun k => z (a.sort f k)
  cdf : ∀ x r, a.val x = some r → ∃ z, a.val (a.cdf x) = some z ∧ |z - Φ r| ≤ ε

end Medil

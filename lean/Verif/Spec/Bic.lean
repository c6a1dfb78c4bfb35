import Verif.Spec.Gaussian
import Mathlib.Analysis.SpecialFunctions.Exp
import Mathlib.Analysis.SpecialFunctions.Trigonometric.Basic
/-
  Specification of the Bayesian information criterion for a pair of measurements; nothing here mentions the model.
-/
namespace Medil
open Finset

/-- a bivariate normal distribution: means, variances and covariance -/
structure Binormal where
  mean1 : ℝ
  mean2 : ℝ
  var1 : ℝ
  var2 : ℝ
  cov : ℝ
  var1_pos : 0 < var1
  var2_pos : 0 < var2
  cov_lt : cov ^ 2 < var1 * var2

/-- the density of a bivariate normal distribution -/
noncomputable def Binormal.density (p : Binormal) (x y : ℝ) : ℝ :=
  Real.exp (-(p.var2 * (x - p.mean1) ^ 2 - 2 * p.cov * (x - p.mean1) * (y - p.mean2) + p.var1 * (y - p.mean2) ^ 2) /
    (2 * (p.var1 * p.var2 - p.cov ^ 2))) / (2 * Real.pi * Real.sqrt (p.var1 * p.var2 - p.cov ^ 2))

/-- the likelihood of a sample of pairs -/
noncomputable def Binormal.likelihood (p : Binormal) {N : Nat} (x y : Fin N → ℝ) : ℝ := ∏ k, p.density (x k) (y k)

/-- minus twice the log likelihood plus the number of free parameters times the logarithm of the number of observations -/
noncomputable def bic (p : Binormal) (params : Nat) {N : Nat} (x y : Fin N → ℝ) : ℝ := -2 * Real.log (p.likelihood x y) + params * Real.log N

/-- the criterion prefers dependence: some bivariate normal distribution (five parameters) has a smaller value than all those with covariance 0
(four parameters) -/
def PrefersDependence {N : Nat} (x y : Fin N → ℝ) : Prop :=
  ∃ p : Binormal, ∀ q : Binormal, q.cov = 0 → bic p 5 x y < bic q 4 x y

end Medil

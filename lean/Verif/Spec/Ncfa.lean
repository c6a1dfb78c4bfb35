import Verif.Model.Ncfa
import Verif.Spec.Gaussian
/-
  Vocabulary for the properties of `NeuroCausalFactorAnalysis`.
-/
namespace Medil
open Finset

/-- the average of a list of numbers -/
noncomputable def average (l : List ℝ) : ℝ := l.sum / l.length

/-- what the network computes from a batch when the noise is `noise` (`none`: without noise) -/
noncomputable def networkResult {N L M w : Nat} (H : Nat) (W : Weights L M w) (noise : Option (Fin N → Fin L → ℝ))
    (x : Fin N → Fin M → ℝ) : VaeOut N L M :=
  let z : Fin N → Fin L → ℝ := fun k l =>
    (encode W (x k)).1 l + match noise with
      | some eps => Real.exp ((encode W (x k)).2 l / 2) * eps k l
      | none => 0
  { recon := fun k => (decode H W (z k)).1
    logcov := fun k => (decode H W (z k)).2
    mu := fun k => (encode W (x k)).1
    logvar := fun k => (encode W (x k)).2 }

/-- the population standard deviation of a sample -/
noncomputable def popStd {N : Nat} (x : Fin N → ℝ) : ℝ := Real.sqrt (sampleMean fun k => (x k - sampleMean x) ^ 2)

open Classical in
/-- a sample shifted to mean 0 and scaled to standard deviation 1; a constant sample becomes 0 -/
noncomputable def standardizedSample {N : Nat} (x : Fin N → ℝ) (k : Fin N) : ℝ :=
  if Constant x then 0 else (x k - sampleMean x) / popStd x

/-- row `k` of the standardized dataset -/
noncomputable def standardizedRow {M : Nat} (d : Dataset M) (k : Fin d.size) : Row M :=
  fun j => standardizedSample (fun k => d.val k j) k

section
variable {N L M : Nat}

/-- the Kullback-Leibler divergence of `N(mu, diag(exp logvar))` from the standard normal distribution, summed over the
rows -/
noncomputable def klFromStandard (mu logvar : Fin N → Fin L → ℝ) : ℝ :=
  ∑ k, ∑ l, (mu k l ^ 2 + Real.exp (logvar k l) - 1 - logvar k l) / 2

/-- the variance of measurement `j` that the network estimates for a batch: the mean over the rows -/
noncomputable def batchVar (logcov : Fin N → Fin M → ℝ) (j : Fin M) : ℝ := sampleMean fun k => Real.exp (logcov k j)

/-- squared residuals, each divided by its variance -/
noncomputable def weightedResiduals (x recon logcov : Fin N → Fin M → ℝ) : ℝ :=
  ∑ k, ∑ j, (x k j - recon k j) ^ 2 / batchVar logcov j

/-- the negative log-likelihood of the rows of `x` under normal distributions with means `recon` and variances
`batchVar`, without the constant `N·M·log(2π)/2` -/
noncomputable def negLogLik (x recon logcov : Fin N → Fin M → ℝ) : ℝ :=
  (N * ∑ j, Real.log (batchVar logcov j) + weightedResiduals x recon logcov) / 2

end

variable {M w : Nat}

/-- the passes of an epoch in the training loop (`true`) or in the validation (`false`) -/
def passesOf (ps : List (Pass M w)) (epoch : Nat) (isTrain : Bool) : List (Pass M w) :=
  ps.filter fun p => p.epoch = epoch ∧ p.isTrain = isTrain

/-- `Evolves step W ps W'`: the passes `ps` start with the weights `W` and end with the weights `W'`; a validation pass
does not change them; a training pass `p` changes them from `W` to `V` only if `step p W V` -/
def Evolves (step : Pass M w → Weights M M w → Weights M M w → Prop) :
    Weights M M w → List (Pass M w) → Weights M M w → Prop
  | W, [], W' => W' = W
  | W, p :: ps, W' => p.weights = W ∧ ∃ V, (if p.isTrain then step p W V else V = W) ∧ Evolves step V ps W'

/-- the loss of the batch of a pass as a function of the weights, with the noise of that pass -/
noncomputable def batchLoss (hp : Hyper) (p : Pass M w) (W : Weights M M w) : ℝ :=
  elboGaussian hp p.batch.get (networkResult hp.numHidden W p.noise p.batch.get) (some (W .covFulcon).weight)

/-- `V` is what the optimizer makes of `W` in order to decrease the loss of the pass, except that tensors outside
`trained` keep their values -/
def OptimizerStep {G O : Type} (env : NcfaEnv G O) (hp : Hyper) (trained : List ParamId) (p : Pass M w)
    (W V : Weights M M w) : Prop :=
  ∃ o : O, ∀ l,
    (V l).weight = (if .weight l ∈ trained then ((env.optStep o (batchLoss hp p) W).1 l).weight else (W l).weight) ∧
    (V l).bias = (if .bias l ∈ trained then ((env.optStep o (batchLoss hp p) W).1 l).bias else (W l).bias)

end Medil

import Verif.Spec.Ncfa
/-
  Vocabulary for C213 and C214.
-/
namespace Medil
open Finset
variable {M w N L : Nat}

/-- mean squared residual of measurement `j` -/
noncomputable def msResidual (x recon : Fin N → Fin M → ℝ) (j : Fin M) : ℝ := sampleMean fun k => (x k j - recon k j) ^ 2

/-- the hidden representation of a row from which the encoder computes means and log-variances -/
noncomputable def encoderHidden (W : Weights L M w) (x : Fin M → ℝ) : Fin M → ℝ := fun k =>
  max ((∑ i, max ((∑ i', x i' * (W .enc1).weight i i') + (W .enc1).bias i) 0 * (W .enc2).weight k i) + (W .enc2).bias k) 0

/-- the log-variances of the encoder for the rows of a batch -/
noncomputable def encoderLogvar (W : Weights L M w) (x : Fin N → Fin M → ℝ) (k : Fin N) (l : Fin L) : ℝ :=
  (∑ i, encoderHidden W (x k) i * (W .fcLogvar).weight l i) + (W .fcLogvar).bias l

/-- `W` with another variance layer (`fc_logvar`) of the encoder -/
def withVarianceLayer (W : Weights L M w) (D : Layer M L) : Weights L M w := Function.update W .fcLogvar D

end Medil

import Verif.Model.AdamW
import Verif.Spec.Ncfa
/-
  Vocabulary for the properties of the optimizer (C150-C154).
-/
namespace Medil
variable {M w : Nat}

/-- the passes that are followed by an optimizer step -/
def trainingPasses (ps : List (Pass M w)) : List (Pass M w) := ps.filter (·.isTrain)

/-- the sum of the learning rates of all optimizer steps: `lr` in the first 50 epochs, then 10 percent less every 50
epochs -/
noncomputable def rateSum (lr : ℝ) (ps : List (Pass M w)) : ℝ :=
  ((trainingPasses ps).map fun p => lr * (9 / 10) ^ (p.epoch / 50)).sum

/-- the function `f` does not depend on entry `(o, i)` of the weight of layer `l` -/
def UnusedWeight (f : Weights M M w → ℝ) (l : LayerId) (o : Fin (l.out M M w)) (i : Fin (l.inn M M w)) : Prop :=
  ∀ W W' : Weights M M w, (∀ l', l' ≠ l → W l' = W' l') → (W l).bias = (W' l).bias →
    (∀ o' i', ¬ (o' = o ∧ i' = i) → (W l).weight o' i' = (W' l).weight o' i') → f W = f W'

/-- the gradient is 0 at weights that the function does not depend on -/
def ZeroOnUnused (grad : Autograd) : Prop :=
  ∀ (M w : Nat) (f : Weights M M w → ℝ) (W : Weights M M w) (l : LayerId) (o : Fin (l.out M M w))
    (i : Fin (l.inn M M w)), UnusedWeight f l o i → (grad M w f W l).weight o i = 0

end Medil

import Verif.Spec.Sample
import Mathlib.MeasureTheory.Measure.Real
/-
  Vocabulary for the distribution of the random structures; nothing here mentions the model.
-/
namespace Medil
open MeasureTheory

/-- a random element of a finite set, all values being equally likely -/
structure UniformDraw {Ω W : Type} [MeasurableSpace Ω] [Fintype W] (μ : Measure Ω) (X : Ω → W) : Prop where
  meas : ∀ w, MeasurableSet {ω | X ω = w}
  prob : ∀ w, μ.real {ω | X ω = w} = 1 / Fintype.card W

variable {l n : Nat}

/-- the rows of a 0/1 matrix -/
def matRows (f : Fin l → Fin n → Bool) : List (BVec n) := List.ofFn fun i => BVec.of (f i)

/-- the number of parents of a measurement -/
def numParents (f : Fin l → Fin n → Bool) (j : Fin n) : Nat := (Finset.univ.filter fun i => f i j = true).card

/-- the number of measurements whose only parent is `i` -/
def numPure (f : Fin l → Fin n → Bool) (i : Fin l) : Nat :=
  (Finset.univ.filter fun j => ∀ i', f i' j = true ↔ i' = i).card

/-- the number of edges -/
def numEdgesMat (f : Fin l → Fin n → Bool) : Nat := (Finset.univ.filter fun e : Fin l × Fin n => f e.1 e.2 = true).card

end Medil

import Verif.Model.Heuristic
import Verif.Model.Sample
import Verif.Model.Indep
import Mathlib.Analysis.SpecialFunctions.Log.Basic
import Mathlib.Algebra.BigOperators.Fin
/-
  Model of `MedilCausalModel` and `GaussianMCM` (medil/models.py:24-143).

  Floats are exact reals.  A model object and all datasets it sees have the same number `M` of columns;
  datasets have at least two rows.  The numerical optimizer and the random generator are arbitrary
  functions.
-/
namespace Medil
open Finset

/-- a dataset with `M` columns and at least two rows -/
structure Dataset (M : Nat) where
  size : Nat
  two_le : 2 ≤ size
  val : Fin size → Fin M → ℝ

variable {M : Nat}

/-- `dataset.mean(0)` (models.py:83) -/
noncomputable def Dataset.mean (d : Dataset M) (j : Fin M) : ℝ := (∑ k, d.val k j) / d.size

/-- `np.cov(dataset, rowvar=False)` (models.py:85, 121) -/
noncomputable def Dataset.cov (d : Dataset M) (i j : Fin M) : ℝ :=
  (∑ k, (d.val k i - d.mean i) * (d.val k j - d.mean j)) / ((d.size : ℝ) - 1)

/-- `np.corrcoef(dataset, rowvar=False)` (models.py:122): `nan` when a column is constant.  numpy also
clips the result to `[-1, 1]`, which only corrects rounding. -/
noncomputable def Dataset.corr (d : Dataset M) (i j : Fin M) : Fl ℝ :=
  Fl.div (d.cov i j) (Real.sqrt (d.cov i i) * Real.sqrt (d.cov j j))

/-- entry of `udg_triu` (models.py:123-126): entries on and below the diagonal of `inner_numerator`
are 1; comparisons with `nan` are false -/
noncomputable def udgTriu (d : Dataset M) (i j : Fin M) : Bool :=
  if j ≤ i then decide (Real.log 1 < -Real.log d.size / d.size)
  else match d.corr i j with
    | .fin r => decide (Real.log (max (1 - d.cov i j * r) (1 / 100000)) < -Real.log d.size / d.size)
    | _ => false

/-- `_estimate_udg` (models.py:118-128).  With one column `np.cov` is 0-dimensional and
`np.tril_indices_from` raises `ValueError`. -/
noncomputable def estimateUdgCov (d : Dataset M) : Except PyErr (BMat M) :=
  if M = 1 then .error .valueError
  else .ok (BMat.of fun i j => udgTriu d i j || udgTriu d j i)

/-- the weight matrix `biadj_weights[self.biadj] = weights` (models.py:94-95, 107-108): the entries of
`w` are written to the positions of the ones of `B`, row by row.  (`B` is a bool array.) -/
noncomputable def placeWeights (B : List (BVec M)) (w : Fin (maskPositions B).length → ℝ)
    (i : Fin B.length) (j : Fin M) : ℝ :=
  if h : (maskPositions B).idxOf (i, j) < (maskPositions B).length then w ⟨_, h⟩ else 0

/-- the first `num_weights` entries of the optimizer's vector (models.py:91) -/
def headPart {a b : Nat} (x : Fin (a + b) → ℝ) (k : Fin a) : ℝ := x (Fin.castAdd b k)

/-- the other entries (models.py:92) -/
def tailPart {a b : Nat} (x : Fin (a + b) → ℝ) (k : Fin b) : ℝ := x (Fin.natAdd a k)

/-- `_objective` (models.py:90-99) -/
noncomputable def objective (cov : Fin M → Fin M → ℝ) (B : List (BVec M))
    (x : Fin ((maskPositions B).length + M) → ℝ) : ℝ :=
  ∑ i, ∑ j, (cov i j - (∑ r, placeWeights B (headPart x) r i * placeWeights B (headPart x) r j) -
    (if i = j then tailPart x i else 0)) ^ 2

/-- the attributes `parameters.error_variances` and `parameters.biadj_weights` after a fit on the
structure `weightsOn` -/
structure GParams (M : Nat) where
  variances : Fin M → ℝ
  weightsOn : List (BVec M)
  weights : Fin weightsOn.length → Fin M → ℝ

/-- a `GaussianMCM` object: `biadj = []` and `udg = none` are the default empty arrays; `means` is
`parameters.error_means` -/
structure GState (M : Nat) where
  biadj : List (BVec M) := []
  udg : Option (BMat M) := none
  dataset : Option (Dataset M) := none
  means : Option (Fin M → ℝ) := none
  params : Option (GParams M) := none

/-- `scipy.optimize.minimize(f, np.ones(dim))` (models.py:101): some vector and the `success` flag -/
def Optimizer := (dim : Nat) → ((Fin dim → ℝ) → ℝ) → (Fin dim → ℝ) × Bool

/-- lines 114-115: `udg` is estimated if it has size 0 -/
noncomputable def udgOr (d : Dataset M) (udg : Option (BMat M)) : Except PyErr (BMat M) :=
  match udg with
  | some U => if M * M = 0 then estimateUdgCov d else .ok U
  | none => estimateUdgCov d

/-- `_compute_biadj` (models.py:112-116): the object afterwards and the exception, if any.  `o` is the set
order of this call. -/
noncomputable def computeBiadj (o : Sched M) (d : Dataset M) (st : GState M) : GState M × Except PyErr Unit :=
  match udgOr d st.udg with
  | .error e => (st, .error e)
  | .ok udg =>
    let st := { st with udg := some udg }
    match findHeuristic1pc o udg with
    | .error e => (st, .error e)
    | .ok B => ({ st with biadj := B }, .ok ())

/-- lines 83-110 of `fit` (models.py), after the structure is known: the object, and whether a warning
was issued -/
noncomputable def fitParams (opt : Optimizer) (d : Dataset M) (st : GState M) : GState M × Bool :=
  let r := opt _ (objective d.cov st.biadj)
  ({ st with
     means := some d.mean
     params := some ⟨tailPart r.1, st.biadj, placeWeights st.biadj (headPart r.1)⟩ }, !r.2)

/-- `GaussianMCM.fit` (models.py:76-110): the object afterwards and the outcome (an exception, or whether a
warning was issued).  `o` is the set order of this call. -/
noncomputable def gaussianFit (opt : Optimizer) (o : Sched M) (d : Dataset M) (st : GState M) :
    GState M × Except PyErr Bool :=
  let st := { st with dataset := some d }
  if st.biadj.length * M = 0 then
    match computeBiadj o d st with
    | (st, .error e) => (st, .error e)
    | (st, .ok ()) => ((fitParams opt d st).1, .ok (fitParams opt d st).2)
  else ((fitParams opt d st).1, .ok (fitParams opt d st).2)

/-- a history of calls of `fit`, each with its own set order; exceptions are caught by the caller -/
noncomputable def fitAll (opt : Optimizer) (st : GState M) : List (Sched M × Dataset M) → GState M
  | [] => st
  | (o, d) :: rest => fitAll opt (gaussianFit opt o d st).1 rest

/-- `rng.multivariate_normal(mean, cov, size)` (models.py:134-141) on a generator with state `G`: some
`size × len(mean)` matrix -/
structure MvnGen (G : Type) where
  mvn : {k : Nat} → (Fin k → ℝ) → (Fin k → Fin k → ℝ) → (size : Nat) → G → (Fin size → Fin k → ℝ) × G

/-- `GaussianMCM.sample(sample_size)` (models.py:130-143) on an object with generator state `g`.
`multivariate_normal` with an empty mean is a `ValueError` (numpy reshapes to `(-1, 0)`), so is a mean whose
length is not the size of the covariance: the first happens without latents, before anything is drawn, or
with empty `error_means` and `error_variances` as `Parameters("Gaussian")` creates them (models.py:55-57),
after the latents were drawn.  If the number of latents is not the number of rows of the weights, the
matrix product is a `ValueError`. -/
noncomputable def GState.sample {G : Type} (gen : MvnGen G) (st : GState M) (size : Nat) (g : G) :
    Except PyErr (Fin size → Fin M → ℝ) × G :=
  if st.biadj.length = 0 then (.error .valueError, g) else
  let (z, g) := gen.mvn (fun _ : Fin st.biadj.length => 0) (fun i j => if i = j then 1 else 0) size g
  match st.means, st.params with
  | some means, some p =>
    if M = 0 then (.error .valueError, g) else
    let (e, g) := gen.mvn means (fun i j => if i = j then p.variances i else 0) size g
    if h : p.weightsOn.length = st.biadj.length then
      (.ok fun k j => (∑ r, z k (Fin.cast h r) * p.weights r j) + e k j, g)
    else (.error .valueError, g)
  | _, _ => (.error .valueError, g)

/-! ### base class -/

/-- a `MedilCausalModel` object (models.py:24-45) with attributes of arbitrary types -/
structure BaseModel (β υ ρ : Type) where
  biadj : β
  udg : υ
  onePureChild : Bool
  rng : ρ

/-- `MedilCausalModel.__init__` (models.py:29-39) -/
def BaseModel.init {β υ ρ : Type} (biadj : β) (udg : υ) (onePureChild : Bool) (rng : ρ) : BaseModel β υ ρ :=
  { biadj := biadj, udg := udg, onePureChild := onePureChild, rng := rng }

/-- `MedilCausalModel.fit` (models.py:41-42) -/
def BaseModel.fit {β υ ρ δ : Type} (m : BaseModel β υ ρ) (_dataset : δ) :
    BaseModel β υ ρ × Except PyErr (BaseModel β υ ρ) :=
  (m, .error .notImplemented)

/-- `MedilCausalModel.sample` (models.py:44-45) -/
def BaseModel.sample {β υ ρ : Type} (m : BaseModel β υ ρ) (size : Nat) :
    BaseModel β υ ρ × Except PyErr (Fin size → ℝ) :=
  (m, .error .notImplemented)

end Medil

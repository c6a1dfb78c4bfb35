import Verif.Model.Dev
/-
  `GaussianMCM.fit` and `sample` (medil/models.py:76-143) for datasets whose numbers of columns differ from call to call and from the structure.

  `Verif/Model/Gaussian.lean` fixes one number of measurements for an object and all its datasets; here nothing is fixed.  Datasets have at
  least two rows, a given structure is a bool array with rows of one length, a given graph is square.
-/
namespace Medil
open Finset

/-- the attributes of a `GaussianMCM` object (models.py:29-39, 52-57, 69-71, 79): arrays whose sizes may disagree.  `⟨0, []⟩` and `none` are the
default empty arrays. -/
structure AGState where
  biadj : Σ M, List (BVec M) := ⟨0, []⟩
  udg : Option (Σ M, BMat M) := none
  dataset : Option AnyData := none
  means : Option (Σ n, Fin n → ℝ) := none
  params : Option (Σ M, GParams M) := none

/-- `cov - W.T @ W - np.diagflat(err_vars)` (models.py:97-99) for data with `C` columns and `M` measurements of the structure: numpy broadcasts.
`np.cov` of one column is 0-dimensional, and so fits every shape; a structure with one measurement gives 1 x 1 arrays, which fit every covariance matrix;
otherwise shapes (C, C) and (M, M) with C ≠ M raise `ValueError`. -/
def covFits (C M : Nat) : Bool := C == M || C == 1 || M == 1

/-- `_objective` (models.py:90-99) if the shapes fit -/
noncomputable def anyObjective (d : AnyData) {M : Nat} (B : List (BVec M)) (x : Fin ((maskPositions B).length + M) → ℝ) : ℝ :=
  if h : d.cols = M then objective (fun i j => d.data.cov (Fin.cast h.symm i) (Fin.cast h.symm j)) B x
  else if h : d.cols = 1 then
    ∑ i, ∑ j, (d.data.cov ⟨0, by omega⟩ ⟨0, by omega⟩ - (∑ r, placeWeights B (headPart x) r i * placeWeights B (headPart x) r j) -
      (if i = j then tailPart x i else 0)) ^ 2
  else if h : M = 1 then
    ∑ i, ∑ j, (d.data.cov i j - (∑ r, placeWeights B (headPart x) r ⟨0, by omega⟩ * placeWeights B (headPart x) r ⟨0, by omega⟩) -
      tailPart x ⟨0, by omega⟩) ^ 2
  else 0

/-- lines 114-115: the graph in use; a graph of size 0 counts as none -/
noncomputable def anyUdg (d : AnyData) (udg : Option (Σ M, BMat M)) : Except PyErr (Σ M, BMat M) :=
  match udg with
  | some U => if U.1 * U.1 = 0 then (estimateUdgCov d.data).map fun V => ⟨d.cols, V⟩ else .ok U
  | none => (estimateUdgCov d.data).map fun V => ⟨d.cols, V⟩

/-- `_compute_biadj` (models.py:112-116); `o` gives the set orders of this call -/
noncomputable def anyBiadj (o : (M : Nat) → Sched M) (d : AnyData) (st : AGState) : AGState × Except PyErr Unit :=
  match anyUdg d st.udg with
  | .error e => (st, .error e)
  | .ok U =>
    let st := { st with udg := some U }
    match findHeuristic1pc (o U.1) U.2 with
    | .error e => (st, .error e)
    | .ok B => ({ st with biadj := ⟨U.1, B⟩ }, .ok ())

/-- lines 83-110: the means are stored first; the first evaluation of the objective raises if the shapes do not fit -/
noncomputable def anyParams (opt : Optimizer) (d : AnyData) (st : AGState) : AGState × Except PyErr Bool :=
  let st := { st with means := some ⟨d.cols, d.data.mean⟩ }
  if covFits d.cols st.biadj.1 then
    let r := opt _ (anyObjective d st.biadj.2)
    ({ st with params := some ⟨st.biadj.1, tailPart r.1, st.biadj.2, placeWeights st.biadj.2 (headPart r.1)⟩ }, .ok !r.2)
  else (st, .error .valueError)

/-- `GaussianMCM.fit` (models.py:76-110): the object afterwards and the outcome (an exception, or whether a warning was issued) -/
noncomputable def anyFit (opt : Optimizer) (o : (M : Nat) → Sched M) (d : AnyData) (st : AGState) : AGState × Except PyErr Bool :=
  let st := { st with dataset := some d }
  if st.biadj.2.length * st.biadj.1 = 0 then
    match anyBiadj o d st with
    | (st, .error e) => (st, .error e)
    | (st, .ok ()) => anyParams opt d st
  else anyParams opt d st

/-- a history of calls of `fit`; exceptions are caught by the caller -/
noncomputable def anyFitAll (opt : Optimizer) (st : AGState) (calls : List (((M : Nat) → Sched M) × AnyData)) : AGState :=
  calls.foldl (fun st c => (anyFit opt c.1 c.2 st).1) st

/-- `GaussianMCM.sample(sample_size)` (models.py:130-143), as in `GState.sample`: `multivariate_normal` raises `ValueError` for an empty mean and for a
mean whose length is not the size of the covariance matrix; so does the matrix product if the number of latents is not the number of rows of the weights.
`error_variances` and `biadj_weights` are always assigned together, for one structure, so the sum in the last line adds arrays of the same shape. -/
noncomputable def anySample {G : Type} (gen : MvnGen G) (st : AGState) (size : Nat) (g : G) :
    Except PyErr (Σ n, Fin size → Fin n → ℝ) × G :=
  if st.biadj.2.length = 0 then (.error .valueError, g) else
  let (z, g) := gen.mvn (fun _ : Fin st.biadj.2.length => 0) (fun i j => if i = j then 1 else 0) size g
  match st.means, st.params with
  | some ⟨n, means⟩, some ⟨M, p⟩ =>
    if hn : n = M then
      if M = 0 then (.error .valueError, g) else
      let (e, g) := gen.mvn (fun j => means (Fin.cast hn.symm j)) (fun i j => if i = j then p.variances i else 0) size g
      if h : p.weightsOn.length = st.biadj.2.length then
        (.ok ⟨M, fun k j => (∑ r, z k (Fin.cast h r) * p.weights r j) + e k j⟩, g)
      else (.error .valueError, g)
    else (.error .valueError, g)
  | _, _ => (.error .valueError, g)

end Medil

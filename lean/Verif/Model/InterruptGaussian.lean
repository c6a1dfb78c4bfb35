import Verif.Model.Gaussian
/-
  Interruption of `GaussianMCM.fit` (medil/models.py:76-128): the assignments of a call one after the other, and the object if only
  the first `k` of them happen (KeyboardInterrupt, an exception in the optimizer, a warning turned into an error).
-/
namespace Medil
variable {M : Nat}

/-- the attributes of a `GaussianMCM` object, each on its own -/
structure GAttrs (M : Nat) where
  biadj : List (BVec M) := []
  udg : Option (BMat M) := none
  dataset : Option (Dataset M) := none
  /-- `parameters.error_means`, `parameters.error_variances`, `parameters.biadj_weights`; `none` is the empty array of a new object -/
  means : Option (Fin M → ℝ) := none
  variances : Option (Fin M → ℝ) := none
  weights : Option ((B : List (BVec M)) × (Fin B.length → Fin M → ℝ)) := none

/-- one assignment of `fit` -/
inductive GAssign (M : Nat) where
  /-- models.py:79 -/
  | dataset (d : Dataset M)
  /-- models.py:128 -/
  | udg (U : BMat M)
  /-- models.py:116 -/
  | biadj (B : List (BVec M))
  /-- models.py:83 -/
  | means (v : Fin M → ℝ)
  /-- models.py:105 -/
  | variances (v : Fin M → ℝ)
  /-- models.py:107, 108 -/
  | weights (W : (B : List (BVec M)) × (Fin B.length → Fin M → ℝ))

/-- one assignment (models.py:76-128) -/
def GAssign.apply (a : GAttrs M) : GAssign M → GAttrs M
  | .dataset d => { a with dataset := some d }
  | .udg U => { a with udg := some U }
  | .biadj B => { a with biadj := B }
  | .means v => { a with means := some v }
  | .variances v => { a with variances := some v }
  | .weights W => { a with weights := some W }

/-- lines 83-108 of `fit` (models.py) on the structure `B`: the weight matrix is first filled with zeros -/
noncomputable def paramAssigns (opt : Optimizer) (d : Dataset M) (B : List (BVec M)) : List (GAssign M) :=
  let r := opt _ (objective d.cov B)
  [.means d.mean, .variances (tailPart r.1), .weights ⟨B, fun _ _ => 0⟩, .weights ⟨B, placeWeights B (headPart r.1)⟩]

/-- all assignments of a call of `fit` (models.py:76-128); `udg` is only assigned if it is estimated (114-115) -/
noncomputable def gaussianAssigns (opt : Optimizer) (o : Sched M) (d : Dataset M) (a : GAttrs M) : List (GAssign M) :=
  .dataset d ::
  if a.biadj.length * M = 0 then
    match udgOr d a.udg with
    | .error _ => []
    | .ok U =>
      (if a.udg.isSome && decide (M * M ≠ 0) then [] else [.udg U]) ++
        match findHeuristic1pc o U with
        | .error _ => []
        | .ok B => .biadj B :: paramAssigns opt d B
  else paramAssigns opt d a.biadj

/-- the object after a call of `fit` (models.py:76-128) that is interrupted after `k` assignments -/
noncomputable def gaussianInterrupted (opt : Optimizer) (o : Sched M) (d : Dataset M) (a : GAttrs M) (k : Nat) : GAttrs M :=
  ((gaussianAssigns opt o d a).take k).foldl GAssign.apply a

/-- the attributes of an object after calls that were not interrupted -/
def GState.attrs (st : GState M) : GAttrs M :=
  { biadj := st.biadj, udg := st.udg, dataset := st.dataset, means := st.means
    variances := st.params.map (·.variances), weights := st.params.map fun p => ⟨p.weightsOn, p.weights⟩ }

end Medil

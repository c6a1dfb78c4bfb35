import Verif.Model.Ncfa
import Verif.Model.Indep
import Verif.Model.Heuristic
/-
  Model of the structure learning of `NeuroCausalFactorAnalysis` (models.py:227-237).  `fit` does not call it; a user
  can, before or after `fit`.
-/
namespace Medil
variable {M : Nat}

/-- `hyperparams["method"]` and `hyperparams["alpha"]` (models.py:165-166) -/
structure TestChoice where
  method : String := "xicor"
  alpha : ℝ := 5 / 100

/-- `_estimate_udg` (models.py:232-237): the estimated graph.  Before the first `fit` there is no attribute `dataset`. -/
noncomputable def ncfaEstimateUdg (lib : ∀ N, TestLib ℝ N) (tc : TestChoice) (st : NState M) : Except PyErr (BMat M) :=
  match st.dataset with
  | none => .error .attributeError
  | some d =>
    match estimateUDG (lib d.size) d.val (.name tc.method) tc.alpha with
    | .error e => .error e
    | .ok (u, _) => .ok (BMat.of u)

/-- lines 228-229: the graph is estimated if `udg` has size 0 -/
noncomputable def ncfaUdgOr (lib : ∀ N, TestLib ℝ N) (tc : TestChoice) (st : NState M) : Except PyErr (BMat M) :=
  match st.udg with
  | some U => .ok U
  | none => ncfaEstimateUdg lib tc st

/-- `_compute_biadj` (models.py:227-230) for at least one measurement: the object afterwards and the exception, if any.  `o` is
the set order of this call. -/
noncomputable def ncfaComputeBiadj (lib : ∀ N, TestLib ℝ N) (tc : TestChoice) (o : Sched M) (st : NState M) :
    NState M × Except PyErr Unit :=
  match ncfaUdgOr lib tc st with
  | .error e => (st, .error e)
  | .ok U =>
    let st := { st with udg := some U }
    match findHeuristic1pc o U with
    | .error e => (st, .error e)
    | .ok B => ({ st with biadj := B }, .ok ())

end Medil

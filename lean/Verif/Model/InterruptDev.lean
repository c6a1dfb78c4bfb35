import Verif.Model.Dev
/-
  Interruption of `DevMedil.fit` (medil/models.py:481-525, 543-579, 621-629): what a call changes, one thing after the other, and the object if only
  the first `k` changes happen (KeyboardInterrupt, an exception in the optimizer).
-/
namespace Medil
open Matrix
variable {G : Type}

/-- the attributes of a `DevMedil` object, each on its own (models.py:474-579); `none` is a missing attribute.  The attributes `result` and
`convergence_message_…` are left out: nothing reads them. -/
structure DevAttrs (G : Type) where
  onePureChild : Bool
  g : G
  initW : Option AnyMat := none
  wHat : Option AnyMat := none
  dHat : Option AnyMat := none
  successMle : Option Bool := none
  successLse : Option Bool := none

/-- one change made by `fit` -/
inductive DevAssign (G : Type) where
  /-- a draw from the generator (models.py:511, 515, 568, 569) -/
  | gen (g : G)
  /-- models.py:520, 574 -/
  | wHat (W : AnyMat)
  /-- models.py:521, 575 -/
  | dHat (D : AnyMat)
  /-- models.py:522 -/
  | successMle (b : Bool)
  /-- models.py:576 -/
  | successLse (b : Bool)

/-- one change (models.py:481-579) -/
def DevAssign.apply (a : DevAttrs G) : DevAssign G → DevAttrs G
  | .gen g => { a with g := g }
  | .wHat W => { a with wHat := some W }
  | .dHat D => { a with dHat := some D }
  | .successMle b => { a with successMle := some b }
  | .successLse b => { a with successLse := some b }

/-- all changes made by `fit_penalized_mle` (models.py:481-525), in order.  As in Model/Dev.lean, an `init_W` of the wrong size is left out. -/
noncomputable def mleAssigns (env : DevEnv G) (a : DevAttrs G) (d : AnyData) (lam mu : ℝ) : List (DevAssign G) :=
  let m := d.cols
  let k := devLatents a.onePureChild m
  let loss := fun x : Fin (k * m + m) → ℝ => mleLoss env.nuc lam mu (Matrix.of d.data.cov) (devW x) (diagonal (devD x))
  let (w, g) := mleStart env { onePureChild := a.onePureChild, g := a.g, initW := a.initW } k m
  match w with
  | .error _ => []
  | .ok w =>
    (if a.initW.isSome then [] else [.gen g]) ++ .gen (env.uniform m g).2 ::
      match env.minimize loss (devStart w (env.uniform m g).1) with
      | .error _ => []
      | .ok (x, success) => [.wHat ⟨k, m, devW x⟩, .dHat ⟨m, m, diagonal (devD x)⟩, .successMle success]

/-- all changes made by `fit_penalized_lse` (models.py:543-579), in order -/
noncomputable def lseAssigns (env : DevEnv G) (a : DevAttrs G) (d : AnyData) (lam mu : ℝ) : List (DevAssign G) :=
  let m := d.cols
  let k := devLatents a.onePureChild m
  let loss := fun x : Fin (k * m + m) → ℝ =>
    Except.ok (ε := PyErr) (Fl.fin (lseLoss env.nuc lam mu (Matrix.of d.data.cov) (devW x) (diagonal (devD x))))
  let (w, g) := env.normal (k * m) a.g
  let (u, g') := env.normal m g
  .gen g :: .gen g' ::
    match env.minimize loss (devStart w fun j => |u j|) with
    | .error _ => []
    | .ok (x, success) => [.wHat ⟨k, m, devW x⟩, .dHat ⟨m, m, diagonal fun j => |devD x j|⟩, .successLse success]

/-- all changes made by `fit` (models.py:621-629), in order -/
noncomputable def devAssigns (env : DevEnv G) (a : DevAttrs G) (d : AnyData) (method : String) (lam mu : ℝ) : List (DevAssign G) :=
  if method = "mle" then mleAssigns env a d lam mu
  else if method = "lse" then lseAssigns env a d lam mu
  else []

/-- the object after a call of `fit` (models.py:621-629) that is interrupted after `k` changes -/
noncomputable def devInterrupted (env : DevEnv G) (a : DevAttrs G) (d : AnyData) (method : String) (lam mu : ℝ) (k : Nat) : DevAttrs G :=
  ((devAssigns env a d method lam mu).take k).foldl DevAssign.apply a

/-- the attributes of an object after calls that were not interrupted -/
def DevState.attrs (st : DevState G) : DevAttrs G :=
  { onePureChild := st.onePureChild, g := st.g, initW := st.initW
    wHat := st.est.map fun e => ⟨e.latents, e.meas, e.W⟩, dHat := st.est.map fun e => ⟨e.meas, e.meas, e.D⟩
    successMle := st.successMle, successLse := st.successLse }

/-- a call of `fit` that is interrupted after `stop` changes (all of them if there are not more), or the assignment `obj.init_W = W` -/
inductive DevICall where
  | fit (d : AnyData) (method : String) (lam mu : ℝ) (stop : Nat)
  | setInitW (W : AnyMat)

/-- the object after such a call -/
noncomputable def DevICall.run (env : DevEnv G) (a : DevAttrs G) : DevICall → DevAttrs G
  | .fit d method lam mu stop => devInterrupted env a d method lam mu stop
  | .setInitW W => { a with initW := some W }

/-- the object after a history of such calls -/
noncomputable def runDInterrupted (env : DevEnv G) (a : DevAttrs G) (cs : List DevICall) : DevAttrs G := cs.foldl (DevICall.run env) a

end Medil

import Verif.Model.Ncfa
/-
  Interruption of `NeuroCausalFactorAnalysis.fit` (medil/models.py:188-225): the effects of a call one after the
  other, and what is left if only the first `k` of them happen (KeyboardInterrupt, crash, kill, full disk).

  A line of the log file is taken to be written at once; a result file is first emptied and complete only when it is closed.
-/
namespace Medil

/-- a file as a reader finds it -/
inductive FileState where
  | absent
  /-- opened for writing but not complete -/
  | incomplete
  | whole (c : Saved)

/-- what outlives an interruption: the object (if the process survives), the log files, the other files -/
structure NCrash (M : Nat) where
  obj : NState M
  logs : String → List LogEntry
  files : String → FileState

/-- one effect of `fit` -/
inductive NEffect (M : Nat) where
  /-- models.py:189 -/
  | setDataset (d : Dataset M)
  /-- `log` (models.py:181-186) -/
  | log (file : String) (e : LogEntry)
  /-- opening for writing empties the file (models.py:210, 211, 213) -/
  | truncate (file : String)
  /-- the file is written and closed (models.py:210-214) -/
  | written (file : String) (c : Saved)
  /-- models.py:215-217 -/
  | setWeights (W : (w : Nat) × (Fin M → Fin (M * w) → ℝ))
  /-- models.py:218 -/
  | setVae (m : VaeModel M)
  /-- models.py:219-224 -/
  | setLoss (h : Histories)

variable {M : Nat}

/-- change one file -/
def NCrash.setFile (s : NCrash M) (f : String) (c : FileState) : NCrash M :=
  { s with files := fun f' => if f' = f then c else s.files f' }

/-- one effect (models.py:188-225) -/
def NEffect.apply (s : NCrash M) : NEffect M → NCrash M
  | .setDataset d => { s with obj := { s.obj with dataset := some d } }
  | .log f e => { s with logs := fun f' => if f' = f then s.logs f' ++ [e] else s.logs f' }
  | .truncate f => s.setFile f .incomplete
  | .written f c => s.setFile f (.whole c)
  | .setWeights W => { s with obj := { s.obj with weights := some W } }
  | .setVae m => { s with obj := { s.obj with vae := some m } }
  | .setLoss h => { s with obj := { s.obj with loss := some h } }

/-- the saving part of `fit` (models.py:210-224), in the order of the code -/
def saveEffects (st : NState M) (m : VaeModel M) (h : Histories) : List (NEffect M) :=
  [.truncate (pathJoin st.path "model_recon.pt"), .written (pathJoin st.path "model_recon.pt") (.network m),
   .truncate (pathJoin st.path "loss_recon.pkl"), .written (pathJoin st.path "loss_recon.pkl") (.arrays h.trainElbo h.validElbo),
   .truncate (pathJoin st.path "error_recon.pkl"), .written (pathJoin st.path "error_recon.pkl") (.arrays h.trainError h.validError),
   .setWeights ⟨m.width, fun i o => (m.weights .covFulcon).weight o i⟩, .setVae m, .setLoss h]

/-- all effects of a call of `fit` (models.py:188-225), as in `ncfaFit`; `g` is the state of torch's generator -/
noncomputable def ncfaEffects {G O : Type} (env : NcfaEnv G O) (d : Dataset M) (splitIdcs : Option (List Int × List Int))
    (st : NState M) (g : G) : List (NEffect M) :=
  .setDataset d ::
  match ncfaSplit env st.seed d splitIdcs with
  | .error _ => []
  | .ok (train, valid) =>
    match dataLoader st.hp.batchSize train, dataLoader st.hp.batchSize valid with
    | .ok tl, .ok vl =>
      let r := trainVae env st.hp tl vl g
      r.1.log.map (.log (st.path ++ "training.log")) ++
        match r.2 with
        | .error _ => []
        | .ok h => saveEffects st ⟨st.hp.width, st.hp.numHidden, r.1.weights, r.1.training⟩ h
    | _, _ => []

/-- what is left of a call of `fit` on `s.obj` (models.py:188-225) that is interrupted after `k` effects -/
noncomputable def interrupted {G O : Type} (env : NcfaEnv G O) (d : Dataset M) (splitIdcs : Option (List Int × List Int))
    (s : NCrash M) (g : G) (k : Nat) : NCrash M :=
  ((ncfaEffects env d splitIdcs s.obj g).take k).foldl NEffect.apply s

/-- the object and its files in a process that is not interrupted -/
def NWorld.toCrash {G : Type} (wd : NWorld G) (st : NState M) : NCrash M :=
  { obj := st, logs := wd.logs, files := fun f => (wd.files f).elim .absent .whole }

end Medil

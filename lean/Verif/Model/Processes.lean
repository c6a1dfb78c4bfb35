import Verif.Model.Interrupt
import Mathlib.Data.Finset.Basic
/-
  Several processes that call `NeuroCausalFactorAnalysis.fit` (medil/models.py:188-225) at the same time on one file system.  Each process has
  its own object, its own generator of torch, and its own effects (`ncfaEffects`), which it makes in order; the effects of different processes
  alternate in any order.

  While two processes have a file open for writing, what it holds afterwards is not determined (the writers overwrite each other from position
  0): such a file counts as incomplete until it is opened again by a process that has it for itself.
-/
namespace Medil
variable {M : Nat}

/-- a process that is about to call `fit(data, split)` on `obj`; `torch` is the state of its generator -/
structure NJob (M : Nat) (G : Type) where
  obj : NState M
  data : Dataset M
  split : Option (List Int × List Int)
  torch : G

/-- the objects of the processes, what they still have to do, and the file system: log files, other files, the processes that have a file
open for writing, and whether the process that opened it last was the only one -/
structure NProcs (M : Nat) where
  obj : Nat → NState M
  todo : Nat → List (NEffect M)
  logs : String → List LogEntry
  files : String → FileState
  openBy : String → Finset Nat
  alone : String → Bool

/-- one effect of process `i` (models.py:181-186, 188-225) -/
noncomputable def NProcs.apply (s : NProcs M) (i : Nat) : NEffect M → NProcs M
  | .setDataset d => { s with obj := Function.update s.obj i { s.obj i with dataset := some d } }
  | .log f e => { s with logs := Function.update s.logs f (s.logs f ++ [e]) }
  | .truncate f =>
    { s with files := Function.update s.files f .incomplete
             openBy := Function.update s.openBy f (insert i (s.openBy f))
             alone := Function.update s.alone f (decide (s.openBy f = ∅)) }
  | .written f c =>
    { s with files := Function.update s.files f (if s.alone f then .whole c else .incomplete)
             openBy := Function.update s.openBy f ((s.openBy f).erase i) }
  | .setWeights W => { s with obj := Function.update s.obj i { s.obj i with weights := some W } }
  | .setVae m => { s with obj := Function.update s.obj i { s.obj i with vae := some m } }
  | .setLoss h => { s with obj := Function.update s.obj i { s.obj i with loss := some h } }

/-- process `i` makes its next effect (models.py:188-225) -/
noncomputable def NProcs.step (s : NProcs M) (i : Nat) : NProcs M :=
  match s.todo i with
  | [] => s
  | e :: es => { s with todo := Function.update s.todo i es }.apply i e

/-- a schedule: the processes in the order of their effects -/
noncomputable def NProcs.run (s : NProcs M) (sched : List Nat) : NProcs M := sched.foldl NProcs.step s

/-- the processes `jobs`, each before its call of `fit`, on the file system of `wd` -/
noncomputable def NProcs.start {G O : Type} (env : NcfaEnv G O) (wd : NWorld G) (jobs : Nat → NJob M G) : NProcs M :=
  { obj := fun i => (jobs i).obj
    todo := fun i => ncfaEffects env (jobs i).data (jobs i).split (jobs i).obj (jobs i).torch
    logs := wd.logs
    files := fun f => (wd.files f).elim .absent .whole
    openBy := fun _ => ∅
    alone := fun _ => false }

end Medil

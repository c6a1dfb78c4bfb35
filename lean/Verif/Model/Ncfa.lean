import Verif.Model.Vae
import Verif.Model.Gaussian
import Verif.Spec.Nuclear
import Mathlib.Analysis.CStarAlgebra.Matrix
import Mathlib.Analysis.Matrix.Spectrum
import Mathlib.LinearAlgebra.Matrix.NonsingularInverse
import Mathlib.LinearAlgebra.Matrix.Trace
/-
  Model of `NeuroCausalFactorAnalysis` (medil/models.py:146-472).

  Floats are exact reals.  torch's generator, the AdamW optimizer with its scheduler, and the permutation drawn by
  `train_test_split` are arbitrary functions (`NcfaEnv`).  Datasets have at least two rows (`Dataset`), the seed is a
  valid one, `width_per_meas ≥ 1`.  The time stamps of the log are left out; the text of an entry is kept as a
  value.  The training record `passes` is not in the code: it lists every forward pass that was made.
-/
namespace Medil
open Finset Matrix

/-- the entries of `hyperparams` that are used (models.py:162-176; `lr` belongs to the arbitrary optimizer) -/
structure Hyper where
  batchSize : Nat := 128
  numEpochs : Nat := 200
  beta : ℝ := 1
  mu : ℝ := 1 / 100
  lam : ℝ := 1 / 100
  width : Nat := 1
  numHidden : Nat := 1

/-- `weight.norm(1)` (models.py:412): without `dim` the tensor is flattened -/
noncomputable def norm1 {a b : Nat} (W : Fin a → Fin b → ℝ) : ℝ := ∑ o, ∑ i, |W o i|

open scoped Matrix.Norms.L2Operator in
/-- `torch.linalg.norm(diff, ord=2)` (models.py:451): of a matrix, its largest singular value -/
noncomputable def spectralNorm {a b : Nat} (A : Matrix (Fin a) (Fin b) ℝ) : ℝ := ‖A‖

section loss
variable {N L M : Nat}

/-- `cov` (models.py:393-395, 436-438; `_apply_along_axis`, 455-472): the mean of the diagonal matrices of the rows -/
noncomputable def batchCov (logcov : Fin N → Fin M → ℝ) : Matrix (Fin M) (Fin M) ℝ :=
  fun i j => (∑ k, diagonal (fun j => Real.exp (logcov k j)) i j) / N

/-- `x - x_recon` (models.py:397, 440) -/
def diffMat (x recon : Fin N → Fin M → ℝ) : Matrix (Fin N) (Fin M) ℝ := fun k j => x k j - recon k j

/-- `recon_loss` (models.py:398-405, 442-449) -/
noncomputable def reconLoss (x recon logcov : Fin N → Fin M → ℝ) : ℝ :=
  (∑ k, ((batchCov logcov).det + (diffMat x recon * (batchCov logcov)⁻¹ * (diffMat x recon)ᵀ) k k)) * (-1 / 2)

/-- `kl_div` (models.py:390) -/
noncomputable def klDiv (mu logvar : Fin N → Fin L → ℝ) : ℝ :=
  -(1 / 2) * ∑ k, ∑ l, (1 + logvar k l - mu k l ^ 2 - Real.exp (logvar k l))

/-- `_elbo_gaussian` (models.py:375-413); `weight = none` is `None` -/
noncomputable def elboGaussian {a b : Nat} (hp : Hyper) (x : Fin N → Fin M → ℝ) (out : VaeOut N L M)
    (weight : Option (Fin a → Fin b → ℝ)) : ℝ :=
  let loss := -hp.beta * klDiv out.mu out.logvar + reconLoss x out.recon out.logcov
  match weight with
  | some W => -loss + hp.lam * nuclearNorm (Matrix.of W) + hp.mu * norm1 W
  | none => -loss

/-- `_recon_error` (models.py:423-453) -/
noncomputable def reconError (x : Fin N → Fin M → ℝ) (out : VaeOut N L M) (weighted : Bool) : ℝ :=
  if weighted then reconLoss x out.recon out.logcov else spectralNorm (diffMat x out.recon)

/-- `_rho` (models.py:416-417) -/
noncomputable def ncfaRho {a b : Nat} (W : Fin a → Fin b → ℝ) : ℝ := nuclearNorm (Matrix.of W)

/-- `_sigma` (models.py:420-421) -/
noncomputable def ncfaSigma {a b : Nat} (W : Fin a → Fin b → ℝ) : ℝ := ∑ o, ∑ i, W o i ^ 2

end loss

variable {M w : Nat}

/-- a row of data -/
abbrev Row (M : Nat) := Fin M → ℝ

/-- external functions -/
structure NcfaEnv (G O : Type) where
  gen : TorchGen G
  /-- a new `AdamW` (models.py:268-271) -/
  optInit : O
  /-- `loss.backward(); optimizer.step()` (models.py:306-308): new values, computed in any way from the loss as a
  function of the weights -/
  optStep : {M w : Nat} → O → (Weights M M w → ℝ) → Weights M M w → Weights M M w × O
  /-- `scheduler.step()` (models.py:316) -/
  schedStep : O → O
  /-- the permutation that `train_test_split` draws for a seed (models.py:195-197) -/
  perm : (seed N : Nat) → Equiv.Perm (Fin N)
  /-- the number `floor(0.7 * N)` of training rows; in floating point this is not always the exact value (90 rows
  give 62), so only the bounds are fixed -/
  trainSize : Nat → Nat
  trainSize_pos : ∀ N, 2 ≤ N → 1 ≤ trainSize N
  trainSize_lt : ∀ N, 2 ≤ N → trainSize N < N

/-- entries of the log (models.py:273, 281, 321, 371) -/
inductive LogEntry where
  | numParams (n : Nat)
  | trainingOn (epoch : Nat)
  | finishTraining (epoch : Nat) (loss : ℝ)
  | finishValidation (loss : ℝ)

/-- the record of one forward pass: in the training loop or in `_valid_vae`, the batch, the weights used, the noise
drawn (`none` in evaluation mode), loss and error computed from it -/
structure Pass (M w : Nat) where
  epoch : Nat
  isTrain : Bool
  batch : List (Row M)
  weights : Weights M M w
  noise : Option (Fin batch.length → Fin M → ℝ)
  loss : ℝ
  error : ℝ

/-- the variables of `_train_vae` -/
structure TrainState (M w : Nat) (G O : Type) where
  weights : Weights M M w
  training : Bool
  gen : G
  opt : O
  log : List LogEntry
  passes : List (Pass M w)

/-- running sums of an epoch: `train_lb, train_er, nbatch` (models.py:282, 343) -/
structure EpochAcc where
  lb : ℝ := 0
  er : ℝ := 0
  nbatch : Nat := 0

/-- the optimizer writes to the tensors it was given, `model.parameters()` (models.py:269) -/
def writeParams (ps : List ParamId) (old new : Weights M M w) : Weights M M w := fun l =>
  { weight := if ParamId.weight l ∈ ps then (new l).weight else (old l).weight
    bias := if ParamId.bias l ∈ ps then (new l).bias else (old l).bias }

section train
variable {G O : Type}

/-- one training batch (models.py:284-313) -/
noncomputable def trainBatch (env : NcfaEnv G O) (hp : Hyper) (ps : List ParamId) (epoch : Nat)
    (sa : TrainState M w G O × EpochAcc) (batch : List (Row M)) : TrainState M w G O × EpochAcc :=
  let s := sa.1
  let r := vaeForward env.gen hp.numHidden s.weights s.training batch.get s.gen
  let loss := elboGaussian hp batch.get r.1 (some (s.weights .covFulcon).weight)
  let err := reconError batch.get r.1 false
  let lossFn := fun W : Weights M M w =>
    elboGaussian hp batch.get (vaeForward env.gen hp.numHidden W s.training batch.get s.gen).1
      (some (W .covFulcon).weight)
  let n := env.optStep s.opt lossFn s.weights
  ({ s with
     weights := writeParams ps s.weights n.1
     gen := r.2.1
     opt := n.2
     passes := s.passes ++ [⟨epoch, true, batch, s.weights, r.2.2, loss, err⟩] },
   { lb := sa.2.lb + loss / batch.length
     er := sa.2.er + err / batch.length
     nbatch := sa.2.nbatch + 1 })

/-- one validation batch (models.py:345-366) -/
noncomputable def validBatch (env : NcfaEnv G O) (hp : Hyper) (epoch : Nat)
    (sa : TrainState M w G O × EpochAcc) (batch : List (Row M)) : TrainState M w G O × EpochAcc :=
  let s := sa.1
  let r := vaeForward env.gen hp.numHidden s.weights s.training batch.get s.gen
  let loss := elboGaussian (a := M) (b := M) hp batch.get r.1 none
  let err := reconError batch.get r.1 false
  ({ s with
     gen := r.2.1
     passes := s.passes ++ [⟨epoch, false, batch, s.weights, r.2.2, loss, err⟩] },
   { lb := sa.2.lb + loss / batch.length
     er := sa.2.er + err / batch.length
     nbatch := sa.2.nbatch + 1 })

/-- `_valid_vae` (models.py:335-373) -/
noncomputable def validVae (env : NcfaEnv G O) (hp : Hyper) (epoch : Nat) (loader : List (List (Row M)))
    (s : TrainState M w G O) : TrainState M w G O × Except PyErr (ℝ × ℝ) :=
  let s := { s with training := false }
  let r := loader.foldl (validBatch env hp epoch) (s, {})
  if r.2.nbatch = 0 then (r.1, .error .zeroDivision)
  else
    let lb := r.2.lb / r.2.nbatch
    let er := r.2.er / r.2.nbatch
    ({ r.1 with log := r.1.log ++ [.finishValidation lb] }, .ok (lb, er))

/-- `train_elbo, train_error, valid_elbo, valid_error` (models.py:277-278) -/
structure Histories where
  trainElbo : List ℝ := []
  trainError : List ℝ := []
  validElbo : List ℝ := []
  validError : List ℝ := []

/-- the body of the loop over epochs (models.py:280-326) -/
noncomputable def trainEpoch (env : NcfaEnv G O) (hp : Hyper) (ps : List ParamId) (tl vl : List (List (Row M)))
    (epoch : Nat) (s : TrainState M w G O) (h : Histories) : TrainState M w G O × Except PyErr Histories :=
  let s := { s with log := s.log ++ [.trainingOn epoch] }
  let r := tl.foldl (trainBatch env hp ps epoch) (s, {})
  let s := { r.1 with opt := env.schedStep r.1.opt }
  if r.2.nbatch = 0 then (s, .error .zeroDivision)
  else
    let lb := r.2.lb / r.2.nbatch
    let er := r.2.er / r.2.nbatch
    let h := { h with trainElbo := h.trainElbo ++ [lb], trainError := h.trainError ++ [er] }
    let s := { s with log := s.log ++ [.finishTraining epoch lb] }
    match validVae env hp epoch vl s with
    | (s, .error e) => (s, .error e)
    | (s, .ok v) => (s, .ok { h with validElbo := h.validElbo ++ [v.1], validError := h.validError ++ [v.2] })

/-- `for idx in ...` over a list of epoch numbers (models.py:280) -/
noncomputable def trainEpochs (env : NcfaEnv G O) (hp : Hyper) (ps : List ParamId) (tl vl : List (List (Row M))) :
    List Nat → TrainState M w G O → Histories → TrainState M w G O × Except PyErr Histories
  | [], s, h => (s, .ok h)
  | e :: es, s, h =>
    match trainEpoch env hp ps tl vl e s h with
    | (s, .error err) => (s, .error err)
    | (s, .ok h) => trainEpochs env hp ps tl vl es s h

/-- `num_params` (models.py:272) -/
def numParams (M w : Nat) (ps : List ParamId) : Nat := (ps.map (ParamId.numel M M w)).sum

/-- `_train_vae` (models.py:248-333), starting with torch's generator in state `g`: the final state, and the histories
or the exception -/
noncomputable def trainVae (env : NcfaEnv G O) (hp : Hyper) (tl vl : List (List (Row M))) (g : G) :
    TrainState M hp.width G O × Except PyErr Histories :=
  let ps := (vaeObj hp.numHidden).parameters
  let r := env.gen.init M M hp.numHidden hp.width g
  trainEpochs env hp ps tl vl (List.range hp.numEpochs)
    { weights := r.1, training := true, gen := r.2, opt := env.optInit,
      log := [.numParams (numParams M hp.width ps)], passes := [] } {}

end train

/-! ### `fit` -/

/-- `sc().fit_transform(dataset)` (models.py:191): `StandardScaler` subtracts the column mean and divides by the
population standard deviation; the scale of a constant column is 1 -/
noncomputable def standardizeRow (d : Dataset M) (k : Fin d.size) : Row M := fun j =>
  let var := (∑ k, (d.val k j - d.mean j) ^ 2) / d.size
  (d.val k j - d.mean j) / (if var = 0 then 1 else Real.sqrt var)

/-- batches of `n` rows in order; the last one may be smaller (`DataLoader(..., shuffle=False)`, models.py:243-245).
`fuel` bounds the number of batches. -/
def batchesAux {α : Type} (n : Nat) : Nat → List α → List (List α)
  | 0, _ => []
  | _, [] => []
  | fuel + 1, l => l.take n :: batchesAux n fuel (l.drop n)

/-- iterating over a `DataLoader` -/
def batches {α : Type} (n : Nat) (l : List α) : List (List α) := batchesAux n l.length l

/-- `_data_loader` (models.py:239-246): torch refuses batch size 0.  The conversion to `float32` is left out. -/
def dataLoader {α : Type} (n : Nat) (l : List α) : Except PyErr (List (List α)) :=
  if n = 0 then .error .valueError else .ok (batches n l)

/-- `dataset[idcs]` (models.py:199-200): rows by integer index, negative ones from the end -/
def takeRows (d : Dataset M) : List Int → Except PyErr (List (Row M))
  | [] => .ok []
  | i :: is =>
    if h : 0 ≤ i ∧ i.toNat < d.size then
      match takeRows d is with
      | .ok rs => .ok (d.val ⟨i.toNat, h.2⟩ :: rs)
      | .error e => .error e
    else if h : i < 0 ∧ 0 ≤ i + d.size then
      match takeRows d is with
      | .ok rs => .ok (d.val ⟨(i + d.size).toNat, by omega⟩ :: rs)
      | .error e => .error e
    else .error .indexError

/-- `train_test_split(standardized, train_size=0.7, random_state=seed)` (models.py:195-197): the first rows of the
permutation are the validation rows, the others the training rows; result `(train, valid)` -/
noncomputable def randomSplit {G O : Type} (env : NcfaEnv G O) (seed : Nat) (d : Dataset M) : List (Row M) × List (Row M) :=
  let p := (List.finRange d.size).map (env.perm seed d.size)
  let nTest := d.size - env.trainSize d.size
  ((p.drop nTest).map (standardizeRow d), (p.take nTest).map (standardizeRow d))

/-- lines 191-200 of `fit`: `(train_split, valid_split)` -/
noncomputable def ncfaSplit {G O : Type} (env : NcfaEnv G O) (seed : Nat) (d : Dataset M)
    (splitIdcs : Option (List Int × List Int)) : Except PyErr (List (Row M) × List (Row M)) :=
  if M = 0 then .error .valueError
  else match splitIdcs with
    | none => .ok (randomSplit env seed d)
    | some (a, b) =>
      match takeRows d a with
      | .error e => .error e
      | .ok t => match takeRows d b with
        | .error e => .error e
        | .ok v => .ok (t, v)

/-- a trained network object -/
structure VaeModel (M : Nat) where
  width : Nat
  numHidden : Nat
  weights : Weights M M width
  training : Bool

/-- contents of the files written by `fit` (models.py:210-214) -/
inductive Saved where
  | network {M : Nat} (m : VaeModel M)
  | arrays (train valid : List ℝ)

/-- the process and the file system: torch's and numpy's global generators (numpy's as the last seed given to it),
the log files and the other files by name, and standard output -/
structure NWorld (G : Type) where
  torch : G
  numpySeed : Option Nat
  logs : String → List LogEntry
  files : String → Option Saved
  stdout : List LogEntry

/-- a `NeuroCausalFactorAnalysis` object (models.py:149-179) -/
structure NState (M : Nat) where
  biadj : List (BVec M) := []
  udg : Option (BMat M) := none
  hp : Hyper := {}
  seed : Nat := 0
  path : String := "trained_ncfa/"
  verbose : Bool := false
  dataset : Option (Dataset M) := none
  weights : Option ((w : Nat) × (Fin M → Fin (M * w) → ℝ)) := none
  vae : Option (VaeModel M) := none
  loss : Option Histories := none

/-- `os.path.join(path, name)` for a name without slash (models.py:210-213) -/
def pathJoin (path name : String) : String :=
  if path = "" ∨ path.endsWith "/" then path ++ name else path ++ "/" ++ name

/-- all calls of `log` (models.py:181-186) during a training, in order -/
def NWorld.addLog {G : Type} (wd : NWorld G) (st : NState M) (es : List LogEntry) : NWorld G :=
  { wd with
    logs := fun f => if f = st.path ++ "training.log" then wd.logs f ++ es else wd.logs f
    stdout := if st.verbose then wd.stdout ++ es else wd.stdout }

/-- write a file -/
def NWorld.save {G : Type} (wd : NWorld G) (name : String) (c : Saved) : NWorld G :=
  { wd with files := fun f => if f = name then some c else wd.files f }

/-- `NeuroCausalFactorAnalysis.fit` (models.py:188-225): object and world afterwards, the training record, and the
exception if any.  (The files are named by `path`; a directory that has disappeared is not modelled.) -/
noncomputable def ncfaFit {G O : Type} (env : NcfaEnv G O) (d : Dataset M) (splitIdcs : Option (List Int × List Int))
    (st : NState M) (wd : NWorld G) : NState M × NWorld G × List (Pass M st.hp.width) × Except PyErr Unit :=
  let st := { st with dataset := some d }
  match ncfaSplit env st.seed d splitIdcs with
  | .error e => (st, wd, [], .error e)
  | .ok (train, valid) =>
    match dataLoader st.hp.batchSize train, dataLoader st.hp.batchSize valid with
    | .ok tl, .ok vl =>
      let wd := { wd with numpySeed := some st.seed }
      let r := trainVae env st.hp tl vl wd.torch
      let wd := { wd.addLog st r.1.log with torch := r.1.gen }
      match r.2 with
      | .error e => (st, wd, r.1.passes, .error e)
      | .ok h =>
        let m : VaeModel M := ⟨st.hp.width, st.hp.numHidden, r.1.weights, r.1.training⟩
        let wd := wd.save (pathJoin st.path "model_recon.pt") (.network m)
        let wd := wd.save (pathJoin st.path "loss_recon.pkl") (.arrays h.trainElbo h.validElbo)
        let wd := wd.save (pathJoin st.path "error_recon.pkl") (.arrays h.trainError h.validError)
        ({ st with
           weights := some ⟨st.hp.width, fun i o => (r.1.weights .covFulcon).weight o i⟩
           vae := some m
           loss := some h }, wd, r.1.passes, .ok ())
    | .error e, _ => (st, wd, [], .error e)
    | _, .error e => (st, wd, [], .error e)

/-- `NeuroCausalFactorAnalysis.sample` is inherited (models.py:44-45) -/
def ncfaSample (_ : NState M) (size : Nat) : Except PyErr (Fin size → Row M) := .error .notImplemented

/-- several objects in one process -/
structure NSession (M : Nat) (G : Type) where
  obj : Nat → NState M
  world : NWorld G

/-- a call `fit(dataset, split_idcs)` on one of the objects -/
structure NCall (M : Nat) where
  on : Nat
  data : Dataset M
  split : Option (List Int × List Int)

/-- one call (models.py:188-225) -/
noncomputable def NSession.step {G O : Type} (env : NcfaEnv G O) (s : NSession M G) (c : NCall M) : NSession M G :=
  let r := ncfaFit env c.data c.split (s.obj c.on) s.world
  { obj := fun i => if i = c.on then r.1 else s.obj i, world := r.2.1 }

/-- a history of calls; exceptions are caught by the caller -/
noncomputable def NSession.run {G O : Type} (env : NcfaEnv G O) (s : NSession M G) (cs : List (NCall M)) : NSession M G :=
  cs.foldl (NSession.step env) s

end Medil

import Verif.Model.Ncfa
/-
  On which device the tensors of `NeuroCausalFactorAnalysis.fit` are (medil/models.py:179, 188-225, 248-373; medil/vae.py).

  `Verif/Model/Ncfa.lean` computes values as if all tensors were on the CPU; here every operation of a forward pass first checks that its
  operands are on one device, as torch does, and `.numpy()` refuses tensors on a GPU.  torch's `RuntimeError` is `PyErr.exception`.
-/
namespace Medil

/-- `self.device` (models.py:179): `cuda:0` if there is a GPU -/
inductive Device where
  | cpu | cuda
  deriving DecidableEq

/-- a tensor, as far as devices are concerned: where it is, and whether it has dimension 0 -/
structure DTensor where
  dev : Device
  scalar : Bool := false

/-- an operation on two tensors: both must be on one device, except that tensors of dimension 0 on the CPU go with everything -/
def DTensor.with (x y : DTensor) : Except PyErr DTensor :=
  if x.dev = y.dev then .ok ⟨x.dev, x.scalar && y.scalar⟩
  else if x.scalar ∧ x.dev = .cpu then .ok ⟨y.dev, y.scalar⟩
  else if y.scalar ∧ y.dev = .cpu then .ok ⟨x.dev, x.scalar⟩
  else .error .exception

/-- where the weights and biases are after `model.to(device)` (models.py:267): the parameters that `nn.Module` knows are moved, all other
tensors stay on the CPU, where they were made -/
def placement (H : Nat) (device : Device) (p : ParamId) : DTensor :=
  ⟨if p ∈ (vaeObj H).parameters then device else .cpu, false⟩

/-- `mask` (vae.py:154, 95, 116, 163): `torch.ones(1)`, or `torch.block_diag` of `torch.ones(w, w)`; a plain attribute, so it stays on the CPU;
all masks have dimension 1 or 2 -/
def maskTensor : DTensor := ⟨.cpu, false⟩

/-- `nn.Linear.forward` (vae.py:61, 62, 65, 66) -/
def linearDev (place : ParamId → DTensor) (l : LayerId) (x : DTensor) : Except PyErr DTensor := do
  let y ← x.with (place (.weight l))
  y.with (place (.bias l))

/-- `SparseLinear.forward` (vae.py:181-183) -/
def sparseDev (place : ParamId → DTensor) (l : LayerId) (x : DTensor) : Except PyErr DTensor := do
  let w ← (place (.weight l)).with maskTensor
  let y ← x.with w
  y.with (place (.bias l))

/-- a loop over hidden layers (vae.py:134-136, 141-143) -/
def hiddenDev (place : ParamId → DTensor) : List LayerId → DTensor → Except PyErr DTensor
  | [], x => .ok x
  | l :: ls, x => do hiddenDev place ls (← sparseDev place l x)

/-- `VariationalAutoencoder.forward` (vae.py:16-21, 23-30, 59-68, 126-146); `torch.empty_like(std)` is where `std` is.  Result: the device of
the outputs. -/
def forwardDev (H : Nat) (place : ParamId → DTensor) (x : DTensor) : Except PyErr DTensor := do
  let inter ← linearDev place .enc1 x
  let inter ← linearDev place .enc2 inter
  let mu ← linearDev place .fcMu inter
  let logvar ← linearDev place .fcLogvar inter
  let latent ← logvar.with mu
  let mean ← sparseDev place .meanFulcon latent
  let mean ← hiddenDev place ((List.range H).map .meanHidden) mean
  let mean ← sparseDev place .meanOutput mean
  let logcov ← sparseDev place .covFulcon latent
  let logcov ← hiddenDev place ((List.range H).map .covHidden) logcov
  let logcov ← sparseDev place .covOutput logcov
  mean.with logcov

variable {M w : Nat} {G O : Type}

/-- a loop over batches (models.py:284-313, 345-366) in which every forward pass (line 287, 349) may fail: `x_batch.to(self.device)` (lines
286, 348) has moved the batch; `body` is the rest of the loop -/
def batchesOn {S : Type} (H : Nat) (device : Device) (body : S → List (Row M) → S) : S → List (List (Row M)) → S × Except PyErr Unit
  | s, [] => (s, .ok ())
  | s, b :: bs =>
    match forwardDev H (placement H device) ⟨device, false⟩ with
    | .error e => (s, .error e)
    | .ok _ => batchesOn H device body (body s b) bs

/-- `_valid_vae` (models.py:335-373) -/
noncomputable def validVaeOn (env : NcfaEnv G O) (hp : Hyper) (device : Device) (epoch : Nat) (loader : List (List (Row M)))
    (s : TrainState M w G O) : TrainState M w G O × Except PyErr (ℝ × ℝ) :=
  let s := { s with training := false }
  match batchesOn hp.numHidden device (validBatch env hp epoch) (s, {}) loader with
  | (r, .error e) => (r.1, .error e)
  | (r, .ok ()) =>
    if r.2.nbatch = 0 then (r.1, .error .zeroDivision)
    else
      let lb := r.2.lb / r.2.nbatch
      let er := r.2.er / r.2.nbatch
      ({ r.1 with log := r.1.log ++ [.finishValidation lb] }, .ok (lb, er))

/-- the body of the loop over epochs (models.py:280-326) -/
noncomputable def trainEpochOn (env : NcfaEnv G O) (hp : Hyper) (device : Device) (ps : List ParamId) (tl vl : List (List (Row M)))
    (epoch : Nat) (s : TrainState M w G O) (h : Histories) : TrainState M w G O × Except PyErr Histories :=
  let s := { s with log := s.log ++ [.trainingOn epoch] }
  match batchesOn hp.numHidden device (trainBatch env hp ps epoch) (s, {}) tl with
  | (r, .error e) => (r.1, .error e)
  | (r, .ok ()) =>
    let s := { r.1 with opt := env.schedStep r.1.opt }
    if r.2.nbatch = 0 then (s, .error .zeroDivision)
    else
      let lb := r.2.lb / r.2.nbatch
      let er := r.2.er / r.2.nbatch
      let h := { h with trainElbo := h.trainElbo ++ [lb], trainError := h.trainError ++ [er] }
      let s := { s with log := s.log ++ [.finishTraining epoch lb] }
      match validVaeOn env hp device epoch vl s with
      | (s, .error e) => (s, .error e)
      | (s, .ok v) => (s, .ok { h with validElbo := h.validElbo ++ [v.1], validError := h.validError ++ [v.2] })

/-- the loop over epochs (models.py:280) -/
noncomputable def trainEpochsOn (env : NcfaEnv G O) (hp : Hyper) (device : Device) (ps : List ParamId) (tl vl : List (List (Row M))) :
    List Nat → TrainState M w G O → Histories → TrainState M w G O × Except PyErr Histories
  | [], s, h => (s, .ok h)
  | e :: es, s, h =>
    match trainEpochOn env hp device ps tl vl e s h with
    | (s, .error err) => (s, .error err)
    | (s, .ok h) => trainEpochsOn env hp device ps tl vl es s h

/-- `_train_vae` (models.py:248-333) -/
noncomputable def trainVaeOn (env : NcfaEnv G O) (hp : Hyper) (device : Device) (tl vl : List (List (Row M))) (g : G) :
    TrainState M hp.width G O × Except PyErr Histories :=
  let ps := (vaeObj hp.numHidden).parameters
  let r := env.gen.init M M hp.numHidden hp.width g
  trainEpochsOn env hp device ps tl vl (List.range hp.numEpochs)
    { weights := r.1, training := true, gen := r.2, opt := env.optInit,
      log := [.numParams (numParams M hp.width ps)], passes := [] } {}

/-- `NeuroCausalFactorAnalysis.fit` (models.py:188-225) on a machine whose `self.device` (line 179) is `device`; `.numpy()` (line 216) raises
`TypeError` for a tensor on a GPU -/
noncomputable def ncfaFitOn (env : NcfaEnv G O) (device : Device) (d : Dataset M) (splitIdcs : Option (List Int × List Int))
    (st : NState M) (wd : NWorld G) : NState M × NWorld G × List (Pass M st.hp.width) × Except PyErr Unit :=
  let st := { st with dataset := some d }
  match ncfaSplit env st.seed d splitIdcs with
  | .error e => (st, wd, [], .error e)
  | .ok (train, valid) =>
    match dataLoader st.hp.batchSize train, dataLoader st.hp.batchSize valid with
    | .ok tl, .ok vl =>
      let wd := { wd with numpySeed := some st.seed }
      let r := trainVaeOn env st.hp device tl vl wd.torch
      let wd := { wd.addLog st r.1.log with torch := r.1.gen }
      match r.2 with
      | .error e => (st, wd, r.1.passes, .error e)
      | .ok h =>
        let m : VaeModel M := ⟨st.hp.width, st.hp.numHidden, r.1.weights, r.1.training⟩
        let wd := wd.save (pathJoin st.path "model_recon.pt") (.network m)
        let wd := wd.save (pathJoin st.path "loss_recon.pkl") (.arrays h.trainElbo h.validElbo)
        let wd := wd.save (pathJoin st.path "error_recon.pkl") (.arrays h.trainError h.validError)
        if (placement st.hp.numHidden device (.weight .covFulcon)).dev = .cuda then (st, wd, r.1.passes, .error .typeError)
        else
          ({ st with
             weights := some ⟨st.hp.width, fun i o => (r.1.weights .covFulcon).weight o i⟩
             vae := some m
             loss := some h }, wd, r.1.passes, .ok ())
    | .error e, _ => (st, wd, [], .error e)
    | _, .error e => (st, wd, [], .error e)

end Medil

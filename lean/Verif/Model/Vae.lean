import Mathlib.Analysis.SpecialFunctions.Exp
import Mathlib.Algebra.BigOperators.Fin
import Mathlib.Data.Real.Basic
/-
  Model of medil/vae.py: the variational autoencoder used by `NeuroCausalFactorAnalysis`.

  Floats are exact reals.  The values of all weights are kept in one store `Weights`, indexed by the layer that
  owns them; the Python objects (`PyObj`) hold references to them.  `L = num_vae_latent`, `M = num_meas`,
  `w = width_per_meas`, `H = num_hidden_layers`.  `M ≥ 1` is meant wherever a mask is used (`torch.block_diag()` of
  no blocks has another shape).
-/
namespace Medil
open Finset

/-- the layers of the network (vae.py:48-57, 86-122); `meanHidden i` is `mean_linear_hidden[i]` -/
inductive LayerId where
  | enc1 | enc2 | fcMu | fcLogvar
  | meanFulcon | covFulcon
  | meanHidden (i : Nat) | covHidden (i : Nat)
  | meanOutput | covOutput
  deriving DecidableEq

/-- `in_features` (vae.py:48, 51, 54, 56, 87, 90, 99, 107, 118, 121) -/
@[reducible] def LayerId.inn (L M w : Nat) : LayerId → Nat
  | .enc1 | .enc2 | .fcMu | .fcLogvar => M
  | .meanFulcon | .covFulcon => L
  | .meanHidden _ | .covHidden _ | .meanOutput | .covOutput => M * w

/-- `out_features` (vae.py:48, 51, 54, 56, 87, 90, 100, 108, 118, 121) -/
@[reducible] def LayerId.out (L M w : Nat) : LayerId → Nat
  | .enc1 | .enc2 => M
  | .fcMu | .fcLogvar => L
  | .meanFulcon | .covFulcon | .meanHidden _ | .covHidden _ => M * w
  | .meanOutput | .covOutput => M

/-- weight (`out × in`) and bias of a linear layer (vae.py:164-169; `torch.nn.Linear`) -/
@[ext] structure Layer (inn out : Nat) where
  weight : Fin out → Fin inn → ℝ
  bias : Fin out → ℝ

/-- the values of all weights of a network -/
abbrev Weights (L M w : Nat) := (l : LayerId) → Layer (l.inn L M w) (l.out L M w)

/-- `nn.functional.linear(x, W, b)` (vae.py:183) -/
noncomputable def linear {a b : Nat} (W : Fin b → Fin a → ℝ) (bias : Fin b → ℝ) (x : Fin a → ℝ) : Fin b → ℝ :=
  fun o => (∑ i, x i * W o i) + bias o

/-- `nn.Linear.forward` (vae.py:61, 62, 65, 66) -/
noncomputable def Layer.apply {a b : Nat} (l : Layer a b) (x : Fin a → ℝ) : Fin b → ℝ := linear l.weight l.bias x

/-- `SparseLinear.forward` (vae.py:181-183) -/
noncomputable def Layer.sparse {a b : Nat} (l : Layer a b) (mask : Fin b → Fin a → ℝ) (x : Fin a → ℝ) : Fin b → ℝ :=
  linear (fun o i => l.weight o i * mask o i) l.bias x

/-- `torch.ones(1)` (vae.py:154), broadcast: the default mask of `SparseLinear` -/
def noMask {a b : Nat} : Fin b → Fin a → ℝ := fun _ _ => 1

/-- `hidden_mask` (vae.py:93-95): `torch.block_diag` of `num_meas` blocks of ones of size `width × width` -/
def hiddenMask (M w : Nat) : Fin (M * w) → Fin (M * w) → ℝ := fun a b => if a.val / w = b.val / w then 1 else 0

/-- `output_mask` (vae.py:114-116): `torch.block_diag` of `num_meas` blocks of ones of size `1 × width` -/
def outputMask (M w : Nat) : Fin M → Fin (M * w) → ℝ := fun j b => if j.val = b.val / w then 1 else 0

/-- `torch.relu` (vae.py:61, 62) -/
noncomputable def relu (t : ℝ) : ℝ := max t 0

/-- `torch.nn.Sigmoid` (vae.py:124) -/
noncomputable def sigmoid (t : ℝ) : ℝ := 1 / (1 + Real.exp (-t))

variable {L M w : Nat}

/-- `Encoder.forward` (vae.py:59-68) on one row: `(mu, logvar)` -/
noncomputable def encode (W : Weights L M w) (x : Fin M → ℝ) : (Fin L → ℝ) × (Fin L → ℝ) :=
  let inter : Fin M → ℝ := fun k => relu ((W .enc1).apply x k)
  let inter : Fin M → ℝ := fun k => relu ((W .enc2).apply inter k)
  ((W .fcMu).apply inter, (W .fcLogvar).apply inter)

/-- one half of `Decoder.forward` (vae.py:132-137 and 139-144) on one row -/
noncomputable def decodeHead (fulcon : Layer L (M * w)) (hidden : List (Layer (M * w) (M * w)))
    (output : Layer (M * w) M) (z : Fin L → ℝ) : Fin M → ℝ :=
  let h : Fin (M * w) → ℝ := fun k => sigmoid (fulcon.sparse noMask z k)
  let h := hidden.foldl (fun h l => fun k => sigmoid (l.sparse (hiddenMask M w) h k)) h
  output.sparse (outputMask M w) h

/-- `Decoder.forward` (vae.py:126-146) on one row: `(mean, logcov)` -/
noncomputable def decode (H : Nat) (W : Weights L M w) (z : Fin L → ℝ) : (Fin M → ℝ) × (Fin M → ℝ) :=
  (decodeHead (W .meanFulcon) ((List.range H).map fun i => W (.meanHidden i)) (W .meanOutput) z,
   decodeHead (W .covFulcon) ((List.range H).map fun i => W (.covHidden i)) (W .covOutput) z)

/-- the four results of `VariationalAutoencoder.forward` on a batch of `N` rows -/
structure VaeOut (N L M : Nat) where
  recon : Fin N → Fin M → ℝ
  logcov : Fin N → Fin M → ℝ
  mu : Fin N → Fin L → ℝ
  logvar : Fin N → Fin L → ℝ

/-- torch's global generator: `torch.empty(N, L).normal_()` (vae.py:27), and the random initial values of the
weights (vae.py:174-179 and `nn.Linear`) -/
structure TorchGen (G : Type) where
  normal : (N L : Nat) → G → (Fin N → Fin L → ℝ) × G
  init : (L M H w : Nat) → G → Weights L M w × G

/-- `latent_sample` (vae.py:23-30) on a batch: the latents, the generator afterwards, and (for the record only) the
noise that was drawn -/
noncomputable def latentSample {G : Type} (gen : TorchGen G) {N : Nat} (training : Bool)
    (mu logvar : Fin N → Fin L → ℝ) (g : G) : (Fin N → Fin L → ℝ) × G × Option (Fin N → Fin L → ℝ) :=
  if training then
    let std := fun k l => Real.exp (logvar k l * (1 / 2))
    let (eps, g) := gen.normal N L g
    (fun k l => eps k l * std k l + mu k l, g, some eps)
  else (mu, g, none)

/-- `VariationalAutoencoder.forward` (vae.py:16-21) on a batch -/
noncomputable def vaeForward {G : Type} (gen : TorchGen G) (H : Nat) (W : Weights L M w) (training : Bool) {N : Nat}
    (x : Fin N → Fin M → ℝ) (g : G) : VaeOut N L M × G × Option (Fin N → Fin L → ℝ) :=
  let mu := fun k => (encode W (x k)).1
  let logvar := fun k => (encode W (x k)).2
  let (latent, g, eps) := latentSample gen training mu logvar g
  (⟨fun k => (decode H W (latent k)).1, fun k => (decode H W (latent k)).2, mu, logvar⟩, g, eps)

/-! ### module objects and `parameters()` -/

/-- a tensor of the store: weight or bias of a layer -/
inductive ParamId where
  | weight (l : LayerId)
  | bias (l : LayerId)
  deriving DecidableEq

/-- `numel()` (models.py:272) -/
def ParamId.numel (L M w : Nat) : ParamId → Nat
  | .weight l => l.out L M w * l.inn L M w
  | .bias l => l.out L M w

/-- Python objects, as far as `nn.Module` looks at them: an `nn.Parameter`, an `nn.Module` with its attributes in the
order of assignment, a dict, anything else -/
inductive PyObj where
  | param (p : ParamId)
  | module (attrs : List (String × PyObj))
  | dict (items : List (Nat × PyObj))
  | other

/-- the parameters among attributes (`nn.Module.__setattr__` registers attribute values that are an `nn.Parameter`) -/
def ownParams : List (String × PyObj) → List ParamId
  | [] => []
  | (_, .param p) :: rest => p :: ownParams rest
  | _ :: rest => ownParams rest

mutual
/-- `nn.Module.parameters()` (used in models.py:269, 272): the parameters of the module, then recursively those of
the attributes that are modules.  A dict is not a module. -/
def PyObj.parameters : PyObj → List ParamId
  | .module attrs => ownParams attrs ++ childParams attrs
  | _ => []
/-- the parameters of the submodules -/
def childParams : List (String × PyObj) → List ParamId
  | [] => []
  | (_, o) :: rest => o.parameters ++ childParams rest
end

/-- `nn.Linear(...)` and `SparseLinear(...)` (vae.py:149-172): `weight` and `bias` are parameters; `in_features`,
`out_features` and `mask` are not -/
def linearObj (l : LayerId) : PyObj :=
  .module [("in_features", .other), ("out_features", .other), ("mask", .other), ("weight", .param (.weight l)),
    ("bias", .param (.bias l))]

/-- `Encoder.__init__` (vae.py:36-39, 43-57) -/
def encoderObj : PyObj :=
  .module [("input_dim", .other), ("latent_dim", .other), ("hidden_dim", .other), ("output_dim", .other),
    ("inter_dim", .other), ("enc1", linearObj .enc1), ("enc2", linearObj .enc2), ("fc_mu", linearObj .fcMu),
    ("fc_logvar", linearObj .fcLogvar)]

/-- `Decoder.__init__` (vae.py:36-39, 72-124): `mean_linear_hidden` and `cov_linear_hidden` are dicts -/
def decoderObj (H : Nat) : PyObj :=
  .module [("input_dim", .other), ("latent_dim", .other), ("hidden_dim", .other), ("output_dim", .other),
    ("mean_linear_fulcon", linearObj .meanFulcon), ("cov_linear_fulcon", linearObj .covFulcon),
    ("mean_linear_hidden", .dict ((List.range H).map fun i => (i, linearObj (.meanHidden i)))),
    ("cov_linear_hidden", .dict ((List.range H).map fun i => (i, linearObj (.covHidden i)))),
    ("mean_linear_output", linearObj .meanOutput), ("cov_linear_output", linearObj .covOutput),
    ("activation", .module [])]

/-- `VariationalAutoencoder.__init__` (vae.py:9-14) -/
def vaeObj (H : Nat) : PyObj := .module [("encoder", encoderObj), ("decoder", decoderObj H)]

end Medil

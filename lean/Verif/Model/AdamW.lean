import Verif.Model.Ncfa
import Mathlib.Analysis.Real.Sqrt
/-
  The optimizer, the scheduler and the random initial values that `NeuroCausalFactorAnalysis` uses, as instances of the
  arbitrary functions in `NcfaEnv` (Model/Ncfa.lean).  They are library code: `torch.optim.AdamW` with its default
  `betas=(0.9, 0.999)` and `eps=1e-8`, `torch.optim.lr_scheduler.StepLR`, `torch.nn.init.kaiming_uniform_`.

  Floats are exact reals.  The gradient that `loss.backward()` computes is any function of the loss and the weights
  (the loss has points without derivative).
-/
namespace Medil

/-- the state of the optimizer for all tensors (models.py:268-271): the number `t` of steps, the number of
`scheduler.step()` calls, and for each entry of a tensor the moments `exp_avg` and `exp_avg_sq` (the indices are row
and column; a bias has only row indices) -/
structure AdamState where
  t : Nat
  sched : Nat
  m : ParamId → Nat → Nat → ℝ
  v : ParamId → Nat → Nat → ℝ

/-- the learning rate after `k` calls of `scheduler.step()` (models.py:271, 316): `StepLR(optimizer, 50, gamma=0.90)` -/
noncomputable def schedLr (lr : ℝ) (k : Nat) : ℝ := lr * (9 / 10) ^ (k / 50)

/-- `exp_avg.lerp_(grad, 1 - beta1)` (models.py:308) -/
noncomputable def nextM (m g : ℝ) : ℝ := m + (1 - 9 / 10) * (g - m)

/-- `exp_avg_sq.mul_(beta2).addcmul_(grad, grad, value=1 - beta2)` (models.py:308) -/
noncomputable def nextV (v g : ℝ) : ℝ := v * (999 / 1000) + (1 - 999 / 1000) * (g * g)

/-- one entry in `AdamW.step()` (models.py:268-270, 308) with learning rate `lr`, at step number `t`, with the new
moments `m`, `v`: `param.mul_(1 - lr * weight_decay)`, then
`param.addcdiv_(exp_avg, exp_avg_sq.sqrt() / sqrt(1 - beta2 ** t) + eps, value=-lr / (1 - beta1 ** t))` -/
noncomputable def adamEntry (lr : ℝ) (t : Nat) (m v p : ℝ) : ℝ :=
  p * (1 - lr * (1 / 100000)) +
    (-(lr / (1 - (9 / 10) ^ t))) * (m / (Real.sqrt v / Real.sqrt (1 - (999 / 1000) ^ t) + 1 / 100000000))

/-- the gradient of a function of the weights, as computed by `loss.backward()` (models.py:307) -/
abbrev Autograd := (M w : Nat) → (Weights M M w → ℝ) → Weights M M w → Weights M M w

/-- the entry of a tensor at a position; 0 outside the tensor -/
noncomputable def tensorEntry {M w : Nat} (W : Weights M M w) : ParamId → Nat → Nat → ℝ
  | .weight l, o, i => if h : o < l.out M M w ∧ i < l.inn M M w then (W l).weight ⟨o, h.1⟩ ⟨i, h.2⟩ else 0
  | .bias l, o, _ => if h : o < l.out M M w then (W l).bias ⟨o, h⟩ else 0

/-- `optimizer.step()` after `loss.backward()` (models.py:306-308; `zero_grad` makes the gradients those of this batch) -/
noncomputable def adamStep (lr : ℝ) (grad : Autograd) {M w : Nat} (s : AdamState) (f : Weights M M w → ℝ)
    (W : Weights M M w) : Weights M M w × AdamState :=
  let g := grad M w f W
  let s' : AdamState :=
    { t := s.t + 1
      sched := s.sched
      m := fun c o i => nextM (s.m c o i) (tensorEntry g c o i)
      v := fun c o i => nextV (s.v c o i) (tensorEntry g c o i) }
  let r := schedLr lr s.sched
  (fun l => { weight := fun o i => adamEntry r s'.t (s'.m (.weight l) o i) (s'.v (.weight l) o i) ((W l).weight o i)
              bias := fun o => adamEntry r s'.t (s'.m (.bias l) o 0) (s'.v (.bias l) o 0) ((W l).bias o) }, s')

/-- torch's generator with uniform draws: a batch of draws from `[0, 1)` for the entries of all tensors of a new
network (their order in the stream is left out), and normal draws -/
structure UniformGen (G : Type) where
  normal : (N L : Nat) → G → (Fin N → Fin L → ℝ) × G
  uniform : G → (ParamId → Nat → Nat → ℝ) × G
  range : ∀ g c o i, 0 ≤ (uniform g).1 c o i ∧ (uniform g).1 c o i < 1

/-- `tensor.uniform_(a, b)`: one entry -/
noncomputable def uniformIn (a b u : ℝ) : ℝ := (b - a) * u + a

/-- `kaiming_uniform_(self.weight, a=math.sqrt(5))` (vae.py:175, and `nn.Linear.reset_parameters`): the bound
`sqrt(3) * gain / sqrt(fan_in)` with `gain = sqrt(2 / (1 + a ** 2))` -/
noncomputable def kaimingBound (fanIn : Nat) : ℝ :=
  Real.sqrt 3 * (Real.sqrt (2 / (1 + Real.sqrt 5 ^ 2)) / Real.sqrt fanIn)

/-- the bound for the bias (vae.py:178, and `nn.Linear.reset_parameters`) -/
noncomputable def biasBound (fanIn : Nat) : ℝ := if 0 < fanIn then 1 / Real.sqrt fanIn else 0

/-- the values of a new network (vae.py:174-179 and `nn.Linear.reset_parameters`) -/
noncomputable def resetParameters (L M w : Nat) (u : ParamId → Nat → Nat → ℝ) : Weights L M w := fun l =>
  { weight := fun o i => uniformIn (-kaimingBound (l.inn L M w)) (kaimingBound (l.inn L M w)) (u (.weight l) o i)
    bias := fun o => uniformIn (-biasBound (l.inn L M w)) (biasBound (l.inn L M w)) (u (.bias l) o 0) }

/-- torch's generator as used by the model -/
noncomputable def UniformGen.torch {G : Type} (ug : UniformGen G) : TorchGen G where
  normal := ug.normal
  init := fun L M _ w g => (resetParameters L M w (ug.uniform g).1, (ug.uniform g).2)

/-- `NcfaEnv` with the optimizer and the scheduler of models.py:268-271, learning rate `hyperparams["lr"] = lr` -/
noncomputable def withAdamW {G O : Type} (env : NcfaEnv G O) (lr : ℝ) (grad : Autograd) : NcfaEnv G AdamState where
  gen := env.gen
  optInit := { t := 0, sched := 0, m := fun _ _ _ => 0, v := fun _ _ _ => 0 }
  optStep := adamStep lr grad
  schedStep := fun s => { s with sched := s.sched + 1 }
  perm := env.perm
  trainSize := env.trainSize
  trainSize_pos := env.trainSize_pos
  trainSize_lt := env.trainSize_lt

end Medil

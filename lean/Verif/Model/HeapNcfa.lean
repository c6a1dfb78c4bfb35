import Verif.Model.Ncfa
/-
  `NeuroCausalFactorAnalysis` objects and the memory of their weights (medil/models.py:188-225).

  `Verif/Model/Ncfa.lean` gives values to the attributes.  In Python `parameters.vae` refers to a network and `parameters.weights` is a view:
  `weight.detach().numpy().T` (models.py:215-217) shares the memory of the network's tensor `decoder.cov_linear_fulcon.weight`.
-/
namespace Medil
variable {M : Nat}

/-- an object: the attributes with values (`weights` and `vae` of this record are not used), and the references to networks: `vae` for the
network, `weights` for the network whose tensor is viewed -/
structure HNcfa (M : Nat) where
  base : NState M
  vae : Option Nat := none
  weights : Option Nat := none

/-- the process: networks in memory (`0, …, next - 1` exist), objects, arrays the user has kept (`W = model.parameters.weights`; views, given by
their network), generators and files -/
structure HNSession (M : Nat) (G : Type) where
  net : Nat → VaeModel M
  next : Nat
  objs : Nat → HNcfa M
  vars : List Nat := []
  world : NWorld G

/-- `W[a, o] = x` for a view `W` of the tensor (transposed: `W` is latents × hidden units) of a network; indices out of range raise -/
def VaeModel.setEntry (m : VaeModel M) (a : Fin M) (o : Nat) (x : ℝ) : VaeModel M :=
  if h : o < M * m.width then
    let l := m.weights .covFulcon
    let new : Layer (LayerId.covFulcon.inn M M m.width) (LayerId.covFulcon.out M M m.width) :=
      ⟨Function.update l.weight ⟨o, h⟩ (Function.update (l.weight ⟨o, h⟩) a x), l.bias⟩
    { m with weights := Function.update m.weights .covFulcon new }
  else m

/-- what a user does -/
inductive HNStep (M : Nat) where
  /-- `fit` of object `i` -/
  | fit (i : Nat) (d : Dataset M) (split : Option (List Int × List Int))
  /-- `model.parameters.weights[a, o] = x` for object `i` -/
  | edit (i : Nat) (a : Fin M) (o : Nat) (x : ℝ)
  /-- `W = model.parameters.weights` for object `i` -/
  | keep (i : Nat)
  /-- `W[a, o] = x` for the `v`-th array kept -/
  | editKept (v : Nat) (a : Fin M) (o : Nat) (x : ℝ)

/-- write to a network -/
def HNSession.write {G : Type} (s : HNSession M G) (r : Nat) (a : Fin M) (o : Nat) (x : ℝ) : HNSession M G :=
  { s with net := Function.update s.net r ((s.net r).setEntry a o x) }

/-- one step.  `fit` (models.py:188-225) makes a new network (line 264) and, if it returns, lets both attributes refer to it (lines 215-218);
exceptions are caught by the caller.  The files hold copies (lines 210-214). -/
noncomputable def HNSession.step {G O : Type} (env : NcfaEnv G O) (s : HNSession M G) : HNStep M → HNSession M G
  | .fit i d split =>
    let r := ncfaFit env d split (s.objs i).base s.world
    match r.2.2.2, r.1.vae with
    | .ok (), some m =>
      { s with net := Function.update s.net s.next m, next := s.next + 1, world := r.2.1,
               objs := Function.update s.objs i { base := r.1, vae := some s.next, weights := some s.next } }
    | _, _ => { s with world := r.2.1, objs := Function.update s.objs i { s.objs i with base := r.1 } }
  | .edit i a o x => match (s.objs i).weights with
    | some r => s.write r a o x
    | none => s
  | .keep i => match (s.objs i).weights with
    | some r => { s with vars := s.vars ++ [r] }
    | none => s
  | .editKept v a o x => match s.vars[v]? with
    | some r => s.write r a o x
    | none => s

/-- a history of steps -/
noncomputable def HNSession.run {G O : Type} (env : NcfaEnv G O) (s : HNSession M G) (cs : List (HNStep M)) : HNSession M G :=
  cs.foldl (HNSession.step env) s

/-- the network of object `i` at the moment -/
def HNSession.vaeOf {G : Type} (s : HNSession M G) (i : Nat) : Option (VaeModel M) := (s.objs i).vae.map s.net

/-- the contents of `parameters.weights` of object `i` at the moment -/
def HNSession.weightsOf {G : Type} (s : HNSession M G) (i : Nat) : Option ((w : Nat) × (Fin M → Fin (M * w) → ℝ)) :=
  (s.objs i).weights.map fun r => ⟨(s.net r).width, fun a o => ((s.net r).weights .covFulcon).weight o a⟩

end Medil

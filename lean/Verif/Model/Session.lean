import Verif.Model.Gaussian
/-
  Several `GaussianMCM` objects in one Python session (medil/models.py:29-39, 69-143): the generator that is the
  default value of the argument `rng` (models.py:34) is created once, when the class is defined, and is shared
  by all objects created without `rng`.
-/
namespace Medil
variable {M : Nat}

/-- the objects `0, 1, 2, …` of a session, the generators passed explicitly (`none`: the default was used), and
the default generator -/
structure Session (M : Nat) (G : Type) where
  obj : Nat → GState M
  own : Nat → Option G
  shared : G

/-- a call on object `i` -/
inductive SessionCall (M : Nat) where
  | fit (i : Nat) (o : Sched M) (d : Dataset M)
  | sample (i : Nat) (size : Nat)

/-- the object of a call -/
def SessionCall.on : SessionCall M → Nat
  | .fit i _ _ => i
  | .sample i _ => i

/-- what a call returns: nothing or an exception for `fit`, an array or an exception for `sample` -/
inductive SessionOut (M : Nat) where
  | fitted (r : Except PyErr Bool)
  | sampled (size : Nat) (r : Except PyErr (Fin size → Fin M → ℝ))

/-- one call (models.py:76-110 for `fit`, which draws nothing; models.py:130-143 for `sample`) -/
noncomputable def Session.step {G : Type} (gen : MvnGen G) (opt : Optimizer) (s : Session M G) :
    SessionCall M → Session M G × SessionOut M
  | .fit i o d =>
    let r := gaussianFit opt o d (s.obj i)
    ({ s with obj := Function.update s.obj i r.1 }, .fitted r.2)
  | .sample i size =>
    match s.own i with
    | some g =>
      let r := (s.obj i).sample gen size g
      ({ s with own := Function.update s.own i (some r.2) }, .sampled size r.1)
    | none =>
      let r := (s.obj i).sample gen size s.shared
      ({ s with shared := r.2 }, .sampled size r.1)

/-- the results of a history of calls, each with the object it was made on -/
noncomputable def Session.run {G : Type} (gen : MvnGen G) (opt : Optimizer) (s : Session M G) :
    List (SessionCall M) → List (Nat × SessionOut M)
  | [] => []
  | c :: cs => (c.on, (s.step gen opt c).2) :: Session.run gen opt (s.step gen opt c).1 cs

end Medil

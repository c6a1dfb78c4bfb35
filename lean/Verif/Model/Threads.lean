import Verif.Model.Session
import Verif.Model.InterruptGaussian
/-
  `GaussianMCM.fit` and `GaussianMCM.sample` (medil/models.py:76-143) called from several threads: every read and every assignment of an
  attribute is one step, and the steps of different threads alternate in any order.

  Each draw from a generator is one step (numpy's generators lock).  The optimizer (models.py:87-101) is one step: `self.biadj`, which the
  code reads again in every evaluation of the objective, is read once.  Arrays are replaced, not edited, except in models.py:108.
  Lines 136-140 read the means and the variances in one step, line 108 the weights and the structure.
-/
namespace Medil
variable {M : Nat}

/-- `A[mask] = x` for a two-dimensional boolean mask and a vector of length `k` (numpy): the shapes of array and mask must agree, and `x`
must have one entry per true entry of the mask, or exactly one -/
noncomputable def maskAssign (B : List (BVec M)) (W : Fin B.length → Fin M → ℝ) (mask : List (BVec M)) (k : Nat) (x : Fin k → ℝ) :
    Except PyErr (Fin B.length → Fin M → ℝ) :=
  if hB : B.length = mask.length then
    if hk : (maskPositions mask).length = k then
      .ok fun i j => if h : (maskPositions mask).idxOf (Fin.cast hB i, j) < (maskPositions mask).length then x ⟨_, hk ▸ h⟩ else W i j
    else if h1 : k = 1 then
      .ok fun i j => if (maskPositions mask).idxOf (Fin.cast hB i, j) < (maskPositions mask).length then x ⟨0, by omega⟩ else W i j
    else .error .valueError
  else .error .indexError

/-- the matrix `_estimate_udg` computes from the sample size, the covariances and the correlations it has read (models.py:123-127) -/
noncomputable def udgFrom (n : Nat) (cov : Fin M → Fin M → ℝ) (corr : Fin M → Fin M → Fl ℝ) : Except PyErr (BMat M) :=
  let t := fun i j : Fin M =>
    if j ≤ i then decide (Real.log 1 < -Real.log n / n)
    else match corr i j with
      | .fin r => decide (Real.log (max (1 - cov i j * r) (1 / 100000)) < -Real.log n / n)
      | _ => false
  if M = 1 then .error .valueError else .ok (BMat.of fun i j => t i j || t j i)

/-- where a thread is in a call, with its local variables (models.py:76-143); `o` is the set order of the call -/
inductive GPc (M : Nat) where
  /-- before line 79 -/
  | fitStart (o : Sched M) (d : Dataset M)
  /-- before line 80 -/
  | fitTest (o : Sched M)
  /-- before line 114 -/
  | compTest (o : Sched M)
  /-- before lines 120, 121, 122 -/
  | estSize (o : Sched M)
  | estCov (o : Sched M) (n : Nat)
  | estCorr (o : Sched M) (n : Nat) (cov : Fin M → Fin M → ℝ)
  /-- before line 128 -/
  | setUdg (o : Sched M) (U : BMat M)
  /-- before the right and the left side of line 116 -/
  | heur (o : Sched M)
  | setBiadj (B : List (BVec M))
  /-- before the right and the left side of line 83 -/
  | meanRead
  | meanSet (v : Fin M → ℝ)
  /-- before line 85 -/
  | covRead
  /-- before line 87 -/
  | minimize (cov : Fin M → Fin M → ℝ)
  /-- before lines 105, 107, 108; `k` is `num_weights`, `x` is `result.x`, `w` tells whether there was a warning -/
  | varSet (k : Nat) (x : Fin (k + M) → ℝ) (w : Bool)
  | zeros (k : Nat) (x : Fin (k + M) → ℝ) (w : Bool)
  | fill (k : Nat) (x : Fin (k + M) → ℝ) (w : Bool)
  /-- before lines 132, 136, 142 of `sample` -/
  | latents (size : Nat)
  | errors (size L : Nat) (z : Fin size → Fin L → ℝ)
  | multiply (size L : Nat) (z : Fin size → Fin L → ℝ) (e : Fin size → Fin M → ℝ)
  /-- the call has returned or raised -/
  | done (r : SessionOut M)

/-- the first point of a call -/
def SessionCall.start : SessionCall M → GPc M
  | .fit _ o d => .fitStart o d
  | .sample _ size => .latents size

/-- one step of a call on an object with attributes `a` and a generator in state `g` (models.py:76-143).  A read of `dataset` finds one,
because the call has assigned it before; so does a read of `udg`. -/
noncomputable def GPc.step {G : Type} (gen : MvnGen G) (opt : Optimizer) (p : GPc M) (a : GAttrs M) (g : G) : GPc M × GAttrs M × G :=
  match p with
  | .fitStart o d => (.fitTest o, { a with dataset := some d }, g)
  | .fitTest o => (if a.biadj.length * M = 0 then .compTest o else .meanRead, a, g)
  | .compTest o => (if a.udg.isSome && decide (M * M ≠ 0) then .heur o else .estSize o, a, g)
  | .estSize o =>
    match a.dataset with
    | some d => (.estCov o d.size, a, g)
    | none => (.done (.fitted (.error .attributeError)), a, g)
  | .estCov o n =>
    match a.dataset with
    | some d => (.estCorr o n d.cov, a, g)
    | none => (.done (.fitted (.error .attributeError)), a, g)
  | .estCorr o n cov =>
    match a.dataset with
    | some d =>
      match udgFrom n cov d.corr with
      | .ok U => (.setUdg o U, a, g)
      | .error e => (.done (.fitted (.error e)), a, g)
    | none => (.done (.fitted (.error .attributeError)), a, g)
  | .setUdg o U => (.heur o, { a with udg := some U }, g)
  | .heur o =>
    match a.udg with
    | some U =>
      match findHeuristic1pc o U with
      | .ok B => (.setBiadj B, a, g)
      | .error e => (.done (.fitted (.error e)), a, g)
    | none => (.done (.fitted (.error .attributeError)), a, g)
  | .setBiadj B => (.meanRead, { a with biadj := B }, g)
  | .meanRead =>
    match a.dataset with
    | some d => (.meanSet d.mean, a, g)
    | none => (.done (.fitted (.error .attributeError)), a, g)
  | .meanSet v => (.covRead, { a with means := some v }, g)
  | .covRead =>
    match a.dataset with
    | some d => (.minimize d.cov, a, g)
    | none => (.done (.fitted (.error .attributeError)), a, g)
  | .minimize cov =>
    let r := opt _ (objective cov a.biadj)
    (.varSet (maskPositions a.biadj).length r.1 (!r.2), a, g)
  | .varSet k x w => (.zeros k x w, { a with variances := some (tailPart x) }, g)
  | .zeros k x w => (.fill k x w, { a with weights := some ⟨a.biadj, fun _ _ => 0⟩ }, g)
  | .fill k x w =>
    match a.weights with
    | some ⟨B, W⟩ =>
      match maskAssign B W a.biadj k (headPart x) with
      | .ok W' => (.done (.fitted (.ok w)), { a with weights := some ⟨B, W'⟩ }, g)
      | .error e => (.done (.fitted (.error e)), a, g)
    | none => (.done (.fitted (.error .indexError)), a, g)
  | .latents size =>
    if a.biadj.length = 0 then (.done (.sampled size (.error .valueError)), a, g) else
    let r := gen.mvn (fun _ : Fin a.biadj.length => 0) (fun i j => if i = j then 1 else 0) size g
    (.errors size a.biadj.length r.1, a, r.2)
  | .errors size L z =>
    match a.means, a.variances with
    | some m, some v =>
      if M = 0 then (.done (.sampled size (.error .valueError)), a, g) else
      let r := gen.mvn m (fun i j => if i = j then v i else 0) size g
      (.multiply size L z r.1, a, r.2)
    | _, _ => (.done (.sampled size (.error .valueError)), a, g)
  | .multiply size L z e =>
    match a.weights with
    | some ⟨B, W⟩ =>
      if h : B.length = L then (.done (.sampled size (.ok fun k j => (∑ r, z k (Fin.cast h r) * W r j) + e k j)), a, g)
      else (.done (.sampled size (.error .valueError)), a, g)
    | none => (.done (.sampled size (.error .valueError)), a, g)
  | .done r => (.done r, a, g)

/-- a thread: the call it is in, with the object, the calls it still has to make, and what its calls returned -/
structure GThread (M : Nat) where
  cur : Option (Nat × GPc M) := none
  todo : List (SessionCall M)
  out : List (Nat × SessionOut M) := []

/-- a process: the attributes of the objects `0, 1, 2, …`, their generators as in `Session`, and the threads -/
structure GProc (M : Nat) (G : Type) where
  obj : Nat → GAttrs M
  own : Nat → Option G
  shared : G
  thread : Nat → GThread M

/-- thread `t` makes one step: it begins its next call, does one step of the call it is in (on the object of the call, with the generator
of that object: models.py:34, 39), or takes the result of the call (models.py:76-143) -/
noncomputable def GProc.step {G : Type} (gen : MvnGen G) (opt : Optimizer) (p : GProc M G) (t : Nat) : GProc M G :=
  match (p.thread t).cur with
  | none =>
    match (p.thread t).todo with
    | [] => p
    | c :: cs => { p with thread := Function.update p.thread t { p.thread t with cur := some (c.on, c.start), todo := cs } }
  | some (i, .done r) =>
    { p with thread := Function.update p.thread t { p.thread t with cur := none, out := (p.thread t).out ++ [(i, r)] } }
  | some (i, pc) =>
    match p.own i with
    | some g =>
      let r := pc.step gen opt (p.obj i) g
      { p with obj := Function.update p.obj i r.2.1, own := Function.update p.own i (some r.2.2)
               thread := Function.update p.thread t { p.thread t with cur := some (i, r.1) } }
    | none =>
      let r := pc.step gen opt (p.obj i) p.shared
      { p with obj := Function.update p.obj i r.2.1, shared := r.2.2
               thread := Function.update p.thread t { p.thread t with cur := some (i, r.1) } }

/-- a schedule: the threads in the order in which they make their steps -/
noncomputable def GProc.run {G : Type} (gen : MvnGen G) (opt : Optimizer) (p : GProc M G) (sched : List Nat) : GProc M G :=
  sched.foldl (GProc.step gen opt) p

/-- a thread that has made all its calls -/
def GThread.Finished (th : GThread M) : Prop := th.cur = none ∧ th.todo = []

/-- a process with the objects of a session whose thread `t` is about to make the calls `calls t` -/
def GProc.start {G : Type} (s : Session M G) (calls : Nat → List (SessionCall M)) : GProc M G :=
  { obj := fun i => (s.obj i).attrs, own := s.own, shared := s.shared, thread := fun t => { todo := calls t } }

end Medil

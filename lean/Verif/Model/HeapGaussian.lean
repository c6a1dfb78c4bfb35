import Verif.Model.Gaussian
/-
  `GaussianMCM` objects and the arrays they share with the user (medil/models.py:24-143).

  `Verif/Model/Gaussian.lean` gives values to attributes; here attributes are references to arrays in a memory, as in Python: the
  constructor and `fit` keep references to the arrays they are given (models.py:36-37, 79), the user can write to these arrays at any time.
  All arrays have `M` columns; floats are exact reals.
-/
namespace Medil
variable {M : Nat}

/-- the contents of an array: a 2-dimensional bool array (a structure or a graph), a 2-dimensional float array (a dataset, weights, a
sample) or a 1-dimensional float array of length `M` -/
inductive GArr (M : Nat) where
  | bools (rows : List (BVec M))
  | floats (rows : List (Fin M → ℝ))
  | vec (v : Fin M → ℝ)

/-- dtype and `shape` (all arrays have `M` columns) -/
def GArr.shape : GArr M → Nat × Nat
  | .bools r => (0, r.length)
  | .floats r => (1, r.length)
  | .vec _ => (2, 0)

/-- the memory: the arrays `0, 1, …, next - 1` exist -/
structure GMem (M : Nat) where
  arr : Nat → GArr M
  next : Nat

/-- a new array; its reference is `m.next` -/
def GMem.alloc (m : GMem M) (x : GArr M) : GMem M := ⟨Function.update m.arr m.next x, m.next + 1⟩

/-- `a[...] = x`: an array is overwritten in place -/
def GMem.write (m : GMem M) (a : Nat) (x : GArr M) : GMem M := ⟨Function.update m.arr a x, m.next⟩

/-- the attributes of a `GaussianMCM` (models.py:36-37, 55-57, 79): references; `none` is the default empty array, or no attribute
`dataset` -/
structure HGauss where
  biadj : Option Nat := none
  udg : Option Nat := none
  dataset : Option Nat := none
  means : Option Nat := none
  variances : Option Nat := none
  weights : Option Nat := none

/-- a graph given by its rows -/
def graphOfRows (rows : List (BVec M)) : BMat M := BMat.of fun i j => if h : i.1 < rows.length then rows[i.1] j else false

/-- the rows of a graph -/
def rowsOf (U : BMat M) : List (BVec M) := (List.finRange M).map fun i => BVec.of fun j => U i j

/-- the bool array at a reference; the default `np.array([])` has no rows -/
def GMem.structAt (m : GMem M) : Option Nat → List (BVec M)
  | none => []
  | some a => match m.arr a with
    | .bools r => r
    | _ => []

/-- the graph at a reference -/
def GMem.graphAt (m : GMem M) : Option Nat → Option (BMat M)
  | none => none
  | some a => match m.arr a with
    | .bools r => some (graphOfRows r)
    | _ => none

/-- the 1-dimensional array at a reference -/
def GMem.vecAt (m : GMem M) : Option Nat → Option (Fin M → ℝ)
  | none => none
  | some a => match m.arr a with
    | .vec v => some v
    | _ => none

/-- the 2-dimensional float array at a reference -/
def GMem.rowsAt (m : GMem M) : Option Nat → Option (List (Fin M → ℝ))
  | none => none
  | some a => match m.arr a with
    | .floats r => some r
    | _ => none

/-- the array at a reference as a dataset: at least two rows -/
def GMem.dataAt (m : GMem M) (a : Nat) : Option (Dataset M) :=
  match m.arr a with
  | .floats r => if h : 2 ≤ r.length then some ⟨r.length, h, fun k => r[k]⟩ else none
  | _ => none

/-- `_estimate_udg` (models.py:118-128): the graph is a new array -/
noncomputable def heapEstimate (d : Dataset M) (h : HGauss) (m : GMem M) : HGauss × GMem M × Except PyErr Unit :=
  match estimateUdgCov d with
  | .error e => (h, m, .error e)
  | .ok U => ({ h with udg := some m.next }, m.alloc (.bools (rowsOf U)), .ok ())

/-- lines 114-115 (models.py) -/
noncomputable def heapUdg (d : Dataset M) (h : HGauss) (m : GMem M) : HGauss × GMem M × Except PyErr Unit :=
  match m.graphAt h.udg with
  | some _ => if M * M = 0 then heapEstimate d h m else (h, m, .ok ())
  | none => heapEstimate d h m

/-- `_compute_biadj` (models.py:112-116): the graph is read where `udg` refers to; the structure is a new array (`find_heuristic_1pc`
builds its result with `np.zeros`, ecc_algorithms.py:240) -/
noncomputable def heapCompute (o : Sched M) (d : Dataset M) (h : HGauss) (m : GMem M) : HGauss × GMem M × Except PyErr Unit :=
  match heapUdg d h m with
  | (h, m, .error e) => (h, m, .error e)
  | (h, m, .ok ()) =>
    match m.graphAt h.udg with
    | none => (h, m, .error .unmodelled)
    | some U =>
      match findHeuristic1pc o U with
      | .error e => (h, m, .error e)
      | .ok B => ({ h with biadj := some m.next }, m.alloc (.bools B), .ok ())

/-- lines 83-110 of `fit` (models.py): `mean(0)`, the part of `result.x` and `np.zeros_like` are new arrays; the weights are written into
the last one -/
noncomputable def heapParams (opt : Optimizer) (d : Dataset M) (h : HGauss) (m : GMem M) : HGauss × GMem M × Except PyErr Bool :=
  let B := m.structAt h.biadj
  let (h, m) := ({ h with means := some m.next }, m.alloc (.vec d.mean))
  let r := opt _ (objective d.cov B)
  let (h, m) := ({ h with variances := some m.next }, m.alloc (.vec (tailPart r.1)))
  let (h, m) := ({ h with weights := some m.next }, m.alloc (.floats (List.ofFn fun _ : Fin B.length => fun _ => 0)))
  (h, m.write (m.next - 1) (.floats (List.ofFn (placeWeights B (headPart r.1)))), .ok !r.2)

/-- `GaussianMCM.fit` (models.py:76-110) with the array `a` as dataset: the object, the memory and the outcome.  Arrays that are not
datasets are refused here; Python's behaviour on them is not modelled. -/
noncomputable def heapFit (opt : Optimizer) (o : Sched M) (a : Nat) (h : HGauss) (m : GMem M) : HGauss × GMem M × Except PyErr Bool :=
  match m.dataAt a with
  | none => (h, m, .error .unmodelled)
  | some d =>
    let h := { h with dataset := some a }
    if (m.structAt h.biadj).length * M = 0 then
      match heapCompute o d h m with
      | (h, m, .error e) => (h, m, .error e)
      | (h, m, .ok ()) => heapParams opt d h m
    else heapParams opt d h m

/-- lines 133-143 of `sample` (models.py) with the number `n` of latents and the arrays of parameters, see `GState.sample` -/
noncomputable def sampleFrom {G : Type} (gen : MvnGen G) (n : Nat) (means vars : Option (Fin M → ℝ)) (weights : Option (List (Fin M → ℝ)))
    (size : Nat) (g : G) : Except PyErr (Fin size → Fin M → ℝ) × G :=
  if n = 0 then (.error .valueError, g) else
  let (z, g) := gen.mvn (fun _ : Fin n => 0) (fun i j => if i = j then 1 else 0) size g
  match means, vars, weights with
  | some means, some vars, some W =>
    if M = 0 then (.error .valueError, g) else
    let (e, g) := gen.mvn means (fun i j => if i = j then vars i else 0) size g
    if hw : W.length = n then
      (.ok fun k j => (∑ r : Fin W.length, z k (Fin.cast hw r) * W[r] j) + e k j, g)
    else (.error .valueError, g)
  | _, _, _ => (.error .valueError, g)

/-- `GaussianMCM.sample` (models.py:130-143): `len(self.biadj)` and the arrays of parameters are read -/
noncomputable def heapSample {G : Type} (gen : MvnGen G) (h : HGauss) (m : GMem M) (size : Nat) (g : G) :
    Except PyErr (Fin size → Fin M → ℝ) × G :=
  sampleFrom gen (m.structAt h.biadj).length (m.vecAt h.means) (m.vecAt h.variances) (m.rowsAt h.weights) size g

/-- the objects and arrays of a session -/
structure HSession (M : Nat) where
  mem : GMem M
  objs : List HGauss := []

/-- what a user does -/
inductive HStep (M : Nat) (G : Type) where
  /-- make an array -/
  | array (x : GArr M)
  /-- overwrite an array in place -/
  | write (a : Nat) (x : GArr M)
  /-- `GaussianMCM(biadj=…, udg=…)` -/
  | create (biadj udg : Option Nat)
  /-- `fit` of object `i` to the array `a`; `o` is the set order of this call -/
  | fit (i : Nat) (o : Sched M) (a : Nat)
  /-- `sample(size)` on object `i` with a generator in state `g` -/
  | sample (i : Nat) (size : Nat) (g : G)

/-- a reference that may be passed to the constructor: none, or an existing bool array, square if `sq` -/
def GMem.passable (m : GMem M) (sq : Bool) : Option Nat → Bool
  | none => true
  | some a => decide (a < m.next) && match m.arr a with
    | .bools r => !sq || r.length == M
    | _ => false

/-- one step.  Writing in place keeps the dtype and the shape; steps that refer to arrays or objects that do not exist or are of the
wrong kind are ignored.  `create` keeps the references (models.py:29-39, 72-74); the sample is a new array (models.py:142). -/
noncomputable def HSession.step {G : Type} (gen : MvnGen G) (opt : Optimizer) (s : HSession M) : HStep M G → HSession M
  | .array x => { s with mem := s.mem.alloc x }
  | .write a x => if a < s.mem.next ∧ x.shape = (s.mem.arr a).shape then { s with mem := s.mem.write a x } else s
  | .create b u =>
    if s.mem.passable false b && s.mem.passable true u then { s with objs := s.objs ++ [{ biadj := b, udg := u }] } else s
  | .fit i o a =>
    match s.objs[i]? with
    | some h => if a < s.mem.next then
        ⟨(heapFit opt o a h s.mem).2.1, s.objs.set i (heapFit opt o a h s.mem).1⟩ else s
    | none => s
  | .sample i size g =>
    match s.objs[i]? with
    | some h =>
      match (heapSample gen h s.mem size g).1 with
      | .ok x => { s with mem := s.mem.alloc (.floats (List.ofFn x)) }
      | .error _ => s
    | none => s

/-- a history of steps -/
noncomputable def HSession.run {G : Type} (gen : MvnGen G) (opt : Optimizer) (s : HSession M) (steps : List (HStep M G)) : HSession M :=
  steps.foldl (fun s c => s.step gen opt c) s

end Medil

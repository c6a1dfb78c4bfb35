import Verif.Model.Ecc
import Mathlib.Data.Rat.Floor
import Mathlib.Algebra.Order.Ring.Rat
import Mathlib.Algebra.Field.Rat
import Mathlib.Logic.Equiv.Basic
import Mathlib.Data.Fintype.Basic
/-
  Model of medil/sample.py.

  A `numpy.random.Generator` is a state of an arbitrary type `G` together with arbitrary functions that
  answer the calls the code makes and give the next state (`Gen G`).  Nothing is assumed about the
  answers except the documented ranges.  Floats are modelled as exact rationals.
-/
namespace Medil

/-- the `numpy.random.Generator` methods used by medil/sample.py, with their documented ranges -/
structure Gen (G : Type) where
  /-- `rng.integers(low, high)` for `low < high` -/
  integers : Int → Int → G → Int × G
  integers_range : ∀ lo hi g, lo < hi → lo ≤ (integers lo hi g).1 ∧ (integers lo hi g).1 < hi
  /-- `rng.random()` -/
  random : G → ℚ × G
  random_range : ∀ g, 0 ≤ (random g).1 ∧ (random g).1 < 1
  /-- the rearrangement made by `rng.permutation(x)` of `m` items: item `k` of the result is item
  `π k` of the argument -/
  permutation : (m : Nat) → G → Equiv.Perm (Fin m) × G
  /-- the rearrangements made by `rng.permuted(x, axis=0)`: one per column -/
  permuted : (rows cols : Nat) → G → (Fin cols → Equiv.Perm (Fin rows)) × G
  /-- `rng.random(m)` -/
  randomVec : (m : Nat) → G → (Fin m → ℚ) × G
  randomVec_range : ∀ m g i, 0 ≤ (randomVec m g).1 i ∧ (randomVec m g).1 i < 1
  /-- `rng.choice((True, False), m)` -/
  choiceVec : (m : Nat) → G → (Fin m → Bool) × G

/-- `np.round(x).astype(int)`: rounds halves to the even neighbour (sample.py:69, 93) -/
def roundHalfEven (x : ℚ) : Int :=
  if x - (⌊x⌋ : ℚ) < 1 / 2 then ⌊x⌋
  else if 1 / 2 < x - (⌊x⌋ : ℚ) then ⌊x⌋ + 1
  else if ⌊x⌋ % 2 = 0 then ⌊x⌋ else ⌊x⌋ + 1

/-- the number of entries selected by `edges[:stop]` in an array of length `len`: a negative `stop`
counts from the end (sample.py:72; the complement of the slice of line 96) -/
def sliceLen (len : Nat) (stop : Int) : Nat :=
  if 0 ≤ stop then min len stop.toNat else len - (-stop).toNat

/-- the matrix before the random rearrangements of lines 78 and 81 (sample.py:59-75): `edges` is the
already permuted edge vector, read row by row (`reshape`) -/
def pureBase {l n : Nat} (edges : Nat → Bool) (i : Fin l) (j : Fin n) : Bool :=
  if j.val < l then i.val == j.val
  else if i.val = 0 then true
  else edges ((i.val - 1) * (n - l) + (j.val - l))

/-- the one-pure-child branch of `biadj` for `1 ≤ num_latent = l ≤ num_meas = n`
(sample.py:59-81), with the three random rearrangements as arguments: `π` of the edge vector (line 73),
`cols` of each non-pure column (line 78), `σ` of the columns (line 81). -/
def pureBiadj (l n : Nat) (density : ℚ)
    (π : Equiv.Perm (Fin ((n - l) * (l - 1)))) (cols : Fin (n - l) → Equiv.Perm (Fin l))
    (σ : Equiv.Perm (Fin n)) : List (BVec n) :=
  let numEdges := roundHalfEven (((n - l) * (l - 1) : Nat) * density)
  let edges : Nat → Bool := fun k =>
    if h : k < (n - l) * (l - 1) then
      decide ((π ⟨k, h⟩).val < sliceLen ((n - l) * (l - 1)) numEdges)
    else false
  let permuted (i : Fin l) (j : Fin n) : Bool :=
    if h : j.val < l then pureBase edges i j
    else pureBase edges (cols ⟨j.val - l, by omega⟩ i) j
  List.ofFn fun i : Fin l => BVec.of fun j => permuted i (σ j)

/-- position of the pair `i < j` in `np.triu_indices(n, k=1)` (sample.py:98) -/
def triuPos {n : Nat} (i j : Fin n) : Nat := (triuPairs n).idxOf (i, j)

/-- the random graph of the Erdős–Rényi branch (sample.py:90-100) -/
def randomUdg (n : Nat) (density : ℚ) (π : Equiv.Perm (Fin (n * (n - 1) / 2))) : BMat n :=
  let numEdges := roundHalfEven (density * (n * (n - 1) / 2 : Nat))
  let edges : Nat → Bool := fun k =>
    if h : k < n * (n - 1) / 2 then decide ((π ⟨k, h⟩).val < sliceLen (n * (n - 1) / 2) numEdges)
    else false
  let upper (i j : Fin n) : Bool := if i < j then edges (triuPos i j) else false
  BMat.of fun i j => if i = j then true else upper i j || upper j i

/-- arguments of `biadj` (sample.py:43-49) other than `rng`, with their defaults -/
structure BiadjArgs where
  numMeas : Int
  density : Option ℚ := some (1 / 5)
  onePureChild : Bool := true
  numLatent : Int := 0

/-- the number of latents (sample.py:53-54) -/
def drawNumLatent {G : Type} (gen : Gen G) (a : BiadjArgs) (g : G) : Int × G :=
  if a.numLatent = 0 then gen.integers 1 a.numMeas g else (a.numLatent, g)

/-- the density (sample.py:55-56) -/
def drawDensity {G : Type} (gen : Gen G) (a : BiadjArgs) (g : G) : ℚ × G :=
  match a.density with
  | none => gen.random g
  | some d => (d, g)

/-- `biadj` (sample.py:43-105) called with generator state `g`; returns the outcome and the
generator's state afterwards.

`rng.integers(1, num_meas)` raises `ValueError` unless `1 < num_meas` (line 54).  `np.zeros` of a
negative size (lines 59, 90) and assigning `np.eye(num_latent)` to fewer columns (line 60; for
`num_latent = 1`, `num_meas = 0` the `reshape` of line 73) raise `ValueError`.  `None * int` (line 93) is
a `TypeError`.  `rts` and `fuel` are the set orders and pass bound of the cover search (line 103). -/
def sampleBiadj {G : Type} (gen : Gen G) (rts : (n : Nat) → Runtime n) (fuel : Nat) (a : BiadjArgs)
    (g : G) : Except PyErr (List (BVec a.numMeas.toNat)) × G :=
  if a.onePureChild then
    if a.numLatent = 0 ∧ ¬ 1 < a.numMeas then (.error .valueError, g)
    else
      let (l, g) := drawNumLatent gen a g
      let (d, g) := drawDensity gen a g
      if l < 1 ∨ a.numMeas < l then (.error .valueError, g)
      else
        let (π, g) := gen.permutation _ g
        let (cols, g) := gen.permuted _ _ g
        let (σ, g) := gen.permutation _ g
        (.ok (pureBiadj l.toNat a.numMeas.toNat d π cols σ), g)
  else if a.numLatent ≠ 0 then (.error .valueError, g)
  else if a.numMeas < 0 then (.error .valueError, g)
  else match a.density with
    | none => (.error .typeError, g)
    | some d =>
      let (π, g) := gen.permutation _ g
      (findCliqueMinCover (rts _) fuel (randomUdg a.numMeas.toNat d π), g)

/-- the parameters of a `GaussianMCM` built by `mcm` (sample.py:19-32); `weights i j` is `biadj_weights[i, j]` -/
structure McmParams (n : Nat) where
  biadj : List (BVec n)
  weights : Fin biadj.length → Fin n → ℚ
  means : Fin n → ℚ
  variances : Fin n → ℚ

/-- the positions of a bool matrix in the order numpy's mask assignment uses (row by row; sample.py:26) -/
def maskPositions {n : Nat} (B : List (BVec n)) : List (Fin B.length × Fin n) :=
  (List.finRange B.length).flatMap fun i => ((List.finRange n).filter fun j => B[i] j).map fun j => (i, j)

/-- entry of the array after `w[flip] *= -1` (sample.py:24, 30) -/
def flipped (flip : Bool) (x : ℚ) : ℚ := if flip then -x else x

/-- the Gaussian parameters drawn for a bool matrix (sample.py:22-32) -/
def gaussianParams {G : Type} (gen : Gen G) {n : Nat} (B : List (BVec n)) (g : G) : McmParams n × G :=
  let (w, g) := gen.randomVec (maskPositions B).length g
  let (f, g) := gen.choiceVec (maskPositions B).length g
  let (m, g) := gen.randomVec n g
  let (mf, g) := gen.choiceVec n g
  let (v, g) := gen.randomVec n g
  ({ biadj := B
     weights := fun i j =>
       if h : (maskPositions B).idxOf (i, j) < (maskPositions B).length then
         flipped (f ⟨_, h⟩) (w ⟨_, h⟩ * (3 / 2) + 1 / 2)
       else 0
     means := fun j => flipped (mf j) (m j * 2)
     variances := fun j => v j * (3 / 2) + 1 / 2 }, g)

/-- state shared by all calls: the two generators created as default arguments when the module is
loaded (sample.py:11 and sample.py:48) -/
structure World (G : Type) where
  mcmGen : G
  biadjGen : G

/-- the `biadj` argument of `mcm` (sample.py:13): absent or of size 0, or a non-empty bool matrix -/
inductive BiadjArg where
  | absent
  | given (n : Nat) (B : List (BVec n))

/-- arguments of `mcm` (sample.py:10-15).  `rng = none` is the default.  `kwargs` are the arguments
handed on to `biadj`; `none` means `num_meas` is missing (a `TypeError` when `biadj` is called). -/
structure McmArgs (G : Type) where
  rng : Option G := none
  parameterization : String := "Gaussian"
  biadj : BiadjArg := .absent
  kwargs : Option BiadjArgs := none

/-- outcome of a call of `mcm`: the model, the state of the passed generator, the shared state -/
structure McmOut (G : Type) where
  res : Except PyErr (Σ n, McmParams n)
  rng : Option G
  world : World G

/-- lines 18-40 of `mcm` (sample.py), after the structure is known -/
def mcmWith {G : Type} (gen : Gen G) (a : McmArgs G) (w : World G) (n : Nat) (B : List (BVec n)) : McmOut G :=
  if a.parameterization = "Gaussian" then
    match a.rng with
    | some g => let (p, g) := gaussianParams gen B g; ⟨.ok ⟨n, p⟩, some g, w⟩
    | none => let (p, g) := gaussianParams gen B w.mcmGen; ⟨.ok ⟨n, p⟩, none, { w with mcmGen := g }⟩
  else if a.parameterization = "VAE" then ⟨.error .notImplemented, a.rng, w⟩
  else ⟨.error .valueError, a.rng, w⟩

/-- `mcm` (sample.py:10-40).  Line 17 calls `_biadj(**kwargs)`: the generator passed to `mcm` is not
handed on, so `biadj` uses (and advances) its own default generator. -/
def sampleMcm {G : Type} (gen : Gen G) (rts : (n : Nat) → Runtime n) (fuel : Nat) (a : McmArgs G)
    (w : World G) : McmOut G :=
  match a.biadj with
  | .given n B => mcmWith gen a w n B
  | .absent =>
    match a.kwargs with
    | none => ⟨.error .typeError, a.rng, w⟩
    | some b =>
      let (r, g) := sampleBiadj gen rts fuel b w.biadjGen
      let w := { w with biadjGen := g }
      match r with
      | .error e => ⟨.error e, a.rng, w⟩
      | .ok B => mcmWith gen a w _ B

/-- a call a user can make -/
inductive SampleCall (G : Type) where
  | mcm (a : McmArgs G)
  /-- `biadj` with the default generator -/
  | biadj (a : BiadjArgs)

/-- the shared state after a call -/
def SampleCall.run {G : Type} (gen : Gen G) (rts : (n : Nat) → Runtime n) (fuel : Nat) (w : World G) :
    SampleCall G → World G
  | .mcm a => (sampleMcm gen rts fuel a w).world
  | .biadj a => { w with biadjGen := (sampleBiadj gen rts fuel a w.biadjGen).2 }

/-- the shared state after a history of calls -/
def runCalls {G : Type} (gen : Gen G) (rts : (n : Nat) → Runtime n) (fuel : Nat) (w : World G)
    (cs : List (SampleCall G)) : World G :=
  cs.foldl (SampleCall.run gen rts fuel) w

end Medil

import Verif.Model.Indep
import Verif.Model.Evaluate
import Mathlib.Analysis.SpecialFunctions.Trigonometric.Basic
import Mathlib.Analysis.SpecialFunctions.Pow.Real
/-
  Model of the simulation part of scripts/developing.py (lines 621-837).

  Structures are 0/1 matrices with `m` rows (latents) and `n` columns (measurements).  Floats are exact reals.  The global numpy
  generator is a tape: the `c`-th call of a function of `np.random` returns the entries `t c 0, t c 1, ...`.
-/
namespace Medil
open Finset

section order
variable {m n : Nat}

/-- `biadj_to_adj` (scripts/developing.py:702-707): the adjacency matrix of the *undirected* bipartite graph; the nodes `0..m-1` are the
latents -/
def scriptAdj (B : Fin m → Fin n → Bool) (a b : Fin (m + n)) : Bool :=
  Fin.addCases (fun i => Fin.addCases (fun _ => false) (fun j => B i j) b)
    (fun j => Fin.addCases (fun i => B i j) (fun _ => false) b) a

/-- one entry of `np.sum(adj[remaining][:, remaining], axis=0)` (scripts/developing.py:637) -/
def colSum {N : Nat} (A : Fin N → Fin N → Bool) (rem : List (Fin N)) (b : Fin N) : Nat := rem.countP fun a => A a b

/-- `remaining[np.argmin(col_sums)]` (scripts/developing.py:638-639): the first node with the smallest value, in the list `a :: l` -/
def firstMin {α : Type} (f : α → Nat) : α → List α → α
  | a, [] => a
  | a, b :: l => if f b < f a then firstMin f b l else firstMin f a l

theorem firstMin_mem {α : Type} (f : α → Nat) (a : α) (l : List α) : firstMin f a l ∈ a :: l := by
  induction l generalizing a with
  | nil => simp [firstMin]
  | cons b l ih =>
    unfold firstMin
    split
    · exact List.mem_cons_of_mem _ (ih b)
    · rcases List.mem_cons.mp (ih a) with h | h
      · simp [h]
      · simp [h]

/-- the loop of `compute_caus_order` (scripts/developing.py:636-641) -/
def causLoop {N : Nat} (A : Fin N → Fin N → Bool) : List (Fin N) → List (Fin N)
  | [] => []
  | a :: l =>
    let root := firstMin (colSum A (a :: l)) a l
    root :: causLoop A ((a :: l).erase root)
  termination_by rem => rem.length
  decreasing_by
    rw [List.length_erase_of_mem (firstMin_mem _ _ _)]
    simp

/-- `compute_caus_order` (scripts/developing.py:629-643) -/
def causOrder (B : Fin m → Fin n → Bool) : List (Fin (m + n)) := causLoop (scriptAdj B) (List.finRange (m + n))

end order

/-- numpy element types of a structure -/
inductive DType where
  | float | int | bool

/-- storing a float in an array: integers truncate towards zero, booleans test for non-zero -/
noncomputable def DType.store : DType → ℝ → ℝ
  | .float, x => x
  | .int, x => if 0 ≤ x then (⌊x⌋ : ℝ) else (⌈x⌉ : ℝ)
  | .bool, x => if x = 0 then 0 else 1

section sim
variable {m n : Nat}

/-- position of `(j, i)` among the ones of `biadj.T`, read row by row (scripts/developing.py:653) -/
def onesPos (B : Fin m → Fin n → Bool) (j : Fin n) (i : Fin m) : Nat :=
  (univ.filter fun e : Fin n × Fin m => B e.2 e.1 = true ∧ (e.1 < j ∨ e.1 = j ∧ e.2 < i)).card

/-- `random_B` (scripts/developing.py:645-654): `u` are the uniform draws, `sgn` the signs.  The coefficients are stored in a copy of the
structure, hence in its element type. -/
noncomputable def randomB (dt : DType) (B : Fin m → Fin n → Bool) (u sgn : ℕ → ℝ) (j : Fin n) (i : Fin m) : ℝ :=
  if B i j then dt.store (u (onesPos B j i) * sgn (onesPos B j i)) else 0

/-- the noise of a measurement (scripts/developing.py:696-697) -/
noncomputable def gpNoise (var expo ran : ℝ) : ℝ := (Real.sqrt var * |ran|) ^ expo * (SignType.sign ran : ℝ)

/-- one iteration of the loop over the nodes in `sample_data_from_GAM_GP` (scripts/developing.py:680-698), for one row of the array: `x` is the
row so far, `ran` the draw of this node.  Values are finite, so the replacement of nan and inf is not modelled. -/
noncomputable def gpStep (B : Fin m → Fin n → Bool) (coef : Fin n → Fin m → ℝ) (var : Fin (m + n) → ℝ) (expo : ℝ)
    (x : Fin (m + n) → ℝ) (node : Fin (m + n)) (ran : ℝ) : Fin (m + n) → ℝ :=
  Function.update x node (Fin.addCases (fun _ => ran)
    (fun j => (∑ i, if B i j then coef j i * Real.sin (x (Fin.castAdd n i)) else 0) + gpNoise (var node) expo ran) node)

/-- the loop: the draws of the nodes come in the order of the nodes -/
noncomputable def gpLoop (B : Fin m → Fin n → Bool) (coef : Fin n → Fin m → ℝ) (var : Fin (m + n) → ℝ) (expo : ℝ) (ran : Fin (m + n) → ℝ)
    (x : Fin (m + n) → ℝ) (order : List (Fin (m + n))) : Fin (m + n) → ℝ :=
  order.foldl (fun x node => gpStep B coef var expo x node (ran node)) x

/-- one row of `sample_data_from_GAM_GP` (scripts/developing.py:675-700): `mem` is the content of `np.empty`, `ran node` the normal draw made for
`node` in this row -/
noncomputable def sampleGp (B : Fin m → Fin n → Bool) (coef : Fin n → Fin m → ℝ) (var : Fin (m + n) → ℝ) (expo : ℝ) (ran : Fin (m + n) → ℝ)
    (mem : Fin (m + n) → ℝ) (j : Fin n) : ℝ :=
  gpLoop B coef var expo ran mem (causOrder B) (Fin.natAdd m j)

/-- `G` in `verify_independence_pattern_GP` (scripts/developing.py:774-775): the directed adjacency matrix, of integer type -/
def gpG (B : Fin m → Fin n → Bool) (a b : Fin (m + n)) : Bool :=
  Fin.addCases (fun i => Fin.addCases (fun _ => false) (fun j => B i j) b) (fun _ => false) a

/-- one row of the dataset in `verify_independence_pattern_GP` (scripts/developing.py:774-778, 656-673): the whole matrix `G` is passed as the
structure; `var ∈ [1, 2]`, `noiseExp = 1` -/
noncomputable def verifyGpRow (B : Fin m → Fin n → Bool) (u sgn : ℕ → ℝ) (var ran mem : Fin ((m + n) + (m + n)) → ℝ) (j : Fin (m + n)) : ℝ :=
  sampleGp (gpG B) (randomB .int (gpG B) u sgn) var 1 ran mem j

/-- `generate_dataset` (scripts/developing.py:709-728) with the tape `t`: call 0 draws the latents, for each column `i` call `2 i + 1` draws the
weights (or the base values if there is no parent) and call `2 i + 2` the noise -/
noncomputable def generateDataset {N : Nat} (B : Fin m → Fin n → Bool) (noise : ℝ) (t : ℕ → ℕ → ℝ) (k : Fin N) (i : Fin n) : ℝ :=
  let parents := (List.finRange m).filter fun p => B p i
  (if parents = [] then t (2 * i + 1) k
   else Real.tanh ((parents.zipIdx.map fun p => t 0 (k * m + p.1) * t (2 * i + 1) p.2).sum)) +
    noise * t (2 * i + 2) k

/-- `expected_dep` (scripts/developing.py:738-739, 790-791) -/
def expectedDep (B : Fin m → Fin n → Bool) (a b : Fin n) : Bool :=
  decide (0 < ∑ i : Fin m, (if B i a then 1 else 0) * if B i b then 1 else 0) && !decide (a = b)

/-- `match_rate` in `verify_independence_pattern` (scripts/developing.py:742-743); a structure without measurements gives 0/0 -/
def matchRate (udg expected : Fin n → Fin n → Bool) : Fl ℚ :=
  Fl.div ((univ.filter fun e : Fin n × Fin n => udg e.1 e.2 = expected e.1 e.2).card : ℚ) ((n : ℚ) * n)

/-- `verify_independence_pattern` (scripts/developing.py:730-753) without printing -/
noncomputable def verifyPattern {N : Nat} (lib : TestLib ℝ N) (B : Fin m → Fin n → Bool) (noise : ℝ) (t : ℕ → ℕ → ℝ) :
    Except PyErr ((Fin n → Fin n → Bool) × (Fin n → Fin n → Bool) × Fl ℚ) :=
  match estimateUDG lib (generateDataset B noise t) (.name "xicor") (5 / 100) with
  | .error e => .error e
  | .ok (udg, _) => .ok (udg, expectedDep B, matchRate udg (expectedDep B))

/-- the counts in `verify_independence_pattern_GP` (scripts/developing.py:799-807): pairs above the diagonal with expected value `e` and estimated
value `u` -/
def triuCount (expected udg : Fin n → Fin n → Bool) (e u : Bool) : Nat :=
  (univ.filter fun p : Fin n × Fin n => p.1 < p.2 ∧ expected p.1 p.2 = e ∧ udg p.1 p.2 = u).card

/-- precision, recall, F1 and match rate (scripts/developing.py:810-816) -/
def gpPrecision (TP FP : Nat) : ℚ := TP / (TP + FP + 1 / 10 ^ 10)
def gpRecall (TP FN : Nat) : ℚ := TP / (TP + FN + 1 / 10 ^ 10)
def gpF1 (precision recall : ℚ) : ℚ := 2 * precision * recall / (precision + recall + 1 / 10 ^ 10)
def gpMatch (TP TN FP FN : Nat) : Fl ℚ := Fl.div ((TP + TN : Nat) : ℚ) ((TP + TN + FP + FN : Nat) : ℚ)

end sim
end Medil

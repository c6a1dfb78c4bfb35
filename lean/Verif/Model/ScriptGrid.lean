import Verif.Model.Dev
import Verif.Model.Evaluate
import Mathlib.Analysis.SpecialFunctions.Pow.Real
/-
  Model of the hyperparameter search in scripts/developing.py (lines 21-344).

  Floats are exact reals.  Printing and the counting of runtime warnings are not modelled.
-/
namespace Medil
open Finset

variable {G : Type}

/-- `np.logspace(-6, 1, num=6)` (scripts/developing.py:49-50, 202-203) -/
noncomputable def logGrid (i : Fin 6) : ℝ := (10 : ℝ) ^ ((-6 : ℝ) + i.val * ((1 - -6) / (6 - 1)))

/-- the dictionary `{v: i for i, v in enumerate(values)}` (scripts/developing.py:80-81, 214-215) at `values[j]`: the last index with this value -/
noncomputable def dictIdx {k : Nat} (vals : Fin k → ℝ) (j : Fin k) : Fin k :=
  (univ.filter fun i => vals i = vals j).max' ⟨j, mem_filter.mpr ⟨mem_univ j, rfl⟩⟩

/-- what `calculate_metrics` returns -/
structure Metrics where
  dist : ℝ
  perm : List Nat
  sfd : Int
  ushd : Nat

/-- rows of a 0/1 matrix -/
def boolRows {r c : Nat} (p : Fin r → Fin c → Bool) : List (BVec c) := (List.finRange r).map fun i => BVec.of fun j => p i j

/-- `calculate_metrics` (scripts/developing.py:21-36); reading a missing attribute raises `AttributeError` -/
noncomputable def calculateMetrics (st : DevState G) (method : String) (threshold : ℝ) (Wstar : AnyMat) : Except PyErr Metrics :=
  match if method = "mle" then st.wMle else st.wLse with
  | none => .error .attributeError
  | some W =>
    match minPermDistPy (fun x : ℝ => |x|) id W.mat Wstar.mat with
    | .error e => .error e
    | .ok (perm, dist) =>
      match sfdPy (boolRows fun i j => decide (threshold < |W.mat i j|)) (boolRows fun i j => decide (Wstar.mat i j ≠ 0)) with
      | .error e => .error e
      | .ok (s, u) => .ok ⟨dist, perm.map Fin.val, s, u⟩

/-- `DevMedil(rng=rng())` (scripts/developing.py:16-17, 92, 132, 230, 257): a new object with the default `one_pure_child=True`
(models.py:28-40); `g` is the state of `default_rng(3)` -/
def freshDev (g : G) : DevState G := { onePureChild := true, g := g }

/-- what one method does in one cell of `grid_search` (scripts/developing.py:92-107, 132-147): fit a new object, then compute the metrics -/
noncomputable def gridRun (env : DevEnv G) (g : G) (Wstar : AnyMat) (d : AnyData) (method : String) (lam mu : ℝ) : Except PyErr Metrics :=
  match devFit env (freshDev g) d method lam mu with
  | (_, .error e) => .error e
  | (st, .ok _) => calculateMetrics st method (1 / 2) Wstar

/-- the variables of `grid_search` for one method (scripts/developing.py:53-86); `min = none` is `inf`, `best = none` stands for the three variables
`best_lambda`, `best_mu`, `best_perm` being `None` -/
structure GridState (k : Nat) where
  dist : Fin k → Fin k → ℝ := fun _ _ => 0
  sfd : Fin k → Fin k → Int := fun _ _ => 0
  best : Option (ℝ × ℝ × List Nat) := none
  min : Option ℝ := none
  failures : Nat := 0

/-- the body of the loops of `grid_search` for one method (scripts/developing.py:109-130, 149-170), after `gridRun` -/
noncomputable def gridStep {k : Nat} (run : ℝ → ℝ → Except PyErr Metrics) (vals : Fin k → ℝ) (s : GridState k) (c : Fin k × Fin k) : GridState k :=
  match run (vals c.1) (vals c.2) with
  | .error _ => { s with failures := s.failures + 1 }
  | .ok r =>
    let s := { s with
      dist := Function.update s.dist (dictIdx vals c.1) (Function.update (s.dist (dictIdx vals c.1)) (dictIdx vals c.2) r.dist)
      sfd := Function.update s.sfd (dictIdx vals c.1) (Function.update (s.sfd (dictIdx vals c.1)) (dictIdx vals c.2) r.sfd) }
    if s.min.elim true (fun x => decide (r.dist < x)) then
      { s with min := some r.dist, best := some (vals c.1, vals c.2, r.perm) }
    else s

/-- the order of the two nested loops (scripts/developing.py:87-88) -/
def gridCells (k : Nat) : List (Fin k × Fin k) := (List.finRange k).flatMap fun i => (List.finRange k).map fun j => (i, j)

/-- the loops for one method -/
noncomputable def gridLoop {k : Nat} (run : ℝ → ℝ → Except PyErr Metrics) (vals : Fin k → ℝ) : GridState k :=
  (gridCells k).foldl (gridStep run vals) {}

/-- `grid_search` (scripts/developing.py:47-197): the final variables for `"mle"` and for `"lse"`.  The two methods use separate variables, so the
interleaved loop is written as two loops. -/
noncomputable def gridSearch (env : DevEnv G) (g : G) (Wstar : AnyMat) (d : AnyData) : GridState 6 × GridState 6 :=
  (gridLoop (gridRun env g Wstar d "mle") logGrid, gridLoop (gridRun env g Wstar d "lse") logGrid)

/-! ### cross-validation -/

/-- first position of fold `i` in the shuffled list of the `N` rows (sklearn `KFold`: the first `N % k` folds have `N // k + 1` rows, the others
`N // k`; used in scripts/developing.py:205, 227) -/
def foldStart (N k i : Nat) : Nat := i * (N / k) + Nat.min i (N % k)

/-- the rows of validation fold `i`: the rows at the positions of the fold in the shuffled list `perm`, in increasing order (sklearn turns them into a
mask) -/
def foldVal {N : Nat} (perm : Equiv.Perm (Fin N)) (k i : Nat) : List (Fin N) :=
  (List.finRange N).filter fun r => decide (foldStart N k i ≤ (perm.symm r).val ∧ (perm.symm r).val < foldStart N k (i + 1))

/-- the rows of training fold `i` -/
def foldTrain {N : Nat} (perm : Equiv.Perm (Fin N)) (k i : Nat) : List (Fin N) :=
  (List.finRange N).filter fun r => !decide (foldStart N k i ≤ (perm.symm r).val ∧ (perm.symm r).val < foldStart N k (i + 1))

/-- `dataset[index]` (scripts/developing.py:228-229).  Fewer than two rows are not modelled: `none`. -/
def foldRows (d : AnyData) (rows : List (Fin d.data.size)) : Option AnyData :=
  if h : 2 ≤ rows.length then some ⟨d.cols, ⟨rows.length, h, fun i j => d.data.val (rows.get i) j⟩⟩ else none

/-- `kf.split(dataset)` (scripts/developing.py:205, 227); a fold with fewer than two rows makes the result `none` -/
def kfoldSplit (d : AnyData) (perm : Equiv.Perm (Fin d.data.size)) (k : Nat) : List (Option (AnyData × AnyData)) :=
  (List.range k).map fun i => do
    let tr ← foldRows d (foldTrain perm k i)
    let va ← foldRows d (foldVal perm k i)
    return (tr, va)

/-- `calculate_validation_error` (scripts/developing.py:40-44) for the two methods of the script -/
noncomputable def calculateValidationError (env : DevEnv G) (st : DevState G) (method : String) (d : AnyData) (lam mu : ℝ) : Except PyErr (Fl ℝ) :=
  if method = "lse" then (validationLse env st lam mu d).map .fin else validationMle env st lam mu d

/-- the three lists of one method in one cell -/
structure FoldLists where
  val : List (Fl ℝ) := []
  dist : List ℝ := []
  sfd : List Int := []

/-- one fold for one method (scripts/developing.py:230-252, 257-280): the validation error is appended before the metrics are computed -/
noncomputable def foldStep (env : DevEnv G) (g : G) (Wstar : AnyMat) (method : String) (lam mu : ℝ) (s : FoldLists) (f : AnyData × AnyData) : FoldLists :=
  match devFit env (freshDev g) f.1 method lam mu with
  | (_, .error _) => s
  | (st, .ok _) =>
    match calculateValidationError env st method f.2 lam mu with
    | .error _ => s
    | .ok v =>
      let s := { s with val := s.val ++ [v] }
      match calculateMetrics st method (1 / 2) Wstar with
      | .error _ => s
      | .ok r => { s with dist := s.dist ++ [r.dist], sfd := s.sfd ++ [r.sfd] }

/-- `a + b` of floats -/
def Fl.add : Fl ℝ → Fl ℝ → Fl ℝ
  | .nan, _ => .nan
  | _, .nan => .nan
  | .pinf, .ninf => .nan
  | .ninf, .pinf => .nan
  | .pinf, _ => .pinf
  | _, .pinf => .pinf
  | .ninf, _ => .ninf
  | _, .ninf => .ninf
  | .fin a, .fin b => .fin (a + b)

/-- `a / n` for a positive integer `n` -/
noncomputable def Fl.divNat (n : Nat) : Fl ℝ → Fl ℝ
  | .fin a => .fin (a / n)
  | a => a

/-- `np.mean` of a list (scripts/developing.py:287-293): nan for the empty list -/
noncomputable def flMean (l : List (Fl ℝ)) : Fl ℝ := if l = [] then .nan else (l.foldr Fl.add (.fin 0)).divNat l.length

/-- one cell of the three tables of one method in `grid_search_kfold` (scripts/developing.py:201-344): averages over the folds.  `folds` is the result
of `kf.split`, which is the same in every cell (`random_state=3`). -/
noncomputable def kfoldCell (env : DevEnv G) (g : G) (Wstar : AnyMat) (folds : List (AnyData × AnyData)) (method : String) (lam mu : ℝ) :
    Fl ℝ × Fl ℝ × Fl ℝ :=
  let s := folds.foldl (foldStep env g Wstar method lam mu) {}
  (flMean s.val, flMean (s.dist.map .fin), flMean (s.sfd.map fun z => .fin (z : ℝ)))

/-- the tables of one method in `grid_search_kfold` (scripts/developing.py:201-344): validation errors, squared distances and SFD.  Each cell is written
once, at the position given by the dictionaries. -/
noncomputable def gridSearchKfold (env : DevEnv G) (g : G) (Wstar : AnyMat) (folds : List (AnyData × AnyData)) (method : String) :
    Fin 6 → Fin 6 → Fl ℝ × Fl ℝ × Fl ℝ :=
  (gridCells 6).foldl (fun T c => Function.update T (dictIdx logGrid c.1)
    (Function.update (T (dictIdx logGrid c.1)) (dictIdx logGrid c.2) (kfoldCell env g Wstar folds method (logGrid c.1) (logGrid c.2))))
    fun _ _ => (.fin 0, .fin 0, .fin 0)

end Medil

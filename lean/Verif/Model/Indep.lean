import Verif.Model.Np
import Mathlib.Algebra.BigOperators.Group.Finset.Basic
import Mathlib.Algebra.Order.Group.Unbundled.Abs
import Mathlib.Algebra.Order.Field.Basic
import Mathlib.Data.Fintype.Prod
import Mathlib.Data.Fin.Tuple.Sort
import Mathlib.Analysis.Real.Sqrt
/-
  Model of medil/independence_testing.py.

  Floats are exact numbers of a linearly ordered field `K`, extended by the special values that a
  division by zero produces.
-/
namespace Medil
open Finset

/-- a float: an exact number, or one of the special values -/
inductive Fl (K : Type) where
  | nan | ninf | pinf
  | fin (x : K)

namespace Fl
variable {K : Type} [Field K] [LinearOrder K]

/-- `a / b` for finite `a`, `b` -/
def div (a b : K) : Fl K :=
  if b = 0 then (if a = 0 then .nan else if 0 < a then .pinf else .ninf) else .fin (a / b)

/-- `1 - a` -/
def oneSub : Fl K → Fl K
  | .nan => .nan
  | .ninf => .pinf
  | .pinf => .ninf
  | .fin x => .fin (1 - x)

/-- `a >= c` (false for nan) -/
def ge : Fl K → K → Bool
  | .nan, _ => false
  | .ninf, _ => false
  | .pinf, _ => true
  | .fin x, c => decide (c ≤ x)

/-- `a < c` (false for nan) -/
def lt : Fl K → K → Bool
  | .nan, _ => false
  | .ninf, _ => true
  | .pinf, _ => false
  | .fin x, c => decide (x < c)

end Fl

section dcov
variable {K : Type} [Field K] [LinearOrder K] {N M : Nat}

/-- `squareform(pdist(x, "cityblock"))` for one feature (independence_testing.py:36) -/
def distMat (x : Fin N → K) (k l : Fin N) : K := |x k - x l|

/-- `d.mean(0)[l]` (independence_testing.py:39) -/
def colMean (d : Fin N → Fin N → K) (l : Fin N) : K := (∑ k, d k l) / N

/-- `d.mean(1)[k]` (independence_testing.py:39) -/
def rowMean (d : Fin N → Fin N → K) (k : Fin N) : K := (∑ l, d k l) / N

/-- `d.mean()` (independence_testing.py:38) -/
def allMean (d : Fin N → Fin N → K) : K := (∑ k, ∑ l, d k l) / (N * N)

/-- the doubly centred matrix (independence_testing.py:39) -/
def centre (d : Fin N → Fin N → K) (k l : Fin N) : K :=
  d k l - (colMean d l + rowMean d k - allMean d)

/-- `dcov(samples)` (independence_testing.py:13-43) for `N ≥ 1` observations of `M` features: the matrix
`dists @ dists.T / num_samps**2`, where a row of `dists` holds the entries `k < l` of the centred matrix
(`squareform(d, checks=False)`, line 40), and the vector `d_bars` -/
def dcov (s : Fin N → Fin M → K) : (Fin M → Fin M → K) × (Fin M → K) :=
  (fun i j => (∑ e ∈ univ.filter (fun e : Fin N × Fin N => e.1 < e.2),
      centre (distMat fun k => s k i) e.1 e.2 * centre (distMat fun k => s k j) e.1 e.2) / (N : K) ^ 2,
   fun i => allMean (distMat fun k => s k i))

/-- the `method` argument of `estimate_UDG` (independence_testing.py:46): an array or a name -/
inductive Method (K : Type) (M : Nat) where
  | pvals (p : Fin M → Fin M → Fl K)
  | name (s : String)

/-- what `estimate_UDG` uses from libraries: the critical value `chi2(1).ppf(1 - level)` (line 54), and the
two pairwise tests (lines 65-68, 78-86), which get the two columns -/
structure TestLib (K : Type) (N : Nat) where
  critVal : K → K
  dcorTest : (Fin N → K) → (Fin N → K) → Fl K
  xicorTest : (Fin N → K) → (Fin N → K) → Fl K

/-- `np.fill_diagonal(udg, False)` (independence_testing.py:74) -/
def clearDiag (u : Fin M → Fin M → Bool) (i j : Fin M) : Bool := if i = j then false else u i j

/-- the p-value matrix of the pairwise methods (independence_testing.py:61-72): zero diagonal, the value
for `i < j` stored at `(i,j)` and `(j,i)` -/
def pairPvals (test : (Fin N → K) → (Fin N → K) → Fl K) (s : Fin N → Fin M → K) (i j : Fin M) : Fl K :=
  if i < j then test (fun k => s k i) (fun k => s k j)
  else if j < i then test (fun k => s k j) (fun k => s k i)
  else .fin 0

/-- `estimate_UDG(sample, method, significance_level)` (independence_testing.py:46-75): the graph and the
p-values.  With `"g-test"` nothing binds `udg` (lines 58-59), with an unknown name nothing binds `test`
(lines 65-68): both end in `UnboundLocalError`. -/
def estimateUDG (lib : TestLib K N) (s : Fin N → Fin M → K) (method : Method K M) (level : K) :
    Except PyErr ((Fin M → Fin M → Bool) × Option (Fin M → Fin M → Fl K)) :=
  match method with
  | .pvals p => .ok (clearDiag fun i j => (p i j).lt level, some p)
  | .name m =>
    if m = "dcov_fast" then
      .ok (clearDiag fun i j =>
        (Fl.div (N * (dcov s).1 i j) ((dcov s).2 i * (dcov s).2 j)).ge (lib.critVal level), none)
    else if m = "g-test" then .error .unboundLocal
    else if m = "dcov_big" then
      .ok (clearDiag fun i j => (pairPvals lib.dcorTest s i j).lt level, some (pairPvals lib.dcorTest s))
    else if m = "xicor" then
      .ok (clearDiag fun i j => (pairPvals lib.xicorTest s i j).lt level, some (pairPvals lib.xicorTest s))
    else .error .unboundLocal

end dcov

section xi
variable {K : Type} [Field K] [LinearOrder K] {n : Nat}

/-- `rankdata(x, method="average")` (scipy; used in independence_testing.py:107-109) -/
def rankAvg (x : Fin n → K) (i : Fin n) : K :=
  ((univ.filter fun j => x j < x i).card : K) + (((univ.filter fun j => x j = x i).card : K) + 1) / 2

/-- `np.argsort(PI, kind="quicksort")` (independence_testing.py:111): some permutation that sorts `PI`; which one, in case of ties, is
left open -/
structure ArgSort (K : Type) [LinearOrder K] where
  sort : {n : Nat} → (Fin n → K) → Equiv.Perm (Fin n)
  sorted : ∀ {n : Nat} (f : Fin n → K), Monotone fun k => f (sort f k)

/-- `np.abs(np.diff(f)).sum()` (independence_testing.py:111) -/
def absDiffSum (f : Fin n → K) : K :=
  ∑ k ∈ range (n - 1), if h : k + 1 < n then |f ⟨k + 1, h⟩ - f ⟨k, by omega⟩| else 0

/-- `fr` (independence_testing.py:108) -/
def xiFr (y : Fin n → K) (i : Fin n) : K := rankAvg y i / n

/-- `gr` (independence_testing.py:109) -/
def xiGr (y : Fin n → K) (i : Fin n) : K := rankAvg (fun j => -y j) i / n

/-- `cu` (independence_testing.py:110) -/
def xiCu (y : Fin n → K) : K := (∑ i, xiGr y i * (1 - xiGr y i)) / n

/-- `A1` (independence_testing.py:111) -/
def xiA1 (srt : ArgSort K) (x y : Fin n → K) : K :=
  absDiffSum (fun k => xiFr y (srt.sort (rankAvg x) k)) / (2 * n)

/-- `xi` (independence_testing.py:112) -/
def xiStat (srt : ArgSort K) (x y : Fin n → K) : Fl K := (Fl.div (xiA1 srt x y) (xiCu y)).oneSub

/-- `np.sort(fr)` (independence_testing.py:190) -/
def xiQfr (y : Fin n → K) (i : Fin n) : K := xiFr y (Tuple.sort (xiFr y) i)

/-- `ind2` (independence_testing.py:191-192) -/
def xiInd2 (i : Fin n) : K := 2 * n - 2 * (i.val + 1) + 1

/-- `m` (independence_testing.py:196-197) -/
def xiM (y : Fin n → K) (i : Fin n) : K :=
  (∑ j ∈ univ.filter (· ≤ i), xiQfr y j + ((n : K) - (i.val + 1)) * xiQfr y i) / n

/-- `v` (independence_testing.py:194-199) -/
def xiVar (y : Fin n → K) : Fl K :=
  let ai := (∑ i, xiInd2 i * xiQfr y i * xiQfr y i) / n / n
  let ci := (∑ i, xiInd2 i * xiQfr y i) / n / n
  let b := (∑ i, xiM y i ^ 2) / n
  Fl.div (ai - 2 * b + ci ^ 2) (xiCu y ^ 2)

end xi

/-- `1.0 - norm.cdf(z)`, `Φ` being the value at finite arguments (independence_testing.py:188, 202) -/
noncomputable def upperTail (Φ : ℝ → ℝ) : Fl ℝ → Fl ℝ
  | .nan => .nan
  | .ninf => .fin 1
  | .pinf => .fin 0
  | .fin z => .fin (1 - Φ z)

/-- `np.sqrt(n) * xi / np.sqrt(v)` (independence_testing.py:188, 202) for finite `xi` and `v` (`nan` when `v` is negative), `nan` otherwise:
the other special values of `xi` and `v` do not occur -/
noncomputable def xiZ (n : Nat) : Fl ℝ → Fl ℝ → Fl ℝ
  | .fin x, .fin v => if v < 0 then .nan else Fl.div (Real.sqrt n * x) (Real.sqrt v)
  | _, _ => .nan

/-- `xicorr(x, y, ties)` (independence_testing.py:116-203) on flattened inputs: the statistic and the
p-value -/
noncomputable def xicorr (srt : ArgSort ℝ) (Φ : ℝ → ℝ) (x y : List ℝ) (ties : Bool := true) :
    Except PyErr (Fl ℝ × Fl ℝ) :=
  if h : x.length ≠ y.length then .error .valueError
  else if x.length = 0 then .ok (.nan, .nan)
  else
    let xf : Fin x.length → ℝ := fun i => x[i]
    let yf : Fin x.length → ℝ := fun i => y[i.val]'(by have := i.isLt; omega)
    let xi := xiStat srt xf yf
    if ties then .ok (xi, upperTail Φ (xiZ x.length xi (xiVar yf)))
    else .ok (xi, upperTail Φ (xiZ x.length xi (.fin (2 / 5))))

/-- `xicor_test` (independence_testing.py:83-86) on two columns; the error cases of `xicorr` do not occur
for columns of equal length -/
noncomputable def xicorTest (srt : ArgSort ℝ) (Φ : ℝ → ℝ) {N : Nat} (x y : Fin N → ℝ) : Fl ℝ :=
  match xicorr srt Φ (List.ofFn x) (List.ofFn y) with
  | .ok (_, p) => p
  | .error _ => .nan

end Medil

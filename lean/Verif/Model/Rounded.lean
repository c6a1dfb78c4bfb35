import Verif.Model.Gaussian
/-
  `estimate_UDG(..., method="dcov_fast")` and `GaussianMCM._estimate_udg` with floating-point arithmetic: every operation may round, overflow
  and underflow, sums may be added in any order (numpy adds pairwise, BLAS in blocks, possibly with fused multiply-add), and the order may
  differ from entry to entry.
-/
namespace Medil

/-- an order in which `m` numbers are added up: the leaves are positions; at a node two partial sums are added (`fused`: by a fused
multiply-add, if the right part is one product) -/
inductive SumTree (m : Nat) where
  | leaf (i : Fin m)
  | node (fused : Bool) (l r : SumTree m)

/-- the positions in a tree -/
def SumTree.leaves {m : Nat} : SumTree m → List (Fin m)
  | .leaf i => [i]
  | .node _ l r => l.leaves ++ r.leaves

/-- a floating-point arithmetic: its numbers (infinities and nan included), its operations, and its orders of summation; nothing is
assumed about the operations.  `val` is the real number a float stands for, `none` for infinities and nan. -/
structure FloatLib where
  F : Type
  val : F → Option ℝ
  isNan : F → Bool
  ofNat : Nat → F
  add : F → F → F
  sub : F → F → F
  mul : F → F → F
  div : F → F → F
  /-- `x * y + z` with one rounding -/
  fma : F → F → F → F
  abs : F → F
  neg : F → F
  sqrt : F → F
  log : F → F
  /-- `x.clip(min=0.00001)` -/
  clipLow : F → F
  /-- `np.clip(x, -1, 1)` -/
  clipOne : F → F
  ge : F → F → Bool
  lt : F → F → Bool
  /-- the order of a sum; the list tells which sum of the program it is -/
  order : List Nat → (m : Nat) → SumTree (m + 1)
  order_perm : ∀ site m, (order site m).leaves.Perm (List.finRange (m + 1))

namespace FloatLib
variable (a : FloatLib) {N M : Nat}

/-- adding up along a tree -/
def evalSum {m : Nat} (f : Fin m → a.F) : SumTree m → a.F
  | .leaf i => f i
  | .node _ l r => a.add (evalSum f l) (evalSum f r)

/-- `sum` (numpy) of `m` numbers -/
def sum (site : List Nat) : {m : Nat} → (Fin m → a.F) → a.F
  | 0, _ => a.ofNat 0
  | m + 1, f => a.evalSum f (a.order site m)

/-- an inner product along a tree -/
def evalDot {m : Nat} (f g : Fin m → a.F) : SumTree m → a.F
  | .leaf i => a.mul (f i) (g i)
  | .node true l (.leaf i) => a.fma (f i) (g i) (evalDot f g l)
  | .node _ l r => a.add (evalDot f g l) (evalDot f g r)

/-- an entry of a matrix product -/
def dot (site : List Nat) : {m : Nat} → (f g : Fin m → a.F) → a.F
  | 0, _, _ => a.ofNat 0
  | m + 1, f, g => a.evalDot f g (a.order site m)

/-! ### `dcov` and `estimate_UDG` -/

/-- `squareform(pdist(x, "cityblock"))` (independence_testing.py:36): computed for `k < l` and mirrored -/
def dist (x : Fin N → a.F) (k l : Fin N) : a.F :=
  if k < l then a.abs (a.sub (x k) (x l)) else if l < k then a.abs (a.sub (x l) (x k)) else a.ofNat 0

/-- `d.mean(0)[l]` (independence_testing.py:39) -/
def colMean (site : Nat) (d : Fin N → Fin N → a.F) (l : Fin N) : a.F :=
  a.div (a.sum [0, site, l] fun k => d k l) (a.ofNat N)

/-- `d.mean(1)[k]` (independence_testing.py:39) -/
def rowMean (site : Nat) (d : Fin N → Fin N → a.F) (k : Fin N) : a.F :=
  a.div (a.sum [1, site, k] fun l => d k l) (a.ofNat N)

/-- `d.mean()` (independence_testing.py:38) -/
def allMean (site : Nat) (d : Fin N → Fin N → a.F) : a.F :=
  a.div (a.sum [2, site] fun e : Fin (N * N) => d e.divNat e.modNat) (a.ofNat (N * N))

/-- the doubly centred matrix (independence_testing.py:39) -/
def centre (site : Nat) (d : Fin N → Fin N → a.F) (k l : Fin N) : a.F :=
  a.sub (d k l) (a.sub (a.add (a.colMean site d l) (a.rowMean site d k)) (a.allMean site d))

/-- the positions that `squareform(d, checks=False)` keeps (independence_testing.py:40) -/
def pairsLT (N : Nat) : List (Fin N × Fin N) :=
  ((List.finRange N).flatMap fun k => (List.finRange N).map fun l => (k, l)).filter fun e => decide (e.1 < e.2)

/-- a row of `dists` (independence_testing.py:41) -/
def distsRow (s : Fin N → Fin M → a.F) (i : Fin M) (e : Fin (pairsLT N).length) : a.F :=
  a.centre i (a.dist fun k => s k i) (pairsLT N)[e].1 (pairsLT N)[e].2

/-- an entry of `dists @ dists.T / num_samps**2` (independence_testing.py:43).  numpy computes the product of a matrix with its own
transpose by `syrk`: one triangle is computed and mirrored. -/
def dcov (s : Fin N → Fin M → a.F) (i j : Fin M) : a.F :=
  a.div (a.dot [3, (min i j).val, (max i j).val] (a.distsRow s (min i j)) (a.distsRow s (max i j))) (a.ofNat (N ^ 2))

/-- an entry of `d_bars` (independence_testing.py:42) -/
def dBar (s : Fin N → Fin M → a.F) (i : Fin M) : a.F := a.allMean i (a.dist fun k => s k i)

/-- the graph of `estimate_UDG(sample, "dcov_fast")` (independence_testing.py:53-57, 74), `crit` being the computed critical value -/
def dcovGraph (s : Fin N → Fin M → a.F) (crit : a.F) : Fin M → Fin M → Bool :=
  clearDiag fun i j => a.ge (a.div (a.mul (a.ofNat N) (a.dcov s i j)) (a.mul (a.dBar s i) (a.dBar s j))) crit

/-! ### `GaussianMCM._estimate_udg` -/

/-- `X - average(X)` in `np.cov` (models.py:121-122) -/
def centred (s : Fin N → Fin M → a.F) (j : Fin M) (k : Fin N) : a.F :=
  a.sub (s k j) (a.div (a.sum [4, j] fun k => s k j) (a.ofNat N))

/-- an entry of `np.cov(dataset, rowvar=False)` (models.py:121): the inner product times `1 / (N - 1)` -/
def cov (s : Fin N → Fin M → a.F) (i j : Fin M) : a.F :=
  a.mul (a.dot [5, i, j] (a.centred s i) (a.centred s j)) (a.div (a.ofNat 1) (a.ofNat (N - 1)))

/-- an entry of `np.corrcoef(dataset, rowvar=False)` (models.py:122): divided by both standard deviations, then clipped -/
def corr (s : Fin N → Fin M → a.F) (i j : Fin M) : a.F :=
  a.clipOne (a.div (a.div (a.cov s i j) (a.sqrt (a.cov s i i))) (a.sqrt (a.cov s j j)))

/-- an entry of `udg_triu` (models.py:123-126) -/
def udgTriu (s : Fin N → Fin M → a.F) (i j : Fin M) : Bool :=
  a.lt (a.log (if j ≤ i then a.ofNat 1 else a.clipLow (a.sub (a.ofNat 1) (a.mul (a.cov s i j) (a.corr s i j)))))
    (a.div (a.neg (a.log (a.ofNat N))) (a.ofNat N))

/-- `_estimate_udg` (models.py:118-128) -/
def covGraph (s : Fin N → Fin M → a.F) : Except PyErr (BMat M) :=
  if M = 1 then .error .valueError else .ok (BMat.of fun i j => a.udgTriu s i j || a.udgTriu s j i)

end FloatLib
end Medil

import Verif.Model.Rounded
/-
  `estimate_UDG(..., method="xicor")` with floating-point arithmetic: `_xicorr` and `xicorr` operation by operation.
-/
namespace Medil

/-- a floating-point arithmetic with what `xicorr` needs in addition: half-integers (the ranks), numpy's sorting routines (as permutations),
and `norm.cdf` -/
structure FloatXiLib extends FloatLib where
  /-- the number `k / 2` -/
  half : Nat → F
  /-- `np.argsort(f, kind="quicksort")` -/
  argsort : {n : Nat} → (Fin n → F) → Equiv.Perm (Fin n)
  /-- the order in which `np.sort(f)` puts the entries -/
  sort : {n : Nat} → (Fin n → F) → Equiv.Perm (Fin n)
  /-- `norm.cdf` -/
  cdf : F → F
  /-- `np.nan` -/
  nan : F

namespace FloatXiLib
variable (a : FloatXiLib) {n N M : Nat}

/-- `rankdata(x, method="average")` (independence_testing.py:107-109): the mean of the positions of equal numbers, a half-integer.  If
an entry is nan, all ranks are nan (`nan_policy="propagate"`, the default since scipy 1.10). -/
def rank (x : Fin n → a.F) (i : Fin n) : a.F :=
  if ∃ j, a.isNan (x j) = true then a.nan else
  a.half (2 * (Finset.univ.filter fun j => a.lt (x j) (x i) = true).card
    + (Finset.univ.filter fun j => a.lt (x j) (x i) = false ∧ a.lt (x i) (x j) = false).card + 1)

/-- `fr` (independence_testing.py:108) -/
def fr (y : Fin n → a.F) (i : Fin n) : a.F := a.div (a.rank y i) (a.ofNat n)

/-- `gr` (independence_testing.py:109) -/
def gr (y : Fin n → a.F) (i : Fin n) : a.F := a.div (a.rank (fun j => a.neg (y j)) i) (a.ofNat n)

/-- `np.mean` -/
def mean (site : Nat) (f : Fin n → a.F) : a.F := a.div (a.sum [site] f) (a.ofNat n)

/-- `cu` (independence_testing.py:110) -/
def cu (y : Fin n → a.F) : a.F := a.mean 6 fun i => a.mul (a.gr y i) (a.sub (a.ofNat 1) (a.gr y i))

/-- `np.abs(np.diff(f))` (independence_testing.py:111) -/
def absDiff (f : Fin n → a.F) (k : Fin (n - 1)) : a.F :=
  a.abs (a.sub (f ⟨k.val + 1, by have := k.isLt; omega⟩) (f ⟨k.val, by have := k.isLt; omega⟩))

/-- `A1` (independence_testing.py:111) -/
def A1 (x y : Fin n → a.F) : a.F :=
  a.div (a.sum [7] (a.absDiff fun k => a.fr y (a.argsort (a.rank x) k))) (a.ofNat (2 * n))

/-- `xi` (independence_testing.py:112) -/
def xi (x y : Fin n → a.F) : a.F := a.sub (a.ofNat 1) (a.div (a.A1 x y) (a.cu y))

/-- `qfr` (independence_testing.py:190) -/
def qfr (y : Fin n → a.F) (i : Fin n) : a.F := a.fr y (a.sort (a.fr y) i)

/-- `ind2` (independence_testing.py:191-192) -/
def ind2 (i : Fin n) : a.F := a.ofNat (2 * n - 2 * (i.val + 1) + 1)

/-- `np.cumsum(q)` (independence_testing.py:196) -/
def cumsum (q : Fin n → a.F) : (i : Nat) → i < n → a.F
  | 0, h => q ⟨0, h⟩
  | i + 1, h => a.add (cumsum q i (by omega)) (q ⟨i + 1, h⟩)

/-- `m` (independence_testing.py:197) -/
def m (y : Fin n → a.F) (i : Fin n) : a.F :=
  a.div (a.add (a.cumsum (a.qfr y) i i.isLt) (a.mul (a.ofNat (n - (i.val + 1))) (a.qfr y i))) (a.ofNat n)

/-- `ai` (independence_testing.py:194) -/
def ai (y : Fin n → a.F) : a.F := a.div (a.mean 8 fun i => a.mul (a.mul (a.ind2 i) (a.qfr y i)) (a.qfr y i)) (a.ofNat n)

/-- `ci` (independence_testing.py:195) -/
def ci (y : Fin n → a.F) : a.F := a.div (a.mean 9 fun i => a.mul (a.ind2 i) (a.qfr y i)) (a.ofNat n)

/-- `b` (independence_testing.py:198) -/
def b (y : Fin n → a.F) : a.F := a.mean 10 fun i => a.mul (a.m y i) (a.m y i)

/-- `v` (independence_testing.py:199) -/
def v (y : Fin n → a.F) : a.F :=
  a.div (a.add (a.sub (a.ai y) (a.mul (a.ofNat 2) (a.b y))) (a.mul (a.ci y) (a.ci y))) (a.mul (a.cu y) (a.cu y))

/-- the p-value (independence_testing.py:202) of `xicor_test` (lines 83-86) -/
def pvalue (x y : Fin n → a.F) : a.F :=
  a.sub (a.ofNat 1) (a.cdf (a.div (a.mul (a.sqrt (a.ofNat n)) (a.xi x y)) (a.sqrt (a.v y))))

/-- the p-values of `estimate_UDG(sample, "xicor", level)` (independence_testing.py:61-72) -/
def xiPvals (s : Fin N → Fin M → a.F) (i j : Fin M) : a.F :=
  if i < j then a.pvalue (fun k => s k i) (fun k => s k j)
  else if j < i then a.pvalue (fun k => s k j) (fun k => s k i)
  else a.ofNat 0

/-- the graph of `estimate_UDG(sample, "xicor", level)` (independence_testing.py:73-75) -/
def xiGraph (s : Fin N → Fin M → a.F) (level : a.F) : Fin M → Fin M → Bool :=
  clearDiag fun i j => a.lt (a.xiPvals s i j) level

end FloatXiLib
end Medil

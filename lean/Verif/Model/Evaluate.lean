import Verif.Model.Graph
import Mathlib.Algebra.BigOperators.Group.Finset.Basic
import Mathlib.Algebra.Order.Group.Unbundled.Abs
import Mathlib.Algebra.Field.Defs
import Mathlib.Algebra.Order.Ring.Defs
import Mathlib.Data.Fintype.Basic
import Mathlib.Algebra.Order.Group.Unbundled.Int
/-
  Model of medil/evaluate.py.

  A bool biadjacency matrix with `n` columns is the list of its rows, `List (BVec n)`.  Matrices of
  numbers are functions `Fin m → Fin n → K`, over any linearly ordered field `K` (floats are modelled as
  exact numbers).
-/
namespace Medil
open Finset
variable {n : Nat}

/-- `recover_ug` (evaluate.py:37-52) on a bool matrix: `@` on bool arrays is "or of ands" -/
def recoverUg (B : List (BVec n)) : BMat n :=
  BMat.of fun i j => (B.any fun r => r i && r j) && !decide (i = j)

/-- an entry of `B.T @ B` after `astype(int)` (evaluate.py:26-30) -/
def wtdUg (B : List (BVec n)) (i j : Fin n) : Int :=
  (B.map fun r => (if r i then 1 else 0) * (if r j then 1 else 0)).sum

/-- `np.triu(np.logical_xor(ug, ug_recon), 1).sum()` (evaluate.py:24) -/
def ushdOf (G H : BMat n) : Nat := (triuPairs n).countP fun e => xor (G e.1 e.2) (H e.1 e.2)

/-- `sfd(predicted_biadj, true_biadj)` (evaluate.py:7-34) for equally many columns -/
def sfd (predicted true' : List (BVec n)) : Int × Nat :=
  let ug := recoverUg true'
  let ugRecon := recoverUg predicted
  (∑ i, ∑ j, (wtdUg true' i j - wtdUg predicted i j) ^ 2, ushdOf ug ugRecon)

/-- numpy broadcasting of one dimension: the common length of `a` and `b`, or an error -/
def bcastDim (a b : Nat) : Except PyErr Nat :=
  if a = b then .ok a else if a = 1 then .ok b else if b = 1 then .ok a else .error .valueError

/-- read entry `i` of a dimension of length `a` broadcast to `c` -/
def bcastIdx {a c : Nat} (h : a = c ∨ a = 1) (i : Fin c) : Fin a :=
  if h1 : a = c then i.cast h1.symm else ⟨0, by have := h.resolve_left h1; omega⟩

theorem bcastDim_ok {a b c : Nat} (h : bcastDim a b = .ok c) : (a = c ∨ a = 1) ∧ (b = c ∨ b = 1) := by
  unfold bcastDim at h
  split at h
  · cases h; subst_vars; exact ⟨Or.inl rfl, Or.inl rfl⟩
  · split at h
    · cases h; exact ⟨Or.inr ‹_›, Or.inl rfl⟩
    · split at h
      · cases h; exact ⟨Or.inl rfl, Or.inr ‹_›⟩
      · cases h

/-- `sfd` on matrices with any numbers of columns: both `logical_xor` (evaluate.py:24) and the
subtraction (evaluate.py:32) broadcast square matrices -/
def sfdPy {m n : Nat} (predicted : List (BVec m)) (true' : List (BVec n)) : Except PyErr (Int × Nat) :=
  match h : bcastDim n m with
  | .error e => .error e
  | .ok c =>
    let ix : Fin c → Fin n := bcastIdx (bcastDim_ok h).1
    let iy : Fin c → Fin m := bcastIdx (bcastDim_ok h).2
    let G := recoverUg true'
    let H := recoverUg predicted
    .ok (∑ i, ∑ j, (wtdUg true' (ix i) (ix j) - wtdUg predicted (iy i) (iy j)) ^ 2,
      (triuPairs c).countP fun e => xor (G (ix e.1) (ix e.2)) (H (iy e.1) (iy e.2)))

/-! ### matching rows -/

/-- every way to take one element out of a list, in order -/
def picks {α} : List α → List (α × List α)
  | [] => []
  | a :: l => (a, l) :: (picks l).map fun x => (x.1, a :: x.2)

/-- `itertools.permutations`: the permutations of a list in the order Python yields them (the first
argument is the length) -/
def pyPerms {α} : Nat → List α → List (List α)
  | 0, _ => [[]]
  | k + 1, l => (picks l).flatMap fun x => (pyPerms k x.2).map (x.1 :: ·)

/-- Python's `min(..., key=snd)`: the first pair with the smallest second component -/
def minSnd {α K} [LT K] [DecidableLT K] : List (α × K) → Option (α × K)
  | [] => none
  | x :: l => match minSnd l with
    | none => some x
    | some y => if y.2 < x.2 then some y else some x

variable {K : Type} [Field K] [LinearOrder K]

/-- `zeros = zeros_like(predicted_W); zeros[:len(true_W)] = true_W` (evaluate.py:56-59, 78-81).  `cast` is the
conversion to the dtype of `predicted_W` that the assignment performs (`id` for float arrays, truncation
for integer arrays).  Both matrices have `n` columns (other numbers: `minPermDistPy`).  With more true rows than predicted rows the assignment raises, unless there are no
predicted rows and one true row. -/
def padTrue {m l : Nat} (cast : K → K) (T : Fin l → Fin n → K) : Except PyErr (Fin m → Fin n → K) :=
  if l ≤ m ∨ (l = 1 ∧ m = 0) then
    .ok fun i j => if h : i.val < l then cast (T ⟨i, h⟩ j) else 0
  else .error .valueError

/-- `np.sum((f(predicted_W[perm]) - f(true_W)) ** 2)` (evaluate.py:61-63, 83-85), `f` is the identity or
the absolute value -/
def permDist {m : Nat} (f : K → K) (P T : Fin m → Fin n → K) (perm : List (Fin m)) : K :=
  (List.zipWith (fun a i => ∑ j, (f (P a j) - f (T i j)) ^ 2) perm (List.finRange m)).sum

/-- `min_perm_squared_l2_dist` (`f = id`, evaluate.py:55-74) and `min_perm_squared_l2_dist_abs`
(`f = abs`, evaluate.py:77-96).  With no predicted row the only permutation is `()`, and indexing with the
(float) array `np.array(())` is an `IndexError`. -/
def minPermDist {m l : Nat} (f cast : K → K) (P : Fin m → Fin n → K) (T : Fin l → Fin n → K) :
    Except PyErr (List (Fin m) × K) :=
  match padTrue (m := m) cast T with
  | .error e => .error e
  | .ok T =>
    if m = 0 then .error .indexError
    else
      match minSnd ((pyPerms m (List.finRange m)).map fun p => (p, permDist f P T p)) with
      | none => .error .valueError
      | some r => .ok r

/-- `min_perm_squared_l2_dist` on float arrays (evaluate.py:55-74) -/
def minPermSquaredL2Dist {m l : Nat} (P : Fin m → Fin n → K) (T : Fin l → Fin n → K) :=
  minPermDist id id P T

/-- `min_perm_squared_l2_dist_abs` on float arrays (evaluate.py:77-96) -/
def minPermSquaredL2DistAbs {m l : Nat} (P : Fin m → Fin n → K) (T : Fin l → Fin n → K) :=
  minPermDist (fun x => |x|) id P T

/-- the two functions for any numbers of columns (evaluate.py:55-59, 77-81): in `zeros[:len(true_W)] = true_W` numpy repeats a
single true column, and raises for every other number of columns than that of `predicted_W`.  Both arrays are 2-dimensional. -/
def minPermDistPy {m l n c : Nat} (f cast : K → K) (P : Fin m → Fin n → K) (T : Fin l → Fin c → K) :
    Except PyErr (List (Fin m) × K) :=
  if h : c = n then minPermDist f cast P fun i j => T i (j.cast h.symm)
  else if h1 : c = 1 then minPermDist f cast P fun i _ => T i ⟨0, by omega⟩
  else .error .valueError

end Medil

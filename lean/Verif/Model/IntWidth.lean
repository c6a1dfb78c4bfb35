import Verif.Model.Evaluate
import Mathlib.Algebra.Field.Rat
import Mathlib.Algebra.Order.Ring.Unbundled.Rat
/-
  The functions of medil/evaluate.py on arrays of integers with a fixed number of bits (numpy's `int8`, `uint8`, ..., `int64`,
  `uint64`), whose arithmetic wraps around, and on bool arrays.
-/
namespace Medil
open Finset
variable {n : Nat}

/-- a numpy integer type -/
structure IntType where
  bits : Nat
  signed : Bool

/-- numpy's default integer (`astype(int)`, evaluate.py:26-27; also the accumulator of `.sum()` for smaller signed types) -/
def int64 : IntType := ⟨64, true⟩

/-- the value of an integer stored with type `t`: reduction modulo `2^bits` into the range of the type -/
def IntType.wrap (t : IntType) (z : Int) : Int := if t.signed then z.bmod (2 ^ t.bits) else z % 2 ^ t.bits

/-- an entry of `biadj_mat.T @ biadj_mat` (evaluate.py:28-30, 49) for integers of type `t`: the loop of numpy's integer matrix product -/
def dotWidth (t : IntType) (B : List (BVec n)) (i j : Fin n) : Int :=
  B.foldl (fun acc r => t.wrap (acc + t.wrap ((if r i then 1 else 0) * (if r j then 1 else 0)))) 0

/-- `recover_ug` (evaluate.py:37-52) of a 0/1 array of type `t` -/
def recoverUgWidth (t : IntType) (B : List (BVec n)) (i j : Fin n) : Int := if i = j then 0 else dotWidth t B i j

/-- `sfd(predicted_biadj, true_biadj)` (evaluate.py:7-34) for 0/1 arrays of types `s` and `t` with equally many columns: `logical_xor`
compares with zero; the weighted graphs are computed after `astype(int)`; the entries of the last sum are added from left to right -/
def sfdWidth (s t : IntType) (predicted true' : List (BVec n)) : Int × Nat :=
  (((List.finRange n).flatMap fun i => (List.finRange n).map fun j => (i, j)).foldl (fun acc e =>
      let d := int64.wrap (dotWidth int64 true' e.1 e.2 - dotWidth int64 predicted e.1 e.2)
      int64.wrap (acc + int64.wrap (d ^ 2))) 0,
   (triuPairs n).countP fun e =>
     xor (decide (recoverUgWidth t true' e.1 e.2 ≠ 0)) (decide (recoverUgWidth s predicted e.1 e.2 ≠ 0)))

/-- the accumulator of `np.sum` for integers of type `t` with at most 64 bits (evaluate.py:63, 85) -/
def IntType.accumulator (t : IntType) : IntType := ⟨64, t.signed⟩

/-- `f` in `permDistWidth`: `np.abs` (evaluate.py:85) or nothing (evaluate.py:63) -/
def IntType.absIf (t : IntType) (abs : Bool) (z : Int) : Int := if abs then t.wrap |z| else z

/-- `np.sum((predicted_W[perm] - true_W) ** 2)` (evaluate.py:61-63) or `np.sum((np.abs(predicted_W[perm]) - np.abs(true_W)) ** 2)`
(evaluate.py:83-85) for integers of type `t`, the entries added from left to right -/
def permDistWidth {m : Nat} (t : IntType) (abs : Bool) (P T : Fin m → Fin n → Int) (perm : List (Fin m)) : Int :=
  ((List.zip perm (List.finRange m)).flatMap fun e => (List.finRange n).map fun j => (e.1, e.2, j)).foldl (fun acc e =>
      t.accumulator.wrap (acc + t.wrap (t.wrap (t.absIf abs (P e.1 e.2.2) - t.absIf abs (T e.2.1 e.2.2)) ^ 2))) 0

/-- the element type of `predicted_W` -/
inductive ElemType where
  | bool
  | int (t : IntType)

/-- `min_perm_squared_l2_dist` (`abs = false`, evaluate.py:55-74) and `min_perm_squared_l2_dist_abs` (`abs = true`, evaluate.py:77-96)
if `predicted_W` is an integer or bool array and `true_W` an integer array with as many columns; the assignment on lines 58 and 80
wraps the entries of `true_W`.  numpy does not subtract bool arrays: `TypeError`. -/
def minPermWidth {m l : Nat} (t : ElemType) (abs : Bool) (P : Fin m → Fin n → Int) (T : Fin l → Fin n → Int) :
    Except PyErr (List (Fin m) × Int) :=
  if l ≤ m ∨ (l = 1 ∧ m = 0) then
    if m = 0 then .error .indexError
    else match t with
      | .bool => .error .typeError
      | .int t =>
        match minSnd ((pyPerms m (List.finRange m)).map fun p =>
            (p, permDistWidth t abs P (fun i j => if h : i.val < l then t.wrap (T ⟨i, h⟩ j) else 0) p)) with
        | none => .error .valueError
        | some r => .ok r
  else .error .valueError

end Medil

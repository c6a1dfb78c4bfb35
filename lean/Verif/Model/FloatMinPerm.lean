import Verif.Model.Rounded
import Verif.Model.Evaluate
/-
  `min_perm_squared_l2_dist` and `min_perm_squared_l2_dist_abs` (medil/evaluate.py:55-96) with floating-point arithmetic.
-/
namespace Medil
namespace FloatLib
variable (a : FloatLib) {n : Nat}

/-- `np.abs` on lines 85 (`b = true`), nothing on line 63 (`b = false`) -/
def absIf (b : Bool) (x : a.F) : a.F := if b then a.abs x else x

/-- `x ** 2` of an entry of the difference (evaluate.py:63, 85): numpy computes `x * x` -/
def sqDiff (b : Bool) (x y : a.F) : a.F := a.mul (a.sub (a.absIf b x) (a.absIf b y)) (a.sub (a.absIf b x) (a.absIf b y))

/-- `perm_squared_l2_dist(perm)` (evaluate.py:61-63, 83-85): `np.sum` over all entries, in any order.  `perm` has `m` entries. -/
def permDist {m : Nat} (b : Bool) (P T : Fin m → Fin n → a.F) (perm : List (Fin m)) : a.F :=
  a.sum (20 :: perm.map (·.val)) fun e : Fin (m * n) =>
    a.sqDiff b ((perm[e.divNat.val]?.map fun r => P r e.modNat).getD (a.ofNat 0)) (T e.divNat e.modNat)

/-- `min(pairs, key=...)` (evaluate.py:72, 94): an element replaces the best one so far if its key is smaller -/
def minBy {α : Type} : List (α × a.F) → Option (α × a.F)
  | [] => none
  | x :: l => some (l.foldl (fun best y => if a.lt y.2 best.2 then y else best) x)

/-- `min_perm_squared_l2_dist` (`b = false`, evaluate.py:55-74), `min_perm_squared_l2_dist_abs` (`b = true`, evaluate.py:77-96) for two
floating point arrays with equally many columns -/
def minPerm {m l : Nat} (b : Bool) (P : Fin m → Fin n → a.F) (T : Fin l → Fin n → a.F) : Except PyErr (List (Fin m) × a.F) :=
  if l ≤ m ∨ (l = 1 ∧ m = 0) then
    if m = 0 then .error .indexError
    else
      match a.minBy ((pyPerms m (List.finRange m)).map fun p =>
          (p, a.permDist b P (fun i j => if h : i.val < l then T ⟨i, h⟩ j else a.ofNat 0) p)) with
      | none => .error .valueError
      | some r => .ok r
  else .error .valueError

end FloatLib
end Medil

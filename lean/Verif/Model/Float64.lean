import Verif.Model.Ncfa
import Verif.Model.Ecc
import Mathlib.Data.Int.Log
import Mathlib.Data.Rat.Floor
/-
  The three places where medil turns a float into an integer, with the rounding of IEEE double precision: the number of training
  rows of `NeuroCausalFactorAnalysis`, the number of edges of a random structure, and the square root in the printed bound of
  `find_clique_min_cover`.  Overflow and subnormal numbers do not occur at these places and are not modelled.
-/
namespace Medil

section
variable {K : Type} [Field K] [LinearOrder K] [FloorRing K]

/-- the nearest integer, of two nearest ones the even one: `np.round` (sample.py:69, 93), and the rounding of significands -/
def rne (x : K) : ℤ :=
  if x - (⌊x⌋ : K) < 1 / 2 then ⌊x⌋
  else if 1 / 2 < x - (⌊x⌋ : K) then ⌊x⌋ + 1
  else if ⌊x⌋ % 2 = 0 then ⌊x⌋ else ⌊x⌋ + 1

variable [IsStrictOrderedRing K]

/-- the double nearest to `x` (53 significant bits, ties to even): the result of every arithmetic operation whose exact result is `x` -/
def fl64 (x : K) : K := if x = 0 then 0 else (rne (x / 2 ^ (Int.log 2 |x| - 52)) : K) * 2 ^ (Int.log 2 |x| - 52)

end

/-- the number of training rows, `floor(0.7 * N)` in `train_test_split(standardized, train_size=0.7)` (models.py:195-197) -/
def trainSize64 (N : Nat) : Nat := ⌊fl64 (fl64 (7 / 10 : ℚ) * N)⌋.toNat

/-- `np.round(density * max_edges).astype(int)` (sample.py:69, 93) -/
def numEdges64 (density : ℚ) (maxEdges : Nat) : ℤ := rne (fl64 (density * maxEdges))

/-- `int(np.sqrt(p))` (ecc_algorithms.py:52) -/
noncomputable def isqrt64 (p : Nat) : ℤ := ⌊fl64 (Real.sqrt p)⌋

end Medil

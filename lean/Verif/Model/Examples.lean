import Verif.Model.Np
/-
  Model of medil/examples.py: the bundled example graphs with their structures, entry by entry.
-/
namespace Medil

/-- `np.array(udg)` of a list of rows of 0/1 (examples.py:14) -/
def udgOfRows (n : Nat) (rows : List (List Nat)) : BMat n :=
  BMat.of fun i j => ((rows.getD i []).getD j 0) == 1

/-- `np.array(mcm)` of a list of rows of 0/1 (examples.py:17) -/
def mcmOfRows (n : Nat) (rows : List (List Nat)) : List (BVec n) :=
  rows.map fun r => BVec.of fun j => (r.getD j 0) == 1

/-- `ExampleUDGAndMCM` (examples.py:5-17) after both `add_` calls; the description is left out -/
structure Example where
  n : Nat
  udg : BMat n
  mcm : List (BVec n)

/-- `simple_M` (examples.py:20-22) -/
def simpleM : Example := ⟨3,
  udgOfRows 3 [[1, 1, 0], [1, 1, 1], [0, 1, 1]],
  mcmOfRows 3 [[0, 1, 1], [1, 1, 0]]⟩

/-- `triangle` (examples.py:24-37) -/
def triangle : Example := ⟨6,
  udgOfRows 6 [
        [1, 1, 1, 0, 0, 0],
        [1, 1, 1, 1, 1, 0],
        [1, 1, 1, 0, 1, 1],
        [0, 1, 0, 1, 1, 0],
        [0, 1, 1, 1, 1, 1],
        [0, 0, 1, 0, 1, 1]],
  mcmOfRows 6 [[0, 0, 1, 0, 1, 1], [0, 1, 0, 1, 1, 0], [1, 1, 1, 0, 0, 0]]⟩

/-- `more_latents` (examples.py:39-63) -/
def moreLatents : Example := ⟨6,
  udgOfRows 6 [
        [1, 1, 0, 1, 0, 1],
        [1, 1, 1, 0, 1, 0],
        [0, 1, 1, 1, 0, 0],
        [1, 0, 1, 1, 1, 0],
        [0, 1, 0, 1, 1, 1],
        [1, 0, 0, 0, 1, 1]],
  mcmOfRows 6 [
        [1, 1, 0, 0, 0, 0],
        [0, 1, 1, 0, 0, 0],
        [0, 0, 1, 1, 0, 0],
        [0, 0, 0, 1, 1, 0],
        [0, 0, 0, 0, 1, 1],
        [1, 0, 0, 0, 0, 1],
        [1, 0, 0, 1, 0, 0],
        [0, 1, 0, 0, 1, 0]]⟩

/-- `am_cm_diff` (examples.py:65-88) -/
def amCmDiff : Example := ⟨8,
  udgOfRows 8 [
        [1, 1, 1, 1, 1, 0, 1, 0],
        [1, 1, 1, 0, 1, 1, 1, 1],
        [1, 1, 1, 0, 1, 1, 1, 1],
        [1, 0, 0, 1, 0, 1, 1, 1],
        [1, 1, 1, 0, 1, 1, 0, 1],
        [0, 1, 1, 1, 1, 1, 0, 1],
        [1, 1, 1, 1, 0, 0, 1, 1],
        [0, 1, 1, 1, 1, 1, 1, 1]],
  mcmOfRows 8 [
        [1, 1, 1, 0, 1, 0, 0, 0],
        [1, 0, 0, 1, 0, 0, 1, 0],
        [0, 1, 1, 0, 1, 1, 0, 1],
        [0, 0, 0, 1, 0, 1, 0, 1],
        [0, 1, 1, 0, 0, 0, 1, 1]]⟩

/-- `max_assignment_num` (examples.py:90-114) -/
def maxAssignmentNum : Example := ⟨8,
  udgOfRows 8 [
        [1, 1, 1, 1, 1, 1, 1, 1],
        [1, 1, 1, 1, 1, 1, 1, 1],
        [1, 1, 1, 0, 0, 0, 0, 0],
        [1, 1, 0, 1, 0, 0, 0, 0],
        [1, 1, 0, 0, 1, 0, 0, 0],
        [1, 1, 0, 0, 0, 1, 0, 0],
        [1, 1, 0, 0, 0, 0, 1, 0],
        [1, 1, 0, 0, 0, 0, 0, 1]],
  mcmOfRows 8 [
        [1, 1, 1, 0, 0, 0, 0, 0],
        [1, 1, 0, 1, 0, 0, 0, 0],
        [1, 1, 0, 0, 1, 0, 0, 0],
        [1, 1, 0, 0, 0, 1, 0, 0],
        [1, 1, 0, 0, 0, 0, 1, 0],
        [1, 1, 0, 0, 0, 0, 0, 1]]⟩

/-- `examples` (examples.py:116) -/
def examples : List Example := [simpleM, triangle, moreLatents, amCmDiff, maxAssignmentNum]

end Medil

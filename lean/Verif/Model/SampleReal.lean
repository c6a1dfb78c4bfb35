import Verif.Model.Sample
/-
  The weights drawn by `mcm` (medil/sample.py:22-26), for draws in any field, so that they can be continuously distributed.
-/
namespace Medil

/-- `weights = rng.random(E) * 1.5 + 0.5; weights[flips] *= -1; W[biadj] = weights` (sample.py:22-26), with `u` the result of
`rng.random(E)` and `f` that of `rng.choice((True, False), E)` -/
def weightsFrom {K : Type} [Field K] {n : Nat} (B : List (BVec n)) (u : Fin (maskPositions B).length → K)
    (f : Fin (maskPositions B).length → Bool) (i : Fin B.length) (j : Fin n) : K :=
  if h : (maskPositions B).idxOf (i, j) < (maskPositions B).length then
    (if f ⟨_, h⟩ then -(u ⟨_, h⟩ * (3 / 2) + 1 / 2) else u ⟨_, h⟩ * (3 / 2) + 1 / 2)
  else 0

end Medil

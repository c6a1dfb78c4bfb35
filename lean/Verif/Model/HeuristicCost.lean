import Verif.Model.Heuristic
/-
  `find_heuristic_1pc` with a counter for the passes of the loop of `max_cliques` (medil/ecc_algorithms.py:188-208, 232-236).
-/
namespace Medil
variable {n : Nat}

/-- the number of passes of `while True` (ecc_algorithms.py:188) until the generator stops or raises, at most `fuel`; cf. `mcRun` -/
def mcPasses (o : Sched n) (A : BMat n) : Nat → MCState n → Nat
  | 0, _ => 0
  | fuel + 1, s =>
    match mcStep o A s with
    | .stop => 1
    | .raise _ => 1
    | .next s' => 1 + mcPasses o A fuel s'
    | .yield _ s' => 1 + mcPasses o A fuel s'

/-- the number of passes of the loop during `max_cliques(nbrhood)` (ecc_algorithms.py:152-212), cf. `maxCliques` -/
def maxCliquesPasses (o : Sched n) (A : BMat n) : Nat :=
  if n = 0 then 0
  else if (pivot o 0 A BVec.full BVec.full).isNone then 0
  else mcPasses o A (2 ^ (n + 1)) (mcInit o A)

/-- the result of `find_heuristic_1pc(graph)` and the number of passes of the search it runs to its end (ecc_algorithms.py:232-236);
the rest of the function is a fixed number of operations per entry of the matrices and is not counted -/
def findHeuristicCounted (o : Sched n) (A : BMat n) : Nat × Except PyErr (List (BVec n)) :=
  (maxCliquesPasses o (complement A), findHeuristic1pc o A)

end Medil

import Verif.Model.MaxCliques
/-
  Model of `find_heuristic_1pc` (medil/ecc_algorithms.py:225-268).
-/
namespace Medil
variable {n : Nat}

/-- `np.logical_not(graph)` (ecc_algorithms.py:232) -/
def complement (A : BMat n) : BMat n := BMat.of fun i j => !A i j

/-- first longest list (ecc_algorithms.py:233-236) -/
def firstLongest (s : List (Fin n)) (rest : List (List (Fin n))) : List (Fin n) :=
  rest.foldl (fun best t => if t.length > best.length then t else best) s

/-- row of the cover for one vertex of the independent set (ecc_algorithms.py:240-245): the vertex and
its neighbours -/
def starRow (A : BMat n) (v : Fin n) : BVec n := BVec.of fun j => decide (j = v) || A v j

/-- edges `u < v` not inside any row (ecc_algorithms.py:247-253) -/
def uncoveredEdges (A : BMat n) (cover : List (BVec n)) : List (Fin n × Fin n) :=
  (triuPairs n).filter fun e => A e.1 e.2 && !cover.any fun r => r e.1 && r e.2

/-- `find_heuristic_1pc` (ecc_algorithms.py:225-268).

* `next(indep_sets)` on an empty generator is a `StopIteration` (line 233; only for 0 vertices).
* `{edge for edge in np.argwhere(…) if …}` (248-252) builds a *set of numpy arrays*; adding the first
  one is `TypeError: unhashable type: 'numpy.ndarray'`.  So if any edge is uncovered the function
  raises, and otherwise the deque is empty and the repair loop (255-262) does nothing.
* lines 264-266: final check `graph <= recon`, entrywise and including the diagonal. -/
def findHeuristic1pc (o : Sched n) (A : BMat n) : Except PyErr (List (BVec n)) :=
  match maxCliques o (complement A) with
  | .error e => .error e
  | .ok [] => .error .stopIteration
  | .ok (s :: rest) =>
    let S := firstLongest s rest
    let cover := S.map (starRow A)
    if !(uncoveredEdges A cover).isEmpty then .error .typeError
    else if (List.finRange n).any fun i => (List.finRange n).any fun j =>
        A i j && !cover.any fun r => r i && r j
    then .error .exception
    else .ok cover

end Medil

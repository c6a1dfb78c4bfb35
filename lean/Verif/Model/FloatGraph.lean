import Verif.Model.EccCost
/-
  `find_clique_min_cover` on a floating point array of zeros and ones (medil/ecc_algorithms.py:10-149).  All comparisons, sums and
  logical operations on the array give the same results as for an integer array, with one exception:
  `num_vertices = np.trace(adj_matrix)` (graph.py:34) is a float then, and `np.zeros(unreduced.num_vertices, dtype=int)`
  (ecc_algorithms.py:128) raises a `TypeError`.
-/
namespace Medil
variable {n : Nat}

/-- the loop over the maximal cliques (ecc_algorithms.py:125-149): the first one with more than one element leads to line 128 -/
def cliqueLoopFloat (out : BranchOut n) : List (List (Fin n)) → Except PyErr (BranchOut n)
  | [] => .ok out
  | nodes :: rest => if nodes.length = 1 then cliqueLoopFloat out rest else .error .typeError

/-- `branch` (ecc_algorithms.py:68-149), called from `find_clique_min_cover` with budget `k`; there is no nested call -/
def branchFloat (rt : Runtime n) (graph : RG n) (k : Nat) : Except PyErr (BranchOut n) :=
  let g := { graph with cover := none }.coverEdges
  if g.numEdges = 0 then .ok ⟨none, graph.redAway, ⟨g.redAway.isSome, false, false⟩⟩
  else
    match g.reduzieren k with
    | .error e => .error e
    | .ok g =>
      let back := sharedRedAway graph.redAway g.redAway
      let info := PathInfo.mk g.redAway.isSome false false
      if g.k < 0 then .ok ⟨none, back, info⟩
      else if g.numEdges = 0 then .ok ⟨g.cover, back, info⟩
      else
        match g.chooseNbrhood with
        | .error e => .error e
        | .ok N =>
          match maxCliques (rt.sched [k]) N with
          | .error e => .error e
          | .ok cliques => cliqueLoopFloat ⟨none, back, info⟩ cliques

/-- `while the_cover is None` (ecc_algorithms.py:55-63), cf. `findLoop` -/
def findLoopFloat (rt : Runtime n) (g : RG n) : Nat → Nat → Except PyErr (List (BVec n))
  | 0, _ => .error .hang
  | fuel + 1, k =>
    match branchFloat rt g k with
    | .error e => .error e
    | .ok out =>
      match out.res with
      | some c => .ok c
      | none => findLoopFloat rt g fuel (k + 1)

/-- `find_clique_min_cover(graph)` (ecc_algorithms.py:10-65) for a float array with the entries of `A` -/
def findCliqueMinCoverFloat (rt : Runtime n) (fuel : Nat) (A : BMat n) : Except PyErr (List (BVec n)) :=
  match makeAux rt.order A with
  | .error .valueError => .ok ((List.finRange n).map A.row)
  | .error e => .error e
  | .ok g =>
    match maxIntersectNum (traceOf A) (numEdgesOf A) with
    | .error e => .error e
    | .ok _ => (findLoopFloat rt g fuel 1).map addIsolatedVerts

end Medil

import Verif.Model.Graph
import Verif.Model.MaxCliques
/-
  Model of `find_clique_min_cover`, `branch`, `add_isolated_verts`
  (medil/ecc_algorithms.py:10-149, 215-222).
-/
namespace Medil
variable {n : Nat}

/-- everything Python leaves open during one run: the iteration order of the set of extant edges, and
one schedule per call of `max_cliques` (keyed by the search path, most recent first). -/
structure Runtime (n : Nat) where
  order : List (Fin n × Fin n) → List (Fin n × Fin n)
  perm : ∀ l, (order l).Perm l
  sched : List Nat → Sched n

/-- Ghost information about the path that led to a returned cover; the code does not compute it and
nothing in the model reads it, it only serves to state C14 and C18.
* `rule3`: a vertex was deleted by rule 3 on the way
* `capped`: the cover was returned by `if iteration > iteration_max` (ecc_algorithms.py:137-138)
* `branched`: the cover was returned by a nested call of `branch` -/
structure PathInfo where
  rule3 : Bool
  capped : Bool
  branched : Bool
  deriving DecidableEq, Repr

/-- outcome of `branch`: its return value, and the contents of the caller's `reduced_away`
afterwards (the array is shared with the caller's graph object when the caller already has one:
graph.py:164-165, 308-310); plus the ghost information. -/
structure BranchOut (n : Nat) where
  res : Option (List (BVec n))
  redAway : Option (BMat n)
  info : PathInfo

/-- the array visible to the caller after a call that ended with array `after` -/
def sharedRedAway (before after : Option (BMat n)) : Option (BMat n) :=
  match before with
  | none => none
  | some _ => after

/-- the `for clique_nodes in max_cliques(chosen_nbrhood)` loop (ecc_algorithms.py:125-149).
`rec = none` stands for `iteration > iteration_max`. `redAway` is the current contents of
`branch_graph.reduced_away`; `i` numbers the cliques; `info` is the ghost information of a return at the
cap. -/
def cliqueLoop (g : RG n) (k : Int) (info : PathInfo)
    (rec : Option (Nat → RG n → Int → List (BVec n) → Except PyErr (BranchOut n))) :
    Nat → Option (BMat n) → List (List (Fin n)) → Except PyErr (BranchOut n)
  | _, redAway, [] => .ok ⟨none, redAway, info⟩
  | i, redAway, nodes :: rest =>
    if nodes.length = 1 then cliqueLoop g k info rec (i + 1) redAway rest
    -- `clique = np.zeros(unreduced.num_vertices)` has the wrong length unless every diagonal
    -- entry of the input is 1 (ecc_algorithms.py:128); no statement is made otherwise.
    else if g.unredVerts ≠ n then .error .unmodelled
    else
      let clique : BVec n := BVec.of fun v => nodes.contains v
      let union := g.cover.getD [] ++ [clique]
      match rec with
      | none => .ok ⟨g.cover, redAway, info⟩
      | some rec =>
        match rec i { g with redAway := redAway } (k - 1) union with
        | .error e => .error e
        | .ok out =>
          match out.res with
          | some c => .ok ⟨some c, out.redAway, out.info⟩
          | none => cliqueLoop g k info (some rec) (i + 1) out.redAway rest

/-- body of `branch` (ecc_algorithms.py:96-149), given the recursive call `rec` (`none`:
`iteration > iteration_max`).  `recon` is `reconstruct_cover` (line 108; the code is the instance
`recon = RG.reconstructCover`); `path` names the call (only used to key the schedules and for the ghost
information). -/
def branchBody (recon : Option (BMat n) → List (BVec n) → List (BVec n)) (rt : Runtime n)
    (rec : Option (Nat → RG n → Int → List (BVec n) → Except PyErr (BranchOut n)))
    (path : List Nat) (graph : RG n) (k : Int) (cover : Option (List (BVec n))) :
    Except PyErr (BranchOut n) :=
  let g := { graph with cover := cover }.coverEdges
  if g.numEdges = 0 then
    .ok ⟨cover.map (recon g.redAway), graph.redAway,
      ⟨g.redAway.isSome, false, decide (1 < path.length)⟩⟩
  else
    match g.reduzieren k with
    | .error e => .error e
    | .ok g =>
      let back := sharedRedAway graph.redAway g.redAway
      let info := PathInfo.mk g.redAway.isSome false (decide (1 < path.length))
      if g.k < 0 then .ok ⟨none, back, info⟩
      else if g.numEdges = 0 then .ok ⟨g.cover, back, info⟩
      else
        match g.chooseNbrhood with
        | .error e => .error e
        | .ok N =>
          match maxCliques (rt.sched path) N with
          | .error e => .error e
          | .ok cliques =>
            match cliqueLoop g g.k { info with capped := true } rec 0 g.redAway cliques with
            | .error e => .error e
            | .ok out => .ok ⟨out.res, sharedRedAway graph.redAway out.redAway, out.info⟩

/-- `branch` (ecc_algorithms.py:68-149).  The first argument is `iteration_max + 1 - iteration` after
the increment on line 96: the top call has `iteration = 1`, so it is `iteration_max`, and 0 is
`iteration > iteration_max` (line 137). -/
def branch (recon : Option (BMat n) → List (BVec n) → List (BVec n)) (rt : Runtime n) :
    Nat → List Nat → RG n → Int → Option (List (BVec n)) → Except PyErr (BranchOut n)
  | 0, path, graph, k, cover => branchBody recon rt none path graph k cover
  | rem + 1, path, graph, k, cover =>
    branchBody recon rt (some fun i g' k' c => branch recon rt rem (i :: path) g' k' (some c))
      path graph k cover

/-- `add_isolated_verts` (ecc_algorithms.py:215-222) -/
def addIsolatedVerts (cover : List (BVec n)) : List (BVec n) :=
  cover ++ ((List.finRange n).filter fun j => !cover.any fun r => r j).map BVec.single

/-- `while the_cover is None` (ecc_algorithms.py:55-63); `fuel` bounds the number of passes.  Every
pass calls `branch` on the same unreduced graph. -/
def findLoop (recon : Option (BMat n) → List (BVec n) → List (BVec n)) (rt : Runtime n)
    (iterMax : Nat) (g : RG n) : Nat → Nat → Except PyErr (List (BVec n) × PathInfo)
  | 0, _ => .error .hang
  | fuel + 1, k =>
    match branch recon rt iterMax [k] g k none with
    | .error e => .error e
    | .ok out =>
      match out.res with
      | some c => .ok (c, out.info)
      | none => findLoop recon rt iterMax g fuel (k + 1)

/-- the bound computed for printing (ecc_algorithms.py:46-54).  Nothing uses it, but with
`num_vertices**2 // 4 < num_edges` and `p < 0` its `int(np.sqrt(p))` is `int(nan)`, a `ValueError`. -/
def maxIntersectNum (verts edges : Nat) : Except PyErr Nat :=
  if verts ^ 2 / 4 < edges then
    let p := nChoose2 verts - edges
    if p < 0 then .error .valueError
    else .ok (if 0 < p then p.toNat + p.toNat.sqrt else 1)
  else .ok (verts ^ 2 / 4)

/-- `find_clique_min_cover` (ecc_algorithms.py:10-65), `iteration_max = 3` (line 62), together with the
ghost information (`none` for the early return on an edgeless graph). -/
def cliqueSearch (recon : Option (BMat n) → List (BVec n) → List (BVec n)) (rt : Runtime n)
    (fuel : Nat) (A : BMat n) : Except PyErr (List (BVec n) × Option PathInfo) :=
  match makeAux rt.order A with
  | .error .valueError => .ok ((List.finRange n).map A.row, none)
  | .error e => .error e
  | .ok g =>
    match maxIntersectNum (traceOf A) (numEdgesOf A) with
    | .error e => .error e
    | .ok _ =>
      match findLoop recon rt 3 g fuel 1 with
      | .error e => .error e
      | .ok (c, info) => .ok (addIsolatedVerts c, some info)

/-- `find_clique_min_cover(graph)` (ecc_algorithms.py:10-65) -/
def findCliqueMinCover (rt : Runtime n) (fuel : Nat) (A : BMat n) : Except PyErr (List (BVec n)) :=
  (cliqueSearch RG.reconstructCover rt fuel A).map (·.1)

/-- ghost information of the run of `find_clique_min_cover` -/
def findCliqueInfo (rt : Runtime n) (fuel : Nat) (A : BMat n) : Except PyErr (Option PathInfo) :=
  (cliqueSearch RG.reconstructCover rt fuel A).map (·.2)

end Medil

import Verif.Model.Ecc
/-
  `find_clique_min_cover` with a counter for the calls of `branch` (medil/ecc_algorithms.py:10-149): the same functions
  as in Model/Ecc.lean, each returning also the number of calls of `branch` that were made.  `C155_calls` proves that
  the results are those of Model/Ecc.lean.
-/
namespace Medil
variable {n : Nat}

/-- the loop over the cliques (ecc_algorithms.py:125-149), cf. `cliqueLoop` -/
def cliqueLoopC (g : RG n) (k : Int) (info : PathInfo)
    (rec : Option (Nat → RG n → Int → List (BVec n) → Nat × Except PyErr (BranchOut n))) :
    Nat → Option (BMat n) → List (List (Fin n)) → Nat × Except PyErr (BranchOut n)
  | _, redAway, [] => (0, .ok ⟨none, redAway, info⟩)
  | i, redAway, nodes :: rest =>
    if nodes.length = 1 then cliqueLoopC g k info rec (i + 1) redAway rest
    else if g.unredVerts ≠ n then (0, .error .unmodelled)
    else
      let clique : BVec n := BVec.of fun v => nodes.contains v
      let union := g.cover.getD [] ++ [clique]
      match rec with
      | none => (0, .ok ⟨g.cover, redAway, info⟩)
      | some rec =>
        match rec i { g with redAway := redAway } (k - 1) union with
        | (c, .error e) => (c, .error e)
        | (c, .ok out) =>
          match out.res with
          | some cov => (c, .ok ⟨some cov, out.redAway, out.info⟩)
          | none =>
            let r := cliqueLoopC g k info (some rec) (i + 1) out.redAway rest
            (c + r.1, r.2)

/-- the body of `branch` (ecc_algorithms.py:96-149), cf. `branchBody`; it counts itself -/
def branchBodyC (recon : Option (BMat n) → List (BVec n) → List (BVec n)) (rt : Runtime n)
    (rec : Option (Nat → RG n → Int → List (BVec n) → Nat × Except PyErr (BranchOut n)))
    (path : List Nat) (graph : RG n) (k : Int) (cover : Option (List (BVec n))) :
    Nat × Except PyErr (BranchOut n) :=
  let g := { graph with cover := cover }.coverEdges
  if g.numEdges = 0 then
    (1, .ok ⟨cover.map (recon g.redAway), graph.redAway,
      ⟨g.redAway.isSome, false, decide (1 < path.length)⟩⟩)
  else
    match g.reduzieren k with
    | .error e => (1, .error e)
    | .ok g =>
      let back := sharedRedAway graph.redAway g.redAway
      let info := PathInfo.mk g.redAway.isSome false (decide (1 < path.length))
      if g.k < 0 then (1, .ok ⟨none, back, info⟩)
      else if g.numEdges = 0 then (1, .ok ⟨g.cover, back, info⟩)
      else
        match g.chooseNbrhood with
        | .error e => (1, .error e)
        | .ok N =>
          match maxCliques (rt.sched path) N with
          | .error e => (1, .error e)
          | .ok cliques =>
            match cliqueLoopC g g.k { info with capped := true } rec 0 g.redAway cliques with
            | (c, .error e) => (1 + c, .error e)
            | (c, .ok out) => (1 + c, .ok ⟨out.res, sharedRedAway graph.redAway out.redAway, out.info⟩)

/-- `branch` (ecc_algorithms.py:68-149), cf. `branch` in Model/Ecc.lean -/
def branchC (recon : Option (BMat n) → List (BVec n) → List (BVec n)) (rt : Runtime n) :
    Nat → List Nat → RG n → Int → Option (List (BVec n)) → Nat × Except PyErr (BranchOut n)
  | 0, path, graph, k, cover => branchBodyC recon rt none path graph k cover
  | rem + 1, path, graph, k, cover =>
    branchBodyC recon rt (some fun i g' k' c => branchC recon rt rem (i :: path) g' k' (some c))
      path graph k cover

/-- `while the_cover is None` (ecc_algorithms.py:55-63), cf. `findLoop` -/
def findLoopC (recon : Option (BMat n) → List (BVec n) → List (BVec n)) (rt : Runtime n)
    (iterMax : Nat) (g : RG n) : Nat → Nat → Nat × Except PyErr (List (BVec n) × PathInfo)
  | 0, _ => (0, .error .hang)
  | fuel + 1, k =>
    match branchC recon rt iterMax [k] g k none with
    | (c, .error e) => (c, .error e)
    | (c, .ok out) =>
      match out.res with
      | some cov => (c, .ok (cov, out.info))
      | none =>
        let r := findLoopC recon rt iterMax g fuel (k + 1)
        (c + r.1, r.2)

/-- `find_clique_min_cover` (ecc_algorithms.py:10-65): the number of calls of `branch` and the result -/
def findCliqueCounted (rt : Runtime n) (fuel : Nat) (A : BMat n) : Nat × Except PyErr (List (BVec n)) :=
  match makeAux rt.order A with
  | .error .valueError => (0, .ok ((List.finRange n).map A.row))
  | .error e => (0, .error e)
  | .ok g =>
    match maxIntersectNum (traceOf A) (numEdgesOf A) with
    | .error e => (0, .error e)
    | .ok _ =>
      match findLoopC RG.reconstructCover rt 3 g fuel 1 with
      | (c, .error e) => (c, .error e)
      | (c, .ok (cov, _)) => (c, .ok (addIsolatedVerts cov))

end Medil

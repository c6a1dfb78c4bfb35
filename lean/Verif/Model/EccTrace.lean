import Verif.Model.Ecc
/-
  Ghost trace of `find_clique_min_cover` (medil/ecc_algorithms.py:55-63, 96-149): the search states at
  which an unsuccessful pass had to branch.  Nothing in the model reads it; it only serves to state the
  proved part of C14.
-/
namespace Medil
variable {n : Nat}

/-- states at which the nested calls made by `cliqueLoop` branch (ecc_algorithms.py:125-149).
`run` is the nested call, `nodes` the states at which it branches. -/
def loopNodes (g : RG n) (k : Int)
    (run : Nat → RG n → Int → List (BVec n) → Except PyErr (BranchOut n))
    (nodes : Nat → RG n → Int → List (BVec n) → List (RG n)) :
    Nat → Option (BMat n) → List (List (Fin n)) → List (RG n)
  | _, _, [] => []
  | i, redAway, vs :: rest =>
    if vs.length = 1 then loopNodes g k run nodes (i + 1) redAway rest
    else
      let union := g.cover.getD [] ++ [BVec.of fun v => vs.contains v]
      let g' := { g with redAway := redAway }
      nodes i g' (k - 1) union ++
        match run i g' (k - 1) union with
        | .error _ => []
        | .ok out => if out.res.isSome then [] else loopNodes g k run nodes (i + 1) out.redAway rest

/-- states at which a call of `branch` and its nested calls reach `choose_nbrhood` and go through the
cliques of a neighbourhood (ecc_algorithms.py:96-149); arguments as for `branch` -/
def branchNodes (recon : Option (BMat n) → List (BVec n) → List (BVec n)) (rt : Runtime n) :
    Nat → List Nat → RG n → Int → Option (List (BVec n)) → List (RG n)
  | rem, path, graph, k, cover =>
    let g := { graph with cover := cover }.coverEdges
    if g.numEdges = 0 then []
    else
      match g.reduzieren k with
      | .error _ => []
      | .ok g =>
        if g.k < 0 then []
        else if g.numEdges = 0 then []
        else
          match g.chooseNbrhood with
          | .error _ => []
          | .ok N =>
            match maxCliques (rt.sched path) N with
            | .error _ => []
            | .ok cliques =>
              g :: match rem with
                | 0 => []
                | rem + 1 =>
                  loopNodes g g.k (fun i g' k' c => branch recon rt rem (i :: path) g' k' (some c))
                    (fun i g' k' c => branchNodes recon rt rem (i :: path) g' k' (some c))
                    0 g.redAway cliques

/-- states at which the unsuccessful passes of `while the_cover is None` branch
(ecc_algorithms.py:55-63) -/
def passNodes (recon : Option (BMat n) → List (BVec n) → List (BVec n)) (rt : Runtime n)
    (iterMax : Nat) (g : RG n) : Nat → Nat → List (RG n)
  | 0, _ => []
  | fuel + 1, k =>
    match branch recon rt iterMax [k] g k none with
    | .error _ => []
    | .ok out =>
      if out.res.isSome then []
      else branchNodes recon rt iterMax [k] g k none ++ passNodes recon rt iterMax g fuel (k + 1)

/-- states at which the unsuccessful passes of `find_clique_min_cover` branch -/
def failedNodes (rt : Runtime n) (fuel : Nat) (A : BMat n) : List (RG n) :=
  match makeAux rt.order A with
  | .error _ => []
  | .ok g => passNodes RG.reconstructCover rt 3 g fuel 1

end Medil

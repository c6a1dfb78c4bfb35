import Verif.Model.Ecc
/-
  `find_clique_min_cover` with numpy arrays as references (medil/ecc_algorithms.py:10-149, 215-222 and
  medil/graph.py:32-396).  `Model/Graph.lean` and `Model/Ecc.lean` treat arrays as values; here an array is an
  address in a memory, `x.copy()` and the numpy functions that build a new array allocate, an assignment to a
  selection (`a[i, j] = 0`) writes at the address, and an assignment of an attribute (`self.x = y`) copies
  the address.  What the in-place writes may clobber is therefore not decided by the model but by the code.

  The contents written are those of `Model/Graph.lean`.  `UndirectedDependenceGraph` and
  `ReducibleUndDepGraph` objects are values: no object is changed while another variable
  refers to it (the only objects with two names are `unreduced` and the graph passed to `branch`, and neither
  gets an attribute assigned during the search).
-/
namespace Medil
variable {n : Nat}

/-- the arrays of the search: `n x n` 0/1 arrays, covers (`k x n`), `common_neighbors`,
`nbrhood_edge_counts`, `extant_edges_idx` (the last three keyed by pairs as in `Model/Graph.lean`) -/
inductive Arr (n : Nat) where
  | mat (A : BMat n)
  | rows (C : List (BVec n))
  | tab (T : BTab n)
  | cnt (K : ITab n)
  | idx (l : List (Fin n × Fin n))

/-- the rows of a 0/1 array with `n` columns -/
def Arr.toRows : Arr n → List (BVec n)
  | .mat A => (List.finRange n).map A.row
  | .rows C => C
  | _ => []

/-- a memory: the arrays at the addresses below `next` exist -/
structure Mem (n : Nat) where
  arr : Nat → Arr n
  next : Nat

/-- a statement: it may raise, and it leaves a memory behind even then -/
abbrev Py (n : Nat) (α : Type) := Mem n → Except PyErr α × Mem n

namespace Py
variable {α β : Type}

/-- a value, nothing happens -/
def ret (a : α) : Py n α := fun h => (.ok a, h)
/-- an exception -/
def raise (e : PyErr) : Py n α := fun h => (.error e, h)
/-- one statement after the other; an exception skips the rest -/
def bind (m : Py n α) (f : α → Py n β) : Py n β := fun h =>
  match m h with
  | (.error e, h') => (.error e, h')
  | (.ok a, h') => f a h'
/-- a new array -/
def new (a : Arr n) : Py n Nat := fun h =>
  (.ok h.next, ⟨fun q => if q = h.next then a else h.arr q, h.next + 1⟩)
/-- write the contents of an existing array -/
def write (p : Nat) (a : Arr n) : Py n Unit := fun h => (.ok (), ⟨fun q => if q = p then a else h.arr q, h.next⟩)
/-- read an array -/
def read (p : Nat) : Py n (Arr n) := fun h => (.ok (h.arr p), h)

instance : Monad (Py n) where
  pure := ret
  bind := bind

end Py

/-- read a `n x n` 0/1 array; the other constructors never occur where this is used -/
def rdMat (p : Nat) : Py n (BMat n) := Py.bind (Py.read p) fun a =>
  match a with | .mat A => Py.ret A | _ => Py.raise .unmodelled
/-- read a cover -/
def rdRows (p : Nat) : Py n (List (BVec n)) := Py.bind (Py.read p) fun a =>
  match a with | .rows C => Py.ret C | _ => Py.raise .unmodelled
/-- read `common_neighbors` -/
def rdTab (p : Nat) : Py n (BTab n) := Py.bind (Py.read p) fun a =>
  match a with | .tab C => Py.ret C | _ => Py.raise .unmodelled
/-- read `nbrhood_edge_counts` -/
def rdCnt (p : Nat) : Py n (ITab n) := Py.bind (Py.read p) fun a =>
  match a with | .cnt C => Py.ret C | _ => Py.raise .unmodelled
/-- read `extant_edges_idx` -/
def rdIdx (p : Nat) : Py n (List (Fin n × Fin n)) := Py.bind (Py.read p) fun a =>
  match a with | .idx C => Py.ret C | _ => Py.raise .unmodelled

/-- a graph object (`UndirectedDependenceGraph` after `make_aux`, or `ReducibleUndDepGraph`): numbers, and the
addresses of its arrays (graph.py:32-38, 54-122, 141-165).  `unred` is `unreduced.adj_matrix`. -/
structure GObj where
  unred : Nat
  unredVerts : Nat
  adj : Nat
  numVertices : Int
  numEdges : Nat
  cover : Option Nat
  common : Nat
  counts : Nat
  extant : Nat
  redAway : Option Nat
  k : Int
  reducing : Bool

namespace GObj

/-- the values behind the addresses of an object that its methods read together -/
def load (o : GObj) : Py n (RG n) :=
  Py.bind (rdMat o.unred) fun U => Py.bind (rdMat o.adj) fun A => Py.bind (rdTab o.common) fun C =>
  Py.bind (rdCnt o.counts) fun K => Py.bind (rdIdx o.extant) fun l =>
  Py.bind (match o.cover with | none => Py.ret none | some c => Py.bind (rdRows c) fun r => Py.ret (some r))
    fun cov =>
  Py.bind (match o.redAway with | none => Py.ret none | some c => Py.bind (rdMat c) fun r => Py.ret (some r))
    fun ra =>
  Py.ret { unred := U, unredVerts := o.unredVerts, adj := A, numVertices := o.numVertices,
           numEdges := o.numEdges, cover := cov, common := C, counts := K, extant := l, redAway := ra,
           k := o.k, reducing := o.reducing }

/-- `ReducibleUndDepGraph(udg)` (graph.py:141-165): `adj_matrix`, `common_neighbors`,
`nbrhood_edge_counts` and `extant_edges_idx` are copied, `unreduced` and `reduced_away` are not. -/
def copy (o : GObj) : Py n GObj :=
  Py.bind (rdMat o.adj) fun A => Py.bind (Py.new (.mat A)) fun adj =>
  Py.bind (rdTab o.common) fun C => Py.bind (Py.new (.tab C)) fun common =>
  Py.bind (rdCnt o.counts) fun K => Py.bind (Py.new (.cnt K)) fun counts =>
  Py.bind (rdIdx o.extant) fun l => Py.bind (Py.new (.idx l)) fun extant =>
  Py.ret { o with adj := adj, common := common, counts := counts, extant := extant, cover := none }

/-- `rm_edges` (graph.py:47-52), in place, then the new `extant_edges_idx` (graph.py:352-364:
`np.delete` makes a new array) -/
def coverPairs (o : GObj) (es : List (Fin n × Fin n)) : Py n GObj :=
  Py.bind (rdMat o.adj) fun A =>
  Py.bind (Py.write o.adj (.mat (setEdges false A es))) fun _ =>
  Py.bind (rdMat o.adj) fun A' =>
  Py.bind (rdIdx o.extant) fun l =>
  Py.bind (Py.new (.idx (l.filter fun e => !es.contains e))) fun extant =>
  Py.ret { o with numEdges := numEdgesOf A', extant := extant }

/-- `cover_edges()` (graph.py:331-364) -/
def coverEdges (o : GObj) : Py n GObj :=
  match o.cover with
  | none => Py.ret o
  | some c => Py.bind (rdRows c) fun rows =>
    match rows.getLast? with
    | none => Py.ret o
    | some clique => o.coverPairs (listPairs clique.toList)

/-- `rule_1` (graph.py:188-221): the diagonal of `adj_matrix`, the counts and `common_neighbors` are changed in
place, in this order; the counts are computed from `unreduced.adj_matrix` and the rows not yet changed.
`isolated_verts` is a new array. -/
def rule1 (o : GObj) : Py n GObj :=
  Py.bind o.load fun g =>
  let iso := g.isolated
  if iso.isEmpty then Py.ret o
  else
    Py.bind (rdMat o.adj) fun A =>
    Py.bind (Py.write o.adj (.mat (BMat.of fun i j => A i j && !(decide (i = j) && iso i)))) fun _ =>
    Py.bind o.load fun g' =>
    Py.bind (Py.write o.counts (.cnt (ITab.of fun u v => g'.counts u v - RG.rule1Sub g' iso u v))) fun _ =>
    Py.bind (rdTab o.common) fun C =>
    Py.bind (Py.write o.common (.tab (BTab.of fun u v w => C u v w && !iso w))) fun _ =>
    Py.ret { o with numVertices := o.numVertices - iso.card }

/-- `rule_2` (graph.py:239-265): `reshape` of a copied row, or `vstack`, is a new array -/
def rule2 (o : GObj) : Py n GObj :=
  Py.bind o.load fun g =>
  match (g.extant.filter fun e => g.score e == 0).getLast? with
  | none => Py.ret o
  | some e =>
    Py.bind (Py.new (.rows (g.cover.getD [] ++ [g.common.row e.1 e.2]))) fun c =>
    Py.bind ({ o with cover := some c }.coverEdges (n := n)) fun o' =>
    Py.ret { o' with k := o'.k - 1, reducing := true }

/-- `rule_3` (graph.py:267-311): `prisoners` is a new array, computed before the edges are removed;
`reduced_away` is created if the object has none, and its row is written in place. -/
def rule3 (o : GObj) : Py n GObj :=
  Py.bind o.load fun g =>
  match (List.finRange n).find? fun v => g.adj v v && g.dominate v with
  | none => Py.ret o
  | some v =>
    let es := g.vertEdges v
    let pr := g.prisoners v
    if es.isEmpty then Py.raise .indexError
    else
      Py.bind ({ o with reducing := true }.coverPairs es) fun o' =>
      Py.bind (match o'.redAway with
        | some r => Py.ret r
        | none => Py.new (.mat (BMat.of fun _ _ => false))) fun r =>
      Py.bind (rdMat r) fun R =>
      Py.bind (Py.write r (.mat (BMat.of fun i j => if i = v then pr j else R i j))) fun _ =>
      Py.ret { o' with redAway := some r }

/-- the loop of `reduzieren` (graph.py:178-186) -/
def reduceLoop : Nat → GObj → Py n GObj
  | 0, _ => Py.raise .hang
  | fuel + 1, o =>
    Py.bind ({ o with reducing := false }.rule1 (n := n)) fun o =>
    Py.bind (o.rule2 (n := n)) fun o =>
    if o.k < 0 then Py.ret o
    else if o.reducing then reduceLoop fuel o
    else
      Py.bind (o.rule3 (n := n)) fun o =>
      if o.reducing then reduceLoop fuel o else Py.ret o

/-- `reduzieren` (graph.py:170-186), with the number of passes of `RG.reduzieren` -/
def reduzieren (o : GObj) (k : Int) : Py n GObj :=
  reduceLoop ((k + 1).toNat + 2 * o.numEdges + 2) { o with k := k, reducing := true }

/-- `choose_nbrhood` (graph.py:313-329): `chosen_nbrhood` is a copy, and is returned -/
def chooseNbrhood (o : GObj) : Py n Nat :=
  Py.bind o.load fun g =>
  match g.chooseNbrhood with
  | .error e => Py.raise e
  | .ok N => Py.new (.mat N)

/-- `reconstruct_cover(the_cover)` (graph.py:380-396): `the_cover` is changed in place and returned.
(`the_cover is None` only if there is no `reduced_away`.) -/
def reconstructCover (o : GObj) (c : Option Nat) : Py n (Option Nat) :=
  match c with
  | none => Py.ret none
  | some c =>
    match o.redAway with
    | none => Py.ret (some c)
    | some r =>
      Py.bind (rdMat r) fun R => Py.bind (rdRows c) fun C =>
      Py.bind (Py.write c (.rows (RG.reconstructCover (some R) C))) fun _ => Py.ret (some c)

end GObj

/-- the rows stacked under the new clique in `union` (ecc_algorithms.py:130-134): none if `the_cover is None` -/
def rdCover : Option Nat → Py n (List (BVec n))
  | none => Py.ret []
  | some c => rdRows c

/-- the loop over the cliques (ecc_algorithms.py:125-149); `rec = none` stands for
`iteration > iteration_max` -/
def hCliqueLoop (o : GObj) (k : Int) (rec : Option (Nat → GObj → Int → Nat → Py n (Option Nat))) :
    Nat → List (List (Fin n)) → Py n (Option Nat)
  | _, [] => Py.ret none
  | i, nodes :: rest =>
    if nodes.length = 1 then hCliqueLoop o k rec (i + 1) rest
    else if o.unredVerts ≠ n then Py.raise .unmodelled
    else
      Py.bind (rdCover o.cover) fun C =>
      Py.bind (Py.new (.rows (C ++ [BVec.of fun v => nodes.contains v]))) fun union =>
      match rec with
      | none => Py.ret o.cover
      | some rec =>
        Py.bind (rec i o (k - 1) union) fun res =>
        match res with
        | some c => Py.ret (some c)
        | none => hCliqueLoop o k (some rec) (i + 1) rest

/-- body of `branch` (ecc_algorithms.py:96-149) -/
def hBranchBody (rt : Runtime n) (rec : Option (Nat → GObj → Int → Nat → Py n (Option Nat)))
    (path : List Nat) (graph : GObj) (k : Int) (cover : Option Nat) : Py n (Option Nat) :=
  Py.bind (graph.copy (n := n)) fun o =>
  Py.bind ({ o with cover := cover }.coverEdges (n := n)) fun o =>
  if o.numEdges = 0 then o.reconstructCover cover
  else
    Py.bind (o.reduzieren (n := n) k) fun o =>
    if o.k < 0 then Py.ret none
    else if o.numEdges = 0 then Py.ret o.cover
    else
      Py.bind (o.chooseNbrhood (n := n)) fun N =>
      Py.bind (rdMat N) fun N =>
      match maxCliques (rt.sched path) N with
      | .error e => Py.raise e
      | .ok cliques => hCliqueLoop o o.k rec 0 cliques

/-- `branch` (ecc_algorithms.py:68-149); the first argument counts as in `Medil.branch` -/
def hBranch (rt : Runtime n) : Nat → List Nat → GObj → Int → Option Nat → Py n (Option Nat)
  | 0, path, graph, k, cover => hBranchBody rt none path graph k cover
  | rem + 1, path, graph, k, cover =>
    hBranchBody rt (some fun i g' k' c => hBranch rt rem (i :: path) g' k' (some c)) path graph k cover

/-- `while the_cover is None` (ecc_algorithms.py:55-63) -/
def hFindLoop (rt : Runtime n) (iterMax : Nat) (g : GObj) : Nat → Nat → Py n Nat
  | 0, _ => Py.raise .hang
  | fuel + 1, k =>
    Py.bind (hBranch rt iterMax [k] g k none) fun res =>
    match res with
    | some c => Py.ret c
    | none => hFindLoop rt iterMax g fuel (k + 1)

/-- `UndirectedDependenceGraph(graph)` and `make_aux` (graph.py:32-38, 54-122): `adj_matrix` is the
caller's array itself; the array `common_neighbors` exists when the `ValueError` of an edgeless graph is raised. -/
def hMakeAux (rt : Runtime n) (a : Nat) : Py n GObj :=
  Py.bind (rdMat a) fun A =>
  Py.bind (Py.new (.tab (BTab.of fun _ _ _ => false))) fun common =>
  if (edgeList A).isEmpty && decide (n ≠ 0) then Py.raise .valueError
  else
    Py.bind (Py.new (.idx (rt.order (edgeList A)))) fun extant =>
    Py.bind (Py.write common (.tab (commonOf A))) fun _ =>
    Py.bind (Py.new (.cnt (countsOf A (commonOf A)))) fun counts =>
    Py.ret { unred := a, unredVerts := traceOf A, adj := a, numVertices := traceOf A,
             numEdges := numEdgesOf A, cover := none, common := common, counts := counts,
             extant := extant, redAway := none, k := 0, reducing := false }

/-- `find_clique_min_cover(graph)` (ecc_algorithms.py:10-65) on the array at address `a`: the address of the
array returned.  On an edgeless graph that is `graph.adj_matrix`, the caller's array (lines 41-43). -/
def hFindCliqueMinCover (rt : Runtime n) (fuel : Nat) (a : Nat) : Py n Nat := fun h =>
  match hMakeAux rt a h with
  | (.error .valueError, h') => (.ok a, h')
  | (.error e, h') => (.error e, h')
  | (.ok g, h') =>
    (Py.bind (rdMat a) fun A =>
      match maxIntersectNum (traceOf A) (numEdgesOf A) with
      | .error e => Py.raise e
      | .ok _ =>
        Py.bind (hFindLoop rt 3 g fuel 1) fun c =>
        Py.bind (rdRows c) fun C => Py.new (.rows (addIsolatedVerts C))) h'

end Medil

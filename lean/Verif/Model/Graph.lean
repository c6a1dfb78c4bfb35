import Verif.Model.Np
/-
  Model of medil/graph.py: `UndirectedDependenceGraph` and `ReducibleUndDepGraph`.

  Rows of `common_neighbors` / entries of `nbrhood_edge_counts` are keyed here by the vertex pair
  `(u,v)`, `u < v`, instead of by `get_idx((u,v))`; `getIdx`/`getEdge` below are proved to be inverse
  bijections (C19), so nothing is lost.
-/
namespace Medil
variable {n : Nat}

/-- `np.triu(adj_matrix, 1).sum()` (graph.py:37, 45, 52). -/
def numEdgesOf (A : BMat n) : Nat := (triuPairs n).countP fun e => A e.1 e.2

/-- `np.trace(adj_matrix)` (graph.py:35). -/
def traceOf (A : BMat n) : Nat := countFin fun i => A i i

/-- `UndirectedDependenceGraph` before `make_aux` (graph.py:32-38).  `max_num_verts` is `n`. -/
structure UDG (n : Nat) where
  adj : BMat n
  numVertices : Nat
  numEdges : Nat

/-- `__init__` (graph.py:32-38) -/
def UDG.init (A : BMat n) : UDG n := ⟨A, traceOf A, numEdgesOf A⟩

/-- write `b` at `(u,v)` and `(v,u)` for every listed edge (graph.py:41-44, 48-51) -/
def setEdges (b : Bool) (A : BMat n) (es : List (Fin n × Fin n)) : BMat n :=
  BMat.of fun i j => if es.contains (i, j) || es.contains (j, i) then b else A i j

/-- `add_edges` (graph.py:40-45) -/
def UDG.addEdges (g : UDG n) (es : List (Fin n × Fin n)) : UDG n :=
  let A := setEdges true g.adj es
  { g with adj := A, numEdges := numEdgesOf A }

/-- `rm_edges` (graph.py:47-52) -/
def UDG.rmEdges (g : UDG n) (es : List (Fin n × Fin n)) : UDG n :=
  let A := setEdges false g.adj es
  { g with adj := A, numEdges := numEdgesOf A }

/-- `get_idx` on a pair `u < v` (graph.py:64-69): its position in `np.triu_indices(n,1)`. -/
def getIdx (u v : Fin n) : Nat := (triuPairs n).idxOf (u, v)

/-- `get_edge` (graph.py:71-73) -/
def getEdge (n : Nat) (i : Nat) : Option (Fin n × Fin n) := (triuPairs n)[i]?

/-- `extant_edges` (graph.py:80): the pairs `u < v` with `A u v`, in row-major order. -/
def edgeList (A : BMat n) : List (Fin n × Fin n) := (triuPairs n).filter fun e => A e.1 e.2

/-- the rows written by `make_aux` (graph.py:60-62, 76-78, 84-88): for an edge `u < v` the common
(closed) neighbourhood, 0 for every other pair. -/
def commonOf (A : BMat n) : BTab n :=
  BTab.of fun u v w => decide (u < v) && A u v && (A u w && A v w)

/-- sum of the submatrix of `A` on the vertices `m` (graph.py:104) -/
def subSum (A : BMat n) (m : BVec n) : Nat :=
  (m.toList.map fun i => (m.toList.countP fun j => A i j)).sum

/-- `nbrhood_edge_counts` (graph.py:99-116): `(submatrix.sum() - mask.sum()) // 2`. -/
def countsOf (A : BMat n) (C : BTab n) : ITab n :=
  ITab.of fun u v =>
    if u < v then ((subSum A (C.row u v) : Int) - ((C.row u v).card : Int)) / 2 else 0

/-- a graph after `make_aux`, and a `ReducibleUndDepGraph` (graph.py:54-122, 140-165).

* `unred`, `unredVerts` : `unreduced.adj_matrix`, `unreduced.num_vertices`
* `cover = none` : `the_cover is None`
* `redAway = none` : the attribute `reduced_away` does not exist -/
structure RG (n : Nat) where
  unred : BMat n
  unredVerts : Nat
  adj : BMat n
  numVertices : Int
  numEdges : Nat
  cover : Option (List (BVec n))
  common : BTab n
  counts : ITab n
  extant : List (Fin n × Fin n)
  redAway : Option (BMat n)
  k : Int
  reducing : Bool
  deriving DecidableEq, Repr

/-- `make_aux` on a fresh graph (graph.py:54-122) followed by `reducible_copy` (graph.py:128-129,
141-165).  `make_aux` raises `ValueError` on an edgeless graph: the empty list of neighbourhoods has
shape `(0,)` and cannot be written into a `(0, n)` selection — except for `n = 0`, where it can.
`extant` is listed in the iteration order of a Python set (graph.py:81-83): `order` is arbitrary. -/
def makeAux (order : List (Fin n × Fin n) → List (Fin n × Fin n)) (A : BMat n) :
    Except PyErr (RG n) :=
  if (edgeList A).isEmpty && decide (n ≠ 0) then .error .valueError
  else
    let C := commonOf A
    .ok { unred := A, unredVerts := traceOf A, adj := A, numVertices := traceOf A,
          numEdges := numEdgesOf A, cover := none, common := C, counts := countsOf A C,
          extant := order (edgeList A), redAway := none, k := 0, reducing := false }

namespace RG

/-- vertices with `adj.sum(0) + adj.sum(1) == 2` (graph.py:192-194) -/
def isolated (g : RG n) : BVec n :=
  BVec.of fun v => countFin (fun u => g.adj u v) + countFin (fun u => g.adj v u) == 2

/-- what `rule_1` subtracts from the count of the pair `(u,v)` (graph.py:203-216): for every isolated
vertex in the (not yet updated) row, the size of its unreduced open neighbourhood within the row. -/
def rule1Sub (g : RG n) (iso : BVec n) (u v : Fin n) : Int :=
  ((iso.toList.filter fun w => g.common u v w).map fun w =>
    (countFin fun x => g.unred w x && decide (x ≠ w) && g.common u v x : Int)).sum

/-- `rule_1` (graph.py:188-221) -/
def rule1 (g : RG n) : RG n :=
  let iso := g.isolated
  if iso.isEmpty then g
  else
    { g with
      adj := BMat.of fun i j => g.adj i j && !(decide (i = j) && iso i)
      numVertices := g.numVertices - iso.card
      counts := ITab.of fun u v => g.counts u v - rule1Sub g iso u v
      common := BTab.of fun u v w => g.common u v w && !iso w }

/-- `rm_edges` then `extant_edges_idx` update: the second half of `cover_edges` (graph.py:352-364). -/
def coverPairs (g : RG n) (es : List (Fin n × Fin n)) : RG n :=
  let A := setEdges false g.adj es
  { g with adj := A, numEdges := numEdgesOf A,
           extant := g.extant.filter fun e => !es.contains e }

/-- `cover_edges()` (graph.py:331-364): cover the pairs of the last row of `the_cover`. -/
def coverEdges (g : RG n) : RG n :=
  match g.cover with
  | none => g
  | some rows =>
    match rows.getLast? with
    | none => g   -- never happens: `the_cover` is built by `reshape(1,-1)` / `vstack`
    | some clique => g.coverPairs (listPairs clique.toList)

/-- `score` of a pair (graph.py:245, 317): `n_choose_2(|row|) - count` -/
def score (g : RG n) (e : Fin n × Fin n) : Int :=
  nChoose2 (g.common.row e.1 e.2).card - g.counts e.1 e.2

/-- `rule_2` (graph.py:239-265): the *last* extant edge with score 0. -/
def rule2 (g : RG n) : RG n :=
  match (g.extant.filter fun e => g.score e == 0).getLast? with
  | none => g
  | some e =>
    let clique := g.common.row e.1 e.2
    let g' := { g with cover := some (g.cover.getD [] ++ [clique]) }.coverEdges
    { g' with k := g'.k - 1, reducing := true }

/-- exits of `v` (graph.py:279-284) -/
def exits (g : RG n) (v : Fin n) : BVec n :=
  BVec.of fun u => g.adj v u && (List.finRange n).any fun w => g.adj u w && !g.adj v w

/-- prisoners of `v` (graph.py:286-287) -/
def prisoners (g : RG n) (v : Fin n) : BVec n :=
  let ex := g.exits v
  BVec.of fun u => !ex u && g.adj v u && decide (u ≠ v)

/-- `prisoners_dominate_exits.all()` (graph.py:290-291) -/
def dominate (g : RG n) (v : Fin n) : Bool :=
  let ex := g.exits v
  let pr := g.prisoners v
  ex.toList.all fun e => pr.toList.any fun p => g.adj p e

/-- `[[vert, u] … if vert != u]`, each sorted (graph.py:297-304) -/
def vertEdges (g : RG n) (v : Fin n) : List (Fin n × Fin n) :=
  ((List.finRange n).filter fun u => g.adj v u && decide (v ≠ u)).map fun u =>
    if v < u then (v, u) else (u, v)

/-- `rule_3` (graph.py:267-311).  With no edge to cover, `edges` is a 1-d array and
`edges[:, 0]` (graph.py:48) is an `IndexError`. -/
def rule3 (g : RG n) : Except PyErr (RG n) :=
  match (List.finRange n).find? fun v => g.adj v v && g.dominate v with
  | none => .ok g
  | some v =>
    let es := g.vertEdges v
    if es.isEmpty then .error .indexError
    else
      let pr := g.prisoners v
      let g' := { g with reducing := true }.coverPairs es
      let R : Fin n → Fin n → Bool := match g.redAway with
        | none => fun _ _ => false
        | some R => fun i j => R i j
      .ok { g' with redAway := some (BMat.of fun i j => if i = v then pr j else R i j) }

/-- the `while self.reducing` loop of `reduzieren` (graph.py:178-186) -/
def reduceLoop : Nat → RG n → Except PyErr (RG n)
  | 0, _ => .error .hang
  | fuel + 1, g =>
    let g := { g with reducing := false }
    let g := g.rule1.rule2
    if g.k < 0 then .ok g
    else if g.reducing then reduceLoop fuel g
    else
      match g.rule3 with
      | .error e => .error e
      | .ok g => if g.reducing then reduceLoop fuel g else .ok g

/-- `reduzieren` (graph.py:170-186).  The fuel (one pass per uncovered matrix entry, per remaining
clique, plus two) is proved sufficient. -/
def reduzieren (g : RG n) (k : Int) : Except PyErr (RG n) :=
  reduceLoop ((k + 1).toNat + 2 * g.numEdges + 2) { g with k := k, reducing := true }

/-- first element with the smallest score: `score.argmin()` (graph.py:320) -/
def argminScore (g : RG n) : List (Fin n × Fin n) → Option (Fin n × Fin n)
  | [] => none
  | e :: l => match argminScore g l with
    | none => some e
    | some e' => if g.score e' < g.score e then some e' else some e

/-- `choose_nbrhood` (graph.py:313-329); `argmin` of an empty array is a `ValueError`. -/
def chooseNbrhood (g : RG n) : Except PyErr (BMat n) :=
  match g.argminScore g.extant with
  | none => .error .valueError
  | some e =>
    let mask := g.common.row e.1 e.2
    let N : BMat n := BMat.of fun i j => g.adj i j && mask i && mask j
    if ((List.finRange n).map fun i => countFin fun j => N i j).sum ≤ mask.card
    then .error .valueError else .ok N

/-- `reconstruct_cover` (graph.py:380-396): vertices with a non-empty prisoner row, in index order. -/
def reconstructCover (redAway : Option (BMat n)) (cover : List (BVec n)) : List (BVec n) :=
  match redAway with
  | none => cover
  | some R =>
    ((List.finRange n).filter fun v => (List.finRange n).any fun p => R v p).foldl
      (fun rows v => rows.map fun row =>
        if (List.finRange n).any (fun p => R v p && row p)
        then BVec.of fun j => row j || decide (j = v) else row) cover

end RG
end Medil

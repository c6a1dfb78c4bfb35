import Verif.Model.HeapSearch
/-
  Graph objects as a user handles them (medil/graph.py:32-52, 54-129, 141-165): arrays are shared by reference
  (`Model/HeapSearch.lean`), `make_aux` is remembered by its attributes.
-/
namespace Medil
variable {n : Nat}

/-- a method call on a `ReducibleUndDepGraph` -/
inductive CopyOp (n : Nat) where
  /-- `rule_1()` -/
  | rule1
  /-- `rule_2()` -/
  | rule2
  /-- `rule_3()` -/
  | rule3
  /-- `cover_edges(edges)` with sorted pairs -/
  | cover (es : List (Fin n × Fin n))
  /-- `cover_edges()` -/
  | coverLast
  /-- `reduzieren(k)` -/
  | reduce (k : Int)

/-- one call (graph.py:170-186, 188-221, 239-265, 267-311, 331-364).  `rule_2` and `rule_3` set `reducing`, and
`rule_2` counts `k_num_cliques` down; both attributes exist once `reduzieren` was called, the model starts them
at `False` and 0. -/
def GObj.op (o : GObj) : CopyOp n → Py n GObj
  | .rule1 => o.rule1
  | .rule2 => o.rule2
  | .rule3 => o.rule3
  | .cover es => o.coverPairs es
  | .coverLast => o.coverEdges
  | .reduce k => o.reduzieren k

/-- a history of calls on one object; it ends at the first exception -/
def GObj.ops (o : GObj) : List (CopyOp n) → Py n GObj
  | [] => Py.ret o
  | c :: cs => Py.bind (o.op c) fun o' => o'.ops cs

/-- `rm_edges` on the graph object that owns `o.unred` (graph.py:47-52): the array is changed in place -/
def GObj.rmOriginal (o : GObj) (es : List (Fin n × Fin n)) : Py n Unit :=
  Py.bind (rdMat o.unred) fun A => Py.write o.unred (.mat (setEdges false A es))

/-- an `UndirectedDependenceGraph` (graph.py:32-38): `adj_matrix` is a reference -/
structure UObj where
  adj : Nat
  numVertices : Nat
  numEdges : Nat

/-- the arrays and graph objects of a session -/
structure GraphSession (n : Nat) where
  mem : Mem n
  objs : List UObj

/-- what a user does: make an array, make a graph object from an existing array, call `add_edges` or
`rm_edges` on the `i`-th graph object -/
inductive GraphCall (n : Nat) where
  | array (A : BMat n)
  | graph (a : Nat)
  | add (i : Nat) (es : List (Fin n × Fin n))
  | rm (i : Nat) (es : List (Fin n × Fin n))

/-- `add_edges` / `rm_edges` (graph.py:40-52) on object `i`: the array is written, then counted; calls on
objects that do not exist are ignored -/
def GraphSession.edit (s : GraphSession n) (b : Bool) (i : Nat) (es : List (Fin n × Fin n)) : GraphSession n :=
  match s.objs[i]? with
  | none => s
  | some o =>
    match s.mem.arr o.adj with
    | .mat A =>
      { mem := ⟨fun q => if q = o.adj then .mat (setEdges b A es) else s.mem.arr q, s.mem.next⟩
        objs := s.objs.set i { o with numEdges := numEdgesOf (setEdges b A es) } }
    | _ => s

/-- one call (graph.py:32-38 for `graph`) -/
def GraphSession.step (s : GraphSession n) : GraphCall n → GraphSession n
  | .array A => { s with mem := ⟨fun q => if q = s.mem.next then .mat A else s.mem.arr q, s.mem.next + 1⟩ }
  | .graph a =>
    if a < s.mem.next then
      match s.mem.arr a with
      | .mat A => { s with objs := s.objs ++ [⟨a, traceOf A, numEdgesOf A⟩] }
      | _ => s
    else s
  | .add i es => s.edit true i es
  | .rm i es => s.edit false i es

/-- the session after a history of calls, starting with no array and no object -/
def GraphSession.run (cs : List (GraphCall n)) : GraphSession n :=
  cs.foldl GraphSession.step ⟨⟨fun _ => .rows [], 0⟩, []⟩

/-- an `UndirectedDependenceGraph` with the attributes that `make_aux` sets, as far as they are set
(graph.py:32-38, 54-122).  `hasIdx`: the attributes `get_idx`, `get_edge`, `nbrs` exist. -/
structure UG (n : Nat) where
  adj : BMat n
  numVertices : Nat
  numEdges : Nat
  hasIdx : Bool
  common : Option (BTab n)
  extant : Option (List (Fin n × Fin n))
  counts : Option (ITab n)

/-- `UndirectedDependenceGraph(A)` (graph.py:32-38) -/
def UG.init (A : BMat n) : UG n := ⟨A, traceOf A, numEdgesOf A, false, none, none, none⟩

/-- `add_edges` / `rm_edges` (graph.py:40-52): nothing but the matrix and `num_edges` changes -/
def UG.edit (g : UG n) (b : Bool) (es : List (Fin n × Fin n)) : UG n :=
  { g with adj := setEdges b g.adj es, numEdges := numEdgesOf (setEdges b g.adj es) }

/-- `make_aux` (graph.py:54-122).  On a graph without edges the `ValueError` of line 88 comes after
`common_neighbors` (line 60), `get_idx` (line 69) and `extant_edges_idx` (line 81) are set, and before
`nbrhood_edge_counts` (line 110). -/
def UG.makeAux (order : List (Fin n × Fin n) → List (Fin n × Fin n)) (g : UG n) : Except PyErr Unit × UG n :=
  if (edgeList g.adj).isEmpty && decide (n ≠ 0) then
    (.error .valueError,
      { g with hasIdx := true, common := some (BTab.of fun _ _ _ => false), extant := some (order []) })
  else
    (.ok (), { g with hasIdx := true, common := some (commonOf g.adj), extant := some (order (edgeList g.adj)),
                      counts := some (countsOf g.adj (commonOf g.adj)) })

/-- `reducible_copy()` (graph.py:128-129, 141-165): `make_aux` is only called if there is no `get_idx`; reading
an attribute that does not exist raises `AttributeError`. -/
def UG.reducibleCopy (order : List (Fin n × Fin n) → List (Fin n × Fin n)) (g : UG n) :
    Except PyErr (RG n) × UG n :=
  let r := if g.hasIdx then (.ok (), g) else g.makeAux order
  match r with
  | (.error e, g) => (.error e, g)
  | (.ok _, g) =>
    match g.common, g.counts, g.extant with
    | some C, some K, some l =>
      (.ok { unred := g.adj, unredVerts := g.numVertices, adj := g.adj, numVertices := g.numVertices,
             numEdges := g.numEdges, cover := none, common := C, counts := K, extant := l, redAway := none,
             k := 0, reducing := false }, g)
    | _, _, _ => (.error .attributeError, g)

/-- a call on a graph object before a copy is made -/
inductive UGCall (n : Nat) where
  | edit (b : Bool) (es : List (Fin n × Fin n))
  | makeAux

/-- the object after a history of calls; the user goes on after an exception -/
def UG.run (order : List (Fin n × Fin n) → List (Fin n × Fin n)) (g : UG n) : List (UGCall n) → UG n
  | [] => g
  | .edit b es :: cs => (g.edit b es).run order cs
  | .makeAux :: cs => (g.makeAux order).2.run order cs

end Medil

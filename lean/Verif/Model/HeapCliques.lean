import Verif.Model.MaxCliques
/-
  `max_cliques` (medil/ecc_algorithms.py:152-212) as a generator object, with Python's sets and lists as references.
  `Model/MaxCliques.lean` treats them as values and runs the generator to its end; here the sets `subg`, `cand`, `ext_u`
  and the list `Q` are cells of a memory, `pop`, `remove`, `Q[-1] = q`, `Q.append` and `Q.pop` change a cell in place,
  `&`, `-` and `Q[:]` make a new one, and the stack holds references.  A caller may make arrays and generators,
  call `next` on them in any order, and change the arrays and the lists it was given at any time.
-/
namespace Medil
variable {n : Nat}

/-- what the memory holds: 0/1 arrays, sets of vertices, lists of vertices (with `None`).  Lists are stored with
the last element first, as in `MCState`. -/
inductive Cell (n : Nat) where
  | mat (A : BMat n)
  | set (S : BVec n)
  | list (l : List (Option (Fin n)))

/-- a memory: the cells below `next` exist -/
structure CMem (n : Nat) where
  cell : Nat → Cell n
  next : Nat

namespace CMem

/-- change a cell in place -/
def put (m : CMem n) (p : Nat) (c : Cell n) : CMem n := ⟨fun x => if x = p then c else m.cell x, m.next⟩
/-- a new cell; its address is `m.next` -/
def alloc (m : CMem n) (c : Cell n) : CMem n := ⟨fun x => if x = m.next then c else m.cell x, m.next + 1⟩
/-- the set at an address (other cells do not occur where this is used) -/
def rdSet (m : CMem n) (p : Nat) : BVec n := match m.cell p with | .set S => S | _ => BVec.of fun _ => false
/-- the list at an address -/
def rdList (m : CMem n) (p : Nat) : List (Option (Fin n)) := match m.cell p with | .list l => l | _ => []

end CMem

/-- the local variables of a generator that was started (ecc_algorithms.py:176-185): references, except for the dict
`adj`, whose sets are built from the array when the generator starts and never changed -/
structure GenLoc (n : Nat) where
  adj : BMat n
  q : Nat
  subg : Nat
  cand : Nat
  ext : Nat
  stack : List (Nat × Nat × Nat)
  t : Nat

/-- a generator object: made by the call `max_cliques(nbrhood)`, which runs nothing; suspended at a `yield`; finished -/
inductive GenObj (n : Nat) where
  | made (a : Nat)
  | live (g : GenLoc n)
  | over

/-- what one pass of the loop does -/
inductive GenOut (n : Nat) where
  | next (g : GenLoc n) (m : CMem n)
  | yield (r : Nat) (g : GenLoc n) (m : CMem n)
  | stop (m : CMem n)
  | raise (e : PyErr) (m : CMem n)

/-- one pass of `while True` (ecc_algorithms.py:188-208), with references; cf. `mcStep` -/
def genStep (o : Sched n) (g : GenLoc n) (m : CMem n) : GenOut n :=
  match pick o g.t (m.rdSet g.ext) with
  | some q =>
    let m := m.put g.ext (.set ((m.rdSet g.ext).erase q))
    if !(m.rdSet g.cand) q then .raise .keyError m else
    let m := m.put g.cand (.set ((m.rdSet g.cand).erase q))
    match m.rdList g.q with
    | [] => .stop m
    | _ :: qs =>
      let m := m.put g.q (.list (some q :: qs))
      let subgQ := m.next
      let m := m.alloc (.set ((m.rdSet g.subg).inter (nbrSet g.adj q)))
      if (m.rdSet subgQ).isEmpty then
        let r := m.next
        let m := m.alloc (.list (m.rdList g.q))
        .yield r { g with t := g.t + 1 } m
      else
        let candQ := m.next
        let m := m.alloc (.set ((m.rdSet g.cand).inter (nbrSet g.adj q)))
        if (m.rdSet candQ).isEmpty then .next { g with t := g.t + 1 } m
        else
          let m := m.put g.q (.list (none :: m.rdList g.q))
          if (pivot o (g.t + 1) g.adj (m.rdSet subgQ) (m.rdSet candQ)).isNone then .raise .valueError m
          else
            let ext := m.next
            let m := m.alloc (.set (extSet o (g.t + 1) g.adj (m.rdSet subgQ) (m.rdSet candQ)))
            .next { g with subg := subgQ, cand := candQ, ext := ext,
                           stack := (g.subg, g.cand, g.ext) :: g.stack, t := g.t + 2 } m
  | none =>
    match m.rdList g.q with
    | [] => .stop m
    | _ :: qs =>
      let m := m.put g.q (.list qs)
      match g.stack with
      | [] => .stop m
      | (s, c, e) :: st => .next { g with subg := s, cand := c, ext := e, stack := st, t := g.t + 1 } m

/-- what `next(gen)` gives: the address of a list, or an exception -/
inductive GenAns where
  | clique (r : Nat)
  | stopIteration
  | raised (e : PyErr)

/-- `next(gen)` for a suspended generator; `hang` if there was no answer within `fuel` passes -/
def genRun (o : Sched n) : Nat → GenLoc n → CMem n → GenAns × GenObj n × CMem n
  | 0, _, m => (.raised .hang, .over, m)
  | fuel + 1, g, m =>
    match genStep o g m with
    | .next g m => genRun o fuel g m
    | .yield r g m => (.clique r, .live g, m)
    | .stop m => (.stopIteration, .over, m)
    | .raise e m => (.raised e, .over, m)

/-- `next(gen)` (ecc_algorithms.py:173-212).  The first call reads the array. -/
def genNext (o : Sched n) (x : GenObj n) (m : CMem n) : GenAns × GenObj n × CMem n :=
  match x with
  | .over => (.stopIteration, .over, m)
  | .live g => genRun o (2 ^ (n + 1)) g m
  | .made a =>
    match m.cell a with
    | .mat A =>
      if n = 0 then (.stopIteration, .over, m)
      else
        let q := m.next
        let m := m.alloc (.list [none])
        let subg := m.next
        let m := m.alloc (.set BVec.full)
        let cand := m.next
        let m := m.alloc (.set BVec.full)
        if (pivot o 0 A (m.rdSet subg) (m.rdSet cand)).isNone then (.raised .valueError, .over, m)
        else
          let ext := m.next
          let m := m.alloc (.set (extSet o 0 A (m.rdSet subg) (m.rdSet cand)))
          genRun o (2 ^ (n + 1)) ⟨A, q, subg, cand, ext, [], 1⟩ m
    | _ => (.raised .unmodelled, .over, m)

/-- what a caller sees when `next` returns -/
inductive GenSeen (n : Nat) where
  | clique (c : List (Fin n))
  | stopIteration
  | raised (e : PyErr)

/-- the contents of a list of vertices, in Python's order -/
def CMem.vertices (m : CMem n) (r : Nat) : List (Fin n) := (m.rdList r).reverse.filterMap id

/-- a session: the memory, the generator objects, the arrays and lists that the caller has, and the answers
to all calls of `next` (number of the generator, what was seen), oldest first -/
structure CliqueSession (n : Nat) where
  mem : CMem n
  gens : List (GenObj n)
  arrays : List Nat
  lists : List Nat
  log : List (Nat × GenSeen n)

/-- what a caller can do: make an array; overwrite its `k`-th array in place; call `max_cliques` on its
`k`-th array; call `next` on the `i`-th generator; change the `k`-th list that a generator gave it -/
inductive CliqueCall (n : Nat) where
  | array (A : BMat n)
  | write (k : Nat) (A : BMat n)
  | gen (k : Nat)
  | next (i : Nat)
  | change (k : Nat) (l : List (Fin n))

/-- one call; calls on things that do not exist are ignored.  The sets of generator `i` are iterated
according to `o i`. -/
def CliqueSession.step (o : Nat → Sched n) (s : CliqueSession n) : CliqueCall n → CliqueSession n
  | .array A => { s with mem := s.mem.alloc (.mat A), arrays := s.arrays ++ [s.mem.next] }
  | .write k A =>
    match s.arrays[k]? with
    | none => s
    | some a => { s with mem := s.mem.put a (.mat A) }
  | .gen k =>
    match s.arrays[k]? with
    | none => s
    | some a => { s with gens := s.gens ++ [.made a] }
  | .next i =>
    match s.gens[i]? with
    | none => s
    | some x =>
      match genNext (o i) x s.mem with
      | (.clique r, x, m) =>
        { s with mem := m, gens := s.gens.set i x, lists := s.lists ++ [r],
                 log := s.log ++ [(i, .clique (m.vertices r))] }
      | (.stopIteration, x, m) =>
        { s with mem := m, gens := s.gens.set i x, log := s.log ++ [(i, .stopIteration)] }
      | (.raised e, x, m) => { s with mem := m, gens := s.gens.set i x, log := s.log ++ [(i, .raised e)] }
  | .change k l =>
    match s.lists[k]? with
    | none => s
    | some r => { s with mem := s.mem.put r (.list (l.reverse.map some)) }

/-- the session after a history of calls -/
def CliqueSession.run (o : Nat → Sched n) (cs : List (CliqueCall n)) : CliqueSession n :=
  cs.foldl (CliqueSession.step o) ⟨⟨fun _ => .list [], 0⟩, [], [], [], []⟩

end Medil

import Verif.Model.Np
/-
  Model of `max_cliques` (medil/ecc_algorithms.py:152-212): the iterative
  Bron–Kerbosch generator, as a stack machine, one `step` per `while True` pass.
-/
namespace Medil
variable {n : Nat}

/-- Python's `set.pop()` and `max(set, key=…)` pick *some* element; which one depends on the
hash table.  A schedule may answer differently at every step `t` and for every set. -/
abbrev Sched (n : Nat) := Nat → BVec n → Nat

/-- An element of `S` selected by the schedule; `none` iff `S` is empty. -/
def pick (o : Sched n) (t : Nat) (S : BVec n) : Option (Fin n) :=
  S.toList[o t S % S.toList.length]?

/-- `adj[q]` (ecc_algorithms.py:176-178): neighbours without the vertex itself. -/
def nbrSet (A : BMat n) (q : Fin n) : BVec n := BVec.of fun v => A q v && decide (v ≠ q)

def BVec.inter (a b : BVec n) : BVec n := BVec.of fun i => a i && b i
def BVec.diff (a b : BVec n) : BVec n := BVec.of fun i => a i && !b i
def BVec.erase (a : BVec n) (q : Fin n) : BVec n := BVec.of fun i => a i && decide (i ≠ q)
def BVec.full : BVec n := BVec.of fun _ => true
def BVec.single (q : Fin n) : BVec n := BVec.of fun i => decide (i = q)

/-- `u = max(subg, key=lambda u: len(cand & adj[u]))` (ecc_algorithms.py:183, 204): any element of
`subg` with the largest key. -/
def pivot (o : Sched n) (t : Nat) (A : BMat n) (subg cand : BVec n) : Option (Fin n) :=
  let key := fun u => (cand.inter (nbrSet A u)).card
  pick o t (BVec.of fun u => subg u && subg.toList.all fun w => decide (key w ≤ key u))

/-- local variables of the generator.  `q` is the Python list `Q` reversed (head = `Q[-1]`). -/
structure MCState (n : Nat) where
  q : List (Option (Fin n))
  subg : BVec n
  cand : BVec n
  ext : BVec n
  stack : List (BVec n × BVec n × BVec n)
  t : Nat

inductive MCOut (n : Nat) where
  | next (s : MCState n)
  | yield (c : List (Fin n)) (s : MCState n)
  | stop
  | raise (e : PyErr)

/-- `ext_u = cand - adj[u]` with `u` the pivot (183-184, 204-205).  When there is no pivot (`max` of an
empty set) the callers below raise `ValueError` and this value is not used. -/
def extSet (o : Sched n) (t : Nat) (A : BMat n) (subg cand : BVec n) : BVec n :=
  match pivot o t A subg cand with
  | some u => cand.diff (nbrSet A u)
  | none => BVec.of fun _ => false

/-- one pass of `while True` (ecc_algorithms.py:188-208).  An `IndexError` (`Q[-1]`, `Q.pop()` or
`stack.pop()` on an empty list) is caught on line 209 and ends the generator; `cand.remove` of a
missing element would be a `KeyError`, `max` of an empty set a `ValueError`. -/
def mcStep (o : Sched n) (A : BMat n) (s : MCState n) : MCOut n :=
  match pick o s.t s.ext with
  | some q =>
    let ext := s.ext.erase q
    if !s.cand q then .raise .keyError else
    let cand := s.cand.erase q
    match s.q with
    | [] => .stop
    | _ :: qs =>
      let Q := some q :: qs
      let subgQ := s.subg.inter (nbrSet A q)
      if subgQ.isEmpty then
        .yield (Q.reverse.filterMap id) { s with q := Q, cand := cand, ext := ext, t := s.t + 1 }
      else
        let candQ := cand.inter (nbrSet A q)
        if candQ.isEmpty then
          .next { s with q := Q, cand := cand, ext := ext, t := s.t + 1 }
        else if (pivot o (s.t + 1) A subgQ candQ).isNone then .raise .valueError
        else
          .next { q := none :: Q, subg := subgQ, cand := candQ,
                  ext := extSet o (s.t + 1) A subgQ candQ,
                  stack := (s.subg, cand, ext) :: s.stack, t := s.t + 2 }
  | none =>
    match s.q, s.stack with
    | _ :: qs, (subg, cand, ext) :: st =>
      .next { q := qs, subg := subg, cand := cand, ext := ext, stack := st, t := s.t + 1 }
    | _, _ => .stop

/-- Run the generator to exhaustion, collecting what it yields; `hang` if it has not stopped
after `fuel` passes. -/
def mcRun (o : Sched n) (A : BMat n) : Nat → MCState n → Except PyErr (List (List (Fin n)))
  | 0, _ => .error .hang
  | fuel + 1, s =>
    match mcStep o A s with
    | .stop => .ok []
    | .raise e => .error e
    | .next s' => mcRun o A fuel s'
    | .yield c s' => (mcRun o A fuel s').map (c :: ·)

/-- initial local variables (ecc_algorithms.py:179-185) -/
def mcInit (o : Sched n) (A : BMat n) : MCState n :=
  { q := [none], subg := BVec.full, cand := BVec.full,
    ext := extSet o 0 A BVec.full BVec.full, stack := [], t := 1 }

/-- everything `max_cliques(nbrhood)` yields, in order (ecc_algorithms.py:152-212), within
`2^(n+1)` passes of the loop; that bound is proved sufficient for every matrix (C03). -/
def maxCliques (o : Sched n) (A : BMat n) : Except PyErr (List (List (Fin n))) :=
  if n = 0 then .ok []
  else if (pivot o 0 A BVec.full BVec.full).isNone then .error .valueError
  else mcRun o A (2 ^ (n + 1)) (mcInit o A)

end Medil

import Verif.Model.Indep
import Mathlib.Data.Fintype.Card
/-
  The process pool behind the pairwise methods of `estimate_UDG` (medil/independence_testing.py:60-73):
  `np.fromiter(p.imap(test, sample_iter, 100), float)` inside `with Pool(...) as p`.

  The pool is modelled as an interleaving of atomic steps: an idle worker takes the next chunk, a worker puts its
  result on the result queue, the result handler of the parent stores the next result, a worker is killed.
  The scheduler chooses the step.  Simplifications: pickling is exact; a killed worker does not hold a lock of a queue
  at that moment; the pool replaces it at once, as CPython's `_maintain_pool` does; the shutdown of the pool on leaving
  the `with` block is not modelled.
-/
namespace Medil

/-- `Pool._get_tasks` (CPython, called by `imap` at independence_testing.py:71): the arguments in chunks of `c` -/
def poolChunks {α : Type} (c : Nat) (l : List α) : List (List α) :=
  if h : c = 0 ∨ l = [] then [] else l.take c :: poolChunks c (l.drop c)
termination_by l.length
decreasing_by
  have h1 : c ≠ 0 := fun e => h (Or.inl e)
  have h2 : l.length ≠ 0 := fun e => h (Or.inr (List.length_eq_zero_iff.mp e))
  rw [List.length_drop]; omega

/-- what a worker sends back for a chunk (CPython `mapstar`): the values in order, or the first exception -/
def runChunk {α β : Type} (test : α → Except PyErr β) (chunk : List α) : Except PyErr (List β) := chunk.mapM test

/-- the state of the pool (CPython `Pool`, `IMapIterator`; independence_testing.py:69-72) -/
structure PoolSt (β : Type) (W : Nat) where
  /-- number of chunks taken so far: the task queue is first-in first-out -/
  sent : Nat
  /-- the chunk each worker is working on -/
  busy : Fin W → Option Nat
  /-- the result queue, first-in first-out -/
  outq : List (Nat × Except PyErr (List β))
  /-- `IMapIterator._index` -/
  index : Nat
  /-- `IMapIterator._unsorted` -/
  unsorted : List (Nat × Except PyErr (List β))
  /-- all that was ever put in `IMapIterator._items` -/
  items : List (Except PyErr (List β))

/-- one step of some process -/
inductive PoolEv (W : Nat) where
  | take (w : Fin W)
  | finish (w : Fin W)
  | handle
  | kill (w : Fin W)

variable {α β : Type} {W : Nat}

/-- a fresh pool (independence_testing.py:69) -/
def poolInit (β : Type) (W : Nat) : PoolSt β W := ⟨0, fun _ => none, [], 0, [], []⟩

/-- the loop of `IMapIterator._set` that releases waiting results (CPython); at most `fuel` rounds -/
def poolDrain : Nat → PoolSt β W → PoolSt β W
  | 0, st => st
  | fuel + 1, st =>
    match st.unsorted.find? (fun e => e.1 == st.index) with
    | none => st
    | some e => poolDrain fuel { st with
        index := st.index + 1, items := st.items ++ [e.2],
        unsorted := st.unsorted.filter fun e' => e'.1 != st.index }

/-- `IMapIterator._set(i, obj)` (CPython) -/
def poolSet (i : Nat) (r : Except PyErr (List β)) (st : PoolSt β W) : PoolSt β W :=
  if st.index = i then
    poolDrain st.unsorted.length { st with index := st.index + 1, items := st.items ++ [r] }
  else { st with unsorted := (i, r) :: st.unsorted.filter fun e => e.1 != i }

/-- one step of the pool working on the chunks `cs`; `none` if the step is not possible -/
def poolStep (test : α → Except PyErr β) (cs : List (List α)) (st : PoolSt β W) : PoolEv W → Option (PoolSt β W)
  | .take w =>
    if st.busy w = none ∧ st.sent < cs.length then
      some { st with sent := st.sent + 1, busy := Function.update st.busy w (some st.sent) }
    else none
  | .finish w =>
    match st.busy w with
    | none => none
    | some i =>
      match cs[i]? with
      | none => none
      | some c => some { st with busy := Function.update st.busy w none, outq := st.outq ++ [(i, runChunk test c)] }
  | .handle =>
    match st.outq with
    | [] => none
    | e :: q => some (poolSet e.1 e.2 { st with outq := q })
  | .kill w => some { st with busy := Function.update st.busy w none }

/-- the state after the steps `evs`; `none` if one of them is not possible -/
def poolRun (test : α → Except PyErr β) (cs : List (List α)) : PoolSt β W → List (PoolEv W) → Option (PoolSt β W)
  | st, [] => some st
  | st, ev :: evs => (poolStep test cs st ev).bind fun st' => poolRun test cs st' evs

/-- what `np.fromiter` has got when the pool is in this state (independence_testing.py:70-72): the first exception
among the released results, or all values if everything is released; `none` while it still waits -/
def poolOutcome (total : Nat) (items : List (Except PyErr (List β))) : Option (Except PyErr (List β)) :=
  match items.mapM id with
  | .error e => some (.error e)
  | .ok vs => if items.length = total then some (.ok vs.flatten) else none

/-- `p_vals[idxs, jdxs] = p_vals[jdxs, idxs] = values` on a zero matrix (independence_testing.py:61, 70): the left
target first -/
def scatterPvals {K : Type} [Zero K] {M : Nat} (vals : List (Fl K)) : Fin M → Fin M → Fl K :=
  let asg := fun (p : Fin M → Fin M → Fl K) (e : (Fin M × Fin M) × Fl K) =>
    fun i j => if i = e.1.1 ∧ j = e.1.2 then e.2 else p i j
  let entries := (triuPairs M).zip vals
  (entries.map fun e => ((e.1.2, e.1.1), e.2)).foldl asg (entries.foldl asg fun _ _ => .fin 0)

/-- the pairwise branch of `estimate_UDG` (independence_testing.py:60-75) with `W` workers, chunks of `c` pairs and the
schedule `evs`: `none` if it is still waiting after `evs` (or `evs` is impossible).  `test` gets the two columns and may
raise. -/
def poolUDG {K : Type} [Field K] [LinearOrder K] {N M : Nat} (test : (Fin N → K) → (Fin N → K) → Except PyErr (Fl K))
    (s : Fin N → Fin M → K) (level : K) (W c : Nat) (evs : List (PoolEv W)) :
    Option (Except PyErr ((Fin M → Fin M → Bool) × Option (Fin M → Fin M → Fl K))) :=
  let t := fun e : Fin M × Fin M => test (fun k => s k e.1) (fun k => s k e.2)
  let cs := poolChunks c (triuPairs M)
  (poolRun t cs (poolInit (Fl K) W) evs).bind fun st =>
    (poolOutcome cs.length st.items).map fun r =>
      r.map fun vals => (clearDiag fun i j => (scatterPvals (M := M) vals i j).lt level, some (scatterPvals vals))

/-- number of workers (independence_testing.py:69): `max(1, int(0.75 * cpu_count()))` -/
def poolWorkers (cpus : Nat) : Nat := max 1 (3 * cpus / 4)

end Medil

import Verif.Proofs.HeapCliques
import Verif.Props.MaxCliques
/-
  C207, C208: `max_cliques` as a generator object, among other generators and in the hands of a caller who changes
  arrays and lists.
-/
namespace Medil
variable {n : Nat}

/-- the answers to the calls of `next` on generator `i`, oldest first -/
def answersOf (s : CliqueSession n) (i : Nat) : List (GenSeen n) := (s.log.filter fun e => e.1 == i).map (·.2)

/-- the number of calls of `next` on generator `i` -/
def countNext (i : Nat) (cs : List (CliqueCall n)) : Nat :=
  (cs.filter fun c => match c with | .next j => j == i | _ => false).length

/-- what the call number `j` (from 0) of `next` should answer if the cliques are `L` -/
def expected (L : List (List (Fin n))) (j : Nat) : GenSeen n :=
  match L[j]? with
  | some c => .clique c
  | none => .stopIteration

theorem seen_drop (L : List (List (Fin n))) (j : Nat) : GS.seen (L.drop j) = expected L j := by
  unfold expected
  cases h : L[j]? with
  | none => rw [List.drop_eq_nil_of_le (by simpa using h)]; rfl
  | some c =>
    obtain ⟨hj, rfl⟩ := List.getElem?_eq_some_iff.mp h
    rw [List.drop_eq_getElem_cons hj]; rfl

theorem countNext_eq (i : Nat) (cs : List (CliqueCall n)) : countNext i cs = cs.countP (GS.isNext i) := by
  unfold countNext
  rw [List.countP_eq_length_filter]
  congr 2

/-- C207: take any history `cs` after which generator `i` exists and `next` was not yet called on it, call `next` on
it, and go on with any history `ds`: calls on this and other generators, changes of arrays and of the lists handed out.
Then the calls of `next` on generator `i` answer the maximal cliques of the graph as it was at the first of them,
one after the other, and `StopIteration` after the last. -/
theorem C207_any_interleaving (o : Nat → Sched n) (cs ds : List (CliqueCall n)) (i a : Nat) (A : BMat n)
    (hi : (CliqueSession.run o cs).gens[i]? = some (.made a))
    (hA : (CliqueSession.run o cs).mem.cell a = .mat A) :
    ∃ L, maxCliques (o i) A = .ok L ∧
      answersOf (CliqueSession.run o (cs ++ .next i :: ds)) i =
        (List.range (1 + countNext i ds)).map (expected L) ∧
      (Symm A → 0 < n → ∀ C : Finset (Fin n), IsMaximalClique A C ↔ (L.map List.toFinset).count C = 1) := by
  obtain ⟨L, hL⟩ := maxCliques_ok (o i) A
  refine ⟨L, hL, ?_, ?_⟩
  · rw [countNext_eq]
    have h1 := GS.answers_run o i cs ds hi hA hL
    unfold GS.answers at h1
    unfold answersOf
    rw [h1]
    exact List.map_congr_left fun j _ => seen_drop L j
  · intro hs hn C
    obtain ⟨ys, h1, -, h3, h4⟩ := maxCliques_correct hs hn (o i)
    rw [hL] at h1; cases h1
    constructor
    · intro hC; exact List.count_eq_one_of_mem h3 ((h4 C).mpr hC)
    · intro hC
      exact (h4 C).mp (List.count_pos_iff.mp (by omega))

/-- C207, second part: the lists that were handed out and the arrays of the caller change only when the caller
changes them. -/
theorem C207_caller_keeps (o : Nat → Sched n) (cs ds : List (CliqueCall n)) (k r : Nat) :
    ((CliqueSession.run o cs).lists[k]? = some r → (∀ l, .change k l ∉ ds) →
      (CliqueSession.run o (cs ++ ds)).lists[k]? = some r ∧
      (CliqueSession.run o (cs ++ ds)).mem.vertices r = (CliqueSession.run o cs).mem.vertices r) ∧
    ((CliqueSession.run o cs).arrays[k]? = some r → (∀ A, .write k A ∉ ds) →
      (CliqueSession.run o (cs ++ ds)).arrays[k]? = some r ∧
      (CliqueSession.run o (cs ++ ds)).mem.cell r = (CliqueSession.run o cs).mem.cell r) := by
  obtain ⟨own, h⟩ := GS.inv_run o cs
  obtain ⟨h1, h2⟩ := GS.keep_foldl o ds h
  rw [GS.run_concat]
  refine ⟨fun hr hd => ?_, h2 k r⟩
  obtain ⟨e1, e2⟩ := h1 k r hr hd
  exact ⟨e1, by simp only [CMem.vertices, CMem.rdList, e2]⟩

/-- a history: two generators on the path 0-1-2, used in turn; the array is overwritten and the first list
changed in between -/
def busyHistory : List (CliqueCall 3) :=
  [.array (BMat.of fun i j => i == j || i.val + 1 == j.val || j.val + 1 == i.val), .gen 0, .gen 0]

/-- what is seen, as lists -/
def seenLists (l : List (GenSeen n)) : List (Option (List (Fin n))) :=
  l.map fun x => match x with | .clique c => some c | _ => none

/-- the hypotheses of C207 are met, and the answers are those of a generator alone -/
example : seenLists (answersOf (CliqueSession.run (fun _ _ _ => 0) (busyHistory ++ .next 0 ::
    [.next 1, .write 0 (BMat.of fun _ _ => false), .change 0 [], .next 1, .next 0, .next 0])) 0) =
    [some [1, 0], some [1, 2], none] ∧
  seenLists (answersOf (CliqueSession.run (fun _ _ _ => 0) (busyHistory ++ .next 0 ::
    [.next 1, .write 0 (BMat.of fun _ _ => false), .change 0 [], .next 1, .next 0, .next 0])) 1) =
    [some [1, 0], some [1, 2]] := by decide +kernel

/-- C208, in full: a generator gives the maximal cliques of the graph that `max_cliques` was called with, as it was
at that call. -/
def C208_statement : Prop :=
  ∀ (n : Nat) (o : Nat → Sched n) (cs ds es : List (CliqueCall n)) (k a i : Nat) (A : BMat n),
    (CliqueSession.run o cs).arrays[k]? = some a → (CliqueSession.run o cs).mem.cell a = .mat A →
    i = (CliqueSession.run o cs).gens.length → .next i ∉ ds →
    ∃ L, maxCliques (o i) A = .ok L ∧
      answersOf (CliqueSession.run o ((cs ++ .gen k :: ds) ++ .next i :: es)) i =
        (List.range (1 + countNext i es)).map (expected L)

/-- C208, as far as it holds: it holds if the array is not changed between the call and the first `next`. -/
theorem C208_unchanged_partial (o : Nat → Sched n) (cs ds es : List (CliqueCall n)) (k a i : Nat) (A : BMat n)
    (hk : (CliqueSession.run o cs).arrays[k]? = some a) (hA : (CliqueSession.run o cs).mem.cell a = .mat A)
    (hi : i = (CliqueSession.run o cs).gens.length) (hd : .next i ∉ ds) (hw : ∀ B, .write k B ∉ ds) :
    ∃ L, maxCliques (o i) A = .ok L ∧
      answersOf (CliqueSession.run o ((cs ++ .gen k :: ds) ++ .next i :: es)) i =
        (List.range (1 + countNext i es)).map (expected L) := by
  have hg : (CliqueSession.run o (cs ++ [.gen k])).gens[i]? = some (.made a) := by
    rw [GS.run_concat]
    simp [CliqueSession.step, hk, hi]
  have e : cs ++ .gen k :: ds = (cs ++ [.gen k]) ++ ds := by simp
  obtain ⟨own, h⟩ := GS.inv_run o (cs ++ [.gen k])
  have h1 : (CliqueSession.run o (cs ++ .gen k :: ds)).gens[i]? = some (.made a) := by
    rw [e, GS.run_concat]
    exact GS.made_foldl o i ds h hg hd
  have h2 : (CliqueSession.run o (cs ++ .gen k :: ds)).mem.cell a = .mat A := by
    rw [((C207_caller_keeps o cs (.gen k :: ds) k a).2 hk (by simpa using hw)).2]
    exact hA
  obtain ⟨L, x, y, -⟩ := C207_any_interleaving o (cs ++ .gen k :: ds) es i a A h1 h2
  exact ⟨L, x, y⟩

/-- C208 fails: nothing is read before the first `next`. -/
theorem C208_false : ¬ C208_statement := by
  intro hs
  obtain ⟨L, h1, h2⟩ := hs 2 (fun _ _ _ => 0) [.array (BMat.of fun i j => i == j)]
    [.write 0 (BMat.of fun _ _ => true)] [] 0 0 0 (BMat.of fun i j => i == j) rfl rfl rfl (by simp)
  have e1 : (maxCliques (fun _ _ => 0) (BMat.of fun i j : Fin 2 => i == j)).toOption = some [[0], [1]] := by
    decide +kernel
  rw [h1] at e1
  simp only [Except.toOption, Option.some.injEq] at e1
  subst e1
  have e2 : seenLists (answersOf (CliqueSession.run (fun _ _ _ => 0) ([.array (BMat.of fun i j : Fin 2 => i == j),
    .gen 0, .write 0 (BMat.of fun _ _ => true)] ++ [.next 0])) 0) = [some [0, 1]] := by decide +kernel
  have h3 : answersOf (CliqueSession.run (fun _ _ _ => 0) ([.array (BMat.of fun i j : Fin 2 => i == j),
    .gen 0, .write 0 (BMat.of fun _ _ => true)] ++ [.next 0])) 0 = _ := h2
  rw [h3] at e2
  revert e2
  decide +kernel

end Medil

import Verif.Proofs.HeapGraph
import Verif.Proofs.HeapSearch
import Verif.Props.Ecc
/-
  C201-C206: arrays are references.  What calls do to the arrays of the caller, and graph objects that share arrays.
-/
namespace Medil
variable {n : Nat}

/-- the memory of a caller that made one array -/
def oneArray (A : BMat n) : Mem n := ⟨fun _ => .mat A, 1⟩

/-- C201: whatever arrays exist when `find_clique_min_cover` is called on one of them, they all have the same
contents when the call ends, also when it ends with an exception; and the contents of the returned array, or the
exception, are those of the model without references. -/
theorem C201_arguments_unchanged (rt : Runtime n) (fuel : Nat) (h : Mem n) (a : Nat) (A : BMat n)
    (ha : a < h.next) (hA : h.arr a = .mat A) :
    (∀ x, x < h.next → (hFindCliqueMinCover rt fuel a h).2.arr x = h.arr x) ∧
    (∀ e, findCliqueMinCover rt fuel A = .error e → (hFindCliqueMinCover rt fuel a h).1 = .error e) ∧
    (∀ C, findCliqueMinCover rt fuel A = .ok C → ∃ r, (hFindCliqueMinCover rt fuel a h).1 = .ok r ∧
      r < (hFindCliqueMinCover rt fuel a h).2.next ∧
      ((hFindCliqueMinCover rt fuel a h).2.arr r).toRows = C) := by
  obtain ⟨h1, h2⟩ := hFind_spec rt fuel h a A ha hA
  refine ⟨h1, ?_, ?_⟩
  · intro e he; rw [he] at h2; exact h2
  · intro C hC; rw [hC] at h2
    obtain ⟨r, x, y, z, -⟩ := h2
    exact ⟨r, x, z, y⟩

/-- the hypotheses of C201 are met, and the search really runs: on the 4-cycle it writes and allocates 
for several passes -/
example : ((hFindCliqueMinCover (rt0 4) 10 0 (oneArray (BMat.of fun i j : Fin 4 =>
    i == j || (i.val + 1) % 4 == j.val || (j.val + 1) % 4 == i.val))).1).toOption.isSome = true ∧
    10 < (hFindCliqueMinCover (rt0 4) 10 0 (oneArray (BMat.of fun i j : Fin 4 =>
    i == j || (i.val + 1) % 4 == j.val || (j.val + 1) % 4 == i.val))).2.next := by decide +kernel

/-- C202, in full: the array returned by `find_clique_min_cover` is a new one, so that changing it changes no
array the caller had before. -/
def C202_statement : Prop :=
  ∀ (n : Nat) (rt : Runtime n) (fuel : Nat) (h : Mem n) (a : Nat) (A : BMat n), a < h.next → h.arr a = .mat A →
    ∀ r, (hFindCliqueMinCover rt fuel a h).1 = .ok r → h.next ≤ r

/-- C202, as far as it holds: the array is new exactly if the graph has an edge (or no vertex), and otherwise it
is the caller's array itself. -/
theorem C202_result_new_partial (rt : Runtime n) (fuel : Nat) (h : Mem n) (a : Nat) (A : BMat n)
    (ha : a < h.next) (hA : h.arr a = .mat A) (r : Nat) (hr : (hFindCliqueMinCover rt fuel a h).1 = .ok r) :
    (h.next ≤ r ↔ (∃ i j : Fin n, i < j ∧ A i j = true) ∨ n = 0) ∧
    (¬ h.next ≤ r → r = a) := by
  obtain ⟨-, h2⟩ := hFind_spec rt fuel h a A ha hA
  have hE : (edgeList A).isEmpty = true ↔ ¬ ∃ i j : Fin n, i < j ∧ A i j = true := by
    rw [List.isEmpty_iff, List.eq_nil_iff_forall_not_mem]
    constructor
    · rintro h1 ⟨i, j, hij, hA⟩
      exact h1 (i, j) (mem_edgeList.mpr ⟨hij, hA⟩)
    · rintro h1 ⟨i, j⟩ he
      exact h1 ⟨i, j, mem_edgeList.mp he⟩
  cases hF : findCliqueMinCover rt fuel A with
  | error e => rw [hF] at h2; simp only at h2; rw [hr] at h2; cases h2
  | ok C =>
    rw [hF] at h2
    obtain ⟨r', e, -, -, hc⟩ := h2
    rw [hr] at e; cases e
    rw [hE] at hc
    rcases hc with ⟨rfl, h3, h4⟩ | ⟨h3, h4⟩
    · refine ⟨⟨fun h => by omega, ?_⟩, fun _ => rfl⟩
      rintro (h5 | h5)
      · exact absurd h5 h3
      · exact absurd h5 h4
    · refine ⟨⟨fun _ => ?_, fun _ => h3⟩, fun h5 => absurd h3 h5⟩
      by_contra h5
      push Not at h5
      exact h4 ⟨by push Not; exact h5.1, h5.2⟩

/-- C202 fails on graphs without edges. -/
theorem C202_false : ¬ C202_statement := by
  intro hs
  have h1 := hs 2 (rt0 2) 1 (oneArray (BMat.of fun i j => i == j)) 0 _ Nat.zero_lt_one rfl 0 (by decide +kernel)
  exact absurd h1 (by decide)

/-- C203, in full: whatever is called on a copy made by `reducible_copy`, the arrays that existed when the copy was
made keep their contents - in particular those of the object that was copied, be it a graph or itself a copy. -/
def C203_statement : Prop :=
  ∀ (n : Nat) (rt : Runtime n) (h h1 h2 h3 h4 : Mem n) (a : Nat) (A : BMat n) (p o o' q : GObj)
    (cs ds : List (CopyOp n)), a < h.next → h.arr a = .mat A → hMakeAux rt a h = (.ok p, h1) →
    p.copy h1 = (.ok o, h2) → o.ops cs h2 = (.ok o', h3) → o'.copy h3 = (.ok q, h4) →
    ∀ x, x < h3.next → (q.ops ds h4).2.arr x = h3.arr x

/-- C203, as far as it holds: it holds for the copies of graphs (that are not themselves copies), for every
history of calls, also one that ends with an exception. -/
theorem C203_copy_of_graph_partial (rt : Runtime n) (h h1 h2 : Mem n) (a : Nat) (A : BMat n) (p o : GObj)
    (ha : a < h.next) (hA : h.arr a = .mat A) (hp : hMakeAux rt a h = (.ok p, h1))
    (ho : p.copy h1 = (.ok o, h2)) (cs : List (CopyOp n)) (x : Nat) (hx : x < h1.next) :
    (o.ops cs h2).2.arr x = h1.arr x := by
  obtain ⟨g, -, rp, ro, hn, fr, e1, e2, e3, e4, e5, e6, e7, -, -⟩ := HS.plain_copy rt ha hA hp ho
  have hne : o.adj ≠ o.unred := by rw [e4]; omega
  rw [HS.like_frame (HS.ops_like ro hne cs) x (by omega) (by omega) (by omega) (by omega) (by rw [e6]; simp),
    fr x hx]

/-- the graph with the edges 0-1 and 2-3 -/
def twoEdges : BMat 4 := BMat.of fun i j => i.val / 2 == j.val / 2

/-- the entries of a square array, as a number -/
def matBits : Arr n → Nat
  | .mat A => A.bits
  | _ => 0

/-- a run for C203: rules 3 and 1 on a copy, then rule 3 on a copy of the copy; are the square arrays that existed
before the second copy was made as they were? -/
def run203 : Bool :=
  match hMakeAux (rt0 4) 0 (oneArray twoEdges) with
  | (.ok p, h1) =>
    match p.copy h1 with
    | (.ok o, h2) =>
      match o.ops [.rule3, .rule1] h2 with
      | (.ok o', h3) =>
        match o'.copy h3 with
        | (.ok q, h4) => (List.range h3.next).all fun x => matBits ((q.ops [.rule3] h4).2.arr x) == matBits (h3.arr x)
        | _ => true
      | _ => true
    | _ => true
  | _ => true

/-- C203 fails: a copy of a copy on which rule 3 was applied shares `reduced_away` with it, and rule 3 on the second
copy writes there. -/
theorem C203_false : ¬ C203_statement := by
  intro hs
  have h0 : run203 = false := by decide +kernel
  have h1 : run203 = true := by
    unfold run203
    split
    · rename_i p h1 e1
      split
      · rename_i o h2 e2
        split
        · rename_i o' h3 e3
          split
          · rename_i q h4 e4
            rw [List.all_eq_true]
            intro x hx
            rw [hs 4 (rt0 4) (oneArray twoEdges) h1 h2 h3 h4 0 twoEdges p o o' q _ [.rule3] Nat.zero_lt_one rfl
              e1 e2 e3 e4 x (List.mem_range.mp hx)]
            simp
          · rfl
        · rfl
      · rfl
    · rfl
  rw [h0] at h1; cases h1

/-- C204, in full: after every history of `UndirectedDependenceGraph(...)`, `add_edges` and `rm_edges`, the
`num_edges` of every graph object is the number of edges of its matrix. -/
def C204_statement : Prop :=
  ∀ (n : Nat) (cs : List (GraphCall n)), ∀ o ∈ (GraphSession.run cs).objs, ∃ A,
    (GraphSession.run cs).mem.arr o.adj = .mat A ∧
    o.numEdges = ((Finset.univ : Finset (Fin n × Fin n)).filter fun e => e.1 < e.2 ∧ A e.1 e.2 = true).card

/-- C204, as far as it holds: it holds if no array was given to two graph objects. -/
theorem C204_own_arrays_partial (cs : List (GraphCall n))
    (hd : ((GraphSession.run cs).objs.map (·.adj)).Nodup) : ∀ o ∈ (GraphSession.run cs).objs, ∃ A,
    (GraphSession.run cs).mem.arr o.adj = .mat A ∧
    o.numEdges = ((Finset.univ : Finset (Fin n × Fin n)).filter fun e => e.1 < e.2 ∧ A e.1 e.2 = true).card := by
  intro o ho
  obtain ⟨A, hA, -, hc⟩ := session_ok (s := ⟨⟨fun _ => .rows [], 0⟩, []⟩) (by intro o ho; cases ho) cs hd o ho
  refine ⟨A, hA, ?_⟩
  rw [hc, numEdgesOf_eq]; rfl

/-- the hypothesis is met with two arrays, two graphs and edits of both -/
example : ((GraphSession.run (n := 3) [.array (graphOf 3 [(0, 1)]), .array (graphOf 3 []), .graph 0, .graph 1,
    .add 1 [(0, 2)], .rm 0 [(0, 1)], .add 1 [(1, 2)]]).objs.map fun o => (o.adj, o.numEdges)) =
    [(0, 0), (1, 2)] := by decide +kernel

/-- C204 fails for two graph objects made from one array: the edge removed through the first is still counted by the
second. -/
theorem C204_false : ¬ C204_statement := by
  intro hs
  obtain ⟨A, hA, hc⟩ := hs 2 [.array (graphOf 2 [(0, 1)]), .graph 0, .graph 0, .rm 0 [(0, 1)]] ⟨0, 2, 1⟩
    (by
      have : (GraphSession.run (n := 2) [.array (graphOf 2 [(0, 1)]), .graph 0, .graph 0, .rm 0 [(0, 1)]]).objs =
        [⟨0, 2, 0⟩, ⟨0, 2, 1⟩] := by rfl
      rw [this]; simp)
  have hA' : (GraphSession.run (n := 2) [.array (graphOf 2 [(0, 1)]), .graph 0, .graph 0, .rm 0 [(0, 1)]]).mem.arr 0 =
      .mat (setEdges false (graphOf 2 [(0, 1)]) [(0, 1)]) := rfl
  rw [hA'] at hA
  cases hA
  revert hc
  decide +kernel

/-- C205, in full: after every history of edits and `make_aux` on a graph object, a `reducible_copy` that is made
describes the graph as it is then: it is the copy that a new graph object with the same matrix gives. -/
def C205_statement : Prop :=
  ∀ (n : Nat) (rt : Runtime n) (A : BMat n) (cs : List (UGCall n)) (g : RG n),
    (((UG.init A).run rt.order cs).reducibleCopy rt.order).1 = .ok g →
    ((UG.init ((UG.init A).run rt.order cs).adj).reducibleCopy rt.order).1 = .ok g

/-- the pairs of an edit name no vertex twice -/
def UGCall.IsEdit (c : UGCall n) : Prop := ∃ b es, c = .edit b es ∧ ∀ e ∈ es, e.1 ≠ e.2

theorem traceOf_setEdges (b : Bool) (A : BMat n) (es : List (Fin n × Fin n)) (he : ∀ e ∈ es, e.1 ≠ e.2) :
    traceOf (setEdges b A es) = traceOf A := by
  unfold traceOf
  congr 1
  funext i
  have h1 : (i, i) ∉ es := fun h => he (i, i) h rfl
  rw [setEdges_apply]
  simp [h1]

/-- edits leave an object that `make_aux` was not called on as a new object with the new matrix -/
theorem ug_run_edits (order : List (Fin n × Fin n) → List (Fin n × Fin n)) (A : BMat n) (cs : List (UGCall n))
    (hc : ∀ c ∈ cs, c.IsEdit) : (UG.init A).run order cs = UG.init ((UG.init A).run order cs).adj := by
  induction cs generalizing A with
  | nil => rfl
  | cons c cs ih =>
    obtain ⟨b, es, rfl, he⟩ := hc c (by simp)
    have h1 : (UG.init A).edit b es = UG.init (setEdges b A es) := by
      simp [UG.edit, UG.init, traceOf_setEdges b A es he]
    simp only [UG.run]
    rw [h1]
    exact ih _ fun c hc' => hc c (by simp [hc'])

/-- edits change nothing that `make_aux` wrote -/
theorem ug_run_edits_aux (order : List (Fin n × Fin n) → List (Fin n × Fin n)) (g : UG n) (cs : List (UGCall n))
    (hc : ∀ c ∈ cs, ∃ b es, c = .edit b es) :
    (g.run order cs).hasIdx = g.hasIdx ∧ (g.run order cs).common = g.common ∧
    (g.run order cs).extant = g.extant ∧ (g.run order cs).counts = g.counts := by
  induction cs generalizing g with
  | nil => exact ⟨rfl, rfl, rfl, rfl⟩
  | cons c cs ih =>
    obtain ⟨b, es, rfl⟩ := hc c (by simp)
    simp only [UG.run]
    exact ih _ fun c hc' => hc c (by simp [hc'])

/-- the numbers of vertices and edges stay right in every history -/
theorem ug_run_counts (order : List (Fin n × Fin n) → List (Fin n × Fin n)) (cs : List (UGCall n))
    (hc : ∀ c ∈ cs, c = .makeAux ∨ c.IsEdit) (g : UG n) (h1 : g.numVertices = traceOf g.adj)
    (h2 : g.numEdges = numEdgesOf g.adj) :
    (g.run order cs).numVertices = traceOf (g.run order cs).adj ∧
    (g.run order cs).numEdges = numEdgesOf (g.run order cs).adj := by
  induction cs generalizing g with
  | nil => exact ⟨h1, h2⟩
  | cons c cs ih =>
    have hc' : ∀ c ∈ cs, c = .makeAux ∨ c.IsEdit := fun c hm => hc c (by simp [hm])
    rcases hc c (by simp) with rfl | ⟨b, es, rfl, he⟩
    · simp only [UG.run]
      refine ih hc' _ ?_ ?_
      · unfold UG.makeAux; split <;> exact h1
      · unfold UG.makeAux; split <;> exact h2
    · simp only [UG.run]
      exact ih hc' _ (by simp only [UG.edit]; rw [traceOf_setEdges b g.adj es he]; exact h1) rfl

theorem ug_run_concat (order : List (Fin n × Fin n) → List (Fin n × Fin n)) (g : UG n) (cs : List (UGCall n)) :
    g.run order (cs ++ [.makeAux]) = ((g.run order cs).makeAux order).2 := by
  induction cs generalizing g with
  | nil => rfl
  | cons c cs ih => cases c <;> simp [UG.run, ih]

/-- C205, as far as it holds: it holds if `make_aux` was never called (`reducible_copy` then calls it), or if the
last call was a `make_aux` that did not raise, whatever was done before. -/
theorem C205_aux_last_partial (rt : Runtime n) (A : BMat n) (cs : List (UGCall n)) (g : RG n) :
    ((∀ c ∈ cs, c.IsEdit) →
      (((UG.init A).run rt.order cs).reducibleCopy rt.order).1 = .ok g →
      ((UG.init ((UG.init A).run rt.order cs).adj).reducibleCopy rt.order).1 = .ok g) ∧
    ((∀ c ∈ cs, c = .makeAux ∨ c.IsEdit) → (((UG.init A).run rt.order cs).makeAux rt.order).1 = .ok () →
      (((UG.init A).run rt.order (cs ++ [.makeAux])).reducibleCopy rt.order).1 = .ok g →
      ((UG.init ((UG.init A).run rt.order (cs ++ [.makeAux])).adj).reducibleCopy rt.order).1 = .ok g) := by
  constructor
  · intro hc h
    rw [ug_run_edits rt.order A cs hc] at h
    exact h
  · intro hc hm h
    rw [ug_run_concat] at h ⊢
    obtain ⟨h1, h2⟩ := ug_run_counts rt.order cs hc (UG.init A) rfl rfl
    generalize (UG.init A).run rt.order cs = u at h hm h1 h2 ⊢
    have h4 : (u.makeAux rt.order).2.adj = u.adj := by unfold UG.makeAux; split <;> rfl
    rw [h4]
    by_cases he : ((edgeList u.adj).isEmpty && decide (n ≠ 0)) = true
    · simp only [UG.makeAux, he, if_true] at hm
      cases hm
    · simp only [UG.makeAux, UG.reducibleCopy, UG.init, he] at h ⊢
      rw [← h]
      simp [h1, h2]

/-- the hypotheses are met: `make_aux`, an edge is removed, `make_aux` again, and a copy is made -/
example : (((UG.init (graphOf 3 [(0, 1), (1, 2)])).run (rt0 3).order [.makeAux, .edit false [(0, 1)]]).makeAux
      (rt0 3).order).1.toOption = some () ∧
    ((((UG.init (graphOf 3 [(0, 1), (1, 2)])).run (rt0 3).order
    ([.makeAux, .edit false [(0, 1)]] ++ [.makeAux])).reducibleCopy (rt0 3).order).1.toOption.map
      fun g => (g.numEdges, g.extant)) = some (1, [(1, 2)]) := by decide +kernel

/-- a call of `make_aux`, then the edge 0-1 is removed from the triangle -/
def staleHistory : List (UGCall 3) := [.makeAux, .edit false [(0, 1)]]

/-- C205 fails: `make_aux` is not repeated after an edit. -/
theorem C205_false : ¬ C205_statement := by
  intro hs
  have h0 : ((((UG.init (graphOf 3 [(0, 1), (1, 2), (0, 2)])).run (rt0 3).order staleHistory).reducibleCopy
      (rt0 3).order).1.toOption.map fun g => g.extant) = some [(0, 1), (0, 2), (1, 2)] := by decide +kernel
  have h1 : (((UG.init ((UG.init (graphOf 3 [(0, 1), (1, 2), (0, 2)])).run (rt0 3).order
      staleHistory).adj).reducibleCopy (rt0 3).order).1.toOption.map fun g => g.extant) =
      some [(0, 2), (1, 2)] := by decide +kernel
  cases hg : (((UG.init (graphOf 3 [(0, 1), (1, 2), (0, 2)])).run (rt0 3).order staleHistory).reducibleCopy
      (rt0 3).order).1 with
  | error e => rw [hg] at h0; cases h0
  | ok g =>
    rw [hs 3 (rt0 3) _ staleHistory g hg] at h1
    rw [hg] at h0
    rw [h0] at h1
    revert h1; decide

/-- The harm: reduction of the stale copy "covers" the path 0-2-1 with the single row 111, although 0 and 1
are not joined. -/
theorem C205_stale_cover : (((((UG.init (graphOf 3 [(0, 1), (1, 2), (0, 2)])).run (rt0 3).order
    staleHistory).reducibleCopy (rt0 3).order).1.toOption.bind fun g => (g.reduzieren 1).toOption).map fun g =>
      (g.cover.map fun C => C.map (·.toList), g.numEdges)) = some (some [[0, 1, 2]], 0) := by decide +kernel

/-- Once `make_aux` failed because there was no edge, `reducible_copy` fails too, whatever edges are
added, until `make_aux` is called again. -/
theorem C205_after_failure (rt : Runtime n) (A : BMat n) (hn : n ≠ 0)
    (hA : ¬ ∃ i j : Fin n, i < j ∧ A i j = true) (cs : List (UGCall n)) (hc : ∀ c ∈ cs, ∃ b es, c = .edit b es) :
    ((UG.init A).makeAux rt.order).1 = .error .valueError ∧
    (((UG.init A).run rt.order (.makeAux :: cs)).reducibleCopy rt.order).1 = .error .attributeError := by
  have hE : (edgeList A).isEmpty = true := by
    rw [List.isEmpty_iff, List.eq_nil_iff_forall_not_mem]
    rintro ⟨i, j⟩ he
    exact hA ⟨i, j, mem_edgeList.mp he⟩
  have h1 : ((UG.init A).makeAux rt.order).2.hasIdx = true ∧ ((UG.init A).makeAux rt.order).2.counts = none := by
    simp [UG.makeAux, UG.init, hE, hn]
  refine ⟨by simp [UG.makeAux, UG.init, hE, hn], ?_⟩
  simp only [UG.run]
  obtain ⟨e1, e2, e3, e4⟩ := ug_run_edits_aux rt.order ((UG.init A).makeAux rt.order).2 cs hc
  unfold UG.reducibleCopy
  rw [e1, h1.1]
  simp only [if_true]
  rw [e4, h1.2]
  split
  · rename_i h5 _; cases h5
  · rfl

/-- what a user sees of a copy: cover, number of edges, matrix - or the exception -/
def copyView (r : Except PyErr GObj × Mem n) : Except PyErr (Option (List (BVec n)) × Nat × List (BVec n)) :=
  r.1.map fun o => (o.cover.map fun c => (r.2.arr c).toRows, o.numEdges, (r.2.arr o.adj).toRows)

/-- C206, in full: removing edges from a graph has no effect on what is computed later on a copy made before. -/
def C206_statement : Prop :=
  ∀ (n : Nat) (rt : Runtime n) (h h1 h2 : Mem n) (a : Nat) (A : BMat n) (p o : GObj) (es : List (Fin n × Fin n))
    (cs : List (CopyOp n)), a < h.next → h.arr a = .mat A → hMakeAux rt a h = (.ok p, h1) →
    p.copy h1 = (.ok o, h2) → copyView (o.ops cs (o.rmOriginal es h2).2) = copyView (o.ops cs h2)

theorem copyView_like {h : Mem n} {o : GObj} {r : Except PyErr GObj × Mem n} {e : Except PyErr (RG n)}
    (hl : HS.Like h o r e) : copyView r =
      e.map fun g => (g.cover, g.numEdges, (List.finRange n).map g.adj.row) := by
  cases e with
  | error e => obtain ⟨h', o', m, -⟩ := hl; rw [m]; rfl
  | ok g =>
    obtain ⟨o', h', m, r', -⟩ := hl
    rw [m]
    simp only [copyView, Except.map]
    rw [r'.adj, r'.numEdges]
    have hc := r'.cover
    cases h1 : o'.cover with
    | none =>
      cases h2 : g.cover with
      | none => rfl
      | some l => rw [h1, h2] at hc; cases hc
    | some c =>
      cases h2 : g.cover with
      | none => rw [h1, h2] at hc; cases hc
      | some l =>
        rw [h1, h2] at hc
        cases hc with
        | some hc =>
          simp only [Option.map]
          rw [hc.1]; rfl

/-- C206, as far as it holds: it holds for histories without `rule_1` and `reduzieren` (which calls it). -/
theorem C206_other_calls_partial (rt : Runtime n) (h h1 h2 : Mem n) (a : Nat) (A : BMat n) (p o : GObj)
    (es : List (Fin n × Fin n)) (cs : List (CopyOp n)) (ha : a < h.next) (hA : h.arr a = .mat A)
    (hp : hMakeAux rt a h = (.ok p, h1)) (ho : p.copy h1 = (.ok o, h2))
    (hc : ∀ c ∈ cs, c ≠ .rule1 ∧ ∀ k, c ≠ .reduce k) :
    copyView (o.ops cs (o.rmOriginal es h2).2) = copyView (o.ops cs h2) := by
  obtain ⟨g, -, rp, ro, hn, fr, e1, e2, e3, e4, e5, e6, e7, -, -⟩ := HS.plain_copy rt ha hA hp ho
  have hne : o.adj ≠ o.unred := by rw [e4]; omega
  have hm : (o.rmOriginal es h2).2 = h2.set o.unred (.mat (setEdges false g.unred es)) := by
    unfold GObj.rmOriginal
    rw [HS.bind_ok (HS.rdMat_eq ro.unred)]
    rfl
  rw [hm, copyView_like (HS.ops_like (HS.rep_set_unred ro hne _) hne cs), copyView_like (HS.ops_like ro hne cs),
    HS.ops_unred _ _ cs hc]
  cases HS.opsP { g with cover := none } cs <;> rfl

/-- the calls of the counterexample, on the triangle: the edges 0-2 and 1-2 are covered, then rules 1 and 2 -/
def lateCalls : List (CopyOp 3) := [.cover [(0, 2), (1, 2)], .rule1, .rule2]

/-- the number of edges that are left after the calls `cs` on a copy of the triangle; `es` are removed from the triangle
between the copy and the calls -/
def run206 (cs : List (CopyOp 3)) (es : List (Fin 3 × Fin 3)) : Option Nat :=
  match hMakeAux (rt0 3) 0 (oneArray (graphOf 3 [(0, 1), (1, 2), (0, 2)])) with
  | (.ok p, h1) =>
    match p.copy h1 with
    | (.ok o, h2) => (copyView (o.ops cs (if es = [] then h2 else (o.rmOriginal es h2).2))).toOption.map (·.2.1)
    | _ => none
  | _ => none

/-- C206 fails: rule 1 on the copy reads the matrix of the original; whether rule 2 then finds a clique depends on
what was done to the original. -/
theorem C206_false : ¬ C206_statement := by
  intro hs
  have h0 : run206 lateCalls [] = some 0 ∧ run206 lateCalls [(0, 2)] = some 1 := by decide +kernel
  have h1 : run206 lateCalls [(0, 2)] = run206 lateCalls [] := by
    unfold run206
    split
    · rename_i p h1 e1
      split
      · rename_i o h2 e2
        have := hs 3 (rt0 3) _ h1 h2 0 _ p o [(0, 2)] lateCalls Nat.zero_lt_one rfl e1 e2
        simp only [if_true]
        rw [if_neg (by decide), this]
      · rfl
    · rfl
  rw [h0.1, h0.2] at h1
  revert h1; decide

/-- the hypotheses of `C206_other_calls_partial` are met by calls that do something: rule 2 covers the triangle, also
if an edge is removed from the original first -/
example : run206 [.rule2] [(0, 2)] = some 0 := by decide +kernel

end Medil

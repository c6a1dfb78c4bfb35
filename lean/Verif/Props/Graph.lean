import Verif.Proofs.Reduce
import Verif.Proofs.Search
import Verif.Proofs.Nde
import Verif.Props.Ecc
import Mathlib.Algebra.BigOperators.Ring.Finset
/-
  Properties of `UndirectedDependenceGraph` and `ReducibleUndDepGraph` (C19-C26, C73).
-/
namespace Medil
variable {n : Nat}

/-- ordered pairs are twice the increasing pairs -/
theorem card_pairs_two (P : Fin n → Fin n → Prop) [∀ a b, Decidable (P a b)] (hP : ∀ a b, P a b → P b a) :
    ((Finset.univ : Finset (Fin n × Fin n)).filter fun e => e.1 ≠ e.2 ∧ P e.1 e.2).card =
      2 * ((Finset.univ : Finset (Fin n × Fin n)).filter fun e => e.1 < e.2 ∧ P e.1 e.2).card := by
  have hsw : ((Finset.univ : Finset (Fin n × Fin n)).filter fun e => e.1 < e.2 ∧ P e.1 e.2).card =
      ((Finset.univ : Finset (Fin n × Fin n)).filter fun e => e.2 < e.1 ∧ P e.1 e.2).card := by
    apply Finset.card_bij (fun e _ => (e.2, e.1))
    · intro e he
      simp only [Finset.mem_filter, Finset.mem_univ, true_and] at he ⊢
      exact ⟨he.1, hP _ _ he.2⟩
    · rintro ⟨a, b⟩ _ ⟨c, d⟩ _ h; simp at h ⊢; exact ⟨h.2, h.1⟩
    · rintro ⟨a, b⟩ h
      simp only [Finset.mem_filter, Finset.mem_univ, true_and] at h
      exact ⟨(b, a), by simpa using ⟨h.1, hP _ _ h.2⟩, rfl⟩
  have hdis : Disjoint ((Finset.univ : Finset (Fin n × Fin n)).filter fun e => e.1 < e.2 ∧ P e.1 e.2)
      ((Finset.univ : Finset (Fin n × Fin n)).filter fun e => e.2 < e.1 ∧ P e.1 e.2) := by
    rw [Finset.disjoint_left]
    intro e h1 h2
    simp only [Finset.mem_filter, Finset.mem_univ, true_and] at h1 h2
    exact lt_asymm h1.1 h2.1
  rw [two_mul]
  conv_rhs => rw [hsw]
  rw [← hsw]
  conv_rhs => arg 2; rw [hsw]
  rw [← Finset.card_union_of_disjoint hdis]
  congr 1
  ext e
  simp only [Finset.mem_filter, Finset.mem_univ, true_and, Finset.mem_union]
  constructor
  · rintro ⟨h1, h2⟩
    rcases lt_or_gt_of_ne h1 with h | h
    · exact Or.inl ⟨h, h2⟩
    · exact Or.inr ⟨h, h2⟩
  · rintro (⟨h1, h2⟩ | ⟨h1, h2⟩)
    · exact ⟨ne_of_lt h1, h2⟩
    · exact ⟨ne_of_gt h1, h2⟩

theorem triuPairs_length (n : Nat) : (triuPairs n).length = n * (n - 1) / 2 := by
  have h := card_pairs_two (n := n) (fun _ _ => True) (fun _ _ h => h)
  have h1 : (triuPairs n).length =
      ((Finset.univ : Finset (Fin n × Fin n)).filter fun e => e.1 < e.2 ∧ True).card := by
    rw [← List.toFinset_card_of_nodup (triuPairs_nodup n)]
    congr 1
    ext e
    simp [mem_triuPairs]
  have h2 : ((Finset.univ : Finset (Fin n × Fin n)).filter fun e => e.1 ≠ e.2 ∧ True).card =
      n * (n - 1) := by
    have : ((Finset.univ : Finset (Fin n × Fin n)).filter fun e => e.1 ≠ e.2 ∧ True) =
        (Finset.univ : Finset (Fin n)).offDiag := by
      ext e; simp
    rw [this, Finset.offDiag_card, Finset.card_univ, Fintype.card_fin, Nat.mul_sub, Nat.mul_one]
  omega

/-! ### C19 -/

/-- **C19** `get_edge` and `get_idx` are inverse to each other between the pairs `u < v` and the row
indices below n(n-1)/2 -/
theorem C19_idx_edge_inverse (n : Nat) :
    (∀ u v : Fin n, u < v → getIdx u v < n * (n - 1) / 2 ∧ getEdge n (getIdx u v) = some (u, v)) ∧
    ∀ i, i < n * (n - 1) / 2 → ∃ u v : Fin n, u < v ∧ getEdge n i = some (u, v) ∧ getIdx u v = i := by
  rw [← triuPairs_length]
  constructor
  · intro u v huv
    have hm : (u, v) ∈ triuPairs n := mem_triuPairs.mpr huv
    refine ⟨List.idxOf_lt_length_of_mem hm, ?_⟩
    unfold getEdge getIdx
    rw [List.getElem?_eq_getElem (List.idxOf_lt_length_of_mem hm), List.getElem_idxOf]
  · intro i hi
    refine ⟨(triuPairs n)[i].1, (triuPairs n)[i].2, mem_triuPairs.mp (List.getElem_mem hi), ?_, ?_⟩
    · unfold getEdge; rw [List.getElem?_eq_getElem hi]
    · unfold getIdx
      exact (triuPairs_nodup n).idxOf_getElem i hi

example : getEdge 4 3 = some (1, 2) ∧ getIdx (1 : Fin 4) 2 = 3 := by decide +kernel

/-! ### C20 -/

theorem twiceEdges_eq_pairs {A : BMat n} (hA : Symm A) (S : Finset (Fin n)) :
    twiceEdges A S = 2 * ((Finset.univ : Finset (Fin n × Fin n)).filter fun e =>
      e.1 < e.2 ∧ (e.1 ∈ S ∧ e.2 ∈ S ∧ A e.1 e.2 = true)).card := by
  rw [← card_pairs_two (fun a b => a ∈ S ∧ b ∈ S ∧ A a b = true)
    (fun a b h => ⟨h.2.1, h.1, by rw [hA]; exact h.2.2⟩)]
  unfold twiceEdges degIn
  rw [← Finset.card_sigma]
  apply Finset.card_bij (fun e _ => (e.1, e.2))
  · rintro ⟨a, b⟩ h
    simp only [Finset.mem_sigma, Finset.mem_filter] at h
    simp only [Finset.mem_filter, Finset.mem_univ, true_and]
    exact ⟨Ne.symm h.2.2.2, h.1, h.2.1, h.2.2.1⟩
  · rintro ⟨a, b⟩ _ ⟨c, d⟩ _ h
    simp only [Prod.mk.injEq] at h
    obtain ⟨rfl, rfl⟩ := h; rfl
  · rintro ⟨a, b⟩ h
    simp only [Finset.mem_filter, Finset.mem_univ, true_and] at h
    exact ⟨⟨a, b⟩, by simp [h.2.1, h.2.2.1, h.2.2.2, Ne.symm h.1], rfl⟩

/-- **C20** `make_aux` succeeds exactly on graphs with an edge, and then: the row of an edge holds the
common closed neighbours of its ends, other rows are zero; the count of an edge is the number of edges
among these neighbours; the score is 0 exactly when they form a clique. -/
theorem C20_make_aux (A : BMat n) (hn : 0 < n) (hA : Symm A) (hD : UnitDiag A) (rt : Runtime n) :
    ((∃ i j, Adj A i j) ↔ ∃ g, makeAux rt.order A = .ok g) ∧
    ∀ g, makeAux rt.order A = .ok g →
      (∀ u v w : Fin n, g.common u v w = true ↔ u < v ∧ A u v = true ∧ A u w = true ∧ A v w = true) ∧
      (∀ u v : Fin n, u < v → A u v = true →
        g.counts u v = ((Finset.univ : Finset (Fin n × Fin n)).filter fun e => e.1 < e.2 ∧
          (e.1 ∈ Finset.univ.filter (fun w => A u w = true ∧ A v w = true) ∧
           e.2 ∈ Finset.univ.filter (fun w => A u w = true ∧ A v w = true) ∧ A e.1 e.2 = true)).card ∧
        (g.score (u, v) = 0 ↔
          IsClique A (Finset.univ.filter (fun w => A u w = true ∧ A v w = true)))) := by
  constructor
  · rcases makeAux_cases rt.order hA hn with ⟨hno, he⟩ | ⟨⟨i, j, hij, hadj⟩, g, hg⟩
    · constructor
      · rintro ⟨i, j, h⟩
        exact absurd h.1 (by rw [hno i j h.2]; simp)
      · rintro ⟨g, hg⟩
        rw [he] at hg; cases hg
    · exact ⟨fun _ => ⟨g, hg⟩, fun _ => ⟨i, j, hadj, ne_of_lt hij⟩⟩
  · intro g hg
    rw [makeAux_ok hg]
    have hcom : ∀ u v w : Fin n, (commonOf A) u v w = true ↔
        u < v ∧ A u v = true ∧ A u w = true ∧ A v w = true := by
      intro u v w
      rw [commonOf_apply]
      simp [and_assoc]
    refine ⟨hcom, ?_⟩
    intro u v huv hadj
    have hrow : children ((commonOf A).row u v) =
        Finset.univ.filter (fun w => A u w = true ∧ A v w = true) := by
      ext w
      rw [mem_children, BTab.get_row, hcom]
      simp [huv, hadj]
    have hcnt := countsOf_eq hA hD (commonOf A) huv
    rw [hrow] at hcnt
    constructor
    · have := twiceEdges_eq_pairs hA (Finset.univ.filter (fun w => A u w = true ∧ A v w = true))
      rw [this] at hcnt
      show (countsOf A (commonOf A)) u v = _
      omega
    · rw [← twiceEdges_eq_iff]
      show nChoose2 ((commonOf A).row u v).card - (countsOf A (commonOf A)) u v = 0 ↔ _
      rw [BVec.card_eq, hrow]
      have h1 := two_mul_nChoose2 (Finset.univ.filter (fun w => A u w = true ∧ A v w = true)).card
      have h2 := twiceEdges_le A (Finset.univ.filter (fun w => A u w = true ∧ A v w = true))
      constructor
      · intro h; omega
      · intro h; omega

example : (∃ i j, Adj (graphOf 4 [(0,1),(1,2),(0,2)]) i j) ∧
    (makeAux id (graphOf 4 [(0,1),(1,2),(0,2)])).toOption.map
      (fun g => (g.counts 0 1, g.score (0, 1), (g.common.row 0 1).bits)) = some (3, 0, 0b0111) := by
  decide +kernel


/-! ### C21 -/

/-- an edit of an `UndirectedDependenceGraph`: add (`true`) or remove (`false`) the listed edges -/
abbrev Edit (n : Nat) := Bool × List (Fin n × Fin n)

def UDG.edit (g : UDG n) (e : Edit n) : UDG n := if e.1 then g.addEdges e.2 else g.rmEdges e.2

/-- the last edit that lists the pair, in either orientation -/
def lastEdit (es : List (Edit n)) (i j : Fin n) : Option Bool :=
  (es.reverse.find? fun e => e.2.contains (i, j) || e.2.contains (j, i)).map (·.1)

theorem lastEdit_append (es : List (Edit n)) (e : Edit n) (i j : Fin n) :
    lastEdit (es ++ [e]) i j =
      if (i, j) ∈ e.2 ∨ (j, i) ∈ e.2 then some e.1 else lastEdit es i j := by
  unfold lastEdit
  rw [List.reverse_append]
  simp only [List.reverse_cons, List.reverse_nil, List.nil_append, List.cons_append, List.find?_cons]
  by_cases h : (i, j) ∈ e.2 ∨ (j, i) ∈ e.2
  · have : (e.2.contains (i, j) || e.2.contains (j, i)) = true := by
      simpa using h
    rw [this, if_pos h]; rfl
  · have : (e.2.contains (i, j) || e.2.contains (j, i)) = false := by
      simpa [not_or] using h
    rw [this, if_neg h]

theorem edit_adj (g : UDG n) (e : Edit n) (i j : Fin n) :
    (g.edit e).adj i j = if (i, j) ∈ e.2 ∨ (j, i) ∈ e.2 then e.1 else g.adj i j := by
  obtain ⟨b, l⟩ := e
  cases b <;> exact setEdges_apply _ _ _ _ _

/-- **C21** after any sequence of `add_edges` / `rm_edges`: every entry is what the last edit listing
that pair wrote (the initial entry if none did); so the matrix stays symmetric, and the diagonal entry
of a vertex changes only through an edit listing the loop; `num_edges` is the number of edges;
`num_vertices` never changes. -/
theorem C21_edits (A : BMat n) (hA : Symm A) (es : List (Edit n)) :
    let g := es.foldl UDG.edit (UDG.init A)
    (∀ i j, g.adj i j = (lastEdit es i j).getD (A i j)) ∧ Symm g.adj ∧
    (∀ i, (∀ e ∈ es, (i, i) ∉ e.2) → g.adj i i = A i i) ∧
    g.numEdges = ((Finset.univ : Finset (Fin n × Fin n)).filter fun e =>
      e.1 < e.2 ∧ g.adj e.1 e.2 = true).card ∧
    g.numVertices = (Finset.univ.filter fun i => A i i = true).card := by
  intro g
  have hadj : ∀ i j, g.adj i j = (lastEdit es i j).getD (A i j) := by
    induction es using List.reverseRecOn with
    | nil => intro i j; rfl
    | append_singleton es e ih =>
      intro i j
      show ((es ++ [e]).foldl UDG.edit (UDG.init A)).adj i j = _
      rw [List.foldl_append, List.foldl_cons, List.foldl_nil, edit_adj, lastEdit_append]
      split
      · rfl
      · exact ih i j
  have hsym : ∀ i j, lastEdit es i j = lastEdit es j i := by
    intro i j
    unfold lastEdit
    congr 2
    funext e
    rw [Bool.or_comm]
  refine ⟨hadj, ?_, ?_, ?_, ?_⟩
  · intro i j
    rw [hadj, hadj, hsym, hA]
  · intro i hi
    rw [hadj]
    have : lastEdit es i i = none := by
      unfold lastEdit
      rw [Option.map_eq_none_iff, List.find?_eq_none]
      intro e he
      have := hi e (List.mem_reverse.mp he)
      simpa using this
    rw [this]; rfl
  · have : g.numEdges = numEdgesOf g.adj := by
      show (es.foldl UDG.edit (UDG.init A)).numEdges = numEdgesOf (es.foldl UDG.edit (UDG.init A)).adj
      induction es using List.reverseRecOn with
      | nil => rfl
      | append_singleton es e ih =>
        rw [List.foldl_append, List.foldl_cons, List.foldl_nil]
        obtain ⟨b, l⟩ := e
        cases b <;> rfl
    rw [this, numEdgesOf_eq]; rfl
  · have hv : ∀ (es : List (Edit n)) (g0 : UDG n), (es.foldl UDG.edit g0).numVertices = g0.numVertices := by
      intro es
      induction es with
      | nil => intro g0; rfl
      | cons e es ih =>
        intro g0
        rw [List.foldl_cons, ih]
        obtain ⟨b, l⟩ := e
        cases b <;> rfl
    have : g.numVertices = traceOf A := hv es (UDG.init A)
    rw [this]; unfold traceOf; rw [countFin_eq]

/-! ### C22–C24: reduction states -/

/-- states of a `ReducibleUndDepGraph` reachable from a fresh `make_aux` + `reducible_copy` by the
reduction rules, `cover_edges`, starting a `reduzieren` pass (`k_num_cliques`, `reducing`), and handing
over any cover in a copy (as `branch` does) -/
inductive Reach (rt : Runtime n) (A : BMat n) : RG n → Prop
  | init {g} : makeAux rt.order A = .ok g → Reach rt A g
  | rule1 {g} : Reach rt A g → Reach rt A g.rule1
  | rule2 {g} : Reach rt A g → Reach rt A g.rule2
  | rule3 {g g'} : Reach rt A g → g.rule3 = .ok g' → Reach rt A g'
  | cover {g} : Reach rt A g → Reach rt A g.coverEdges
  | start {g} (k : Int) (b : Bool) : Reach rt A g → Reach rt A { g with k := k, reducing := b }
  | hand {g} (c : Option (List (BVec n))) : Reach rt A g → Reach rt A { g with cover := c }

theorem Reach.coh {rt : Runtime n} {A : BMat n} (hA : Symm A) (hD : UnitDiag A) {g : RG n}
    (h : Reach rt A g) : Coh A g := by
  induction h with
  | init h => exact Coh.init hA hD rt.perm h
  | rule1 _ ih => exact ih.rule1 hA
  | rule2 _ ih => exact ih.rule2
  | @rule3 g g' _ h3 ih =>
    rcases rule3_cases g with ⟨-, h⟩ | ⟨v, -, -, ⟨-, h⟩ | ⟨-, h⟩⟩
    · rw [h] at h3; cases h3; exact ih
    · rw [h] at h3; cases h3
    · rw [h] at h3; cases h3; exact ih.fire3 v
  | cover _ ih => exact ih.coverEdges
  | @start g k b _ ih => exact ih.congr g.cover g.redAway k b
  | @hand g c _ ih => exact ih.congr c g.redAway g.k g.reducing

/-- **C22** in every reachable reduction state: the working matrix is symmetric and a subgraph of the
input; the extant edges are exactly its edges, each once; `num_edges` is their number; the row of a
pair holds exactly the common neighbours (in the input graph) that have not been deleted. -/
theorem C22_reduction_coherent (A : BMat n) (hA : Symm A) (hD : UnitDiag A) (rt : Runtime n) (g : RG n)
    (h : Reach rt A g) :
    Symm g.adj ∧ (∀ i j, Adj g.adj i j → Adj A i j) ∧
    g.extant.Nodup ∧ (∀ i j : Fin n, (i, j) ∈ g.extant ↔ i < j ∧ g.adj i j = true) ∧
    g.numEdges = g.extant.length ∧
    (∀ u v w : Fin n, g.common u v w = true ↔
      u < v ∧ A u v = true ∧ A u w = true ∧ A v w = true ∧ g.adj w w = true) := by
  have hC := h.coh hA hD
  refine ⟨hC.symm, fun i j hij => ⟨hC.sub i j hij.2 hij.1, hij.2⟩, hC.extNodup,
    fun i j => hC.ext (i, j), ?_, hC.common⟩
  rw [hC.nedges, numEdgesOf_eq, ← List.toFinset_card_of_nodup hC.extNodup]
  congr 1
  ext e
  rw [List.mem_toFinset, hC.ext, mem_edgeSet]

theorem coverPairs_diag (g : RG n) (es : List (Fin n × Fin n)) (hes : ∀ e ∈ es, e.1 < e.2) (i : Fin n) :
    (g.coverPairs es).adj i i = g.adj i i := by
  show (setEdges false g.adj es) i i = _
  rw [setEdges_apply, if_neg]
  simp only [or_self]
  exact fun hi => lt_irrefl _ (hes _ hi)

/-- **C22, vertices** in every reachable reduction state `num_vertices` is the number of vertices that have not been deleted -/
theorem C22_num_vertices (A : BMat n) (hA : Symm A) (hD : UnitDiag A) (rt : Runtime n) (g : RG n)
    (h : Reach rt A g) : g.numVertices = (Finset.univ.filter fun v => g.adj v v = true).card := by
  induction h with
  | init h =>
    rw [makeAux_ok h]
    exact congrArg Nat.cast (countFin_eq _)
  | @rule1 g hR ih =>
    have hC := hR.coh hA hD
    unfold RG.rule1
    simp only
    by_cases hi : g.isolated.isEmpty = true
    · rw [if_pos hi]; exact ih
    · rw [if_neg hi]
      show g.numVertices - (g.isolated.card : Int) = _
      simp only [BMat.get_of, decide_true, Bool.true_and]
      rw [ih, BVec.card_eq]
      have e : (Finset.univ.filter fun v => (g.adj v v && !g.isolated v) = true) =
          (Finset.univ.filter fun v => g.adj v v = true) \ children g.isolated := by
        ext v; simp [children]
      rw [e, Finset.card_sdiff_of_subset, Nat.cast_sub]
      · refine Finset.card_le_card fun v hv => ?_
        simp only [children, Finset.mem_filter, Finset.mem_univ, true_and] at hv ⊢
        exact ((hC.isolated v).mp hv).1
      · intro v hv
        simp only [children, Finset.mem_filter, Finset.mem_univ, true_and] at hv ⊢
        exact ((hC.isolated v).mp hv).1
  | @rule2 g hR ih =>
    rcases rule2_cases g with ⟨-, h⟩ | ⟨e, -, -, h⟩
    · rw [h]; exact ih
    · rw [h]
      show g.numVertices = _
      rw [ih]
      congr 2
      ext v
      simp only [Finset.mem_filter, Finset.mem_univ, true_and]
      exact Eq.to_iff (congrArg (· = true) (coverPairs_diag g _ (rowPairs_lt _) v).symm)
  | @rule3 g g' hR h3 ih =>
    rcases rule3_cases g with ⟨-, h⟩ | ⟨v, -, -, ⟨-, h⟩ | ⟨-, h⟩⟩
    · rw [h] at h3; cases h3; exact ih
    · rw [h] at h3; cases h3
    · rw [h] at h3; cases h3
      show g.numVertices = _
      rw [ih]
      congr 2
      ext w
      simp only [Finset.mem_filter, Finset.mem_univ, true_and]
      exact Eq.to_iff (congrArg (· = true) (coverPairs_diag g _ (vertEdges_lt g v) w).symm)
  | @cover g hR ih =>
    unfold RG.coverEdges
    split
    · exact ih
    · split
      · exact ih
      · show g.numVertices = _
        rw [ih]
        congr 2
        ext v
        simp only [Finset.mem_filter, Finset.mem_univ, true_and]
        exact Eq.to_iff (congrArg (· = true) (coverPairs_diag g _ (rowPairs_lt _) v).symm)
  | start k b _ ih => exact ih
  | hand c _ ih => exact ih

/-- **C23** in every reachable state `rule_2` either changes nothing (no uncovered edge has score 0), or
appends exactly one row, a clique of the input graph that contains an uncovered edge; exactly the pairs
inside the row become covered; the budget drops by one. -/
theorem C23_rule2 (A : BMat n) (hA : Symm A) (hD : UnitDiag A) (rt : Runtime n) (g : RG n)
    (h : Reach rt A g) :
    ((∀ e ∈ g.extant, g.score e ≠ 0) ∧ g.rule2 = g) ∨
    ((∃ e ∈ g.extant, g.score e = 0) ∧ ∃ r : BVec n,
      g.rule2.cover = some (g.cover.getD [] ++ [r]) ∧ IsClique A (children r) ∧
      (∃ i j, i < j ∧ r i = true ∧ r j = true ∧ g.adj i j = true) ∧
      (∀ i j, g.rule2.adj i j = (g.adj i j && !(decide (i ≠ j) && r i && r j))) ∧
      g.rule2.numEdges < g.numEdges ∧ g.rule2.k = g.k - 1) := by
  have hC := h.coh hA hD
  rcases rule2_cases g with h2 | ⟨e, he, hs, heq⟩
  · exact Or.inl h2
  · right
    refine ⟨⟨e, he, hs⟩, g.common.row e.1 e.2, ?_⟩
    rw [heq]
    obtain ⟨h1, h2⟩ := (hC.ext e).mp he
    obtain ⟨h3, h4⟩ := hC.ends_mem hD hA he
    exact ⟨rfl, hC.score_clique he hs, ⟨e.1, e.2, h1, by simpa using h3, by simpa using h4, h2⟩,
      fun i j => setEdges_row _ _ _ _, hC.fire2_lt hA hD he, rfl⟩

theorem reduceLoop_reach {rt : Runtime n} {A : BMat n} : ∀ {fuel} {g g' : RG n}, Reach rt A g →
    RG.reduceLoop fuel g = .ok g' → Reach rt A g' := by
  intro fuel
  induction fuel with
  | zero => intro g g' _ h; cases h
  | succ fuel ih =>
    intro g g' hR h
    unfold RG.reduceLoop at h
    simp only at h
    have hR2 : Reach rt A (RG.rule2 (RG.rule1 { g with reducing := false })) :=
      (Reach.start g.k false hR).rule1.rule2
    split at h
    · cases h; exact hR2
    · split at h
      · exact ih hR2 h
      · split at h
        · cases h
        · rename_i g3 h3
          have hR3 := hR2.rule3 h3
          split at h
          · exact ih hR3 h
          · cases h; exact hR3

/-- **C24** `reduzieren(k)` terminates without raising from every reachable state, for every `k`; it ends
with a negative budget, or in a state to which no rule applies; in the latter every remaining vertex has
an uncovered edge. -/
theorem C24_reduce_terminates (A : BMat n) (hA : Symm A) (hD : UnitDiag A) (rt : Runtime n) (g : RG n)
    (h : Reach rt A g) (k : Int) :
    ∃ g', g.reduzieren k = .ok g' ∧ Reach rt A g' ∧
      (g'.k < 0 ∨ (0 ≤ g'.k ∧ g'.rule1 = g' ∧ g'.rule2 = g' ∧ g'.rule3 = .ok g' ∧
        ∀ v, g'.adj v v = true → ∃ u, u ≠ v ∧ g'.adj v u = true)) := by
  obtain ⟨g', h1, hC, h2⟩ := reduzieren_spec hA hD (fun _ => True) (fun _ => True)
    (fun _ _ _ => trivial) (fun _ _ _ => trivial) (fun _ _ _ _ _ _ _ => trivial)
    (fun _ _ _ _ _ _ _ _ _ => trivial) g k (h.coh hA hD) trivial
  refine ⟨g', h1, reduceLoop_reach (Reach.start k true h) h1, ?_⟩
  rcases h2 with ⟨hk, -⟩ | ⟨hk, -, hS⟩
  · exact Or.inl hk
  · refine Or.inr ⟨hk, ?_, ?_, ?_, hS.nbr⟩
    · have : g'.isolated.isEmpty = true := by
        rw [BVec.isEmpty_iff]
        intro v
        by_contra hc
        obtain ⟨h3, h4⟩ := (hC.isolated v).mp (by simpa using hc)
        obtain ⟨u, hu, h5⟩ := hS.nbr v h3
        rw [h4 u hu] at h5; cases h5
      unfold RG.rule1
      simp only [this, if_true]
    · rcases rule2_cases g' with ⟨-, h⟩ | ⟨e, he, hs, -⟩
      · exact h
      · exact absurd hs (hS.no2 e he)
    · rcases rule3_cases g' with ⟨-, h⟩ | ⟨v, hv, hd, -⟩
      · exact h
      · rw [hS.no3 v hv] at hd; cases hd


/-- a reachable state of a run on `missGraph`: two cliques added by rule 2, then rule 1 -/
def missState : Option (RG 6) := (makeAux id missGraph).toOption.map fun g => g.rule2.rule2.rule1

theorem missState_reach : ∃ g, missState = some g ∧ Reach (rt0 6) missGraph g := by
  rcases hg : makeAux id missGraph with e | g
  · have : (makeAux id missGraph).toOption.isSome = true := by decide +kernel
    rw [hg] at this; cases this
  · exact ⟨_, by unfold missState; rw [hg]; rfl, ((Reach.init hg).rule2.rule2).rule1⟩

-- a non-trivial reachable state (C22-C24): one uncovered edge 0–2, four deleted vertices
example : missState.map (fun g => (g.extant, g.rows.map (·.bits), g.numVertices)) =
    some ([(0, 2)], [60, 51], 2) := by decide +kernel

-- rule 2 fires in the initial state
example : (makeAux id missGraph).toOption.map (fun g => (g.rule2.rows.map (·.bits), g.numEdges,
    g.rule2.numEdges, g.k - g.rule2.k)) = some ([60], 12, 6, 1) := by decide +kernel

/-! ### C73: the edge counts -/

def C73_statement : Prop :=
  ∀ (n : Nat) (A : BMat n) (rt : Runtime n) (g : RG n), Symm A → UnitDiag A → Reach rt A g →
    ∀ u v : Fin n, (u, v) ∈ g.extant →
      g.counts u v = ((Finset.univ : Finset (Fin n × Fin n)).filter fun e => e.1 < e.2 ∧
        (g.common u v e.1 = true ∧ g.common u v e.2 = true ∧ A e.1 e.2 = true)).card

/-- **C73 is false**: `rule_1` subtracts an edge between two vertices it deletes together twice.  On
`missGraph`, in a state reached by rule 2, rule 2, rule 1, the uncovered edge 0–2 has row `{0,2}` (one
edge, a clique) but count 0, hence score 1: rule 2 no longer applies to it, rule 3 deletes it, and this is
how the edge is lost in `C13_false`. -/
theorem C73_false : ¬ C73_statement := by
  intro h
  obtain ⟨g, hg, hR⟩ := missState_reach
  have h1 : missState.map (fun g => (decide ((0, 2) ∈ g.extant), g.counts 0 2, (g.common.row 0 2).bits)) =
    some (true, 0, 0b101) := by decide +kernel
  rw [hg] at h1
  simp only [Option.map_some, Option.some.injEq, Prod.mk.injEq, decide_eq_true_eq] at h1
  obtain ⟨h2, h3, h4⟩ := h1
  have := h 6 missGraph (rt0 6) g (graphOf_symm _) (graphOf_diag _) hR 0 2 h2
  have hrow : ∀ w, g.common 0 2 w = (⟨0b101⟩ : BVec 6) w := by
    intro w
    rw [← BTab.get_row]
    congr 1
    cases hx : g.common.row 0 2
    rw [hx] at h4; simp only at h4; rw [h4]
  rw [h3] at this
  simp only [hrow] at this
  revert this
  decide +kernel

/-- **C73, proved part**: the count is never larger than the number of edges of the input graph among
the row, and it is exact initially; so rule 2 never takes a row that is not a clique (C23), it can only
miss one.  Missing for the full claim: it is false (`C73_false`). -/
theorem C73_counts_partial (A : BMat n) (hA : Symm A) (hD : UnitDiag A) (rt : Runtime n) (g : RG n)
    (h : Reach rt A g) (u v : Fin n) (he : (u, v) ∈ g.extant) :
    g.counts u v ≤ ((Finset.univ : Finset (Fin n × Fin n)).filter fun e => e.1 < e.2 ∧
        (g.common u v e.1 = true ∧ g.common u v e.2 = true ∧ A e.1 e.2 = true)).card ∧
    (makeAux rt.order A = .ok g →
      g.counts u v = ((Finset.univ : Finset (Fin n × Fin n)).filter fun e => e.1 < e.2 ∧
        (g.common u v e.1 = true ∧ g.common u v e.2 = true ∧ A e.1 e.2 = true)).card) := by
  have hC := h.coh hA hD
  obtain ⟨h1, h2⟩ := (hC.ext (u, v)).mp he
  have h3 := hC.counts u v h1 (hC.sub _ _ (ne_of_lt h1) h2)
  have h4 := twiceEdges_eq_pairs hA (children (g.common.row u v))
  simp only [mem_children, BTab.get_row] at h4
  refine ⟨by omega, ?_⟩
  intro hg
  have h5 : 2 * g.counts u v = twiceEdges A (children (g.common.row u v)) := by
    rw [makeAux_ok hg]; exact countsOf_eq hA hD _ h1
  omega

/-! ### C25 -/

/-- **C25** nothing covered yet, rule 3 fires: it deletes some vertex `v`.  If every neighbour of `v`
whose neighbours are all neighbours of `v` (a prisoner) has another neighbour, then `reconstruct_cover`
turns every clique cover of the graph without `v` into a clique cover of the whole graph with the same
number of rows. -/
theorem C25_rule3_reconstruct (A : BMat n) (hA : Symm A) (hD : UnitDiag A) (rt : Runtime n)
    (g g' : RG n) (hg : makeAux rt.order A = .ok g) (h3 : g.rule3 = .ok g') (hfire : g' ≠ g) :
    ∃ v, (∀ i j, i ≠ j → g'.adj i j = (A i j && decide (i ≠ v) && decide (j ≠ v))) ∧
      ((∀ p, Adj A v p → (∀ w, A p w = true → A v w = true) → ∃ w, w ≠ v ∧ Adj A p w) →
      ∀ C : List (BVec n), RowsCliques A C →
        (∀ i j, i ≠ v → j ≠ v → Adj A i j → ∃ r ∈ C, r i = true ∧ r j = true) →
        RowsCliques A (RG.reconstructCover g'.redAway C) ∧
        CoversEdges A (RG.reconstructCover g'.redAway C) ∧
        (RG.reconstructCover g'.redAway C).length = C.length) := by
  have hga : g.adj = A := by rw [makeAux_ok hg]
  have hgr : g.redAway = none := by rw [makeAux_ok hg]
  rcases rule3_cases g with ⟨-, h⟩ | ⟨v, hv, hdom, ⟨-, h⟩ | ⟨⟨x, hx, hvx⟩, h⟩⟩
  · rw [h] at h3; cases h3; exact absurd rfl hfire
  · rw [h] at h3; cases h3
  rw [h] at h3; cases h3
  refine ⟨v, ?_, ?_⟩
  · intro i j hij
    rw [fire3_adj g (by rw [hga]; exact hA), hga]
    simp only [ne_eq, hij, not_false_eq_true, decide_true, Bool.true_and, Bool.not_or, Bool.and_assoc, decide_not]
  intro hpris C hCc hCe
  -- prisoners of `v`
  have hpr : ∀ p, g.prisoners v p = true ↔ Adj A v p ∧ ∀ w, A p w = true → A v w = true := by
    intro p
    unfold RG.prisoners RG.exits
    rw [hga]
    simp only [BVec.get_of, Bool.and_eq_true, Bool.not_eq_true', Bool.and_eq_false_iff,
      List.any_eq_false, List.mem_finRange, true_implies, decide_eq_true_eq, not_and, Bool.not_eq_false',
      Adj, Bool.not_eq_true]
    constructor
    · rintro ⟨⟨h1 | h1, h2⟩, h3⟩
      · rw [h1] at h2; cases h2
      · exact ⟨⟨h2, Ne.symm h3⟩, fun w hw => by simpa using h1 w hw⟩
    · rintro ⟨⟨h1, h2⟩, h3⟩
      exact ⟨⟨Or.inr fun w hw => by simpa using h3 w hw, h1⟩, Ne.symm h2⟩
  -- exits are dominated
  have hex : ∀ u, Adj A v u → g.prisoners v u = true ∨ ∃ p, g.prisoners v p = true ∧ A p u = true := by
    intro u hu
    by_cases hp : g.prisoners v u = true
    · exact Or.inl hp
    · right
      have hexit : g.exits v u = true := by
        by_contra hc
        apply hp
        unfold RG.prisoners
        simp only [BVec.get_of, Bool.and_eq_true, Bool.not_eq_true', decide_eq_true_eq]
        exact ⟨⟨by simpa using hc, by rw [hga]; exact hu.1⟩, Ne.symm hu.2⟩
      unfold RG.dominate at hdom
      simp only [List.all_eq_true, BVec.mem_toList, List.any_eq_true] at hdom
      obtain ⟨p, h1, h2⟩ := hdom u hexit
      exact ⟨p, h1, by rw [← hga]; exact h2⟩
  have hR : (g.fire3 v).redAway = some (BMat.of fun i j => if i = v then g.prisoners v j else false) := by
    unfold RG.fire3; rw [hgr]
  obtain ⟨p0, hp0⟩ : ∃ p, g.prisoners v p = true := by
    rcases hex x ⟨by rw [← hga]; exact hvx, Ne.symm hx⟩ with h | ⟨p, h, -⟩
    · exact ⟨x, h⟩
    · exact ⟨p, h⟩
  have hrec : RG.reconstructCover (g.fire3 v).redAway C = C.map fun row =>
      if (List.finRange n).any (fun p => g.prisoners v p && row p)
      then BVec.of fun j => row j || decide (j = v) else row := by
    rw [hR]
    unfold RG.reconstructCover
    have hfil : ((List.finRange n).filter fun w => (List.finRange n).any fun p =>
        (BMat.of fun i j => if i = v then g.prisoners v j else false) w p) = [v] := by
      have : (fun w : Fin n => (List.finRange n).any fun p =>
        (BMat.of fun i j => if i = v then g.prisoners v j else false) w p) = fun w => w == v := by
        funext w
        by_cases hw : w = v
        · subst hw
          simp only [BMat.get_of, if_true, beq_self_eq_true, List.any_eq_true, List.mem_finRange, true_and]
          exact ⟨p0, hp0⟩
        · rw [beq_eq_false_iff_ne.mpr hw, List.any_eq_false]
          intro p _
          simp [hw]
      rw [this]
      rw [List.filter_beq, List.count_eq_one_of_mem (List.nodup_finRange n) (List.mem_finRange v)]
      rfl
    simp only
    rw [hfil]
    simp only [List.foldl_cons, List.foldl_nil, BMat.get_of, if_true]
  rw [hrec]
  have hin : ∀ row ∈ C, ∀ p, g.prisoners v p = true → row p = true → ∀ i, row i = true → A v i = true := by
    intro row hrow p hp hrp i hi
    obtain ⟨h1, h2⟩ := (hpr p).mp hp
    by_cases hpi : p = i
    · subst hpi; exact h1.1
    · exact h2 i (hCc row hrow p (by simpa using hrp) i (by simpa using hi) hpi).1
  refine ⟨?_, ?_, by simp⟩
  · intro r hr
    obtain ⟨row, hrow, rfl⟩ := List.mem_map.mp hr
    split
    · rename_i hany
      simp only [List.any_eq_true, List.mem_finRange, true_and, Bool.and_eq_true] at hany
      obtain ⟨p, hp, hrp⟩ := hany
      intro i hi j hj hij
      simp only [mem_children, BVec.get_of, Bool.or_eq_true, decide_eq_true_eq] at hi hj
      rcases hi with hi | rfl
      · rcases hj with hj | rfl
        · exact hCc row hrow i (by simpa using hi) j (by simpa using hj) hij
        · exact ⟨by rw [hA]; exact hin row hrow p hp hrp i hi, hij⟩
      · rcases hj with hj | rfl
        · exact ⟨hin row hrow p hp hrp j hj, hij⟩
        · exact absurd rfl hij
    · exact hCc row hrow
  · -- a row containing a prisoner gets `v`
    have hadd : ∀ row ∈ C, ∀ p, g.prisoners v p = true → row p = true → ∀ u, row u = true →
        ∃ r ∈ C.map (fun row => if (List.finRange n).any (fun p => g.prisoners v p && row p)
          then BVec.of fun j => row j || decide (j = v) else row), r v = true ∧ r u = true := by
      intro row hrow p hp hrp u hu
      refine ⟨_, List.mem_map_of_mem hrow, ?_⟩
      rw [if_pos]
      · simp [hu]
      · simp only [List.any_eq_true, List.mem_finRange, true_and, Bool.and_eq_true]
        exact ⟨p, hp, hrp⟩
    have hv' : ∀ u, Adj A v u → ∃ r ∈ C.map (fun row => if (List.finRange n).any (fun p => g.prisoners v p && row p)
          then BVec.of fun j => row j || decide (j = v) else row), r v = true ∧ r u = true := by
      intro u hu
      rcases hex u hu with hp | ⟨p, hp, hpu⟩
      · obtain ⟨h1, h2⟩ := (hpr u).mp hp
        obtain ⟨w, hw, huw⟩ := hpris u h1 h2
        obtain ⟨row, hrow, h5, -⟩ := hCe u w (Ne.symm hu.2) hw huw
        exact hadd row hrow u hp h5 u h5
      · by_cases hpe : p = u
        · subst hpe
          obtain ⟨h1, h2⟩ := (hpr p).mp hp
          obtain ⟨w, hw, huw⟩ := hpris p h1 h2
          obtain ⟨row, hrow, h5, -⟩ := hCe p w (Ne.symm hu.2) hw huw
          exact hadd row hrow p hp h5 p h5
        · obtain ⟨row, hrow, h5, h6⟩ := hCe p u (Ne.symm ((hpr p).mp hp).1.2) (Ne.symm hu.2) ⟨hpu, hpe⟩
          exact hadd row hrow p hp h5 u h6
    intro i j hij
    by_cases hi : i = v
    · subst hi; exact hv' j hij
    · by_cases hj : j = v
      · subst hj
        obtain ⟨r, hr, h1, h2⟩ := hv' i ⟨by rw [hA]; exact hij.1, Ne.symm hij.2⟩
        exact ⟨r, hr, h2, h1⟩
      · obtain ⟨row, hrow, h1, h2⟩ := hCe i j hi hj hij
        refine ⟨_, List.mem_map_of_mem hrow, ?_⟩
        split
        · simp [h1, h2]
        · exact ⟨h1, h2⟩

-- rule 3 fires on the triangle 0,1,2 with the pendant edge 1–3, deleting vertex 0; prisoner 2 has the
-- other neighbour 1; the cover {1,2},{1,3} of the rest becomes {0,1,2},{1,3}
example : ((makeAux id (graphOf 4 [(0,1),(0,2),(1,2),(1,3)])).toOption.bind
    (fun g => g.rule3.toOption.map fun g' => (decide (g' = g), g'.adj 0 1, g'.adj 0 2, g'.adj 1 2,
      (RG.reconstructCover g'.redAway [⟨0b0110⟩, ⟨0b1010⟩]).map (·.bits)))) =
    some (false, false, false, true, [0b0111, 0b1010]) := by decide +kernel

/-! ### C26 -/

/-- what a reader of an `.nde` file sees: the vertex count (first line), the pairs on the per-vertex
lines (as many as the count says) and the pairs on the remaining lines -/
def readNde (text : List Char) : Nat × List (Nat × Nat) × List (Nat × Nat) :=
  let lines := (text.splitOn '\n').dropLast
  let n := readNat (lines.headD [])
  (n, (lines.tail.take n).map readPair, (lines.tail.drop n).map readPair)

/-- **C26** reading the file back gives the number of vertices, the row sums, and (for a symmetric
matrix) every entry; so two symmetric matrices with the same file are equal. -/
theorem C26_nde_lossless (A : BMat n) (hA : Symm A) :
    let f := readNde (ndeText A)
    f.1 = n ∧
    f.2.1 = (List.finRange n).map (fun i : Fin n => (i.val, (Finset.univ.filter fun j => A i j = true).card)) ∧
    ∀ i j : Fin n, A i j = true ↔ (i.val, j.val) ∈ f.2.2 ∨ (j.val, i.val) ∈ f.2.2 := by
  intro f
  have hlines : ((ndeText A).splitOn '\n').dropLast = ndeLines A := by
    rw [splitOn_ndeText, List.dropLast_concat]
  have hf : f = (n, (List.finRange n).map (fun i : Fin n => (i.val, countFin fun j => A i j)),
      (triuNonzero A).map fun e => (e.1.val, e.2.val)) := by
    show readNde (ndeText A) = _
    unfold readNde
    simp only [hlines]
    have hn : readNat ((ndeLines A).headD []) = n := by
      simp [ndeLines, readNat_pyStr]
    rw [hn]
    have ht : (ndeLines A).tail = ((List.finRange n).map fun i : Fin n => pyLine i (countFin fun j => A i j)) ++
        (triuNonzero A).map fun e => pyLine e.1 e.2 := by
      simp [ndeLines]
    rw [ht, List.take_left' (by simp), List.drop_left' (by simp), List.map_map, List.map_map]
    simp only [Function.comp_def, readPair_pyLine]
  rw [hf]
  refine ⟨rfl, ?_, ?_⟩
  · apply List.map_congr_left
    intro i _
    rw [countFin_eq]
  · intro i j
    have hmem : ∀ a b : Fin n, (a.val, b.val) ∈ (triuNonzero A).map (fun e => (e.1.val, e.2.val)) ↔
        a ≤ b ∧ A a b = true := by
      intro a b
      rw [← mem_triuNonzero, List.mem_map]
      constructor
      · rintro ⟨⟨x, y⟩, hxy, he⟩
        simp only [Prod.mk.injEq] at he
        rw [← Fin.ext he.1, ← Fin.ext he.2]; exact hxy
      · intro h; exact ⟨(a, b), h, rfl⟩
    show _ ↔ _ ∈ List.map _ _ ∨ _ ∈ List.map _ _
    rw [hmem, hmem, hA j i]
    constructor
    · intro h
      rcases le_total i j with h' | h'
      · exact Or.inl ⟨h', h⟩
      · exact Or.inr ⟨h', h⟩
    · rintro (h | h) <;> exact h.2

theorem C26_nde_injective {n m : Nat} (A : BMat n) (B : BMat m) (hA : Symm A) (hB : Symm B)
    (h : ndeText A = ndeText B) :
    n = m ∧ ∀ (i j : Nat) (hi : i < n) (hj : j < n) (hi' : i < m) (hj' : j < m),
      A ⟨i, hi⟩ ⟨j, hj⟩ = B ⟨i, hi'⟩ ⟨j, hj'⟩ := by
  have h1 := C26_nde_lossless A hA
  have h2 := C26_nde_lossless B hB
  simp only [h] at h1
  refine ⟨h1.1.symm.trans h2.1, ?_⟩
  intro i j hi hj hi' hj'
  rw [Bool.eq_iff_iff, h1.2.2, h2.2.2]

example : String.ofList (ndeText (graphOf 3 [(0, 2)])) = "3\n0 2\n1 1\n2 2\n0 0\n0 2\n1 1\n2 2\n" := by
  decide +kernel

end Medil

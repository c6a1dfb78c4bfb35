import Verif.Proofs.Opc
/-
  A checker for "rule 2 alone solves the graph, with rows that pass a test in every set order": it follows all
  edges rule 2 could pick, instead of the one the iteration order makes it pick.  `allOrders_branch` is its
  soundness for every set order; the checker is not part of the code.
-/
namespace Medil
variable {n : Nat}

/-- forget what depends on the set order and what the rules do not read -/
def RG.core (g : RG n) : RG n :=
  { g with unredVerts := 0, numVertices := 0, numEdges := 0, extant := [], redAway := none, k := 0,
           reducing := false }

/-- rows of the uncovered edges with score 0 -/
def RG.zeroRows (g : RG n) : List (BVec n) :=
  (((List.finRange n).flatMap fun i => (List.finRange n).map fun j => (i, j)).filter fun e =>
    decide (e.1 < e.2) && g.adj e.1 e.2 && decide (g.score e = 0)).map
      (fun e => g.common.row e.1 e.2) |>.dedup

def RG.noEdge (g : RG n) : Bool :=
  (List.finRange n).all fun i => (List.finRange n).all fun j => decide (i = j) || !g.adj i j

/-- the effect of rule 2 when it picks an edge with row `r` -/
def RG.coverRow (g : RG n) (r : BVec n) : RG n :=
  { g with adj := setEdges false g.adj (listPairs r.toList), cover := some (g.rows ++ [r]) }

/-- after rule 1: solved with rows that pass the test `B`, or rule 2 applies and leads to a good state whatever it picks -/
def chkBody (B : List (BVec n) → Bool) (rec : RG n → Bool) (g : RG n) : Bool :=
  if g.noEdge then B g.rows
  else !g.zeroRows.isEmpty && g.zeroRows.all fun r => rec (g.coverRow r)

def chk (B : List (BVec n) → Bool) : Nat → RG n → Bool
  | 0, _ => false
  | f + 1, g => chkBody B (chk B f) g.rule1.core

theorem core_rule1 (g : RG n) : (g.core.rule1).core = g.rule1.core := by
  have h : g.core.isolated = g.isolated := rfl
  unfold RG.rule1
  simp only [h]
  split <;> rfl

theorem core_core (g : RG n) : g.core.core = g.core := rfl

theorem chk_core (B : List (BVec n) → Bool) (f : Nat) (g : RG n) : chk B f g.core = chk B f g := by
  cases f with
  | zero => rfl
  | succ f => unfold chk; rw [core_rule1]

theorem core_fire2 (g : RG n) (e : Fin n × Fin n) :
    (g.fire2 e).core = (g.core.coverRow (g.common.row e.1 e.2)).core := rfl

theorem mem_zeroRows {g : RG n} {e : Fin n × Fin n} (hlt : e.1 < e.2) (hadj : g.adj e.1 e.2 = true)
    (hs : g.score e = 0) : g.common.row e.1 e.2 ∈ g.core.zeroRows := by
  unfold RG.zeroRows
  rw [List.mem_dedup, List.mem_map]
  refine ⟨e, List.mem_filter.mpr ⟨?_, ?_⟩, rfl⟩
  · simp
  · have : g.core.score e = g.score e := rfl
    have h2 : g.core.adj = g.adj := rfl
    rw [this, h2, hadj, hs]
    simp [hlt]

theorem exists_of_mem_zeroRows {g : RG n} {r : BVec n} (h : r ∈ g.core.zeroRows) :
    ∃ e : Fin n × Fin n, e.1 < e.2 ∧ g.adj e.1 e.2 = true ∧ g.score e = 0 := by
  unfold RG.zeroRows at h
  rw [List.mem_dedup, List.mem_map] at h
  obtain ⟨e, he, -⟩ := h
  have := (List.mem_filter.mp he).2
  simp only [Bool.and_eq_true, decide_eq_true_eq] at this
  exact ⟨e, this.1.1, this.1.2, this.2⟩

theorem noEdge_iff {g : RG n} : g.noEdge = true ↔ ∀ i j, i ≠ j → g.adj i j = false := by
  unfold RG.noEdge
  simp only [List.all_eq_true, List.mem_finRange, forall_true_left, Bool.or_eq_true, decide_eq_true_eq,
    Bool.not_eq_true']
  constructor
  · intro h i j hij; exact (h i j).resolve_left hij
  · intro h i j
    by_cases hij : i = j
    · exact Or.inl hij
    · exact Or.inr (h i j hij)

/-- invariants at the loop head and after rule 1 -/
def ChkP (B : List (BVec n) → Bool) (g : RG n) : Prop := g.redAway = none ∧ ∃ f, chk B f g = true
def ChkQ (B : List (BVec n) → Bool) (g : RG n) : Prop := g.redAway = none ∧ ∃ f, chkBody B (chk B f) g.core = true

theorem ChkQ.cases {A : BMat n} {B : List (BVec n) → Bool} {g : RG n} (hC : Coh A g) (h : ChkQ B g) :
    ((∀ i j, i ≠ j → g.adj i j = false) ∧ B g.rows = true) ∨
    (¬ NoRule2 g ∧ ∀ e ∈ g.extant, g.score e = 0 → ChkP B (g.fire2 e)) := by
  obtain ⟨hr, f, h⟩ := h
  unfold chkBody at h
  split at h
  · rename_i hno
    exact Or.inl ⟨noEdge_iff.mp hno, h⟩
  · right
    rw [Bool.and_eq_true] at h
    refine ⟨fun hn => ?_, fun e he hs => ?_⟩
    · cases hz : g.core.zeroRows with
      | nil => rw [hz] at h; simp at h
      | cons r rs =>
        obtain ⟨e, h1, h2, h3⟩ := exists_of_mem_zeroRows (g := g) (r := r) (by rw [hz]; simp)
        exact hn e ((hC.ext e).mpr ⟨h1, h2⟩) h3
    · obtain ⟨hlt, hadj⟩ := (hC.ext e).mp he
      have := List.all_eq_true.mp h.2 _ (mem_zeroRows hlt hadj hs)
      refine ⟨hr, f, ?_⟩
      rw [← chk_core, core_fire2, chk_core]
      exact this

theorem allOrders_reduce {A : BMat n} (hA : Symm A) (hD : UnitDiag A) {B : List (BVec n) → Bool} {g : RG n}
    (hC : Coh A g) (k : Int) (h : ChkP B { g with k := k }) :
    ∃ g', g.reduzieren k = .ok g' ∧ (g'.k < 0 ∨
      (0 ≤ g'.k ∧ g'.numEdges = 0 ∧ g'.redAway = none ∧ B g'.rows = true)) := by
  obtain ⟨g', h1, hC', h2⟩ := reduzieren_spec hA hD (ChkP B) (ChkQ B)
    (fun g b h => ⟨h.1, by
      obtain ⟨f, hf⟩ := h.2
      refine ⟨f, ?_⟩
      rw [← chk_core] at hf ⊢
      exact hf⟩)
    (fun g hC h => by
      obtain ⟨hr, f, hf⟩ := h
      obtain ⟨f1, f2, f3, f4, f5, f6, f7, f8⟩ := rule1_fields g
      cases f with
      | zero => cases hf
      | succ f => exact ⟨by rw [f6]; exact hr, f, hf⟩)
    (fun g e hC _ h he hs => by
      rcases h.cases hC with ⟨h', -⟩ | ⟨-, h'⟩
      · obtain ⟨hlt, hadj⟩ := (hC.ext e).mp he
        rw [h' _ _ (ne_of_lt hlt)] at hadj; cases hadj
      · exact h' e he hs)
    (fun g v hC _ h hno _ _ hu => by
      rcases h.cases hC with ⟨h', -⟩ | ⟨h', -⟩
      · obtain ⟨u, hu, huv⟩ := hu
        rw [h' v u (Ne.symm hu)] at huv; cases huv
      · exact absurd hno h')
    g k hC h
  refine ⟨g', h1, ?_⟩
  rcases h2 with ⟨hk, -⟩ | ⟨hk, hQ, hS⟩
  · exact Or.inl hk
  · right
    rcases hQ.cases hC' with ⟨h', hp⟩ | ⟨h', -⟩
    · exact ⟨hk, by rw [hC'.nedges, numEdgesOf_eq_zero hC'.symm]; exact h', hQ.1, hp⟩
    · exact absurd hS.no2 h'

theorem allOrders_branch {A : BMat n} (hA : Symm A) (hD : UnitDiag A) {B : List (BVec n) → Bool} (rt : Runtime n)
    {g : RG n} (hg : makeAux rt.order A = .ok g) (hE : g.numEdges ≠ 0) {f : Nat} (hchk : chk B f g = true)
    (recon : Option (BMat n) → List (BVec n) → List (BVec n)) (rem : Nat) (k : Nat) :
    ∃ out, branch recon rt rem [k] g k none = .ok out ∧
      ∀ c, out.res = some c → B c = true ∧ out.info = ⟨false, false, false⟩ := by
  have hC := Coh.init hA hD rt.perm hg
  have hcov : g.cover = none := by rw [makeAux_ok hg]
  have hent := entry_none hcov
  have hP : ChkP B { g with k := (k : Int) } :=
    ⟨by rw [makeAux_ok hg], f, by rw [← chk_core] at hchk ⊢; exact hchk⟩
  obtain ⟨g', hred, h⟩ := allOrders_reduce hA hD hC k hP
  have hbody : ∀ rec, ∃ out, branchBody recon rt rec [k] g k none = .ok out ∧
      ∀ c, out.res = some c → B c = true ∧ out.info = ⟨false, false, false⟩ := by
    intro rec
    have hE1 : (entry g none).numEdges ≠ 0 := by rw [hent]; exact hE
    have hred1 : (entry g none).reduzieren k = .ok g' := by rw [hent]; exact hred
    rcases h with hk | ⟨hk, hE', hr, hp⟩
    · exact ⟨_, branchBody_budget hE1 hred1 hk, by simp⟩
    · refine ⟨_, branchBody_leaf hE1 hred1 hk hE', ?_⟩
      intro c hc
      have hc' : g'.cover = some c := hc
      refine ⟨?_, by simp [hr]⟩
      have : g'.rows = c := by unfold RG.rows; rw [hc']; rfl
      rw [← this]; exact hp
  cases rem with
  | zero => exact hbody none
  | succ rem => exact hbody _

/-- the state `make_aux` creates, up to the set order -/
def startOf (A : BMat n) : RG n :=
  { unred := A, unredVerts := 0, adj := A, numVertices := 0, numEdges := 0, cover := none,
    common := commonOf A, counts := countsOf A (commonOf A), extant := [], redAway := none, k := 0,
    reducing := false }

theorem makeAux_core {order : List (Fin n × Fin n) → List (Fin n × Fin n)} {A : BMat n} {g : RG n}
    (h : makeAux order A = .ok g) : g.core = startOf A := by
  rw [makeAux_ok h]; rfl

end Medil

import Verif.Model.HeapSearch
import Mathlib.Tactic.Common
import Mathlib.Order.Nat
/-
  The search with references (`Model/HeapSearch.lean`) refines the search with values (`Model/Ecc.lean`), and
  writes only to arrays it allocated itself.
-/
namespace Medil
namespace HS
variable {n : Nat}

inductive ORel {α β : Type} (R : α → β → Prop) : Option α → Option β → Prop
  | none : ORel R none none
  | some {a b} : R a b → ORel R (some a) (some b)

theorem ORel.imp {α β : Type} {R S : α → β → Prop} {a : Option α} {b : Option β} (h : ORel R a b)
    (hs : ∀ x y, a = Option.some x → b = Option.some y → R x y → S x y) : ORel S a b := by
  cases h with
  | none => exact .none
  | some h => exact .some (hs _ _ rfl rfl h)

def _root_.Medil.Mem.set (h : Mem n) (p : Nat) (a : Arr n) : Mem n :=
  ⟨fun q => if q = p then a else h.arr q, h.next⟩
def _root_.Medil.Mem.alloc (h : Mem n) (a : Arr n) : Mem n :=
  ⟨fun q => if q = h.next then a else h.arr q, h.next + 1⟩

theorem set_same (h : Mem n) (p : Nat) (a : Arr n) : (h.set p a).arr p = a := by simp [Mem.set]
theorem set_ne (h : Mem n) {p q : Nat} (a : Arr n) (hq : q ≠ p) : (h.set p a).arr q = h.arr q := by
  simp [Mem.set, hq]
theorem set_next (h : Mem n) (p : Nat) (a : Arr n) : (h.set p a).next = h.next := rfl
theorem alloc_same (h : Mem n) (a : Arr n) : (h.alloc a).arr h.next = a := by simp [Mem.alloc]
theorem alloc_ne (h : Mem n) {q : Nat} (a : Arr n) (hq : q < h.next) : (h.alloc a).arr q = h.arr q := by
  simp [Mem.alloc, hq.ne]
theorem alloc_next (h : Mem n) (a : Arr n) : (h.alloc a).next = h.next + 1 := rfl

theorem new_eq (h : Mem n) (a : Arr n) : Py.new a h = (.ok h.next, h.alloc a) := rfl
theorem write_eq (h : Mem n) (p : Nat) (a : Arr n) : Py.write p a h = (.ok (), h.set p a) := rfl
theorem ret_eq {α : Type} (h : Mem n) (a : α) : Py.ret a h = (.ok a, h) := rfl
theorem raise_eq {α : Type} (h : Mem n) (e : PyErr) : (Py.raise e : Py n α) h = (.error e, h) := rfl
theorem bind_ok {α β : Type} {h h' : Mem n} {m : Py n α} {f : α → Py n β} {a : α}
    (hm : m h = (.ok a, h')) : Py.bind m f h = f a h' := by simp [Py.bind, hm]
theorem bind_error {α β : Type} {h h' : Mem n} {m : Py n α} {f : α → Py n β} {e : PyErr}
    (hm : m h = (.error e, h')) : Py.bind m f h = (.error e, h') := by simp [Py.bind, hm]
theorem rdMat_eq {h : Mem n} {p : Nat} {A : BMat n} (hp : h.arr p = .mat A) : rdMat p h = (.ok A, h) := by
  simp [rdMat, Py.bind, Py.read, Py.ret, hp]
theorem rdRows_eq {h : Mem n} {p : Nat} {A} (hp : h.arr p = .rows A) : rdRows p h = (.ok A, h) := by
  simp [rdRows, Py.bind, Py.read, Py.ret, hp]
theorem rdTab_eq {h : Mem n} {p : Nat} {A} (hp : h.arr p = .tab A) : rdTab p h = (.ok A, h) := by
  simp [rdTab, Py.bind, Py.read, Py.ret, hp]
theorem rdCnt_eq {h : Mem n} {p : Nat} {A} (hp : h.arr p = .cnt A) : rdCnt p h = (.ok A, h) := by
  simp [rdCnt, Py.bind, Py.read, Py.ret, hp]
theorem rdIdx_eq {h : Mem n} {p : Nat} {A} (hp : h.arr p = .idx A) : rdIdx p h = (.ok A, h) := by
  simp [rdIdx, Py.bind, Py.read, Py.ret, hp]

/-- object `o` in memory `h` has the contents `g` -/
structure Rep (h : Mem n) (o : GObj) (g : RG n) : Prop where
  unred : h.arr o.unred = .mat g.unred
  adj : h.arr o.adj = .mat g.adj
  common : h.arr o.common = .tab g.common
  counts : h.arr o.counts = .cnt g.counts
  extant : h.arr o.extant = .idx g.extant
  cover : ORel (fun c l => h.arr c = .rows l ∧ c < h.next) o.cover g.cover
  redAway : ORel (fun c l => h.arr c = .mat l ∧ c < h.next ∧ c ≠ o.adj ∧ c ≠ o.unred) o.redAway g.redAway
  verts : o.unredVerts = g.unredVerts
  numVertices : o.numVertices = g.numVertices
  numEdges : o.numEdges = g.numEdges
  k : o.k = g.k
  reducing : o.reducing = g.reducing
  lt_unred : o.unred < h.next
  lt_adj : o.adj < h.next
  lt_common : o.common < h.next
  lt_counts : o.counts < h.next
  lt_extant : o.extant < h.next

/-- how a method may change memory and object -/
structure Step (h : Mem n) (o : GObj) (h' : Mem n) (o' : GObj) : Prop where
  next : h.next ≤ h'.next
  adj : o'.adj = o.adj
  common : o'.common = o.common
  counts : o'.counts = o.counts
  unred : o'.unred = o.unred
  redAway : match o.redAway with
    | none => ∀ r, o'.redAway = some r → h.next ≤ r
    | some r => o'.redAway = some r
  frame : ∀ x, x < h.next → x ≠ o.adj → x ≠ o.common → x ≠ o.counts → o.redAway ≠ some x →
    h'.arr x = h.arr x

theorem Step.refl (h : Mem n) (o : GObj) : Step h o h o := by
  refine ⟨Nat.le_refl _, rfl, rfl, rfl, rfl, ?_, fun _ _ _ _ _ _ => rfl⟩
  cases hr : o.redAway <;> simp

theorem Step.trans {h h' h'' : Mem n} {o o' o'' : GObj} (s : Step h o h' o') (t : Step h' o' h'' o'') :
    Step h o h'' o'' := by
  refine ⟨s.next.trans t.next, t.adj.trans s.adj, t.common.trans s.common, t.counts.trans s.counts,
    t.unred.trans s.unred, ?_, ?_⟩
  · have h1 := s.redAway; have h2 := t.redAway
    cases hr : o.redAway with
    | none =>
      rw [hr] at h1; simp only at h1 ⊢
      intro r hr''
      cases hr' : o'.redAway with
      | none => rw [hr'] at h2; exact s.next.trans (h2 r hr'')
      | some r' =>
        rw [hr'] at h2; simp only at h2
        rw [h2] at hr''; cases hr''; exact h1 _ hr'
    | some r =>
      rw [hr] at h1; simp only at h1 ⊢
      rw [h1] at h2; exact h2
  · intro x hx a b c d
    rw [t.frame x (hx.trans_le s.next) (by rw [s.adj]; exact a) (by rw [s.common]; exact b)
      (by rw [s.counts]; exact c), s.frame x hx a b c d]
    intro hx'
    have h1 := s.redAway
    cases hr : o.redAway with
    | none => rw [hr] at h1; have := h1 x hx'; omega
    | some r => rw [hr] at h1; simp only at h1; rw [h1] at hx'; exact d (by rw [hr, hx'])

/-- the outcome of a method: like the model with values -/
def Like (h : Mem n) (o : GObj) (r : Except PyErr GObj × Mem n) (e : Except PyErr (RG n)) : Prop :=
  match e with
  | .ok g => ∃ o' h', r = (.ok o', h') ∧ Rep h' o' g ∧ Step h o h' o'
  | .error e => ∃ h' o', r = (.error e, h') ∧ Step h o h' o'

theorem load_rep {h : Mem n} {o : GObj} {g : RG n} (r : Rep h o g) : o.load h = (.ok g, h) := by
  obtain ⟨a1, a2, a3, a4, a5, a6, a7, a8, a9, a10, a11, a12, -, -, -, -, -⟩ := r
  obtain ⟨u, uv, ad, nv, ne, cv, cm, ct, ex, ra, k, rd⟩ := o
  obtain ⟨u', uv', ad', nv', ne', cv', cm', ct', ex', ra', k', rd'⟩ := g
  dsimp only at *
  subst a8 a9 a10 a11 a12
  cases a6 <;> cases a7 <;>
    simp_all [GObj.load, Py.bind, rdMat, Py.read, Py.ret, rdTab, rdCnt, rdIdx, rdRows]

/-- a memory in which everything but the arrays of `o` that methods write is the same -/
theorem rep_alloc {h : Mem n} {o : GObj} {g : RG n} (r : Rep h o g) (a : Arr n) : Rep (h.alloc a) o g := by
  obtain ⟨a1, a2, a3, a4, a5, a6, a7, a8, a9, a10, a11, a12, b1, b2, b3, b4, b5⟩ := r
  constructor
  all_goals try assumption
  · rw [alloc_ne _ _ b1]; exact a1
  · rw [alloc_ne _ _ b2]; exact a2
  · rw [alloc_ne _ _ b3]; exact a3
  · rw [alloc_ne _ _ b4]; exact a4
  · rw [alloc_ne _ _ b5]; exact a5
  · refine a6.imp fun x y _ _ hx => ⟨?_, ?_⟩
    · rw [alloc_ne _ _ hx.2]; exact hx.1
    · rw [alloc_next]; omega
  · refine a7.imp fun x y _ _ hx => ⟨?_, ?_, hx.2.2⟩
    · rw [alloc_ne _ _ hx.2.1]; exact hx.1
    · rw [alloc_next]; omega
  all_goals rw [alloc_next]; omega

theorem step_alloc (h : Mem n) (o : GObj) (a : Arr n) : Step h o (h.alloc a) o := by
  refine ⟨by rw [alloc_next]; omega, rfl, rfl, rfl, rfl, ?_, fun x hx _ _ _ _ => alloc_ne _ _ hx⟩
  cases hr : o.redAway <;> simp

theorem rep_set_adj {h : Mem n} {o : GObj} {g : RG n} (r : Rep h o g) (hne : o.adj ≠ o.unred) (A : BMat n) :
    Rep (h.set o.adj (.mat A)) o { g with adj := A } := by
  obtain ⟨a1, a2, a3, a4, a5, a6, a7, a8, a9, a10, a11, a12, b1, b2, b3, b4, b5⟩ := r
  constructor
  all_goals try assumption
  · rw [set_ne _ _ hne.symm]; exact a1
  · exact set_same _ _ _
  · rw [set_ne]; exact a3
    intro e; rw [e, a2] at a3; cases a3
  · rw [set_ne]; exact a4
    intro e; rw [e, a2] at a4; cases a4
  · rw [set_ne]; exact a5
    intro e; rw [e, a2] at a5; cases a5
  · refine a6.imp fun x y _ _ hx => ⟨?_, hx.2⟩
    rw [set_ne]; exact hx.1
    intro e; have := hx.1; rw [e, a2] at this; cases this
  · refine a7.imp fun x y _ _ hx => ⟨?_, hx.2⟩
    rw [set_ne _ _ hx.2.2.1]; exact hx.1

theorem rep_set_common {h : Mem n} {o : GObj} {g : RG n} (r : Rep h o g) (C : BTab n) :
    Rep (h.set o.common (.tab C)) o { g with common := C } := by
  obtain ⟨a1, a2, a3, a4, a5, a6, a7, a8, a9, a10, a11, a12, b1, b2, b3, b4, b5⟩ := r
  constructor
  all_goals try assumption
  · rw [set_ne]; exact a1
    intro e; rw [e, a3] at a1; cases a1
  · rw [set_ne]; exact a2
    intro e; rw [e, a3] at a2; cases a2
  · exact set_same _ _ _
  · rw [set_ne]; exact a4
    intro e; rw [e, a3] at a4; cases a4
  · rw [set_ne]; exact a5
    intro e; rw [e, a3] at a5; cases a5
  · refine a6.imp fun x y _ _ hx => ⟨?_, hx.2⟩
    rw [set_ne]; exact hx.1
    intro e; have := hx.1; rw [e, a3] at this; cases this
  · refine a7.imp fun x y _ _ hx => ⟨?_, hx.2⟩
    rw [set_ne]; exact hx.1
    intro e; have := hx.1; rw [e, a3] at this; cases this

theorem rep_set_counts {h : Mem n} {o : GObj} {g : RG n} (r : Rep h o g) (K : ITab n) :
    Rep (h.set o.counts (.cnt K)) o { g with counts := K } := by
  obtain ⟨a1, a2, a3, a4, a5, a6, a7, a8, a9, a10, a11, a12, b1, b2, b3, b4, b5⟩ := r
  constructor
  all_goals try assumption
  · rw [set_ne]; exact a1
    intro e; rw [e, a4] at a1; cases a1
  · rw [set_ne]; exact a2
    intro e; rw [e, a4] at a2; cases a2
  · rw [set_ne]; exact a3
    intro e; rw [e, a4] at a3; cases a3
  · exact set_same _ _ _
  · rw [set_ne]; exact a5
    intro e; rw [e, a4] at a5; cases a5
  · refine a6.imp fun x y _ _ hx => ⟨?_, hx.2⟩
    rw [set_ne]; exact hx.1
    intro e; have := hx.1; rw [e, a4] at this; cases this
  · refine a7.imp fun x y _ _ hx => ⟨?_, hx.2⟩
    rw [set_ne]; exact hx.1
    intro e; have := hx.1; rw [e, a4] at this; cases this

theorem rep_set_redAway {h : Mem n} {o : GObj} {g : RG n} (r : Rep h o g) {p : Nat}
    (hp : o.redAway = some p) (R : BMat n) : Rep (h.set p (.mat R)) o { g with redAway := some R } := by
  obtain ⟨a1, a2, a3, a4, a5, a6, a7, a8, a9, a10, a11, a12, b1, b2, b3, b4, b5⟩ := r
  rw [hp] at a7
  cases hg : g.redAway with
  | none => rw [hg] at a7; cases a7
  | some R' =>
    rw [hg] at a7
    cases a7 with
    | some a7 =>
    constructor
    all_goals try assumption
    · rw [set_ne _ _ a7.2.2.2.symm]; exact a1
    · rw [set_ne _ _ a7.2.2.1.symm]; exact a2
    · rw [set_ne]; exact a3
      intro e; rw [e, a7.1] at a3; cases a3
    · rw [set_ne]; exact a4
      intro e; rw [e, a7.1] at a4; cases a4
    · rw [set_ne]; exact a5
      intro e; rw [e, a7.1] at a5; cases a5
    · refine a6.imp fun x y _ _ hx => ⟨?_, hx.2⟩
      rw [set_ne]; exact hx.1
      intro e; have := hx.1; rw [e, a7.1] at this; cases this
    · rw [hp]; exact .some ⟨set_same _ _ _, a7.2⟩

theorem step_set {h : Mem n} {o : GObj} {p : Nat} (a : Arr n)
    (hp : p = o.adj ∨ p = o.common ∨ p = o.counts ∨ o.redAway = some p) : Step h o (h.set p a) o := by
  refine ⟨Nat.le_refl _, rfl, rfl, rfl, rfl, ?_, ?_⟩
  · cases hr : o.redAway <;> simp
  · intro x _ x1 x2 x3 x4
    refine set_ne _ _ ?_
    rintro rfl
    rcases hp with e | e | e | e
    · exact x1 e
    · exact x2 e
    · exact x3 e
    · exact x4 e

/-- changing only numbers and the addresses `extant` and `cover` of an object -/
theorem step_obj {h : Mem n} {o o' : GObj} (e1 : o'.adj = o.adj) (e2 : o'.common = o.common)
    (e3 : o'.counts = o.counts) (e4 : o'.unred = o.unred) (e5 : o'.redAway = o.redAway) : Step h o h o' := by
  refine ⟨Nat.le_refl _, e1, e2, e3, e4, ?_, fun _ _ _ _ _ _ => rfl⟩
  rw [e5]; cases hr : o.redAway <;> simp

theorem coverPairs_like {h : Mem n} {o : GObj} {g : RG n} (r : Rep h o g) (hne : o.adj ≠ o.unred)
    (es : List (Fin n × Fin n)) : Like h o (o.coverPairs es h) (.ok (g.coverPairs es)) := by
  have r1 := rep_set_adj r hne (setEdges false g.adj es)
  have r2 := rep_alloc r1 (.idx (g.extant.filter fun e => !es.contains e))
  refine ⟨{ o with numEdges := numEdgesOf (setEdges false g.adj es), extant := h.next },
    (h.set o.adj (.mat (setEdges false g.adj es))).alloc (.idx (g.extant.filter fun e => !es.contains e)),
    ?_, ?_, ?_⟩
  · unfold GObj.coverPairs
    rw [bind_ok (rdMat_eq r.adj), bind_ok (write_eq _ _ _), bind_ok (rdMat_eq r1.adj),
      bind_ok (rdIdx_eq r1.extant), bind_ok (new_eq _ _)]
    rfl
  · obtain ⟨a1, a2, a3, a4, a5, a6, a7, a8, a9, a10, a11, a12, b1, b2, b3, b4, b5⟩ := r2
    constructor
    all_goals try assumption
    · exact alloc_same _ _
    · rfl
    · exact Nat.lt_succ_self _
  · exact ((step_set _ (Or.inl rfl)).trans (step_alloc _ o _)).trans (step_obj rfl rfl rfl rfl rfl)

/-- prepend a step -/
theorem like_step {h h' : Mem n} {o o' : GObj} {r : Except PyErr GObj × Mem n} {e : Except PyErr (RG n)}
    (st : Step h o h' o') (hl : Like h' o' r e) : Like h o r e := by
  cases e with
  | error e =>
    obtain ⟨h'', o'', hm, st'⟩ := hl
    exact ⟨h'', o'', hm, st.trans st'⟩
  | ok g =>
    obtain ⟨o'', h'', hm, rp, st'⟩ := hl
    exact ⟨o'', h'', hm, rp, st.trans st'⟩

theorem like_ret {h : Mem n} {o o' : GObj} {g : RG n} (r : Rep h o' g) (st : Step h o h o') :
    Like h o (Py.ret o' h) (.ok g) := ⟨o', h, rfl, r, st⟩

theorem coverEdges_like {h : Mem n} {o : GObj} {g : RG n} (r : Rep h o g) (hne : o.adj ≠ o.unred) :
    Like h o (o.coverEdges h) (.ok g.coverEdges) := by
  unfold GObj.coverEdges RG.coverEdges
  have hc := r.cover
  cases h1 : o.cover <;> cases h2 : g.cover <;> rw [h1, h2] at hc <;> try cases hc
  · exact like_ret r (Step.refl _ _)
  · rename_i c l hcl
    simp only
    rw [bind_ok (rdRows_eq hcl.1)]
    cases l.getLast? with
    | none => exact like_ret r (Step.refl _ _)
    | some clique => exact coverPairs_like r hne _

theorem rule1_like {h : Mem n} {o : GObj} {g : RG n} (r : Rep h o g) (hne : o.adj ≠ o.unred) :
    Like h o (o.rule1 h) (.ok g.rule1) := by
  unfold GObj.rule1 RG.rule1
  rw [bind_ok (load_rep r)]
  simp only
  by_cases hi : g.isolated.isEmpty
  · rw [if_pos hi, if_pos hi]; exact like_ret r (Step.refl _ _)
  rw [if_neg hi, if_neg hi]
  generalize hA : (BMat.of fun i j => g.adj i j && !(decide (i = j) && g.isolated i)) = A
  have r1 := rep_set_adj r hne A
  rw [bind_ok (rdMat_eq r.adj), bind_ok (write_eq _ _ _), hA, bind_ok (load_rep r1)]
  have hK : (ITab.of fun u v => ({ g with adj := A } : RG n).counts u v -
      RG.rule1Sub { g with adj := A } g.isolated u v) =
      (ITab.of fun u v => g.counts u v - RG.rule1Sub g g.isolated u v) := rfl
  rw [hK]
  generalize (ITab.of fun u v => g.counts u v - RG.rule1Sub g g.isolated u v) = K
  have r2 := rep_set_counts r1 K
  have r3 := rep_set_common r2 (BTab.of fun u v w => g.common u v w && !g.isolated w)
  rw [bind_ok (write_eq _ _ _), bind_ok (rdTab_eq r2.common), bind_ok (write_eq _ _ _)]
  refine ⟨{ o with numVertices := o.numVertices - g.isolated.card }, _, rfl, ?_, ?_⟩
  · obtain ⟨a1, a2, a3, a4, a5, a6, a7, a8, a9, a10, a11, a12, b1, b2, b3, b4, b5⟩ := r3
    constructor
    all_goals try assumption
    rw [r.numVertices]
  · exact (((step_set _ (Or.inl rfl)).trans (step_set _ (Or.inr (Or.inr (Or.inl rfl))))).trans
      (step_set _ (Or.inr (Or.inl rfl)))).trans (step_obj rfl rfl rfl rfl rfl)

theorem rule2_like {h : Mem n} {o : GObj} {g : RG n} (r : Rep h o g) (hne : o.adj ≠ o.unred) :
    Like h o (o.rule2 h) (.ok g.rule2) := by
  unfold GObj.rule2 RG.rule2
  rw [bind_ok (load_rep r)]
  cases he : (g.extant.filter fun e => g.score e == 0).getLast? with
  | none => exact like_ret r (Step.refl _ _)
  | some e =>
    simp only
    rw [bind_ok (new_eq _ _)]
    have r1 := rep_alloc r (.rows (g.cover.getD [] ++ [g.common.row e.1 e.2]))
    have r2 : Rep (h.alloc (.rows (g.cover.getD [] ++ [g.common.row e.1 e.2]))) { o with cover := some h.next }
        { g with cover := some (g.cover.getD [] ++ [g.common.row e.1 e.2]) } := by
      obtain ⟨a1, a2, a3, a4, a5, a6, a7, a8, a9, a10, a11, a12, b1, b2, b3, b4, b5⟩ := r1
      constructor
      all_goals try assumption
      exact .some ⟨alloc_same _ _, Nat.lt_succ_self _⟩
    have st : Step h o (h.alloc (.rows (g.cover.getD [] ++ [g.common.row e.1 e.2])))
        { o with cover := some h.next } := (step_alloc h o _).trans (step_obj rfl rfl rfl rfl rfl)
    refine like_step st ?_
    obtain ⟨o3, h3, hm, r3, st3⟩ := coverEdges_like r2 hne
    rw [bind_ok hm]
    refine like_step st3 (like_ret ?_ (step_obj rfl rfl rfl rfl rfl))
    obtain ⟨a1, a2, a3, a4, a5, a6, a7, a8, a9, a10, a11, a12, b1, b2, b3, b4, b5⟩ := r3
    constructor
    all_goals try assumption
    · rw [a11]
    · rfl

theorem rep_reducing {h : Mem n} {o : GObj} {g : RG n} (r : Rep h o g) (b : Bool) :
    Rep h { o with reducing := b } { g with reducing := b } := by
  obtain ⟨a1, a2, a3, a4, a5, a6, a7, a8, a9, a10, a11, a12, b1, b2, b3, b4, b5⟩ := r
  constructor
  all_goals try assumption
  rfl

theorem rule3_like {h : Mem n} {o : GObj} {g : RG n} (r : Rep h o g) (hne : o.adj ≠ o.unred) :
    Like h o (o.rule3 h) g.rule3 := by
  unfold GObj.rule3 RG.rule3
  rw [bind_ok (load_rep r)]
  cases hf : (List.finRange n).find? fun v => g.adj v v && g.dominate v with
  | none => exact like_ret r (Step.refl _ _)
  | some v =>
    simp only
    by_cases hes : (g.vertEdges v).isEmpty
    · rw [if_pos hes, if_pos hes]; exact ⟨h, o, rfl, Step.refl _ _⟩
    rw [if_neg hes, if_neg hes]
    have r0 := rep_reducing r true
    obtain ⟨o1, h1, hm, r1, st1⟩ := coverPairs_like r0 hne (g.vertEdges v)
    have st1' : Step h o h1 o1 :=
      Step.trans (o' := { o with reducing := true }) (step_obj rfl rfl rfl rfl rfl) st1
    refine like_step st1' ?_
    rw [bind_ok hm]
    have hra := r1.redAway
    have e1 : (RG.coverPairs { g with reducing := true } (g.vertEdges v)).redAway = g.redAway := rfl
    rw [e1] at hra
    cases h2 : o1.redAway <;> cases h3 : g.redAway <;> rw [h2, h3] at hra <;> try cases hra
    · simp only
      rw [bind_ok (new_eq _ _), bind_ok (rdMat_eq (alloc_same _ _)), bind_ok (write_eq _ _ _)]
      have r2 : Rep (h1.alloc (.mat (BMat.of fun _ _ => false))) { o1 with redAway := some h1.next }
          { RG.coverPairs { g with reducing := true } (g.vertEdges v) with
            redAway := some (BMat.of fun _ _ => false) } := by
        have r2 := rep_alloc r1 (.mat (BMat.of fun _ _ => false))
        have l1 := r1.lt_adj; have l2 := r1.lt_unred
        obtain ⟨a1, a2, a3, a4, a5, a6, a7, a8, a9, a10, a11, a12, b1, b2, b3, b4, b5⟩ := r2
        constructor
        all_goals try assumption
        exact .some ⟨alloc_same _ _, Nat.lt_succ_self _, by simp only; omega, by simp only; omega⟩
      have st2 : Step h1 o1 (h1.alloc (.mat (BMat.of fun _ _ => false))) { o1 with redAway := some h1.next } := by
        refine ⟨by rw [alloc_next]; omega, rfl, rfl, rfl, rfl, ?_, fun x hx _ _ _ _ => alloc_ne _ _ hx⟩
        rw [h2]; simp
      refine like_step st2 ?_
      have hB : (BMat.of fun i j => if i = v then g.prisoners v j else (BMat.of (fun _ _ => false) : BMat n) i j) =
          BMat.of fun i j => if i = v then g.prisoners v j else false := by
        congr 1; funext i j; simp
      rw [hB]
      have r3 := rep_set_redAway r2 rfl (BMat.of fun i j => if i = v then g.prisoners v j else false)
      exact ⟨_, _, rfl, r3, step_set _ (Or.inr (Or.inr (Or.inr rfl)))⟩
    · rename_i p R hp
      simp only
      rw [bind_ok (ret_eq _ _), bind_ok (rdMat_eq hp.1), bind_ok (write_eq _ _ _)]
      have r3 := rep_set_redAway r1 h2 (BMat.of fun i j => if i = v then g.prisoners v j else R i j)
      refine ⟨{ o1 with redAway := some p }, _, rfl, ?_, ?_⟩
      · have ho : ({ o1 with redAway := some p } : GObj) = o1 := by rw [← h2]
        rw [ho]; exact r3
      · exact (step_set _ (Or.inr (Or.inr (Or.inr h2)))).trans (step_obj rfl rfl rfl rfl h2.symm)

theorem Step.ne {h h' : Mem n} {o o' : GObj} (st : Step h o h' o') (hne : o.adj ≠ o.unred) :
    o'.adj ≠ o'.unred := by rw [st.adj, st.unred]; exact hne

theorem reduceLoop_like (fuel : Nat) {h : Mem n} {o : GObj} {g : RG n} (r : Rep h o g)
    (hne : o.adj ≠ o.unred) : Like h o (GObj.reduceLoop fuel o h) (RG.reduceLoop fuel g) := by
  induction fuel generalizing h o g with
  | zero => exact ⟨h, o, rfl, Step.refl _ _⟩
  | succ fuel ih =>
    unfold GObj.reduceLoop RG.reduceLoop
    have r0 := rep_reducing r false
    have st0 : Step h o h { o with reducing := false } := step_obj rfl rfl rfl rfl rfl
    refine like_step st0 ?_
    obtain ⟨o1, h1, m1, r1, st1⟩ := rule1_like r0 (st0.ne hne)
    rw [bind_ok m1]
    refine like_step st1 ?_
    have n1 := st1.ne (st0.ne hne)
    obtain ⟨o2, h2, m2, r2, st2⟩ := rule2_like r1 n1
    rw [bind_ok m2]
    refine like_step st2 ?_
    have n2 := st2.ne n1
    simp only
    rw [r2.k, r2.reducing]
    by_cases hk : (RG.rule1 { g with reducing := false }).rule2.k < 0
    · rw [if_pos hk, if_pos hk]; exact like_ret r2 (Step.refl _ _)
    rw [if_neg hk, if_neg hk]
    by_cases hr : (RG.rule1 { g with reducing := false }).rule2.reducing = true
    · rw [if_pos hr, if_pos hr]; exact ih r2 n2
    rw [if_neg hr, if_neg hr]
    have l3 := rule3_like r2 n2
    cases hg3 : (RG.rule1 { g with reducing := false }).rule2.rule3 with
    | error e =>
      rw [hg3] at l3
      obtain ⟨h3, o3, m3, st3⟩ := l3
      exact ⟨h3, o3, by rw [bind_error m3], st3⟩
    | ok g3 =>
      rw [hg3] at l3
      obtain ⟨o3, h3, m3, r3, st3⟩ := l3
      rw [bind_ok m3]
      refine like_step st3 ?_
      simp only
      rw [r3.reducing]
      by_cases hr3 : g3.reducing = true
      · rw [if_pos hr3, if_pos hr3]; exact ih r3 (st3.ne n2)
      · rw [if_neg hr3, if_neg hr3]; exact like_ret r3 (Step.refl _ _)

theorem reduzieren_like {h : Mem n} {o : GObj} {g : RG n} (r : Rep h o g) (hne : o.adj ≠ o.unred) (k : Int) :
    Like h o (o.reduzieren k h) (g.reduzieren k) := by
  unfold GObj.reduzieren RG.reduzieren
  have hN : (k + 1).toNat + 2 * o.numEdges + 2 = (k + 1).toNat + 2 * g.numEdges + 2 := by rw [r.numEdges]
  rw [hN]
  have st : Step h o h { o with k := k, reducing := true } := step_obj rfl rfl rfl rfl rfl
  have r' : Rep h { o with k := k, reducing := true } { g with k := k, reducing := true } := by
    obtain ⟨a1, a2, a3, a4, a5, a6, a7, a8, a9, a10, a11, a12, b1, b2, b3, b4, b5⟩ := r
    exact ⟨a1, a2, a3, a4, a5, a6, a7, a8, a9, a10, rfl, rfl, b1, b2, b3, b4, b5⟩
  generalize (k + 1).toNat + 2 * g.numEdges + 2 = N
  exact like_step st (reduceLoop_like N r' (st.ne hne))


/-- what a call of `branch` on the object `p` with the cover at `c` may change -/
structure Frame (h : Mem n) (p : GObj) (c : Option Nat) (h' : Mem n) : Prop where
  next : h.next ≤ h'.next
  frame : ∀ x, x < h.next → p.redAway ≠ some x → c ≠ some x → h'.arr x = h.arr x

theorem Frame.trans {h h' h'' : Mem n} {p : GObj} {c d : Option Nat} (s : Frame h p c h')
    (t : Frame h' p d h'') (hd : ∀ x, x < h.next → d = some x → c = some x) : Frame h p c h'' :=
  ⟨s.next.trans t.next, fun x hx h1 h2 => by
    rw [t.frame x (hx.trans_le s.next) h1 (fun e => h2 (hd x hx e)), s.frame x hx h1 h2]⟩

theorem frame_alloc (h : Mem n) (p : GObj) (c : Option Nat) (a : Arr n) : Frame h p c (h.alloc a) :=
  ⟨by rw [alloc_next]; omega, fun _ hx _ _ => alloc_ne _ _ hx⟩

/-- the outcome of `branch`: like the model with values -/
def BLike (h : Mem n) (p : GObj) (c : Option Nat) (r : Except PyErr (Option Nat) × Mem n)
    (e : Except PyErr (BranchOut n)) : Prop :=
  match e with
  | .ok out => ∃ a h', r = (.ok a, h') ∧ Frame h p c h' ∧
      ORel (fun c l => h'.arr c = .rows l ∧ c < h'.next) a out.res ∧
      ORel (fun r R => h'.arr r = .mat R) p.redAway out.redAway
  | .error e => ∃ h', r = (.error e, h') ∧ Frame h p c h'

theorem blike_frame {h h' : Mem n} {p : GObj} {c d : Option Nat} {r : Except PyErr (Option Nat) × Mem n}
    {e : Except PyErr (BranchOut n)} (s : Frame h p c h') (hl : BLike h' p d r e)
    (hd : ∀ x, x < h.next → d = some x → c = some x) : BLike h p c r e := by
  cases e with
  | error e => obtain ⟨h'', e1, f⟩ := hl; exact ⟨h'', e1, s.trans f hd⟩
  | ok out => obtain ⟨a, h'', e1, f, x, y⟩ := hl; exact ⟨a, h'', e1, s.trans f hd, x, y⟩

theorem rep_frame {h h' : Mem n} {o : GObj} {g : RG n} {c : Option Nat} {ra : Option (BMat n)} (r : Rep h o g)
    (f : Frame h o c h') (hc : ∀ x, c = some x → h.next ≤ x)
    (hra : ORel (fun r R => h'.arr r = .mat R) o.redAway ra) : Rep h' o { g with redAway := ra } := by
  obtain ⟨a1, a2, a3, a4, a5, a6, a7, a8, a9, a10, a11, a12, b1, b2, b3, b4, b5⟩ := r
  have key : ∀ x, x < h.next → o.redAway ≠ some x → h'.arr x = h.arr x := fun x hx hx' =>
    f.frame x hx hx' (fun e => by have := hc x e; omega)
  have kr : ∀ r, o.redAway = some r → ∃ R, h.arr r = .mat R ∧ r < h.next ∧ r ≠ o.adj ∧ r ≠ o.unred := by
    intro r hr
    rw [hr] at a7
    cases hg : g.redAway with
    | none => rw [hg] at a7; cases a7
    | some R =>
      rw [hg] at a7
      cases a7 with | some a7 => exact ⟨R, a7⟩
  have hn := f.next
  constructor
  all_goals try assumption
  · rw [key _ b1]; exact a1
    intro e; obtain ⟨R, -, -, -, x⟩ := kr _ e; exact x rfl
  · rw [key _ b2]; exact a2
    intro e; obtain ⟨R, -, -, x, -⟩ := kr _ e; exact x rfl
  · rw [key _ b3]; exact a3
    intro e; obtain ⟨R, x, -⟩ := kr _ e; rw [x] at a3; cases a3
  · rw [key _ b4]; exact a4
    intro e; obtain ⟨R, x, -⟩ := kr _ e; rw [x] at a4; cases a4
  · rw [key _ b5]; exact a5
    intro e; obtain ⟨R, x, -⟩ := kr _ e; rw [x] at a5; cases a5
  · refine a6.imp fun x y _ _ hx => ⟨?_, by omega⟩
    rw [key _ hx.2]; exact hx.1
    intro e; obtain ⟨R, z, -⟩ := kr _ e; have := hx.1; rw [z] at this; cases this
  · refine hra.imp fun x y hx _ hxy => ⟨hxy, ?_⟩
    obtain ⟨R, -, z1, z2⟩ := kr _ hx
    exact ⟨by omega, z2⟩
  all_goals omega

theorem cliqueLoop_like (g : RG n) (k : Int) (info : PathInfo)
    (recP : Option (Nat → RG n → Int → List (BVec n) → Except PyErr (BranchOut n)))
    (rec : Option (Nat → GObj → Int → Nat → Py n (Option Nat)))
    (hrec : ORel (fun r rP => ∀ i (h : Mem n) o g' k c cov, Rep h o g' → h.arr c = .rows cov → c < h.next →
      BLike h o (some c) (r i o k c h) (rP i g' k cov)) rec recP)
    (cl : List (List (Fin n))) (i : Nat) (h : Mem n) (o : GObj) (ra : Option (BMat n))
    (r : Rep h o { g with redAway := ra }) :
    BLike h o none (hCliqueLoop o k rec i cl h) (cliqueLoop g k info recP i ra cl) := by
  induction cl generalizing i h ra with
  | nil =>
    refine ⟨none, h, rfl, ⟨Nat.le_refl _, fun _ _ _ _ => rfl⟩, .none, ?_⟩
    exact r.redAway.imp fun x y _ _ hx => hx.1
  | cons nodes rest ih =>
    unfold hCliqueLoop cliqueLoop
    by_cases h1 : nodes.length = 1
    · rw [if_pos h1, if_pos h1]; exact ih _ _ _ r
    rw [if_neg h1, if_neg h1]
    have hv : o.unredVerts = g.unredVerts := r.verts
    rw [hv]
    by_cases h2 : g.unredVerts ≠ n
    · rw [if_pos h2, if_pos h2]; exact ⟨h, rfl, ⟨Nat.le_refl _, fun _ _ _ _ => rfl⟩⟩
    rw [if_neg h2, if_neg h2]
    have hrd : rdCover o.cover h = (.ok (g.cover.getD []), h) := by
      have hc := r.cover
      simp only at hc
      cases h3 : o.cover <;> cases h4 : g.cover <;> rw [h3, h4] at hc <;> try cases hc
      · rfl
      · rename_i hc; simp only [rdCover]; rw [rdRows_eq hc.1]; rfl
    rw [bind_ok hrd, bind_ok (new_eq _ _)]
    have r1 := rep_alloc r (.rows (g.cover.getD [] ++ [BVec.of fun v => nodes.contains v]))
    have f1 := frame_alloc h o none (.rows (g.cover.getD [] ++ [BVec.of fun v => nodes.contains v]))
    cases hrec with
    | none =>
      refine blike_frame (d := none) f1 ?_ (by simp)
      exact ⟨o.cover, _, rfl, ⟨Nat.le_refl _, fun _ _ _ _ => rfl⟩, r1.cover,
        r1.redAway.imp fun x y _ _ hx => hx.1⟩
    | some hrec =>
      rename_i rc rcP
      simp only
      refine blike_frame (d := some h.next) f1 ?_ (by
        intro x hx e; cases e; omega)
      have hb := hrec i _ o _ (k - 1) h.next _ r1 (alloc_same _ _) (Nat.lt_succ_self _)
      cases ho : rcP i { g with redAway := ra } (k - 1)
          (g.cover.getD [] ++ [BVec.of fun v => nodes.contains v]) with
      | error e =>
        rw [ho] at hb
        obtain ⟨h', e1, f⟩ := hb
        exact ⟨h', by rw [bind_error e1], f⟩
      | ok out =>
        rw [ho] at hb
        obtain ⟨a, h', e1, f, x, y⟩ := hb
        rw [bind_ok e1]
        simp only
        cases x' : out.res with
        | some c =>
          rw [x'] at x
          cases x with
          | some x => exact ⟨_, h', rfl, f, .some x, y⟩
        | none =>
          rw [x'] at x
          cases x with
          | none =>
            have f' : Frame h o none h' := by
              refine ⟨f1.next.trans f.next, fun z hz hz1 _ => ?_⟩
              rw [f.frame z (hz.trans_le f1.next) hz1 (by intro e; cases e; omega)]
              exact alloc_ne _ _ hz
            have r2' := rep_frame r f' (by simp) y
            have r2 : Rep h' o { g with redAway := out.redAway } := r2'
            refine blike_frame f (ih (i + 1) h' out.redAway r2) (by simp)

/-- the copied object when the next free address is `N` -/
def copyObj (p : GObj) (N : Nat) : GObj :=
  { p with adj := N, common := N + 1, counts := N + 1 + 1, extant := N + 1 + 1 + 1, cover := none }

theorem copy_rep {h : Mem n} {p : GObj} {g : RG n} (r : Rep h p g) :
    ∃ o h', p.copy h = (.ok o, h') ∧ Rep h' o { g with cover := none } ∧ h.next ≤ h'.next ∧
      (∀ x, x < h.next → h'.arr x = h.arr x) ∧ h.next ≤ o.adj ∧ h.next ≤ o.common ∧ h.next ≤ o.counts ∧
      o.unred = p.unred ∧ o.redAway = p.redAway := by
  have r1 := rep_alloc r (.mat g.adj)
  have r2 := rep_alloc r1 (.tab g.common)
  have r3 := rep_alloc r2 (.cnt g.counts)
  have r4 := rep_alloc r3 (.idx g.extant)
  have low : ∀ x, x < h.next → ((((h.alloc (.mat g.adj)).alloc (.tab g.common)).alloc (.cnt g.counts)).alloc
      (.idx g.extant)).arr x = h.arr x := by
    intro x hx
    rw [alloc_ne, alloc_ne, alloc_ne, alloc_ne _ _ hx] <;> simp only [alloc_next] <;> omega
  refine ⟨copyObj p h.next, (((h.alloc (.mat g.adj)).alloc (.tab g.common)).alloc (.cnt g.counts)).alloc
      (.idx g.extant), ?_, ?_, ?_, low, ?_, ?_, ?_, rfl, rfl⟩
  · unfold GObj.copy
    rw [bind_ok (rdMat_eq r.adj), bind_ok (new_eq _ _), bind_ok (rdTab_eq r1.common), bind_ok (new_eq _ _),
      bind_ok (rdCnt_eq r2.counts), bind_ok (new_eq _ _), bind_ok (rdIdx_eq r3.extant), bind_ok (new_eq _ _)]
    rfl
  · obtain ⟨a1, a2, a3, a4, a5, a6, a7, a8, a9, a10, a11, a12, b1, b2, b3, b4, b5⟩ := r
    have hra : ORel (fun c l => ((((h.alloc (.mat g.adj)).alloc (.tab g.common)).alloc (.cnt g.counts)).alloc
        (.idx g.extant)).arr c = .mat l ∧ c < h.next + 1 + 1 + 1 + 1 ∧ c ≠ h.next ∧ c ≠ p.unred)
        p.redAway g.redAway :=
      a7.imp fun x y _ _ hx => ⟨by rw [low _ hx.2.1]; exact hx.1, by omega, by omega, hx.2.2.2⟩
    refine ⟨?_, ?_, ?_, ?_, ?_, .none, hra, a8, a9, a10, a11, a12, ?_, ?_, ?_, ?_, ?_⟩
    · exact (low _ b1).trans a1
    · simp only [copyObj]
      rw [alloc_ne, alloc_ne, alloc_ne, alloc_same] <;> simp only [alloc_next] <;> omega
    · simp only [copyObj]
      rw [alloc_ne, alloc_ne]
      · exact alloc_same (h.alloc (.mat g.adj)) _
      all_goals simp only [alloc_next]; omega
    · simp only [copyObj]
      rw [alloc_ne]
      · exact alloc_same ((h.alloc (.mat g.adj)).alloc (.tab g.common)) _
      all_goals simp only [alloc_next]; omega
    · exact alloc_same (((h.alloc (.mat g.adj)).alloc (.tab g.common)).alloc (.cnt g.counts)) _
    all_goals simp only [alloc_next, copyObj]; omega
  all_goals simp only [alloc_next, copyObj]; omega

theorem coverEdges_redAway (g : RG n) : g.coverEdges.redAway = g.redAway := by
  unfold RG.coverEdges
  split
  · rfl
  · split <;> rfl

theorem back_rel {h h' : Mem n} {p o o' : GObj} {g g' : RG n} (hp : ORel (fun _ _ => True) p.redAway g.redAway)
    (e : o.redAway = p.redAway) (st : Step h o h' o') (r : Rep h' o' g') :
    ORel (fun r R => h'.arr r = .mat R) p.redAway (sharedRedAway g.redAway g'.redAway) := by
  have h1 := st.redAway
  have h2 := r.redAway
  cases hp1 : p.redAway <;> cases hg : g.redAway <;> rw [hp1, hg] at hp <;> try cases hp
  · exact .none
  · rename_i a b _
    rw [e, hp1] at h1
    simp only at h1
    rw [h1] at h2
    simp only [sharedRedAway]
    exact h2.imp fun x y _ _ hx => hx.1

theorem choose_like {h : Mem n} {o : GObj} {g : RG n} (r : Rep h o g) : o.chooseNbrhood h =
    match g.chooseNbrhood with
    | .error e => (.error e, h)
    | .ok N => (.ok h.next, h.alloc (.mat N)) := by
  unfold GObj.chooseNbrhood
  rw [bind_ok (load_rep r)]
  cases g.chooseNbrhood <;> rfl

theorem branchBody_like (rt : Runtime n) (path : List Nat)
    (recP : Option (Nat → RG n → Int → List (BVec n) → Except PyErr (BranchOut n)))
    (rec : Option (Nat → GObj → Int → Nat → Py n (Option Nat)))
    (hrec : ORel (fun r rP => ∀ i (h : Mem n) o g' k c cov, Rep h o g' → h.arr c = .rows cov → c < h.next →
      BLike h o (some c) (r i o k c h) (rP i g' k cov)) rec recP)
    (h : Mem n) (p : GObj) (g : RG n) (k : Int) (c : Option Nat) (cov : Option (List (BVec n)))
    (r : Rep h p g) (hc : ORel (fun c l => h.arr c = .rows l ∧ c < h.next) c cov) :
    BLike h p c (hBranchBody rt rec path p k c h) (branchBody RG.reconstructCover rt recP path g k cov) := by
  obtain ⟨o, h1, m1, r1, hn1, fr1, ha, hb, hd, hu, hr⟩ := copy_rep r
  unfold hBranchBody branchBody
  rw [bind_ok m1]
  have hne : o.adj ≠ o.unred := by
    have := r.lt_unred; rw [hu]; omega
  have r2 : Rep h1 { o with cover := c } { g with cover := cov } := by
    obtain ⟨a1, a2, a3, a4, a5, a6, a7, a8, a9, a10, a11, a12, b1, b2, b3, b4, b5⟩ := r1
    exact ⟨a1, a2, a3, a4, a5, hc.imp fun x y _ _ hx => ⟨by rw [fr1 _ hx.2]; exact hx.1, by omega⟩,
      a7, a8, a9, a10, a11, a12, b1, b2, b3, b4, b5⟩
  obtain ⟨o3, h3, m3, r3, st3⟩ := coverEdges_like r2 hne
  rw [bind_ok m3]
  have hpg : ORel (fun _ _ => True) p.redAway g.redAway := r.redAway.imp fun _ _ _ _ _ => trivial
  have toFrame : ∀ {h' : Mem n} {o' : GObj}, Step h1 { o with cover := c } h' o' → Frame h p c h' := by
    intro h' o' st
    refine ⟨hn1.trans st.next, fun x hx hx1 _ => ?_⟩
    rw [st.frame x (by omega) (by simp only; omega) (by simp only; omega) (by simp only; omega)
      (by simp only; rw [hr]; exact hx1), fr1 x hx]
  have f3 := toFrame st3
  simp only
  rw [r3.numEdges]
  have hra3 : (RG.coverEdges { g with cover := cov }).redAway = g.redAway := coverEdges_redAway _
  by_cases hz : (RG.coverEdges { g with cover := cov }).numEdges = 0
  · rw [if_pos hz, if_pos hz]
    have hro := back_rel hpg (o := { o with cover := c }) hr st3 r3
    rw [hra3] at hro
    have hsh : sharedRedAway g.redAway g.redAway = g.redAway := by cases g.redAway <;> rfl
    rw [hsh] at hro
    cases hc with
    | none => exact ⟨none, h3, rfl, f3, .none, hro⟩
    | some hc =>
      rename_i a l
      have hra : p.redAway ≠ some a := by
        intro e
        have h7 := r.redAway
        rw [e] at h7
        cases hg : g.redAway with
        | none => rw [hg] at h7; cases h7
        | some R =>
          rw [hg] at h7
          cases h7 with
          | some h7 => have h8 := h7.1; rw [hc.1] at h8; cases h8
      have ha3 : h3.arr a = .rows l := by
        rw [st3.frame a (by omega) (by simp only; omega) (by simp only; omega) (by simp only; omega)
          (by simp only; rw [hr]; exact hra), fr1 a hc.2]
        exact hc.1
      have hlt : a < h3.next := by have := f3.next; omega
      unfold GObj.reconstructCover
      have h9 := r3.redAway
      rw [hra3] at h9
      rw [hra3]
      cases h10 : o3.redAway <;> cases h11 : g.redAway <;> rw [h10, h11] at h9 <;> try cases h9
      · rw [h11] at hro
        exact ⟨some a, h3, rfl, f3, .some ⟨ha3, hlt⟩, hro⟩
      · rename_i q R h9
        simp only
        rw [bind_ok (rdMat_eq h9.1), bind_ok (rdRows_eq ha3), bind_ok (write_eq _ _ _)]
        refine ⟨some a, _, rfl, ⟨f3.next, fun x hx hx1 hx2 => ?_⟩, .some ⟨set_same _ _ _, hlt⟩, ?_⟩
        · rw [set_ne _ _ (fun e => hx2 (by rw [e]))]
          exact f3.frame x hx hx1 hx2
        · rw [h11] at hro
          refine hro.imp fun x y hx _ hxy => ?_
          rw [set_ne _ _ (fun e => hra (by rw [hx, e]))]
          exact hxy
  · rw [if_neg hz, if_neg hz]
    have l4 := reduzieren_like r3 (st3.ne hne) k
    cases hg4 : (RG.coverEdges { g with cover := cov }).reduzieren k with
    | error e =>
      rw [hg4] at l4
      obtain ⟨h4, o4, m4, st4⟩ := l4
      exact ⟨h4, by rw [bind_error m4], toFrame (st3.trans st4)⟩
    | ok g4 =>
      rw [hg4] at l4
      obtain ⟨o4, h4, m4, r4, st4⟩ := l4
      rw [bind_ok m4]
      have f4 := toFrame (st3.trans st4)
      have b4 := back_rel hpg (o := { o with cover := c }) hr (st3.trans st4) r4
      simp only
      rw [r4.k, r4.numEdges]
      by_cases hk : g4.k < 0
      · rw [if_pos hk, if_pos hk]
        exact ⟨none, h4, rfl, f4, .none, b4⟩
      rw [if_neg hk, if_neg hk]
      by_cases hz4 : g4.numEdges = 0
      · rw [if_pos hz4, if_pos hz4]
        exact ⟨_, h4, rfl, f4, r4.cover, b4⟩
      rw [if_neg hz4, if_neg hz4]
      have mN := choose_like r4
      cases hN : g4.chooseNbrhood with
      | error e =>
        rw [hN] at mN
        exact ⟨h4, bind_error mN, f4⟩
      | ok N =>
        rw [hN] at mN
        rw [bind_ok mN, bind_ok (rdMat_eq (alloc_same _ _))]
        simp only
        cases hM : maxCliques (rt.sched path) N with
        | error e =>
          exact ⟨_, rfl, f4.trans (frame_alloc h4 p c _) (by intro _ _ e; exact e)⟩
        | ok cl =>
          simp only
          have r5 := rep_alloc r4 (.mat N)
          have l5 := cliqueLoop_like g4 g4.k { rule3 := g4.redAway.isSome, capped := true, branched := decide (1 < path.length) }
            recP rec hrec cl 0 _ o4 g4.redAway r5
          have hst := (st3.trans st4).redAway
          simp only at hst
          have hno : ∀ x, x < h.next → p.redAway ≠ some x → o4.redAway ≠ some x := by
            intro x hx hx1 hx2
            rw [hr] at hst
            cases hp1 : p.redAway with
            | none => rw [hp1] at hst; have := hst x hx2; omega
            | some q => rw [hp1] at hst hx1; simp only at hst; rw [hst] at hx2; exact hx1 hx2
          have fin : ∀ h6 : Mem n, Frame (h4.alloc (.mat N)) o4 none h6 → Frame h p c h6 := by
            intro h6 f6
            refine ⟨f4.next.trans ((Nat.le_succ _).trans f6.next), fun x hx hx1 hx2 => ?_⟩
            have hx4 : x < h4.next := hx.trans_le f4.next
            rw [f6.frame x (Nat.lt_succ_of_lt hx4) (hno x hx hx1) (by simp), alloc_ne _ _ hx4]
            exact f4.frame x hx hx1 hx2
          cases ho : cliqueLoop g4 g4.k
              { rule3 := g4.redAway.isSome, capped := true, branched := decide (1 < path.length) } recP 0
              g4.redAway cl with
          | error e =>
            rw [ho] at l5
            obtain ⟨h6, m6, f6⟩ := l5
            exact ⟨h6, m6, fin h6 f6⟩
          | ok out =>
            rw [ho] at l5
            obtain ⟨a, h6, m6, f6, x6, y6⟩ := l5
            refine ⟨a, h6, m6, fin h6 f6, x6, ?_⟩
            rw [hr] at hst
            cases hp1 : p.redAway <;> cases hg : g.redAway <;> rw [hp1, hg] at hpg <;> try cases hpg
            · exact .none
            · rw [hp1] at hst
              simp only at hst
              rw [hst] at y6
              exact y6

theorem branch_like (rt : Runtime n) (rem : Nat) (path : List Nat) (h : Mem n) (p : GObj) (g : RG n) (k : Int)
    (c : Option Nat) (cov : Option (List (BVec n))) (r : Rep h p g)
    (hc : ORel (fun c l => h.arr c = .rows l ∧ c < h.next) c cov) :
    BLike h p c (hBranch rt rem path p k c h) (branch RG.reconstructCover rt rem path g k cov) := by
  induction rem generalizing path h p g k c cov with
  | zero => exact branchBody_like rt path none none .none h p g k c cov r hc
  | succ rem ih =>
    refine branchBody_like rt path _ _ (.some ?_) h p g k c cov r hc
    intro i h' o' g' k' c' cov' r' hc' hlt
    exact ih (i :: path) h' o' g' k' (some c') (some cov') r' (.some ⟨hc', hlt⟩)

/-- the outcome of the search from the object `p` -/
theorem findLoop_like (rt : Runtime n) (im : Nat) (fuel : Nat) (k : Nat) (h : Mem n) (p : GObj) (g : RG n)
    (r : Rep h p g) (hp : p.redAway = none) :
    ∃ h', h.next ≤ h'.next ∧ (∀ x, x < h.next → h'.arr x = h.arr x) ∧
      match findLoop RG.reconstructCover rt im g fuel k with
      | .error e => hFindLoop rt im p fuel k h = (.error e, h')
      | .ok (l, _) => ∃ c, hFindLoop rt im p fuel k h = (.ok c, h') ∧ h'.arr c = .rows l ∧ c < h'.next := by
  induction fuel generalizing k h with
  | zero => exact ⟨h, Nat.le_refl _, fun _ _ => rfl, rfl⟩
  | succ fuel ih =>
    have l1 := branch_like rt im [k] h p g k none none r .none
    unfold hFindLoop findLoop
    cases hb : branch RG.reconstructCover rt im [k] g k none with
    | error e =>
      rw [hb] at l1
      obtain ⟨h', m, f⟩ := l1
      exact ⟨h', f.next, fun x hx => f.frame x hx (by rw [hp]; simp) (by simp), bind_error m⟩
    | ok out =>
      rw [hb] at l1
      obtain ⟨a, h', m, f, x, y⟩ := l1
      have low : ∀ x, x < h.next → h'.arr x = h.arr x := fun x hx => f.frame x hx (by rw [hp]; simp) (by simp)
      rw [bind_ok m]
      simp only
      cases ho : out.res with
      | some l =>
        rw [ho] at x
        cases x with
        | some x => exact ⟨h', f.next, low, _, rfl, x⟩
      | none =>
        rw [ho] at x
        cases x with
        | none =>
          have hg : g.redAway = none := by
            have h7 := r.redAway
            rw [hp] at h7
            cases hg : g.redAway with
            | none => rfl
            | some R => rw [hg] at h7; cases h7
          have r2 := rep_frame r f (by simp) (ra := none) (by rw [hp]; exact .none)
          have hgg : { g with redAway := none } = g := by rw [← hg]
          rw [hgg] at r2
          obtain ⟨h'', h1, h2, h3⟩ := ih (k + 1) h' r2
          refine ⟨h'', f.next.trans h1, fun x hx => (h2 x (hx.trans_le f.next)).trans (low x hx), h3⟩

/-- `make_aux` -/
theorem makeAux_like (rt : Runtime n) (h : Mem n) (a : Nat) (A : BMat n) (ha : a < h.next)
    (hA : h.arr a = .mat A) :
    ∃ h', h.next ≤ h'.next ∧ (∀ x, x < h.next → h'.arr x = h.arr x) ∧
      match makeAux rt.order A with
      | .error e => hMakeAux rt a h = (.error e, h')
      | .ok g => ∃ o, hMakeAux rt a h = (.ok o, h') ∧ Rep h' o g ∧ o.redAway = none ∧ o.unred = a ∧
          o.adj = a := by
  unfold hMakeAux makeAux
  rw [bind_ok (rdMat_eq hA), bind_ok (new_eq _ _)]
  by_cases he : ((edgeList A).isEmpty && decide (n ≠ 0)) = true
  · rw [if_pos he, if_pos he]
    exact ⟨_, by rw [alloc_next]; omega, fun x hx => alloc_ne _ _ hx, rfl⟩
  rw [if_neg he, if_neg he, bind_ok (new_eq _ _), bind_ok (write_eq _ _ _), bind_ok (new_eq _ _)]
  have low : ∀ x, x < h.next →
      ((((h.alloc (.tab (BTab.of fun _ _ _ => false))).alloc (.idx (rt.order (edgeList A)))).set h.next
        (.tab (commonOf A))).alloc (.cnt (countsOf A (commonOf A)))).arr x = h.arr x := by
    intro x hx
    rw [alloc_ne, set_ne _ _ (by omega), alloc_ne, alloc_ne _ _ hx] <;> simp only [alloc_next, set_next] <;> omega
  refine ⟨_, ?_, low, _, rfl, ?_, rfl, rfl, rfl⟩
  · simp only [alloc_next, set_next]; omega
  · refine ⟨(low _ ha).trans hA, (low _ ha).trans hA, ?_, ?_, ?_, .none, .none, rfl, rfl, rfl, rfl, rfl, ?_, ?_, ?_, ?_, ?_⟩
    · simp only
      rw [alloc_ne, set_same]
      simp only [set_next, alloc_next]; omega
    · exact alloc_same _ _
    · simp only
      rw [alloc_ne, set_ne]
      · exact alloc_same (h.alloc (.tab (BTab.of fun _ _ _ => false))) _
      all_goals simp only [set_next, alloc_next]; omega
    all_goals simp only [set_next, alloc_next]; omega

end HS

theorem hFind_spec (rt : Runtime n) (fuel : Nat) (h : Mem n) (a : Nat) (A : BMat n) (ha : a < h.next)
    (hA : h.arr a = .mat A) :
    (∀ x, x < h.next → (hFindCliqueMinCover rt fuel a h).2.arr x = h.arr x) ∧
    match findCliqueMinCover rt fuel A with
    | .error e => (hFindCliqueMinCover rt fuel a h).1 = .error e
    | .ok C => ∃ r, (hFindCliqueMinCover rt fuel a h).1 = .ok r ∧
        ((hFindCliqueMinCover rt fuel a h).2.arr r).toRows = C ∧ r < (hFindCliqueMinCover rt fuel a h).2.next ∧
        (r = a ∧ (edgeList A).isEmpty = true ∧ n ≠ 0 ∨
          h.next ≤ r ∧ ¬ ((edgeList A).isEmpty = true ∧ n ≠ 0)) := by
  obtain ⟨h1, hn, low, hm⟩ := HS.makeAux_like rt h a A ha hA
  by_cases he : ((edgeList A).isEmpty && decide (n ≠ 0)) = true
  · have hmk : makeAux rt.order A = .error .valueError := by unfold makeAux; rw [if_pos he]
    have hF : findCliqueMinCover rt fuel A = .ok ((List.finRange n).map A.row) := by
      simp only [findCliqueMinCover, cliqueSearch, hmk]; rfl
    rw [hmk] at hm
    simp only at hm
    have hH : hFindCliqueMinCover rt fuel a h = (.ok a, h1) := by
      unfold hFindCliqueMinCover; rw [hm]
    rw [hH, hF]
    refine ⟨low, a, rfl, ?_, ha.trans_le hn, .inl ⟨rfl, by simpa using he⟩⟩
    simp only
    rw [low a ha, hA]; rfl
  · obtain ⟨g, hmk⟩ : ∃ g, makeAux rt.order A = .ok g := by unfold makeAux; rw [if_neg he]; exact ⟨_, rfl⟩
    rw [hmk] at hm
    obtain ⟨o, hm, rp, ho, hou, hoa⟩ := hm
    have hA1 : h1.arr a = .mat A := (low a ha).trans hA
    have hH : hFindCliqueMinCover rt fuel a h = (match maxIntersectNum (traceOf A) (numEdgesOf A) with
      | .error e => Py.raise e
      | .ok _ =>
        Py.bind (hFindLoop rt 3 o fuel 1) fun c =>
        Py.bind (rdRows c) fun C => Py.new (.rows (addIsolatedVerts C))) h1 := by
      unfold hFindCliqueMinCover; rw [hm]; simp only
      rw [HS.bind_ok (HS.rdMat_eq hA1)]
      cases maxIntersectNum (traceOf A) (numEdgesOf A) <;> rfl
    have hF : findCliqueMinCover rt fuel A = match maxIntersectNum (traceOf A) (numEdgesOf A) with
      | .error e => .error e
      | .ok _ => match findLoop RG.reconstructCover rt 3 g fuel 1 with
        | .error e => .error e
        | .ok (c, _) => .ok (addIsolatedVerts c) := by
      simp only [findCliqueMinCover, cliqueSearch, hmk]
      cases maxIntersectNum (traceOf A) (numEdgesOf A) with
      | error e => rfl
      | ok b =>
        simp only
        cases findLoop RG.reconstructCover rt 3 g fuel 1 <;> rfl
    rw [hH, hF]
    cases maxIntersectNum (traceOf A) (numEdgesOf A) with
    | error e => exact ⟨low, rfl⟩
    | ok b =>
      simp only
      obtain ⟨h2, hn2, low2, hl⟩ := HS.findLoop_like rt 3 fuel 1 h1 o g rp ho
      have low' : ∀ x, x < h.next → h2.arr x = h.arr x := fun x hx => (low2 x (by omega)).trans (low x hx)
      cases hf : findLoop RG.reconstructCover rt 3 g fuel 1 with
      | error e =>
        rw [hf] at hl
        rw [HS.bind_error hl]
        exact ⟨low', rfl⟩
      | ok ci =>
        obtain ⟨l, inf⟩ := ci
        rw [hf] at hl
        obtain ⟨c, hl, hc, hlt⟩ := hl
        rw [HS.bind_ok hl, HS.bind_ok (HS.rdRows_eq hc), HS.new_eq]
        refine ⟨fun x hx => (HS.alloc_ne _ _ (by omega)).trans (low' x hx), h2.next, rfl, ?_, ?_, .inr ⟨by omega, by simpa using he⟩⟩
        · simp only
          rw [HS.alloc_same]; rfl
        · exact Nat.lt_succ_self _

end Medil

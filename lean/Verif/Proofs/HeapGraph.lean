import Verif.Model.HeapGraph
import Verif.Proofs.HeapSearch
import Verif.Proofs.Graph
/-
  Histories of method calls on reducible copies, and on graph objects that share arrays.
-/
namespace Medil
namespace HS
variable {n : Nat}

/-- one call, with values -/
def opP (g : RG n) : CopyOp n → Except PyErr (RG n)
  | .rule1 => .ok g.rule1
  | .rule2 => .ok g.rule2
  | .rule3 => g.rule3
  | .cover es => .ok (g.coverPairs es)
  | .coverLast => .ok g.coverEdges
  | .reduce k => g.reduzieren k

/-- a history, with values -/
def opsP (g : RG n) : List (CopyOp n) → Except PyErr (RG n)
  | [] => .ok g
  | c :: cs => match opP g c with
    | .error e => .error e
    | .ok g' => opsP g' cs

theorem op_like {h : Mem n} {o : GObj} {g : RG n} (r : Rep h o g) (hne : o.adj ≠ o.unred) (c : CopyOp n) :
    Like h o (o.op c h) (opP g c) := by
  cases c with
  | rule1 => exact rule1_like r hne
  | rule2 => exact rule2_like r hne
  | rule3 => exact rule3_like r hne
  | cover es => exact coverPairs_like r hne es
  | coverLast => exact coverEdges_like r hne
  | reduce k => exact reduzieren_like r hne k

theorem ops_like {h : Mem n} {o : GObj} {g : RG n} (r : Rep h o g) (hne : o.adj ≠ o.unred)
    (cs : List (CopyOp n)) : Like h o (o.ops cs h) (opsP g cs) := by
  induction cs generalizing h o g with
  | nil => exact like_ret r (Step.refl _ _)
  | cons c cs ih =>
    unfold GObj.ops opsP
    have l1 := op_like r hne c
    cases hc : opP g c with
    | error e =>
      rw [hc] at l1
      obtain ⟨h', o', m, st⟩ := l1
      exact ⟨h', o', by rw [bind_error m], st⟩
    | ok g' =>
      rw [hc] at l1
      obtain ⟨o', h', m, r', st⟩ := l1
      rw [bind_ok m]
      exact like_step st (ih r' (st.ne hne))

theorem like_frame {h : Mem n} {o : GObj} {r : Except PyErr GObj × Mem n} {e : Except PyErr (RG n)}
    (hl : Like h o r e) (x : Nat) (hx : x < h.next) (h1 : x ≠ o.adj) (h2 : x ≠ o.common) (h3 : x ≠ o.counts)
    (h4 : o.redAway ≠ some x) : r.2.arr x = h.arr x := by
  cases e with
  | error e => obtain ⟨h', o', m, st⟩ := hl; rw [m]; exact st.frame x hx h1 h2 h3 h4
  | ok g => obtain ⟨o', h', m, r', st⟩ := hl; rw [m]; exact st.frame x hx h1 h2 h3 h4

/-- a plain graph object and a copy of it -/
theorem plain_copy (rt : Runtime n) {h h1 h2 : Mem n} {a : Nat} {A : BMat n} {p o : GObj} (ha : a < h.next)
    (hA : h.arr a = .mat A) (hp : hMakeAux rt a h = (.ok p, h1)) (ho : p.copy h1 = (.ok o, h2)) :
    ∃ g, makeAux rt.order A = .ok g ∧ Rep h1 p g ∧ Rep h2 o { g with cover := none } ∧ h1.next ≤ h2.next ∧
      (∀ x, x < h1.next → h2.arr x = h1.arr x) ∧ h1.next ≤ o.adj ∧ h1.next ≤ o.common ∧ h1.next ≤ o.counts ∧
      o.unred = a ∧ p.adj = a ∧ o.redAway = none ∧ a < h1.next ∧ (∀ x, x < h.next → h1.arr x = h.arr x) ∧
      h.next ≤ h1.next := by
  obtain ⟨h', hn, low, hm⟩ := makeAux_like rt h a A ha hA
  cases hmk : makeAux rt.order A with
  | error e => rw [hmk] at hm; simp only at hm; rw [hp] at hm; cases hm
  | ok g =>
    rw [hmk] at hm
    obtain ⟨p', hm, rp, e1, e2, e3⟩ := hm
    rw [hp] at hm; cases hm
    obtain ⟨o', h'', m1, r1, hn1, fr1, ha1, hb, hd, hu, hr⟩ := copy_rep rp
    rw [ho] at m1; cases m1
    exact ⟨g, rfl, rp, r1, hn1, fr1, ha1, hb, hd, hu.trans e2, e3, hr.trans e1, ha.trans_le hn, low, hn⟩

/-! histories without rule 1 do not look at the unreduced graph -/

theorem op_unred (g : RG n) (U : BMat n) (c : CopyOp n) (hc : c ≠ .rule1) (hc' : ∀ k, c ≠ .reduce k) :
    opP { g with unred := U } c = (opP g c).map fun g' => { g' with unred := U } := by
  cases c with
  | rule1 => exact absurd rfl hc
  | reduce k => exact absurd rfl (hc' k)
  | cover es => rfl
  | coverLast =>
    obtain ⟨u, uv, ad, nv, ne, cv, cm, ct, ex, ra, k, rd⟩ := g
    simp only [opP, RG.coverEdges]
    cases cv with
    | none => rfl
    | some l => simp only; cases l.getLast? <;> rfl
  | rule2 =>
    simp only [opP, RG.rule2]
    have hs : ∀ e, RG.score { g with unred := U } e = g.score e := fun e => rfl
    have hf : (g.extant.filter fun e => RG.score { g with unred := U } e == 0) =
        g.extant.filter fun e => g.score e == 0 := rfl
    rw [hf]
    cases (g.extant.filter fun e => g.score e == 0).getLast? with
    | none => rfl
    | some e =>
      simp only [RG.coverEdges, List.getLast?_append, List.getLast?_singleton]
      rfl
  | rule3 =>
    simp only [opP, RG.rule3]
    have hf : ((List.finRange n).find? fun v => g.adj v v && RG.dominate { g with unred := U } v) =
        (List.finRange n).find? fun v => g.adj v v && g.dominate v := rfl
    rw [hf]
    cases (List.finRange n).find? fun v => g.adj v v && g.dominate v with
    | none => rfl
    | some v =>
      simp only
      have he : RG.vertEdges { g with unred := U } v = g.vertEdges v := rfl
      rw [he]
      by_cases h : (g.vertEdges v).isEmpty
      · rw [if_pos h, if_pos h]; rfl
      · rw [if_neg h, if_neg h]; rfl

theorem ops_unred (g : RG n) (U : BMat n) (cs : List (CopyOp n)) (hc : ∀ c ∈ cs, c ≠ .rule1 ∧ ∀ k, c ≠ .reduce k) :
    opsP { g with unred := U } cs = (opsP g cs).map fun g' => { g' with unred := U } := by
  induction cs generalizing g with
  | nil => rfl
  | cons c cs ih =>
    have h1 := hc c (by simp)
    unfold opsP
    rw [op_unred g U c h1.1 h1.2]
    cases opP g c with
    | error e => rfl
    | ok g' => exact ih g' (fun c hc' => hc c (by simp [hc']))

theorem rep_set_unred {h : Mem n} {o : GObj} {g : RG n} (r : Rep h o g) (hne : o.adj ≠ o.unred) (U : BMat n) :
    Rep (h.set o.unred (.mat U)) o { g with unred := U } := by
  obtain ⟨a1, a2, a3, a4, a5, a6, a7, a8, a9, a10, a11, a12, b1, b2, b3, b4, b5⟩ := r
  refine ⟨set_same _ _ _, ?_, ?_, ?_, ?_, ?_, ?_, a8, a9, a10, a11, a12, b1, b2, b3, b4, b5⟩
  · rw [set_ne _ _ hne]; exact a2
  · rw [set_ne]; exact a3
    intro e; rw [e, a1] at a3; cases a3
  · rw [set_ne]; exact a4
    intro e; rw [e, a1] at a4; cases a4
  · rw [set_ne]; exact a5
    intro e; rw [e, a1] at a5; cases a5
  · refine a6.imp fun x y _ _ hx => ⟨?_, hx.2⟩
    rw [set_ne]; exact hx.1
    intro e; have := hx.1; rw [e, a1] at this; cases this
  · refine a7.imp fun x y _ _ hx => ⟨?_, hx.2⟩
    rw [set_ne _ _ hx.2.2.2]; exact hx.1

end HS

variable {n : Nat}

/-! graph objects that share arrays -/

/-- every object is accurate, its array exists -/
def GraphSession.Ok (s : GraphSession n) : Prop :=
  ∀ o ∈ s.objs, ∃ A, s.mem.arr o.adj = .mat A ∧ o.adj < s.mem.next ∧ o.numEdges = numEdgesOf A

theorem edit_objs (s : GraphSession n) (b : Bool) (i : Nat) (es : List (Fin n × Fin n)) :
    (s.edit b i es).objs.map (·.adj) = s.objs.map (·.adj) := by
  unfold GraphSession.edit
  cases ho : s.objs[i]? with
  | none => rfl
  | some o =>
    simp only
    cases hA : s.mem.arr o.adj <;> try rfl
    simp only [List.map_set]
    apply List.ext_getElem?
    intro j
    rw [List.getElem?_set]
    by_cases hj : i = j
    · subst hj
      simp only [if_true, List.length_map]
      obtain ⟨hlt, he⟩ := List.getElem?_eq_some_iff.mp ho
      simp [hlt, he]
    · simp [hj]

theorem edit_ok {s : GraphSession n} (h : s.Ok) (hd : (s.objs.map (·.adj)).Nodup) (b : Bool) (i : Nat)
    (es : List (Fin n × Fin n)) : (s.edit b i es).Ok := by
  unfold GraphSession.edit
  cases ho : s.objs[i]? with
  | none => exact h
  | some o =>
    simp only
    obtain ⟨hlt, he⟩ := List.getElem?_eq_some_iff.mp ho
    obtain ⟨A, hA, hn, hc⟩ := h o (by rw [← he]; exact List.getElem_mem _)
    rw [hA]
    intro o' ho'
    simp only at ho' ⊢
    obtain ⟨j, hj, hj'⟩ := List.mem_iff_getElem.mp ho'
    rw [List.length_set] at hj
    rw [List.getElem_set] at hj'
    by_cases hij : i = j
    · rw [if_pos hij] at hj'
      subst hj'
      exact ⟨_, by simp, hn, rfl⟩
    · rw [if_neg hij] at hj'
      subst hj'
      obtain ⟨A', hA', hn', hc'⟩ := h s.objs[j] (List.getElem_mem _)
      refine ⟨A', ?_, hn', hc'⟩
      rw [if_neg]
      · exact hA'
      · intro e
        have h1 : (s.objs.map (·.adj))[j]'(by simpa using hj) = (s.objs.map (·.adj))[i]'(by simpa using hlt) := by
          simp [e, he]
        exact hij ((hd.getElem_inj_iff).mp h1).symm

theorem step_objs (s : GraphSession n) (c : GraphCall n) :
    ∃ l, (s.step c).objs.map (·.adj) = s.objs.map (·.adj) ++ l := by
  cases c with
  | array A => exact ⟨[], by simp [GraphSession.step]⟩
  | graph a =>
    simp only [GraphSession.step]
    split
    · split
      · exact ⟨[a], by simp⟩
      · exact ⟨[], by simp⟩
    · exact ⟨[], by simp⟩
  | add i es => exact ⟨[], by rw [List.append_nil]; exact edit_objs s true i es⟩
  | rm i es => exact ⟨[], by rw [List.append_nil]; exact edit_objs s false i es⟩

theorem session_ok {s : GraphSession n} (h : s.Ok) (cs : List (GraphCall n))
    (hd : ((cs.foldl GraphSession.step s).objs.map (·.adj)).Nodup) : (cs.foldl GraphSession.step s).Ok := by
  induction cs generalizing s with
  | nil => exact h
  | cons c cs ih =>
    have mono : ∀ (cs : List (GraphCall n)) (s : GraphSession n),
        ∃ l, (cs.foldl GraphSession.step s).objs.map (·.adj) = s.objs.map (·.adj) ++ l := by
      intro cs
      induction cs with
      | nil => intro s; exact ⟨[], by simp⟩
      | cons c cs ih' =>
        intro s
        obtain ⟨l1, h1⟩ := step_objs s c
        obtain ⟨l2, h2⟩ := ih' (s.step c)
        exact ⟨l1 ++ l2, by rw [List.foldl_cons, h2, h1, List.append_assoc]⟩
    refine ih ?_ hd
    have hs : (s.objs.map (·.adj)).Nodup := by
      obtain ⟨l, hl⟩ := mono (c :: cs) s
      rw [hl] at hd
      exact (List.nodup_append.mp hd).1
    cases c with
    | array A =>
      intro o ho
      obtain ⟨A', hA', hn, hc⟩ := h o ho
      refine ⟨A', ?_, by simp only [GraphSession.step]; omega, hc⟩
      simp only [GraphSession.step]
      rw [if_neg (by omega)]; exact hA'
    | graph a =>
      simp only [GraphSession.step]
      split
      · rename_i hlt
        split
        · rename_i A hA
          intro o ho
          rcases List.mem_append.mp ho with ho | ho
          · exact h o ho
          · rw [List.mem_singleton] at ho
            subst ho
            exact ⟨A, hA, hlt, rfl⟩
        · exact h
      · exact h
    | add i es => exact edit_ok h hs true i es
    | rm i es => exact edit_ok h hs false i es

end Medil

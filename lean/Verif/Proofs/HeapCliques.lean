import Verif.Model.HeapCliques
import Verif.Proofs.MaxCliques
/-
  `max_cliques` with references computes what it computes with values, in every interleaving.
-/
namespace Medil
namespace GS
variable {n : Nat}

theorem put_same (m : CMem n) (p : Nat) (c : Cell n) : (m.put p c).cell p = c := by simp [CMem.put]
theorem put_ne (m : CMem n) {p x : Nat} (c : Cell n) (h : x ≠ p) : (m.put p c).cell x = m.cell x := by
  simp [CMem.put, h]
theorem put_next (m : CMem n) (p : Nat) (c : Cell n) : (m.put p c).next = m.next := rfl
theorem alloc_same (m : CMem n) (c : Cell n) : (m.alloc c).cell m.next = c := by simp [CMem.alloc]
theorem alloc_ne (m : CMem n) {x : Nat} (c : Cell n) (h : x ≠ m.next) : (m.alloc c).cell x = m.cell x := by
  simp [CMem.alloc, h]
theorem alloc_next (m : CMem n) (c : Cell n) : (m.alloc c).next = m.next + 1 := rfl
theorem rdSet_eq {m : CMem n} {p : Nat} {S : BVec n} (h : m.cell p = .set S) : m.rdSet p = S := by
  simp [CMem.rdSet, h]
theorem rdList_eq {m : CMem n} {p : Nat} {l} (h : m.cell p = .list l) : m.rdList p = l := by
  simp [CMem.rdList, h]

/-- the addresses of three sets -/
def tri (x : Nat × Nat × Nat) : List Nat := [x.1, x.2.1, x.2.2]

/-- the addresses that a suspended generator refers to -/
def cells (g : GenLoc n) : List Nat := g.q :: g.subg :: g.cand :: g.ext :: g.stack.flatMap tri

/-- references `st` to the sets `vs` -/
def StackRep (m : CMem n) : List (Nat × Nat × Nat) → List (BVec n × BVec n × BVec n) → Prop
  | [], [] => True
  | (a, b, c) :: st, (x, y, z) :: vs =>
    m.cell a = .set x ∧ m.cell b = .set y ∧ m.cell c = .set z ∧ StackRep m st vs
  | _, _ => False

theorem StackRep.congr {m m' : CMem n} {st : List (Nat × Nat × Nat)} {vs : List (BVec n × BVec n × BVec n)}
    (h : StackRep m st vs) (he : ∀ x ∈ st.flatMap tri, m'.cell x = m.cell x) : StackRep m' st vs := by
  induction st generalizing vs with
  | nil => cases vs <;> simp_all [StackRep]
  | cons t st ih =>
    obtain ⟨a, b, c⟩ := t
    cases vs with
    | nil => simp [StackRep] at h
    | cons v vs =>
      obtain ⟨x, y, z⟩ := v
      obtain ⟨h1, h2, h3, h4⟩ := h
      refine ⟨?_, ?_, ?_, ih h4 fun x hx => he x (by simp [hx])⟩
      · rw [he a (by simp [tri])]; exact h1
      · rw [he b (by simp [tri])]; exact h2
      · rw [he c (by simp [tri])]; exact h3

/-- the references of `g` hold the values of `s` -/
structure Rep (m : CMem n) (g : GenLoc n) (s : MCState n) : Prop where
  q : m.cell g.q = .list s.q
  subg : m.cell g.subg = .set s.subg
  cand : m.cell g.cand = .set s.cand
  ext : m.cell g.ext = .set s.ext
  stack : StackRep m g.stack s.stack
  t : g.t = s.t
  nodup : (cells g).Nodup
  lt : ∀ x ∈ cells g, x < m.next

theorem Rep.congr {m m' : CMem n} {g : GenLoc n} {s : MCState n} (r : Rep m g s) (hn : m.next ≤ m'.next)
    (he : ∀ x ∈ cells g, m'.cell x = m.cell x) : Rep m' g s := by
  obtain ⟨h1, h2, h3, h4, h5, h6, h7, h8⟩ := r
  refine ⟨?_, ?_, ?_, ?_, h5.congr fun x hx => he x (by simp [cells, hx]), h6, h7, fun x hx => (h8 x hx).trans_le hn⟩
  · rw [he _ (by simp [cells])]; exact h1
  · rw [he _ (by simp [cells])]; exact h2
  · rw [he _ (by simp [cells])]; exact h3
  · rw [he _ (by simp [cells])]; exact h4

/-- how a generator may change the memory -/
structure Frame (m : CMem n) (old : List Nat) (m' : CMem n) (new : List Nat) : Prop where
  next : m.next ≤ m'.next
  keep : ∀ x, x < m.next → x ∉ old → m'.cell x = m.cell x
  cells : ∀ x ∈ new, x ∈ old ∨ m.next ≤ x

theorem Frame.trans {m m' m'' : CMem n} {a b c : List Nat} (f : Frame m a m' b) (f' : Frame m' b m'' c) :
    Frame m a m'' c := by
  refine ⟨f.next.trans f'.next, ?_, ?_⟩
  · intro x hx ha
    rw [f'.keep x (hx.trans_le f.next), f.keep x hx ha]
    intro hb
    rcases f.cells x hb with h | h
    · exact ha h
    · omega
  · intro x hx
    rcases f'.cells x hx with h | h
    · exact f.cells x h
    · exact .inr (f.next.trans h)

/-- a pass with references does what the pass with values does -/
def SimOut (m : CMem n) (g : GenLoc n) : GenOut n → MCOut n → Prop
  | .next g' m', .next s' => Rep m' g' s' ∧ g'.adj = g.adj ∧ Frame m (cells g) m' (cells g')
  | .yield r g' m', .yield c s' => Rep m' g' s' ∧ g'.adj = g.adj ∧ Frame m (cells g) m' (r :: cells g') ∧
      m'.vertices r = c ∧ (∃ l, m'.cell r = .list l) ∧ m.next ≤ r ∧ r < m'.next ∧ r ∉ cells g'
  | .stop m', .stop => Frame m (cells g) m' []
  | .raise e m', .raise e' => e = e' ∧ Frame m (cells g) m' []
  | _, _ => False

theorem step_sim (o : Sched n) {m : CMem n} {g : GenLoc n} {s : MCState n} (r : Rep m g s) :
    SimOut m g (genStep o g m) (mcStep o g.adj s) := by
  obtain ⟨hq, hsubg, hcand, hext, hst, ht, hnd, hlt⟩ := r
  have hnd' := hnd
  simp only [cells, List.nodup_cons, List.mem_cons, not_or] at hnd'
  obtain ⟨⟨d1, d2, d3, d4⟩, ⟨d5, d6, d7⟩, ⟨d8, d9⟩, d10, d11⟩ := hnd'
  have l1 : g.q < m.next := hlt _ (by simp [cells])
  have l2 : g.subg < m.next := hlt _ (by simp [cells])
  have l3 : g.cand < m.next := hlt _ (by simp [cells])
  have l4 : g.ext < m.next := hlt _ (by simp [cells])
  have l5 : ∀ x ∈ g.stack.flatMap tri, x < m.next := fun x hx => hlt x (by simp [cells, hx])
  unfold genStep mcStep
  rw [rdSet_eq hext, ht]
  cases hp : pick o s.t s.ext with
  | none =>
    simp only
    rw [rdList_eq hq]
    cases hsq : s.q with
    | nil => simp only [SimOut]; exact ⟨le_rfl, fun _ _ _ => rfl, by simp⟩
    | cons a qs =>
      simp only
      have fr : Frame m (cells g) (m.put g.q (.list qs)) [] :=
        ⟨le_rfl, fun x _ hx => put_ne _ _ (by rintro rfl; exact hx (by simp [cells])), by simp⟩
      cases hgs : g.stack with
      | nil =>
        cases hss : s.stack with
        | nil => exact fr
        | cons v vs => rw [hgs, hss] at hst; simp [StackRep] at hst
      | cons u us =>
        obtain ⟨a1, b1, c1⟩ := u
        cases hss : s.stack with
        | nil => rw [hgs, hss] at hst; simp [StackRep] at hst
        | cons v vs =>
          obtain ⟨x, y, z⟩ := v
          rw [hgs, hss] at hst
          obtain ⟨s1, s2, s3, s4⟩ := hst
          rw [hgs] at d4 d7 d9 d10 d11 l5
          simp only [List.flatMap_cons, tri, List.cons_append, List.nil_append, List.mem_cons, not_or] at d4 d7 d9 d10 l5
          simp only [List.flatMap_cons, tri, List.cons_append, List.nil_append, List.nodup_cons, List.mem_cons, not_or]
            at d11
          simp only [SimOut]
          refine ⟨⟨?_, ?_, ?_, ?_, ?_, ?_, ?_, ?_⟩, trivial, ⟨le_rfl, ?_, ?_⟩⟩
          · exact put_same _ _ _
          · simp only; rw [put_ne _ _ (Ne.symm d4.1)]; exact s1
          · simp only; rw [put_ne _ _ (Ne.symm d4.2.1)]; exact s2
          · simp only; rw [put_ne _ _ (Ne.symm d4.2.2.1)]; exact s3
          · simp only
            exact s4.congr fun x hx => put_ne _ _ (by rintro rfl; exact d4.2.2.2 hx)
          · rfl
          · simp only [cells, List.nodup_cons, List.mem_cons, not_or]
            exact ⟨⟨d4.1, d4.2.1, d4.2.2.1, d4.2.2.2⟩, ⟨d11.1.1, d11.1.2.1, d11.1.2.2⟩, ⟨d11.2.1.1, d11.2.1.2⟩, d11.2.2.1, d11.2.2.2⟩
          · intro x hx
            simp only [cells, List.mem_cons] at hx
            rw [put_next]
            rcases hx with rfl | rfl | rfl | rfl | hx
            · exact l1
            · exact l5 _ (by simp)
            · exact l5 _ (by simp)
            · exact l5 _ (by simp)
            · exact l5 _ (by simp [hx])
          · intro x _ hx
            exact put_ne _ _ (by rintro rfl; exact hx (by simp [cells]))
          · intro x hx
            left
            simp only [cells, List.mem_cons, hgs, List.flatMap_cons, List.mem_append, tri] at hx ⊢
            rcases hx with h | h | h | h | h <;> simp [h]
  | some q =>
    simp only
    have c1 : (m.put g.ext (.set (s.ext.erase q))).cell g.cand = .set s.cand := by
      rw [put_ne _ _ d8]; exact hcand
    rw [rdSet_eq c1]
    by_cases hcq : s.cand q = true
    swap
    · simp only [Bool.not_eq_true] at hcq
      simp only [hcq]
      simp only [Bool.not_false, if_true, SimOut]
      exact ⟨trivial, le_rfl, fun x _ hx => put_ne _ _ (by rintro rfl; exact hx (by simp [cells])), by simp⟩
    simp only [hcq, Bool.not_true, Bool.false_eq_true, if_false]
    generalize hm1 : ((m.put g.ext (.set (s.ext.erase q))).put g.cand (.set (s.cand.erase q))) = m1
    have n1 : m1.next = m.next := by rw [← hm1]; rfl
    have e1 : ∀ x, x ≠ g.ext → x ≠ g.cand → m1.cell x = m.cell x := by
      intro x h1 h2; rw [← hm1, put_ne _ _ h2, put_ne _ _ h1]
    have k1 : m1.cell g.ext = .set (s.ext.erase q) := by rw [← hm1, put_ne _ _ (Ne.symm d8), put_same]
    have k2 : m1.cell g.cand = .set (s.cand.erase q) := by rw [← hm1, put_same]
    have k3 : m1.cell g.q = .list s.q := by rw [e1 _ d3 d2]; exact hq
    have k4 : m1.cell g.subg = .set s.subg := by rw [e1 _ d6 d5]; exact hsubg
    rw [rdList_eq k3]
    cases hsq : s.q with
    | nil =>
      exact ⟨by rw [n1], fun x _ hx => e1 x (by rintro rfl; exact hx (by simp [cells]))
        (by rintro rfl; exact hx (by simp [cells])), by simp⟩
    | cons a qs =>
      simp only
      generalize hm2 : m1.put g.q (.list (some q :: qs)) = m2
      have n2 : m2.next = m.next := by rw [← hm2]; exact n1
      have e2 : ∀ x, x ≠ g.ext → x ≠ g.cand → x ≠ g.q → m2.cell x = m.cell x := by
        intro x h1 h2 h3; rw [← hm2, put_ne _ _ h3]; exact e1 x h1 h2
      have j1 : m2.cell g.ext = .set (s.ext.erase q) := by rw [← hm2, put_ne _ _ (Ne.symm d3)]; exact k1
      have j2 : m2.cell g.cand = .set (s.cand.erase q) := by rw [← hm2, put_ne _ _ (Ne.symm d2)]; exact k2
      have j3 : m2.cell g.q = .list (some q :: qs) := by rw [← hm2, put_same]
      have j4 : m2.cell g.subg = .set s.subg := by rw [← hm2, put_ne _ _ (Ne.symm d1)]; exact k4
      have r2 : Rep m2 { g with t := s.t + 1 }
          { s with q := some q :: qs, cand := s.cand.erase q, ext := s.ext.erase q, t := s.t + 1 } := by
        refine ⟨j3, j4, j2, j1, ?_, rfl, hnd, fun x hx => by rw [n2]; exact hlt x hx⟩
        exact hst.congr fun x hx => e2 x (by rintro rfl; exact d10 hx) (by rintro rfl; exact d9 hx)
          (by rintro rfl; exact d4 hx)
      have f2 : Frame m (cells g) m2 (cells g) :=
        ⟨by rw [n2], fun x _ hx => e2 x (by rintro rfl; exact hx (by simp [cells]))
          (by rintro rfl; exact hx (by simp [cells])) (by rintro rfl; exact hx (by simp [cells])), fun x hx => .inl hx⟩
      have fa : ∀ (m' : CMem n) (c : Cell n), m.next ≤ m'.next → Frame m (cells g) m' (cells g) →
          Frame m (cells g) (m'.alloc c) (m'.next :: cells g) := by
        intro m' c hn f
        refine ⟨by rw [alloc_next]; omega, ?_, ?_⟩
        · intro x hx ha; rw [alloc_ne _ _ (by omega)]; exact f.keep x hx ha
        · intro x hx
          rcases List.mem_cons.mp hx with rfl | hx
          · exact .inr hn
          · exact .inl hx
      have fb : ∀ {m' : CMem n} {x : Nat}, Frame m (cells g) m' (x :: cells g) → Frame m (cells g) m' (cells g) :=
        fun f => ⟨f.next, f.keep, fun x hx => f.cells x (by simp [hx])⟩
      have ra : ∀ {m' : CMem n} {g' : GenLoc n} {s' : MCState n} (c : Cell n), Rep m' g' s' → Rep (m'.alloc c) g' s' :=
        fun c r => r.congr (by rw [alloc_next]; omega) fun x hx => alloc_ne _ _ (r.lt x hx).ne
      rw [rdSet_eq j4]
      generalize hm3 : m2.alloc (.set (s.subg.inter (nbrSet g.adj q))) = m3
      have r3 := ra (.set (s.subg.inter (nbrSet g.adj q))) r2
      have f3 := fa m2 (.set (s.subg.inter (nbrSet g.adj q))) (by rw [n2]) f2
      have i3 : m3.cell m2.next = .set (s.subg.inter (nbrSet g.adj q)) := by rw [← hm3, alloc_same]
      rw [hm3] at r3 f3
      have n3 : m3.next = m.next + 1 := by rw [← hm3, alloc_next, n2]
      rw [rdSet_eq i3]
      by_cases hE : (s.subg.inter (nbrSet g.adj q)).isEmpty = true
      · rw [if_pos hE, if_pos hE, rdList_eq r3.q]
        have r4 := ra (.list (some q :: qs)) r3
        have f4 := fa m3 (.list (some q :: qs)) (by omega) (fb f3)
        have i4 := alloc_same m3 (.list (some q :: qs))
        refine ⟨r4, rfl, f4, ?_, ⟨_, i4⟩, by omega, by rw [alloc_next]; omega, ?_⟩
        · unfold CMem.vertices; rw [rdList_eq i4]
        · intro hx; exact absurd (r3.lt _ hx) (lt_irrefl _)
      · rw [if_neg hE, if_neg hE, rdSet_eq r3.cand]
        simp only
        generalize hm4 : m3.alloc (.set ((s.cand.erase q).inter (nbrSet g.adj q))) = m4
        have r4 := ra (.set ((s.cand.erase q).inter (nbrSet g.adj q))) r3
        have f4 := fa m3 (.set ((s.cand.erase q).inter (nbrSet g.adj q))) (by omega) (fb f3)
        have i4 : m4.cell m3.next = .set ((s.cand.erase q).inter (nbrSet g.adj q)) := by rw [← hm4, alloc_same]
        have i4' : m4.cell m2.next = .set (s.subg.inter (nbrSet g.adj q)) := by
          rw [← hm4, alloc_ne _ _ (by omega)]; exact i3
        rw [hm4] at r4 f4
        have n4 : m4.next = m.next + 2 := by rw [← hm4, alloc_next, n3]
        rw [rdSet_eq i4]
        by_cases hF : ((s.cand.erase q).inter (nbrSet g.adj q)).isEmpty = true
        · rw [if_pos hF, if_pos hF]
          exact ⟨r4, rfl, fb f4⟩
        · rw [if_neg hF, if_neg hF, rdList_eq r4.q]
          simp only
          generalize hm5 : m4.put g.q (.list (none :: some q :: qs)) = m5
          have n5 : m5.next = m.next + 2 := by rw [← hm5, put_next, n4]
          have e5 : ∀ x, x ≠ g.q → m5.cell x = m4.cell x := fun x hx => by rw [← hm5, put_ne _ _ hx]
          have i5 : m5.cell m3.next = .set ((s.cand.erase q).inter (nbrSet g.adj q)) := by
            rw [e5 _ (by omega)]; exact i4
          have i5' : m5.cell m2.next = .set (s.subg.inter (nbrSet g.adj q)) := by
            rw [e5 _ (by omega)]; exact i4'
          have f5 : Frame m (cells g) m5 (cells g) := by
            refine ⟨by omega, fun x hx ha => ?_, fun x hx => .inl hx⟩
            rw [e5 x (by rintro rfl; exact ha (by simp [cells]))]
            exact f4.keep x hx ha
          rw [rdSet_eq i5, rdSet_eq i5']
          by_cases hP : (pivot o (s.t + 1) g.adj (s.subg.inter (nbrSet g.adj q))
              ((s.cand.erase q).inter (nbrSet g.adj q))).isNone = true
          · rw [if_pos hP, if_pos hP]
            exact ⟨rfl, f5.next, f5.keep, by simp⟩
          · rw [if_neg hP, if_neg hP]
            generalize extSet o (s.t + 1) g.adj (s.subg.inter (nbrSet g.adj q))
              ((s.cand.erase q).inter (nbrSet g.adj q)) = E
            have f6 := fa m5 (.set E) (by omega) f5
            refine ⟨⟨?_, ?_, ?_, ?_, ?_, rfl, ?_, ?_⟩, rfl, ⟨f6.next, f6.keep, ?_⟩⟩
            · show (m5.alloc (.set E)).cell g.q = _
              rw [alloc_ne _ _ (by omega), ← hm5, put_same]
            · show (m5.alloc (.set E)).cell m2.next = _
              rw [alloc_ne _ _ (by omega)]; exact i5'
            · show (m5.alloc (.set E)).cell m3.next = _
              rw [alloc_ne _ _ (by omega)]; exact i5
            · exact alloc_same _ _
            · refine ⟨?_, ?_, ?_, ?_⟩
              · rw [alloc_ne _ _ (by omega), e5 _ (Ne.symm d1)]; exact r4.subg
              · rw [alloc_ne _ _ (by omega), e5 _ (Ne.symm d2)]; exact r4.cand
              · rw [alloc_ne _ _ (by omega), e5 _ (Ne.symm d3)]; exact r4.ext
              · exact StackRep.congr r4.stack fun x hx => by
                  have := l5 x hx
                  rw [alloc_ne _ _ (by omega), e5 _ (by rintro rfl; exact d4 hx)]
            · have b1 : ∀ x, m.next ≤ x → x ∉ g.stack.flatMap tri := fun x hx hm => by have := l5 x hm; omega
              simp only [cells, List.flatMap_cons, tri, List.cons_append, List.nil_append, List.nodup_cons,
                List.mem_cons, not_or]
              refine ⟨⟨by omega, by omega, by omega, d1, d2, d3, d4⟩,
                ⟨by omega, by omega, by omega, by omega, by omega, b1 _ (by omega)⟩,
                ⟨by omega, by omega, by omega, by omega, b1 _ (by omega)⟩,
                ⟨by omega, by omega, by omega, b1 _ (by omega)⟩, ⟨d5, d6, d7⟩, ⟨d8, d9⟩, d10, d11⟩
            · intro x hx
              simp only [cells, List.flatMap_cons, tri, List.cons_append, List.nil_append, List.mem_cons] at hx
              rw [alloc_next]
              rcases hx with rfl | rfl | rfl | rfl | rfl | rfl | rfl | hx
              any_goals omega
              have := l5 x hx; omega
            · intro x hx
              simp only [cells, List.flatMap_cons, tri, List.cons_append, List.nil_append, List.mem_cons] at hx ⊢
              rcases hx with h | h | h | h | h | h | h | h
              · exact .inl (.inl h)
              · right; omega
              · right; omega
              · right; omega
              · exact .inl (by simp [h])
              · exact .inl (by simp [h])
              · exact .inl (by simp [h])
              · exact .inl (by simp [h])

/-- what an answer should be if `R` are the cliques still to come -/
def AnsOk (m : CMem n) (old : List Nat) (o : Sched n) (A : BMat n) (fuel : Nat) (R : List (List (Fin n)))
    (x : GenAns × GenObj n × CMem n) : Prop :=
  match R with
  | [] => ∃ m', x = (.stopIteration, .over, m') ∧ Frame m old m' []
  | c :: R => ∃ r g' m' s' f', x = (.clique r, .live g', m') ∧ Rep m' g' s' ∧ g'.adj = A ∧ Frame m old m' (cells g') ∧
      m'.vertices r = c ∧ (∃ l, m'.cell r = .list l) ∧ m.next ≤ r ∧ r < m'.next ∧ r ∉ cells g' ∧ f' ≤ fuel ∧
      mcRun o A f' s' = .ok R

theorem run_sim (o : Sched n) {A : BMat n} (fuel : Nat) {m : CMem n} {g : GenLoc n} {s : MCState n} (r : Rep m g s)
    (hA : g.adj = A) {R : List (List (Fin n))} (h : mcRun o A fuel s = .ok R) (F : Nat) (hF : fuel ≤ F) :
    AnsOk m (cells g) o A fuel R (genRun o F g m) := by
  induction fuel generalizing m g s F with
  | zero => simp [mcRun] at h
  | succ fuel ih =>
    obtain ⟨F, rfl⟩ : ∃ F', F = F' + 1 := ⟨F - 1, by omega⟩
    unfold mcRun at h
    unfold genRun
    have sim := step_sim o r
    rw [hA] at sim
    revert sim h
    cases mcStep o A s with
    | stop =>
      intro h sim
      simp only at h
      cases h
      cases hg : genStep o g m with
      | stop m' => rw [hg] at sim; exact ⟨m', rfl, sim⟩
      | next g' m' => rw [hg] at sim; exact sim.elim
      | yield r' g' m' => rw [hg] at sim; exact sim.elim
      | raise e m' => rw [hg] at sim; exact sim.elim
    | raise e => intro h sim; cases h
    | next s' =>
      intro h sim
      simp only at h
      cases hg : genStep o g m with
      | stop m' => rw [hg] at sim; exact sim.elim
      | yield r' g' m' => rw [hg] at sim; exact sim.elim
      | raise e m' => rw [hg] at sim; exact sim.elim
      | next g' m' =>
        rw [hg] at sim
        obtain ⟨r1, a1, f1⟩ := sim
        have ih' := ih r1 (a1.trans hA) h F (by omega)
        cases R with
        | nil =>
          obtain ⟨m2, e2, f2⟩ := ih'
          exact ⟨m2, e2, f1.trans f2⟩
        | cons c R =>
          obtain ⟨r', g2, m2, s2, f', e2, z1, z2, z3, z4, z5, z6, z7, z8, z9, z10⟩ := ih'
          exact ⟨r', g2, m2, s2, f', e2, z1, z2, f1.trans z3, z4, z5, f1.next.trans z6, z7, z8, by omega, z10⟩
    | yield c s' =>
      intro h sim
      simp only at h
      cases hg : genStep o g m with
      | stop m' => rw [hg] at sim; exact sim.elim
      | next g' m' => rw [hg] at sim; exact sim.elim
      | raise e m' => rw [hg] at sim; exact sim.elim
      | yield r' g' m' =>
        rw [hg] at sim
        obtain ⟨r1, a1, f1, v1, l1, n1, n2, n3⟩ := sim
        cases hrun : mcRun o A fuel s' with
        | error e => rw [hrun] at h; cases h
        | ok R' =>
          rw [hrun] at h
          simp only [Except.map] at h
          cases h
          exact ⟨r', g', m', s', fuel, rfl, r1, a1.trans hA, ⟨f1.next, f1.keep, fun x hx => f1.cells x (by simp [hx])⟩,
            v1, l1, n1, n2, n3, by omega, hrun⟩

/-- the addresses a generator object refers to and may change -/
def objCells : GenObj n → List Nat
  | .live g => cells g
  | _ => []

/-- `R` are the cliques that the generator object will still give -/
def Rem (o : Sched n) (m : CMem n) : GenObj n → List (List (Fin n)) → Prop
  | .made a, R => ∃ A, m.cell a = .mat A ∧ maxCliques o A = .ok R
  | .live g, R => ∃ s f, f ≤ 2 ^ (n + 1) ∧ Rep m g s ∧ mcRun o g.adj f s = .ok R
  | .over, R => R = []

/-- the answer of `next` and what is left -/
theorem next_sim (o : Sched n) {m : CMem n} {x : GenObj n} {R : List (List (Fin n))} (h : Rem o m x R) :
    (R = [] ∧ ∃ m', genNext o x m = (.stopIteration, .over, m') ∧ Frame m (objCells x) m' []) ∨
    (∃ c R' r x' m', R = c :: R' ∧ genNext o x m = (.clique r, x', m') ∧ Rem o m' x' R' ∧ (∀ a, x' ≠ .made a) ∧
      Frame m (objCells x) m' (objCells x') ∧ m'.vertices r = c ∧ (∃ l, m'.cell r = .list l) ∧ m.next ≤ r ∧
      r < m'.next ∧ r ∉ objCells x' ∧ ∀ y ∈ objCells x', y < m'.next) := by
  cases x with
  | over =>
    left
    exact ⟨h, m, rfl, le_rfl, fun _ _ _ => rfl, by simp⟩
  | live g =>
    obtain ⟨s, f, hf, r, hr⟩ := h
    have := run_sim o f r rfl hr (2 ^ (n + 1)) hf
    cases R with
    | nil => exact .inl ⟨rfl, this⟩
    | cons c R =>
      obtain ⟨r', g2, m2, s2, f', e2, z1, z2, z3, z4, z5, z6, z7, z8, z9, z10⟩ := this
      exact .inr ⟨c, R, r', _, m2, rfl, e2, ⟨s2, f', by omega, z1, by rw [z2]; exact z10⟩, by simp, z3, z4, z5, z6, z7,
        z8, z1.lt⟩
  | made a =>
    obtain ⟨A, hA, hR⟩ := h
    unfold genNext
    simp only [hA]
    unfold maxCliques at hR
    by_cases hn : n = 0
    · rw [if_pos hn] at hR
      rw [if_pos hn]
      cases hR
      exact .inl ⟨rfl, m, rfl, le_rfl, fun _ _ _ => rfl, by simp⟩
    · rw [if_neg hn] at hR
      rw [if_neg hn]
      generalize hm3 : (((m.alloc (.list [none])).alloc (.set BVec.full)).alloc (.set BVec.full)) = m3
      have n1 : (m.alloc (.list [none])).next = m.next + 1 := rfl
      have n2 : ((m.alloc (.list [none])).alloc (.set BVec.full)).next = m.next + 2 := rfl
      have n3 : m3.next = m.next + 3 := by rw [← hm3]; rfl
      rw [n1, n2]
      have k0 : ∀ y, y < m.next → m3.cell y = m.cell y := by
        intro y hy
        rw [← hm3, alloc_ne _ _ (by omega), alloc_ne _ _ (by omega), alloc_ne _ _ (by omega)]
      have k1 : m3.cell m.next = .list [none] := by
        rw [← hm3, alloc_ne _ _ (by omega), alloc_ne _ _ (by omega), alloc_same]
      have k2 : m3.cell (m.next + 1) = .set BVec.full := by
        rw [← hm3, alloc_ne _ _ (by omega)]
        exact alloc_same (m.alloc (.list [none])) _
      have k3 : m3.cell (m.next + 2) = .set BVec.full := by
        rw [← hm3]
        exact alloc_same ((m.alloc (.list [none])).alloc (.set BVec.full)) _
      rw [rdSet_eq k2, rdSet_eq k3]
      by_cases hP : (pivot o 0 A BVec.full BVec.full).isNone = true
      · rw [if_pos hP] at hR; cases hR
      · rw [if_neg hP] at hR
        rw [if_neg hP]
        simp only [n3]
        have r4 : Rep (m3.alloc (.set (extSet o 0 A BVec.full BVec.full)))
            ⟨A, m.next, m.next + 1, m.next + 2, m.next + 3, [], 1⟩ (mcInit o A) := by
          refine ⟨?_, ?_, ?_, ?_, trivial, rfl, ?_, ?_⟩
          · show (m3.alloc _).cell m.next = _
            rw [alloc_ne _ _ (by omega)]; exact k1
          · show (m3.alloc _).cell (m.next + 1) = _
            rw [alloc_ne _ _ (by omega)]; exact k2
          · show (m3.alloc _).cell (m.next + 2) = _
            rw [alloc_ne _ _ (by omega)]; exact k3
          · show (m3.alloc _).cell (m.next + 3) = _
            rw [← n3]; exact alloc_same _ _
          · simp [cells]
          · intro y hy
            rw [alloc_next, n3]
            simp only [cells, List.flatMap_nil, List.mem_cons, List.not_mem_nil, or_false] at hy
            omega
        have fr : Frame m [] (m3.alloc (.set (extSet o 0 A BVec.full BVec.full)))
            (cells (n := n) ⟨A, m.next, m.next + 1, m.next + 2, m.next + 3, [], 1⟩) := by
          refine ⟨by rw [alloc_next]; omega, ?_, ?_⟩
          · intro y hy _
            rw [alloc_ne _ _ (by omega)]; exact k0 y hy
          · intro y hy
            simp only [cells, List.flatMap_nil, List.mem_cons, List.not_mem_nil, or_false] at hy
            right; omega
        have := run_sim o (2 ^ (n + 1)) r4 rfl hR (2 ^ (n + 1)) le_rfl
        cases R with
        | nil =>
          obtain ⟨m', e, f⟩ := this
          exact .inl ⟨rfl, m', e, fr.trans f⟩
        | cons c R =>
          obtain ⟨r', g2, m2, s2, f', e2, z1, z2, z3, z4, z5, z6, z7, z8, z9, z10⟩ := this
          refine .inr ⟨c, R, r', _, m2, rfl, e2, ⟨s2, f', by omega, z1, by rw [z2]; exact z10⟩, by simp, fr.trans z3, z4,
            z5, ?_, z7, z8, z1.lt⟩
          exact fr.next.trans z6

/-- to whom a cell belongs -/
inductive Owner where
  | array (k : Nat)
  | list (k : Nat)
  | gen (i : Nat)
  deriving DecidableEq

/-- what holds in every session -/
structure Inv (o : Nat → Sched n) (s : CliqueSession n) (own : Nat → Owner) : Prop where
  arr : ∀ k a, s.arrays[k]? = some a → a < s.mem.next ∧ own a = .array k ∧ ∃ A, s.mem.cell a = .mat A
  lst : ∀ k r, s.lists[k]? = some r → r < s.mem.next ∧ own r = .list k ∧ ∃ l, s.mem.cell r = .list l
  rem : ∀ i x, s.gens[i]? = some x → ∃ R, Rem (o i) s.mem x R
  made : ∀ (i : Nat) (a : Nat), s.gens[i]? = some (.made a) → a ∈ s.arrays
  own : ∀ i x, s.gens[i]? = some x → ∀ y ∈ objCells x, y < s.mem.next ∧ own y = .gen i

theorem Rem.congr {o : Sched n} {m m' : CMem n} {x : GenObj n} {R : List (List (Fin n))} (h : Rem o m x R)
    (hn : m.next ≤ m'.next) (he : ∀ y ∈ objCells x, m'.cell y = m.cell y)
    (ha : ∀ a, x = .made a → m'.cell a = m.cell a) : Rem o m' x R := by
  cases x with
  | over => exact h
  | live g =>
    obtain ⟨s, f, hf, r, hr⟩ := h
    exact ⟨s, f, hf, r.congr hn he, hr⟩
  | made a =>
    obtain ⟨A, hA, hR⟩ := h
    exact ⟨A, by rw [ha a rfl]; exact hA, hR⟩

/-- what `next` shows if `R` are the cliques still to come -/
def seen : List (List (Fin n)) → GenSeen n
  | [] => .stopIteration
  | c :: _ => .clique c

/-- the answers to the calls of `next` on generator `i` -/
def answers (s : CliqueSession n) (i : Nat) : List (GenSeen n) := (s.log.filter fun e => e.1 == i).map (·.2)

/-- what a call does to the generators and to the lists that were handed out -/
structure Track (o : Nat → Sched n) (s : CliqueSession n) (c : CliqueCall n) (s' : CliqueSession n) : Prop where
  hit : ∀ i x R, c = .next i → s.gens[i]? = some x → Rem (o i) s.mem x R →
    answers s' i = answers s i ++ [seen R] ∧
      ∃ x', s'.gens[i]? = some x' ∧ Rem (o i) s'.mem x' R.tail ∧ ∀ a, x' ≠ .made a
  other : ∀ i x, c ≠ .next i → s.gens[i]? = some x → s'.gens[i]? = some x ∧ answers s' i = answers s i ∧
    ∀ R, (∀ a, x ≠ .made a) → Rem (o i) s.mem x R → Rem (o i) s'.mem x R
  lists : ∀ k r, s.lists[k]? = some r → s'.lists[k]? = some r ∧
    ((∀ l, c ≠ .change k l) → s'.mem.cell r = s.mem.cell r)
  arrays : ∀ k a, s.arrays[k]? = some a → s'.arrays[k]? = some a ∧
    ((∀ A, c ≠ .write k A) → s'.mem.cell a = s.mem.cell a)

theorem getElem?_append_some {α : Type} {l : List α} {b : α} {k : Nat} {a : α} (h : (l ++ [b])[k]? = some a) :
    l[k]? = some a ∨ (k = l.length ∧ a = b) := by
  by_cases hk : k < l.length
  · left; rw [List.getElem?_append_left hk] at h; exact h
  · rw [List.getElem?_append_right (by omega)] at h
    right
    by_cases h0 : k - l.length = 0
    · rw [h0] at h
      refine ⟨by omega, ?_⟩
      simpa using h.symm
    · rw [List.getElem?_eq_none (by simp; omega)] at h; cases h

theorem getElem?_append_of_some {α : Type} {l : List α} {b : α} {k : Nat} {a : α} (h : l[k]? = some a) :
    (l ++ [b])[k]? = some a := by
  have hk : k < l.length := by
    by_contra hk
    rw [List.getElem?_eq_none (by omega)] at h; cases h
  rw [List.getElem?_append_left hk]; exact h

theorem step_ok (o : Nat → Sched n) {s : CliqueSession n} {own : Nat → Owner} (h : Inv o s own) (c : CliqueCall n) :
    (∃ own', Inv o (s.step o c) own') ∧ Track o s c (s.step o c) := by
  have arrNe : ∀ (i : Nat) (x : GenObj n) (y k a : Nat), s.gens[i]? = some x → y ∈ objCells x → s.arrays[k]? = some a → y ≠ a := by
    rintro i x y k a hx hy ha rfl
    have h1 := (h.own i x hx y hy).2
    rw [(h.arr k y ha).2.1] at h1; cases h1
  have lstNe : ∀ (i : Nat) (x : GenObj n) (y k a : Nat), s.gens[i]? = some x → y ∈ objCells x → s.lists[k]? = some a → y ≠ a := by
    rintro i x y k a hx hy ha rfl
    have h1 := (h.own i x hx y hy).2
    rw [(h.lst k y ha).2.1] at h1; cases h1
  have arrLst : ∀ k a k' r : Nat, s.arrays[k]? = some a → s.lists[k']? = some r → a ≠ r := by
    rintro k a k' r ha hr rfl
    have h1 := (h.arr k a ha).2.1
    rw [(h.lst k' a hr).2.1] at h1; cases h1
  have madeIdx : ∀ i a : Nat, s.gens[i]? = some (.made a) → ∃ k : Nat, s.arrays[k]? = some a := by
    intro i a ha
    obtain ⟨k, hk, e⟩ := List.mem_iff_getElem.mp (h.made i a ha)
    exact ⟨k, by rw [List.getElem?_eq_getElem hk, e]⟩
  cases c with
  | array A =>
    have ce : ∀ y, y < s.mem.next → (s.mem.alloc (.mat A)).cell y = s.mem.cell y :=
      fun y hy => alloc_ne _ _ hy.ne
    have cr : ∀ (i : Nat) (x : GenObj n) (R : List (List (Fin n))), s.gens[i]? = some x → Rem (o i) s.mem x R → Rem (o i) (s.mem.alloc (.mat A)) x R := by
      intro i x R hx hR
      refine hR.congr (by rw [alloc_next]; omega) (fun y hy => ce y (h.own i x hx y hy).1) ?_
      rintro a rfl
      obtain ⟨k, hk⟩ := madeIdx i a hx
      exact ce a (h.arr k a hk).1
    refine ⟨⟨fun y => if y = s.mem.next then .array s.arrays.length else own y, ?_⟩, ?_⟩
    · refine ⟨?_, ?_, ?_, ?_, ?_⟩
      · intro k a hk
        simp only [CliqueSession.step] at hk ⊢
        rcases getElem?_append_some hk with hk | ⟨rfl, rfl⟩
        · obtain ⟨h1, h2, h3⟩ := h.arr k a hk
          refine ⟨by rw [alloc_next]; omega, by rw [if_neg (by omega)]; exact h2, ?_⟩
          rw [ce a h1]; exact h3
        · exact ⟨by rw [alloc_next]; omega, by simp, _, alloc_same _ _⟩
      · intro k r hk
        obtain ⟨h1, h2, h3⟩ := h.lst k r hk
        simp only [CliqueSession.step]
        refine ⟨by rw [alloc_next]; omega, by rw [if_neg (by omega)]; exact h2, ?_⟩
        rw [ce r h1]; exact h3
      · intro i x hx
        obtain ⟨R, hR⟩ := h.rem i x hx
        exact ⟨R, cr i x R hx hR⟩
      · intro i a hx
        exact List.mem_append_left _ (h.made i a hx)
      · intro i x hx y hy
        obtain ⟨h1, h2⟩ := h.own i x hx y hy
        simp only [CliqueSession.step]
        exact ⟨by rw [alloc_next]; omega, by rw [if_neg (by omega)]; exact h2⟩
    · refine ⟨fun i x R hc => (by cases hc), fun i x _ hx => ⟨hx, rfl, fun R _ hR => cr i x R hx hR⟩,
        fun k r hk => ⟨hk, fun _ => ce r (h.lst k r hk).1⟩,
        fun k a hk => ⟨getElem?_append_of_some hk, fun _ => ce a (h.arr k a hk).1⟩⟩
  | write k A =>
    cases hk : s.arrays[k]? with
    | none =>
      have hs : s.step o (.write k A) = s := by simp only [CliqueSession.step, hk]
      rw [hs]
      exact ⟨⟨own, h⟩, fun i x R hc => (by cases hc), fun i x _ hx => ⟨hx, rfl, fun R _ hR => hR⟩,
        fun k r hk => ⟨hk, fun _ => rfl⟩, fun k a hk => ⟨hk, fun _ => rfl⟩⟩
    | some a =>
      have hs : s.step o (.write k A) = { s with mem := s.mem.put a (.mat A) } := by
        simp only [CliqueSession.step, hk]
      rw [hs]
      have ce : ∀ y, y ≠ a → (s.mem.put a (.mat A)).cell y = s.mem.cell y := fun y hy => put_ne _ _ hy
      have cr : ∀ (i : Nat) (x : GenObj n) (R : List (List (Fin n))), (∀ b, x ≠ .made b) → s.gens[i]? = some x → Rem (o i) s.mem x R →
          Rem (o i) (s.mem.put a (.mat A)) x R := by
        intro i x R hb hx hR
        exact hR.congr le_rfl (fun y hy => ce y (arrNe i x y k a hx hy hk)) fun b hb' => absurd hb' (hb b)
      refine ⟨⟨own, ?_⟩, ?_⟩
      · refine ⟨?_, ?_, ?_, h.made, h.own⟩
        · intro k' a' hk'
          obtain ⟨h1, h2, h3⟩ := h.arr k' a' hk'
          refine ⟨h1, h2, ?_⟩
          by_cases ha : a' = a
          · subst ha; exact ⟨A, put_same _ _ _⟩
          · simp only; rw [ce a' ha]; exact h3
        · intro k' r hk'
          obtain ⟨h1, h2, h3⟩ := h.lst k' r hk'
          refine ⟨h1, h2, ?_⟩
          simp only; rw [ce r (arrLst k a k' r hk hk').symm]; exact h3
        · intro i x hx
          obtain ⟨R, hR⟩ := h.rem i x hx
          cases x with
          | over => exact ⟨R, hR⟩
          | live g => exact ⟨R, cr i _ R (by simp) hx hR⟩
          | made b =>
            by_cases hb : b = a
            · subst hb
              obtain ⟨R', hR'⟩ := maxCliques_ok (o i) A
              exact ⟨R', A, put_same _ _ _, hR'⟩
            · exact ⟨R, hR.congr le_rfl (by simp [objCells]) fun b' hb' => by cases hb'; exact ce b hb⟩
      · refine ⟨fun i x R hc => (by cases hc), fun i x _ hx => ⟨hx, rfl, fun R hb hR => cr i x R hb hx hR⟩,
          fun k' r hk' => ⟨hk', fun _ => ce r (arrLst k a k' r hk hk').symm⟩,
          fun k' a' hk' => ⟨hk', fun hc => ce a' ?_⟩⟩
        rintro rfl
        have h1 := (h.arr k a' hk).2.1
        rw [(h.arr k' a' hk').2.1] at h1
        cases h1
        exact hc A rfl
  | gen k =>
    cases hk : s.arrays[k]? with
    | none =>
      have hs : s.step o (.gen k) = s := by simp only [CliqueSession.step, hk]
      rw [hs]
      exact ⟨⟨own, h⟩, fun i x R hc => (by cases hc), fun i x _ hx => ⟨hx, rfl, fun R _ hR => hR⟩,
        fun k r hk => ⟨hk, fun _ => rfl⟩, fun k a hk => ⟨hk, fun _ => rfl⟩⟩
    | some a =>
      have hs : s.step o (.gen k) = { s with gens := s.gens ++ [.made a] } := by
        simp only [CliqueSession.step, hk]
      rw [hs]
      refine ⟨⟨own, ⟨h.arr, h.lst, ?_, ?_, ?_⟩⟩, ?_⟩
      · intro i x hx
        rcases getElem?_append_some hx with hx | ⟨-, rfl⟩
        · exact h.rem i x hx
        · obtain ⟨A, hA⟩ := (h.arr k a hk).2.2
          obtain ⟨R, hR⟩ := maxCliques_ok (o i) A
          exact ⟨R, A, hA, hR⟩
      · intro i b hx
        rcases getElem?_append_some hx with hx | ⟨-, e⟩
        · exact h.made i b hx
        · cases e; exact List.mem_of_getElem? hk
      · intro i x hx y hy
        rcases getElem?_append_some hx with hx | ⟨-, rfl⟩
        · exact h.own i x hx y hy
        · simp [objCells] at hy
      · exact ⟨fun i x R hc => (by cases hc), fun i x _ hx => ⟨getElem?_append_of_some hx, rfl, fun R _ hR => hR⟩,
          fun k r hk => ⟨hk, fun _ => rfl⟩, fun k a hk => ⟨hk, fun _ => rfl⟩⟩
  | change k l =>
    cases hk : s.lists[k]? with
    | none =>
      have hs : s.step o (.change k l) = s := by simp only [CliqueSession.step, hk]
      rw [hs]
      exact ⟨⟨own, h⟩, fun i x R hc => (by cases hc), fun i x _ hx => ⟨hx, rfl, fun R _ hR => hR⟩,
        fun k r hk => ⟨hk, fun _ => rfl⟩, fun k a hk => ⟨hk, fun _ => rfl⟩⟩
    | some r =>
      have hs : s.step o (.change k l) = { s with mem := s.mem.put r (.list (l.reverse.map some)) } := by
        simp only [CliqueSession.step, hk]
      rw [hs]
      have ce : ∀ y, y ≠ r → (s.mem.put r (.list (l.reverse.map some))).cell y = s.mem.cell y := fun y hy => put_ne _ _ hy
      have cr : ∀ (i : Nat) (x : GenObj n) (R : List (List (Fin n))), s.gens[i]? = some x → Rem (o i) s.mem x R →
          Rem (o i) (s.mem.put r (.list (l.reverse.map some))) x R := by
        intro i x R hx hR
        refine hR.congr le_rfl (fun y hy => ce y (lstNe i x y k r hx hy hk)) ?_
        rintro a rfl
        obtain ⟨k', hk'⟩ := madeIdx i a hx
        exact ce a (arrLst k' a k r hk' hk)
      refine ⟨⟨own, ?_⟩, ?_⟩
      · refine ⟨?_, ?_, ?_, h.made, h.own⟩
        · intro k' a hk'
          obtain ⟨h1, h2, h3⟩ := h.arr k' a hk'
          refine ⟨h1, h2, ?_⟩
          simp only; rw [ce a (arrLst k' a k r hk' hk)]; exact h3
        · intro k' r' hk'
          obtain ⟨h1, h2, h3⟩ := h.lst k' r' hk'
          refine ⟨h1, h2, ?_⟩
          by_cases hr : r' = r
          · subst hr; exact ⟨_, put_same _ _ _⟩
          · simp only; rw [ce r' hr]; exact h3
        · intro i x hx
          obtain ⟨R, hR⟩ := h.rem i x hx
          exact ⟨R, cr i x R hx hR⟩
      · refine ⟨fun i x R hc => (by cases hc), fun i x _ hx => ⟨hx, rfl, fun R _ hR => cr i x R hx hR⟩,
          fun k' r' hk' => ⟨hk', fun hc => ce r' ?_⟩,
          fun k' a hk' => ⟨hk', fun _ => ce a (arrLst k' a k r hk' hk)⟩⟩
        rintro rfl
        have h1 := (h.lst k r' hk).2.1
        rw [(h.lst k' r' hk').2.1] at h1
        cases h1
        exact hc l rfl
  | next i =>
    cases hi : s.gens[i]? with
    | none =>
      have hs : s.step o (.next i) = s := by simp only [CliqueSession.step, hi]
      rw [hs]
      refine ⟨⟨own, h⟩, fun j x R hc hx => ?_, fun i x _ hx => ⟨hx, rfl, fun R _ hR => hR⟩,
        fun k r hk => ⟨hk, fun _ => rfl⟩, fun k a hk => ⟨hk, fun _ => rfl⟩⟩
      cases hc; rw [hi] at hx; cases hx
    | some x =>
      have hlt : i < s.gens.length := by
        by_contra hk
        rw [List.getElem?_eq_none (by omega)] at hi; cases hi
      obtain ⟨R, hR⟩ := h.rem i x hi
      have main : ∀ m', Frame s.mem (objCells x) m' [] →
          (∀ k a : Nat, s.arrays[k]? = some a → m'.cell a = s.mem.cell a) ∧
          (∀ k r : Nat, s.lists[k]? = some r → m'.cell r = s.mem.cell r) ∧
          (∀ (j : Nat) (y : GenObj n) (Q : List (List (Fin n))), j ≠ i → s.gens[j]? = some y → Rem (o j) s.mem y Q → Rem (o j) m' y Q) := by
        intro m' f
        have ka : ∀ k a : Nat, s.arrays[k]? = some a → m'.cell a = s.mem.cell a := fun k a ha =>
          f.keep a (h.arr k a ha).1 fun hm => arrNe i x a k a hi hm ha rfl
        refine ⟨ka, fun k r hr => f.keep r (h.lst k r hr).1 fun hm => lstNe i x r k r hi hm hr rfl, ?_⟩
        intro j y Q hj hy hQ
        refine hQ.congr f.next ?_ ?_
        · intro z hz
          obtain ⟨z1, z2⟩ := h.own j y hy z hz
          refine f.keep z z1 fun hm => ?_
          have := (h.own i x hi z hm).2
          rw [z2] at this
          cases this; exact hj rfl
        · rintro a rfl
          obtain ⟨k, hk⟩ := madeIdx j a hy
          exact ka k a hk
      have setNe : ∀ (x' : GenObj n) (j : Nat), j ≠ i → (s.gens.set i x')[j]? = s.gens[j]? := by
        intro x' j hj; rw [List.getElem?_set_ne (Ne.symm hj)]
      have setEq : ∀ (x' : GenObj n), (s.gens.set i x')[i]? = some x' := by
        intro x'; rw [List.getElem?_set_self hlt]
      rcases next_sim (o i) hR with ⟨-, m', e, f⟩ | ⟨c, R', r, x', m', -, e, hR', nm, f, hv, hl, n1, n2, n3, n4⟩
      · have hs : s.step o (.next i) =
            { s with mem := m', gens := s.gens.set i .over, log := s.log ++ [(i, .stopIteration)] } := by
          simp only [CliqueSession.step, hi, e]
        rw [hs]
        obtain ⟨ka, kl, kr⟩ := main m' f
        refine ⟨⟨own, ?_⟩, ?_⟩
        · refine ⟨?_, ?_, ?_, ?_, ?_⟩
          · intro k a hk
            obtain ⟨h1, h2, h3⟩ := h.arr k a hk
            exact ⟨h1.trans_le f.next, h2, by simp only; rw [ka k a hk]; exact h3⟩
          · intro k a hk
            obtain ⟨h1, h2, h3⟩ := h.lst k a hk
            exact ⟨h1.trans_le f.next, h2, by simp only; rw [kl k a hk]; exact h3⟩
          · intro j y hy
            simp only at hy
            by_cases hj : j = i
            · subst hj; rw [setEq] at hy; cases hy; exact ⟨[], rfl⟩
            · rw [setNe _ _ hj] at hy
              obtain ⟨Q, hQ⟩ := h.rem j y hy
              exact ⟨Q, kr j y Q hj hy hQ⟩
          · intro j a hy
            simp only at hy
            by_cases hj : j = i
            · subst hj; rw [setEq] at hy; cases hy
            · rw [setNe _ _ hj] at hy; exact h.made j a hy
          · intro j y hy z hz
            simp only at hy
            by_cases hj : j = i
            · subst hj; rw [setEq] at hy; cases hy; simp [objCells] at hz
            · rw [setNe _ _ hj] at hy
              obtain ⟨z1, z2⟩ := h.own j y hy z hz
              exact ⟨z1.trans_le f.next, z2⟩
        · refine ⟨?_, ?_, fun k r hk => ⟨hk, fun _ => kl k r hk⟩, fun k a hk => ⟨hk, fun _ => ka k a hk⟩⟩
          · intro j y Q hc hy hQ
            cases hc
            rw [hi] at hy; cases hy
            rcases next_sim (o i) hQ with ⟨rfl, m2, e2, -⟩ | ⟨c2, R2, r2, x2, m2, -, e2, -⟩
            · refine ⟨by simp [answers, seen], .over, setEq _, rfl, by simp⟩
            · rw [e] at e2; simp at e2
          · intro j y hc hy
            have hj : j ≠ i := fun hj => hc (by rw [hj])
            refine ⟨by simp only; rw [setNe _ _ hj]; exact hy, ?_, fun Q _ hQ => kr j y Q hj hy hQ⟩
            simp [answers, hj.symm]
      · have hs : s.step o (.next i) =
            { s with mem := m', gens := s.gens.set i x', lists := s.lists ++ [r],
                     log := s.log ++ [(i, .clique (m'.vertices r))] } := by
          simp only [CliqueSession.step, hi, e]
        rw [hs]
        obtain ⟨ka, kl, kr⟩ := main m' ⟨f.next, f.keep, by simp⟩
        refine ⟨⟨fun y => if y = r then .list s.lists.length else if s.mem.next ≤ y then .gen i else own y, ?_⟩, ?_⟩
        · have ow : ∀ y, y < s.mem.next → (if y = r then Owner.list s.lists.length else
              if s.mem.next ≤ y then .gen i else own y) = own y := by
            intro y hy
            rw [if_neg (by omega), if_neg (by omega)]
          refine ⟨?_, ?_, ?_, ?_, ?_⟩
          · intro k a hk
            obtain ⟨h1, h2, h3⟩ := h.arr k a hk
            refine ⟨h1.trans_le f.next, ?_, by simp only; rw [ka k a hk]; exact h3⟩
            rw [ow a h1]; exact h2
          · intro k a hk
            rcases getElem?_append_some hk with hk | ⟨rfl, rfl⟩
            · obtain ⟨h1, h2, h3⟩ := h.lst k a hk
              refine ⟨h1.trans_le f.next, ?_, by simp only; rw [kl k a hk]; exact h3⟩
              rw [ow a h1]; exact h2
            · exact ⟨n2, by simp, hl⟩
          · intro j y hy
            simp only at hy
            by_cases hj : j = i
            · subst hj; rw [setEq] at hy; cases hy; exact ⟨R', hR'⟩
            · rw [setNe _ _ hj] at hy
              obtain ⟨Q, hQ⟩ := h.rem j y hy
              exact ⟨Q, kr j y Q hj hy hQ⟩
          · intro j a hy
            simp only at hy
            by_cases hj : j = i
            · subst hj; rw [setEq] at hy; cases hy; exact absurd rfl (nm a)
            · rw [setNe _ _ hj] at hy; exact h.made j a hy
          · intro j y hy z hz
            simp only at hy
            by_cases hj : j = i
            · subst hj; rw [setEq] at hy; cases hy
              refine ⟨n4 z hz, ?_⟩
              have hzr : z ≠ r := by rintro rfl; exact n3 hz
              rw [if_neg hzr]
              rcases f.cells z hz with hz' | hz'
              · obtain ⟨z1, z2⟩ := h.own j x hi z hz'
                rw [if_neg (by omega)]; exact z2
              · rw [if_pos hz']
            · rw [setNe _ _ hj] at hy
              obtain ⟨z1, z2⟩ := h.own j y hy z hz
              refine ⟨z1.trans_le f.next, ?_⟩
              rw [ow z z1]; exact z2
        · refine ⟨?_, ?_, fun k r hk => ⟨getElem?_append_of_some hk, fun _ => kl k r hk⟩,
            fun k a hk => ⟨hk, fun _ => ka k a hk⟩⟩
          · intro j y Q hc hy hQ
            cases hc
            rw [hi] at hy; cases hy
            rcases next_sim (o i) hQ with ⟨rfl, m2, e2, -⟩ | ⟨c2, R2, r2, x2, m2, rfl, e2, q1, q2, -, q3, -⟩
            · rw [e] at e2; simp at e2
            · rw [e] at e2
              simp only [Prod.mk.injEq, GenAns.clique.injEq] at e2
              obtain ⟨rfl, rfl, rfl⟩ := e2
              refine ⟨by simp [answers, seen, q3], x', setEq _, q1, q2⟩
          · intro j y hc hy
            have hj : j ≠ i := fun hj => hc (by rw [hj])
            refine ⟨by simp only; rw [setNe _ _ hj]; exact hy, ?_, fun Q _ hQ => kr j y Q hj hy hQ⟩
            simp [answers, hj.symm]

theorem inv_init (o : Nat → Sched n) : Inv o (CliqueSession.run o []) (fun _ => .gen 0) := by
  refine ⟨?_, ?_, ?_, ?_, ?_⟩ <;> simp [CliqueSession.run]

theorem run_concat (o : Nat → Sched n) (cs ds : List (CliqueCall n)) :
    CliqueSession.run o (cs ++ ds) = ds.foldl (CliqueSession.step o) (CliqueSession.run o cs) := by
  simp [CliqueSession.run]

theorem inv_foldl (o : Nat → Sched n) (cs : List (CliqueCall n)) {s : CliqueSession n} {own : Nat → Owner}
    (h : Inv o s own) : ∃ own', Inv o (cs.foldl (CliqueSession.step o) s) own' := by
  induction cs generalizing s own with
  | nil => exact ⟨own, h⟩
  | cons c cs ih =>
    obtain ⟨⟨own', h'⟩, -⟩ := step_ok o h c
    exact ih h'

theorem inv_run (o : Nat → Sched n) (cs : List (CliqueCall n)) : ∃ own, Inv o (CliqueSession.run o cs) own :=
  inv_foldl o cs (inv_init o)

/-- is this call a `next` on generator `i`? -/
def isNext (i : Nat) : CliqueCall n → Bool
  | .next j => j == i
  | _ => false

theorem answers_foldl (o : Nat → Sched n) (i : Nat) (cs : List (CliqueCall n)) {s : CliqueSession n} {own : Nat → Owner}
    (h : Inv o s own) {x : GenObj n} (hx : s.gens[i]? = some x) (hm : ∀ a, x ≠ .made a) {R : List (List (Fin n))}
    (hR : Rem (o i) s.mem x R) :
    answers (cs.foldl (CliqueSession.step o) s) i =
      answers s i ++ (List.range (cs.countP (isNext i))).map fun j => seen (R.drop j) := by
  induction cs generalizing s own x R with
  | nil => simp
  | cons c cs ih =>
    obtain ⟨⟨own', h'⟩, tr⟩ := step_ok o h c
    rw [List.foldl_cons]
    by_cases hc : c = .next i
    · obtain ⟨e1, x', hx', hR', hm'⟩ := tr.hit i x R hc hx hR
      rw [ih h' hx' hm' hR', e1, List.countP_cons_of_pos (by simp [hc, isNext]), List.range_succ_eq_map]
      simp [List.append_assoc, Function.comp_def, List.drop_tail]
    · obtain ⟨hx', e1, hR'⟩ := tr.other i x hc hx
      rw [ih h' hx' hm (hR' R hm hR), e1, List.countP_cons_of_neg]
      cases c with
      | next j => simp only [isNext, beq_iff_eq]; intro hj; exact hc (by rw [hj])
      | _ => simp [isNext]

/-- nobody called `next` on generator `i` -/
def Unused (s : CliqueSession n) (i : Nat) : Prop := ∀ x, s.gens[i]? = some x → ∃ a, x = .made a

theorem step_log (o : Nat → Sched n) (s : CliqueSession n) (c : CliqueCall n) (i : Nat) (hi : s.gens[i]? = none) :
    answers (s.step o c) i = answers s i := by
  cases c with
  | array A => rfl
  | write k A => simp only [CliqueSession.step]; split <;> rfl
  | gen k => simp only [CliqueSession.step]; split <;> rfl
  | change k l => simp only [CliqueSession.step]; split <;> rfl
  | next j =>
    simp only [CliqueSession.step]
    split
    · rfl
    · rename_i x hx
      have hj : j ≠ i := by rintro rfl; rw [hi] at hx; cases hx
      split <;> simp [answers, hj]

theorem unused_step (o : Nat → Sched n) {s : CliqueSession n} {own : Nat → Owner} (h : Inv o s own)
    (hu : ∀ i, Unused s i → answers s i = []) (c : CliqueCall n) (i : Nat) (hi : Unused (s.step o c) i) :
    answers (s.step o c) i = [] := by
  obtain ⟨-, tr⟩ := step_ok o h c
  cases hx : s.gens[i]? with
  | none =>
    rw [step_log o s c i hx]
    exact hu i fun x hx' => by rw [hx] at hx'; cases hx'
  | some x =>
    obtain ⟨R, hR⟩ := h.rem i x hx
    by_cases hc : c = .next i
    · obtain ⟨-, x', hx', -, hm⟩ := tr.hit i x R hc hx hR
      obtain ⟨a, rfl⟩ := hi x' hx'
      exact absurd rfl (hm a)
    · obtain ⟨hx', e, -⟩ := tr.other i x hc hx
      rw [e]
      refine hu i fun y hy => ?_
      rw [hx] at hy; cases hy
      exact hi x hx'

theorem unused_run (o : Nat → Sched n) (cs : List (CliqueCall n)) (i : Nat)
    (hi : Unused (CliqueSession.run o cs) i) : answers (CliqueSession.run o cs) i = [] := by
  induction cs using List.reverseRecOn generalizing i with
  | nil => simp [CliqueSession.run, answers]
  | append_singleton cs c ih =>
    obtain ⟨own, h⟩ := inv_run o cs
    have hr : CliqueSession.run o (cs ++ [c]) = (CliqueSession.run o cs).step o c := by
      rw [run_concat]; rfl
    rw [hr] at hi ⊢
    exact unused_step o h ih c i hi

/-- the answers of a generator, from its first `next` on -/
theorem answers_run (o : Nat → Sched n) (i : Nat) (cs ds : List (CliqueCall n)) {a : Nat} {A : BMat n}
    {R : List (List (Fin n))} (hx : (CliqueSession.run o cs).gens[i]? = some (.made a))
    (hA : (CliqueSession.run o cs).mem.cell a = .mat A) (hR : maxCliques (o i) A = .ok R) :
    answers (CliqueSession.run o (cs ++ .next i :: ds)) i =
      (List.range (1 + ds.countP (isNext i))).map fun j => seen (R.drop j) := by
  obtain ⟨own, h⟩ := inv_run o cs
  have h0 : answers (CliqueSession.run o cs) i = [] :=
    unused_run o cs i fun x hx' => by rw [hx] at hx'; cases hx'; exact ⟨a, rfl⟩
  obtain ⟨⟨own', h'⟩, tr⟩ := step_ok o h (.next i)
  obtain ⟨e1, x', hx', hR', hm'⟩ := tr.hit i _ R rfl hx ⟨A, hA, hR⟩
  rw [run_concat, List.foldl_cons, answers_foldl o i ds h' hx' hm' hR', e1, h0, Nat.add_comm, List.range_succ_eq_map]
  simp [Function.comp_def]

/-- arrays and lists of the caller keep their contents until the caller changes them -/
theorem keep_foldl (o : Nat → Sched n) (ds : List (CliqueCall n)) {s : CliqueSession n} {own : Nat → Owner}
    (h : Inv o s own) :
    (∀ k r, s.lists[k]? = some r → (∀ l, .change k l ∉ ds) →
      (ds.foldl (CliqueSession.step o) s).lists[k]? = some r ∧
      (ds.foldl (CliqueSession.step o) s).mem.cell r = s.mem.cell r) ∧
    (∀ k a, s.arrays[k]? = some a → (∀ A, .write k A ∉ ds) →
      (ds.foldl (CliqueSession.step o) s).arrays[k]? = some a ∧
      (ds.foldl (CliqueSession.step o) s).mem.cell a = s.mem.cell a) := by
  induction ds generalizing s own with
  | nil => exact ⟨fun k r hr _ => ⟨hr, rfl⟩, fun k r hr _ => ⟨hr, rfl⟩⟩
  | cons c ds ih =>
    obtain ⟨⟨own', h'⟩, tr⟩ := step_ok o h c
    obtain ⟨i1, i2⟩ := ih h'
    refine ⟨fun k r hr hd => ?_, fun k r hr hd => ?_⟩
    · obtain ⟨e1, e2⟩ := tr.lists k r hr
      obtain ⟨e3, e4⟩ := i1 k r e1 fun l hl => hd l (by simp [hl])
      exact ⟨e3, e4.trans (e2 fun l hl => hd l (by simp [hl]))⟩
    · obtain ⟨e1, e2⟩ := tr.arrays k r hr
      obtain ⟨e3, e4⟩ := i2 k r e1 fun l hl => hd l (by simp [hl])
      exact ⟨e3, e4.trans (e2 fun l hl => hd l (by simp [hl]))⟩

/-- a generator that nobody called `next` on stays as it is -/
theorem made_foldl (o : Nat → Sched n) (i : Nat) (ds : List (CliqueCall n)) {s : CliqueSession n} {own : Nat → Owner}
    (h : Inv o s own) {x : GenObj n} (hx : s.gens[i]? = some x) (hd : .next i ∉ ds) :
    (ds.foldl (CliqueSession.step o) s).gens[i]? = some x := by
  induction ds generalizing s own with
  | nil => exact hx
  | cons c ds ih =>
    obtain ⟨⟨own', h'⟩, tr⟩ := step_ok o h c
    exact ih h' (tr.other i x (by rintro rfl; exact hd (by simp)) hx).1 fun hm => hd (by simp [hm])

end GS
end Medil

import Verif.Props.Heuristic
/-
  C220, C221: adjacency matrices that are not symmetric.
-/
namespace Medil
variable {n : Nat}

/-! ### max_cliques on any matrix -/

/-- the current path (newest vertex first): every vertex is an out-neighbour of all earlier ones; `subg` holds the common out-neighbours -/
structure DirFrame (A : BMat n) (R : List (Fin n)) (subg cand ext : BVec n) : Prop where
  path : R.Pairwise fun a b => Adj A b a
  hsubg : ∀ v, subg v = true ↔ ∀ r ∈ R, Adj A r v
  hcand : ∀ v, cand v = true → subg v = true
  hext : ∀ v, ext v = true → cand v = true

inductive DirStack (A : BMat n) : List (Fin n) → List (BVec n × BVec n × BVec n) → Prop
  | nil : DirStack A [] []
  | cons {R q subg cand ext st} : DirFrame A R subg cand ext → DirStack A R st → DirStack A (q :: R) ((subg, cand, ext) :: st)

theorem mcRun_path (A : BMat n) (o : Sched n) (fuel : Nat) (s : MCState n) (x : Option (Fin n)) (R : List (Fin n)) (ys : List (List (Fin n)))
    (hq : s.q = x :: R.map some) (hF : DirFrame A R s.subg s.cand s.ext) (hS : DirStack A R s.stack) (h : mcRun o A fuel s = .ok ys) :
    ∀ y ∈ ys, y.Pairwise (Adj A) ∧ ∀ v, v ∉ y → ∃ i ∈ y, A i v = false := by
  induction fuel generalizing s x R ys with
  | zero => simp [mcRun] at h
  | succ fuel ih =>
    unfold mcRun at h
    cases hp : pick o s.t s.ext with
    | some q =>
      have hqe := pick_some hp
      have hc := hF.hext q hqe
      have hqs := (hF.hsubg q).1 (hF.hcand q hc)
      have hF' : DirFrame A R s.subg (s.cand.erase q) (s.ext.erase q) :=
        ⟨hF.path, hF.hsubg, fun v hv => hF.hcand v (by simp at hv; exact hv.1), fun v hv => by
          simp at hv ⊢; exact ⟨hF.hext v hv.1, hv.2⟩⟩
      have hpath : (q :: R).Pairwise fun a b => Adj A b a := List.pairwise_cons.mpr ⟨hqs, hF.path⟩
      by_cases h1 : (s.subg.inter (nbrSet A q)).isEmpty
      · rw [mcStep_yield hp hc hq h1] at h
        simp only at h
        cases hr : mcRun o A fuel { s with q := some q :: s.q.tail, cand := s.cand.erase q, ext := s.ext.erase q, t := s.t + 1 } with
        | error e => rw [hr] at h; cases h
        | ok zs =>
          rw [hr] at h
          cases h
          intro y hy
          rcases List.mem_cons.mp hy with rfl | hy
          · have ey : ((some q :: s.q.tail).reverse.filterMap id) = (q :: R).reverse := by
              rw [hq]; simp [List.filterMap_map]
            rw [ey]
            refine ⟨List.pairwise_reverse.mpr hpath, fun v hv => ?_⟩
            rw [BVec.isEmpty_iff] at h1
            have h2 := h1 v
            by_contra hc2
            push Not at hc2
            simp only [List.mem_reverse, List.mem_cons, ne_eq, Bool.not_eq_false] at hv hc2
            have h3 : s.subg v = true := (hF.hsubg v).2 fun r hr => ⟨hc2 r (Or.inr hr), fun e => hv (Or.inr (e ▸ hr))⟩
            simp only [inter_apply, h3, nbrSet_apply, hc2 q (Or.inl rfl), Bool.true_and, decide_eq_false_iff_not, not_not] at h2
            exact hv (Or.inl h2)
          · exact ih { s with q := some q :: s.q.tail, cand := s.cand.erase q, ext := s.ext.erase q, t := s.t + 1 } (some q) R zs (by simp [hq]) hF' hS hr y hy
      · by_cases h2 : ((s.cand.erase q).inter (nbrSet A q)).isEmpty
        · rw [mcStep_drop hp hc hq h1 h2] at h
          exact ih { s with q := some q :: s.q.tail, cand := s.cand.erase q, ext := s.ext.erase q, t := s.t + 1 } (some q) R ys (by simp [hq]) hF' hS h
        · rw [mcStep_push hp hc hq h1 h2] at h
          refine ih _ none (q :: R) ys (by simp [hq]) ⟨hpath, fun v => ?_, fun v hv => ?_, fun v hv => extSet_sub _ _ _ _ _ v hv⟩
            (.cons hF' hS) h
          · simp only [inter_apply, nbrSet_apply, Bool.and_eq_true, decide_eq_true_eq, hF.hsubg, List.mem_cons, forall_eq_or_imp, Adj]
            constructor
            · rintro ⟨a, b, c⟩; exact ⟨⟨b, fun e => c e.symm⟩, a⟩
            · rintro ⟨⟨b, c⟩, a⟩; exact ⟨a, b, fun e => c e.symm⟩
          · simp at hv ⊢
            exact ⟨hF.hcand v hv.1.1, hv.2⟩
    | none =>
      cases hst : s.stack with
      | nil =>
        have e : mcStep o A s = .stop := by unfold mcStep; simp only [hp, hq, hst]
        rw [e] at h
        cases h
        simp
      | cons f st =>
        obtain ⟨f1, f2, f3⟩ := f
        have e : mcStep o A s = .next { q := R.map some, subg := f1, cand := f2, ext := f3, stack := st, t := s.t + 1 } := by
          unfold mcStep; simp only [hp, hq, hst]
        rw [e] at h
        rw [hst] at hS
        cases hS with
        | cons hf hs => exact ih _ _ _ ys rfl hf hs h

/-- as long as no vertex was excluded, the search goes down until it yields -/
theorem mcRun_ne_nil (A : BMat n) (o : Sched n) (fuel : Nat) (s : MCState n) (ys : List (List (Fin n))) (hq : s.q ≠ [])
    (hcs : s.cand = s.subg) (hne : ∃ v, s.subg v = true) (t : Nat) (he : s.ext = extSet o t A s.subg s.cand)
    (h : mcRun o A fuel s = .ok ys) : ys ≠ [] := by
  induction fuel generalizing s ys t with
  | zero => simp [mcRun] at h
  | succ fuel ih =>
    unfold mcRun at h
    obtain ⟨v, hv⟩ := hne
    obtain ⟨u, hu⟩ := exists_pivot o t A (cand := s.cand) hv
    have hue : s.ext u = true := by
      rw [he]; unfold extSet; rw [hu]
      simp [hcs, pivot_some hu]
    obtain ⟨q, hp, hqe⟩ := pick_of_nonempty o s.t hue
    have hc : s.cand q = true := by rw [he] at hqe; exact extSet_sub _ _ _ _ _ q hqe
    obtain ⟨x, qs, hqq⟩ := List.exists_cons_of_ne_nil hq
    have ecand : (s.cand.erase q).inter (nbrSet A q) = s.subg.inter (nbrSet A q) := by
      unfold BVec.inter
      congr 1
      funext i
      rw [hcs, Bool.eq_iff_iff]
      simp
      tauto
    by_cases h1 : (s.subg.inter (nbrSet A q)).isEmpty
    · rw [mcStep_yield hp hc hqq h1] at h
      simp only at h
      intro e
      subst e
      cases hr : mcRun o A fuel { s with q := some q :: s.q.tail, cand := s.cand.erase q, ext := s.ext.erase q, t := s.t + 1 } with
      | error e => rw [hr] at h; cases h
      | ok zs => rw [hr] at h; cases h
    · rw [mcStep_push hp hc hqq h1 (by rw [ecand]; exact h1)] at h
      exact ih _ ys (by simp) ecand (exists_of_not_isEmpty h1) (s.t + 1) rfl h

theorem maxCliques_path (A : BMat n) (o : Sched n) (hn : 0 < n) : ∃ ys, maxCliques o A = .ok ys ∧ ys ≠ [] ∧
    ∀ y ∈ ys, y.Pairwise (Adj A) ∧ ∀ v, v ∉ y → ∃ i ∈ y, A i v = false := by
  obtain ⟨ys, h⟩ := maxCliques_ok o A
  have h' := h
  rw [maxCliques_eq_run o A hn] at h'
  refine ⟨ys, h, mcRun_ne_nil A o _ (mcInit o A) ys (by simp [mcInit]) rfl ⟨⟨0, hn⟩, by simp [mcInit]⟩ 0 rfl h', ?_⟩
  exact mcRun_path A o _ (mcInit o A) none [] ys rfl ⟨.nil, by simp [mcInit], by simp [mcInit], fun v hv => extSet_sub _ _ _ _ _ v hv⟩ .nil h'

/-- a matrix without directed cycles: along every entry off the diagonal some rank grows -/
def Acyclic (A : BMat n) : Prop := ∃ f : Fin n → Nat, ∀ i j, i ≠ j → A i j = true → f i < f j

/-- nothing is left to do, neither here nor on the stack -/
theorem mcRun_done (A : BMat n) (o : Sched n) (fuel : Nat) (s : MCState n) (ys : List (List (Fin n)))
    (he : ∀ i, s.ext i = false) (hst : ∀ f ∈ s.stack, ∀ i, f.2.2 i = false) (h : mcRun o A fuel s = .ok ys) : ys = [] := by
  induction fuel generalizing s ys with
  | zero => simp [mcRun] at h
  | succ fuel ih =>
    unfold mcRun at h
    have hp : pick o s.t s.ext = none := by
      cases hp : pick o s.t s.ext with
      | none => rfl
      | some q => have := pick_some hp; rw [he] at this; cases this
    cases hq : s.q with
    | nil =>
      have e : mcStep o A s = .stop := by unfold mcStep; simp only [hp, hq]
      rw [e] at h; cases h; rfl
    | cons x qs =>
      cases hs : s.stack with
      | nil =>
        have e : mcStep o A s = .stop := by unfold mcStep; simp only [hp, hq, hs]
        rw [e] at h; cases h; rfl
      | cons f st =>
        obtain ⟨f1, f2, f3⟩ := f
        have e : mcStep o A s = .next { q := qs, subg := f1, cand := f2, ext := f3, stack := st, t := s.t + 1 } := by
          unfold mcStep; simp only [hp, hq, hs]
        rw [e] at h
        exact ih _ ys (hst (f1, f2, f3) (by rw [hs]; simp)) (fun f hf => hst f (by rw [hs]; simp [hf])) h

theorem pivot_max {o : Sched n} {t : Nat} {A : BMat n} {subg cand : BVec n} {u : Fin n} (h : pivot o t A subg cand = some u) (w : Fin n)
    (hw : subg w = true) : (cand.inter (nbrSet A w)).card ≤ (cand.inter (nbrSet A u)).card := by
  have := pick_some h
  simp at this
  exact this.2 w hw

/-- the complement of an acyclic matrix: the pivot is a neighbour of all other candidates -/
theorem acyclic_ext {A : BMat n} (hA : Acyclic A) (o : Sched n) (t : Nat) (S : BVec n) (hne : ∃ v, S v = true) :
    ∃ u, S u = true ∧ (∀ i, (extSet o t (complement A) S S) i = decide (i = u)) ∧
      ∀ i, (S.inter (nbrSet (complement A) u)) i = (S i && decide (i ≠ u)) := by
  obtain ⟨f, hf⟩ := hA
  obtain ⟨v, hv⟩ := hne
  obtain ⟨m, hm, hmax⟩ := Finset.exists_max_image (children S) f ⟨v, by simpa using hv⟩
  obtain ⟨u, hu⟩ := exists_pivot o t (complement A) (cand := S) hv
  have hSu := pivot_some hu
  have hm' : S m = true := by simpa using hm
  have e1 : children (S.inter (nbrSet (complement A) m)) = (children S).erase m := by
    ext i
    simp only [mem_children, inter_apply, nbrSet_apply, complement_apply, Bool.and_eq_true, Bool.not_eq_true', decide_eq_true_eq, Finset.mem_erase]
    constructor
    · rintro ⟨a, -, c⟩; exact ⟨c, a⟩
    · rintro ⟨a, b⟩
      refine ⟨b, ?_, a⟩
      by_contra hc
      have := hf m i (Ne.symm a) (by simpa using hc)
      have := hmax i (by simpa using b)
      omega
  have e2 : children (S.inter (nbrSet (complement A) u)) ⊆ (children S).erase u := by
    intro i
    simp only [mem_children, inter_apply, nbrSet_apply, complement_apply, Bool.and_eq_true, Bool.not_eq_true', decide_eq_true_eq, Finset.mem_erase]
    rintro ⟨a, -, c⟩; exact ⟨c, a⟩
  have h1 := pivot_max hu m hm'
  rw [BVec.card_eq, BVec.card_eq, e1, Finset.card_erase_of_mem hm] at h1
  have e3 := Finset.eq_of_subset_of_card_le e2 (by rw [Finset.card_erase_of_mem (by simpa using hSu)]; exact h1)
  have e4 : ∀ i, (S.inter (nbrSet (complement A) u)) i = (S i && decide (i ≠ u)) := by
    intro i
    have := Finset.ext_iff.mp e3 i
    rw [Bool.eq_iff_iff]
    simp only [mem_children, Finset.mem_erase] at this
    simp only [Bool.and_eq_true, decide_eq_true_eq, this]
    tauto
  refine ⟨u, hSu, fun i => ?_, e4⟩
  unfold extSet
  rw [hu]
  have := e4 i
  by_cases hi : i = u
  · subst hi; simp [hSu]
  · simp only [inter_apply] at this
    simp only [diff_apply, hi, decide_false]
    cases hS : S i
    · simp
    · rw [hS] at this
      simp [hi] at this
      simp [this, hi]

theorem mcRun_acyclic {A : BMat n} (hA : Acyclic A) (o : Sched n) (fuel : Nat) (s : MCState n) (x : Option (Fin n)) (R : List (Fin n))
    (ys : List (List (Fin n))) (hq : s.q = x :: R.map some) (hcs : s.cand = s.subg) (hne : ∃ v, s.subg v = true) (t : Nat)
    (he : s.ext = extSet o t (complement A) s.subg s.cand) (hst : ∀ f ∈ s.stack, ∀ i, f.2.2 i = false)
    (hall : ∀ v, v ∈ R ∨ s.subg v = true) (h : mcRun o (complement A) fuel s = .ok ys) : ∃ y, ys = [y] ∧ ∀ v, v ∈ y := by
  induction fuel generalizing s x R ys t with
  | zero => simp [mcRun] at h
  | succ fuel ih =>
    unfold mcRun at h
    obtain ⟨u, hu, hext, hnbr⟩ := acyclic_ext hA o t s.subg hne
    rw [hcs] at he
    rw [← he] at hext
    obtain ⟨q, hp, hqe⟩ := pick_of_nonempty o s.t (S := s.ext) (i := u) (by simp [hext])
    have hqu : q = u := by simpa [hext] using hqe
    subst hqu
    have hc : s.cand q = true := by rw [hcs]; exact hu
    have hdone : ∀ i, (s.ext.erase q) i = false := by intro i; simp [hext]
    have ecand : (s.cand.erase q).inter (nbrSet (complement A) q) = s.subg.inter (nbrSet (complement A) q) := by
      unfold BVec.inter
      congr 1
      funext i
      rw [hcs, Bool.eq_iff_iff]
      simp
      tauto
    have hall' : ∀ v, v ∈ q :: R ∨ (s.subg.inter (nbrSet (complement A) q)) v = true := by
      intro v
      rw [hnbr]
      rcases hall v with h | h
      · exact Or.inl (List.mem_cons_of_mem _ h)
      · by_cases hv : v = q
        · exact Or.inl (by simp [hv])
        · exact Or.inr (by simp [h, hv])
    by_cases h1 : (s.subg.inter (nbrSet (complement A) q)).isEmpty
    · rw [mcStep_yield hp hc hq h1] at h
      simp only at h
      cases hr : mcRun o (complement A) fuel { s with q := some q :: s.q.tail, cand := s.cand.erase q, ext := s.ext.erase q, t := s.t + 1 } with
      | error e => rw [hr] at h; cases h
      | ok zs =>
        rw [hr] at h
        cases h
        rw [mcRun_done (complement A) o fuel { s with q := some q :: s.q.tail, cand := s.cand.erase q, ext := s.ext.erase q, t := s.t + 1 } zs hdone hst hr]
        refine ⟨_, rfl, fun v => ?_⟩
        rw [BVec.isEmpty_iff] at h1
        rcases hall' v with h | h
        · rw [hq]; simpa [List.filterMap_map, or_comm] using h
        · rw [h1 v] at h; cases h
    · rw [mcStep_push hp hc hq h1 (by rw [ecand]; exact h1)] at h
      refine ih _ none (q :: R) ys (by simp [hq]) ecand (exists_of_not_isEmpty h1) (s.t + 1) rfl ?_ hall' h
      intro f hf
      rcases List.mem_cons.mp hf with rfl | hf
      · exact hdone
      · exact hst f hf

/-- **C220** `max_cliques` and `find_heuristic_1pc` on any 0/1 matrix with at least one vertex, symmetric or not.  The iteration ends with at least one
list; in every list each vertex is an out-neighbour of all earlier ones, and no other vertex is an out-neighbour of all of them. -/
theorem C220_max_cliques (A : BMat n) (hn : 0 < n) (o : Sched n) : ∃ ys, maxCliques o A = .ok ys ∧ ys ≠ [] ∧
    ∀ y ∈ ys, y.Pairwise (fun i j => A i j = true ∧ i ≠ j) ∧ ∀ v, v ∉ y → ∃ i ∈ y, A i v = false :=
  maxCliques_path A o hn

/-- **C220** `find_heuristic_1pc` ends: it raises `TypeError` or `Exception` (the latter only if the matrix is not symmetric), or returns a
structure that explains every nonzero entry, in which every measurement has a parent and every latent a child. -/
theorem C220_heuristic (A : BMat n) (hn : 0 < n) (o : Sched n) :
    (findHeuristic1pc o A = .error .typeError ∨ (findHeuristic1pc o A = .error .exception ∧ ¬ Symm A) ∨ ∃ B, findHeuristic1pc o A = .ok B) ∧
    ∀ B, findHeuristic1pc o A = .ok B → (∀ i j, A i j = true → ∃ r ∈ B, r i = true ∧ r j = true) ∧
      (∀ j : Fin n, ∃ r ∈ B, r j = true) ∧ ∀ r ∈ B, ∃ j : Fin n, r j = true := by
  obtain ⟨ys, hys, hne, hpath⟩ := maxCliques_path (complement A) o hn
  obtain ⟨s, rest, rfl⟩ := List.exists_cons_of_ne_nil hne
  obtain ⟨-, hmax⟩ := hpath _ (firstLongest_spec s rest).1
  have he : findHeuristic1pc o A = if !(uncoveredEdges A ((firstLongest s rest).map (starRow A))).isEmpty then .error .typeError
      else if (List.finRange n).any fun i => (List.finRange n).any fun j => A i j && !((firstLongest s rest).map (starRow A)).any fun r => r i && r j
      then .error .exception else .ok ((firstLongest s rest).map (starRow A)) := by
    unfold findHeuristic1pc; rw [hys]
  refine ⟨?_, fun B hB => ?_⟩
  · by_cases hA : Symm A
    · rcases (C08_heuristic_returns_partial A hA hn o).1 with h | h
      · exact Or.inr (Or.inr h)
      · exact Or.inl h
    · rw [he]
      split_ifs
      · exact Or.inl rfl
      · exact Or.inr (Or.inl ⟨rfl, hA⟩)
      · exact Or.inr (Or.inr ⟨_, rfl⟩)
  · rw [he] at hB
    split_ifs at hB with h1 h2
    cases hB
    refine ⟨fun i j hij => ?_, fun j => ?_, fun r hr => ?_⟩
    · by_contra hc
      apply h2
      simp only [List.any_eq_true, List.mem_finRange, true_and]
      refine ⟨i, j, ?_⟩
      rw [hij, Bool.true_and, Bool.not_eq_true', ← Bool.not_eq_true]
      intro hany
      obtain ⟨r, hr, hrij⟩ := List.any_eq_true.mp hany
      exact hc ⟨r, hr, by simpa using hrij⟩
    · by_cases hj : j ∈ firstLongest s rest
      · exact ⟨starRow A j, List.mem_map_of_mem hj, by simp⟩
      · obtain ⟨i, hi, hij⟩ := hmax j hj
        exact ⟨starRow A i, List.mem_map_of_mem hi, by simp at hij; simp [hij]⟩
    · obtain ⟨v, -, rfl⟩ := List.mem_map.mp hr
      exact ⟨v, by simp⟩

/-! ### one triangle of the matrix -/

/-- **C221** what happens instead, for a matrix without directed cycles, such as one triangle of an adjacency matrix: `find_heuristic_1pc` returns
one latent for every measurement `i`, with the children `i` and the `j` with a nonzero entry `i, j`. -/
theorem C221_acyclic_partial (A : BMat n) (hn : 0 < n) (hA : Acyclic A) (o : Sched n) :
    ∃ B, findHeuristic1pc o A = .ok B ∧ SameRows B ((List.finRange n).map fun i => BVec.of fun j => decide (j = i) || A i j) := by
  obtain ⟨ys, hys, -, hpath⟩ := maxCliques_path (complement A) o hn
  have h' := hys
  rw [maxCliques_eq_run o _ hn] at h'
  obtain ⟨y, rfl, hy⟩ := mcRun_acyclic hA o _ (mcInit o (complement A)) none [] ys rfl rfl ⟨⟨0, hn⟩, by simp [mcInit]⟩ 0 rfl
    (by simp [mcInit]) (fun v => Or.inr (by simp [mcInit])) h'
  have hnd : y.Nodup := (hpath y (by simp)).1.imp fun h => h.2
  have hall : ∀ i j, A i j = true → ∃ r ∈ y.map (starRow A), r i = true ∧ r j = true := fun i j hij =>
    ⟨starRow A i, List.mem_map_of_mem (hy i), by simp, by simp [hij]⟩
  refine ⟨y.map (starRow A), ?_, ?_⟩
  · have hany : ∀ i j, A i j = true → ((y.map (starRow A)).any fun r => r i && r j) = true := fun i j hij => by
      obtain ⟨r, hr, h1, h2⟩ := hall i j hij
      exact List.any_eq_true.mpr ⟨r, hr, by simp [h1, h2]⟩
    unfold findHeuristic1pc
    rw [hys]
    have e : firstLongest y [] = y := rfl
    simp only [e]
    rw [if_neg, if_neg]
    · intro hc
      simp only [List.any_eq_true, List.mem_finRange, true_and] at hc
      obtain ⟨i, j, hij⟩ := hc
      rw [Bool.and_eq_true] at hij
      rw [hany i j hij.1] at hij
      simp at hij
    · intro hc
      have : uncoveredEdges A (y.map (starRow A)) = [] := by
        unfold uncoveredEdges
        rw [List.filter_eq_nil_iff]
        intro e _ he
        rw [Bool.and_eq_true] at he
        rw [hany _ _ he.1] at he
        simp at he
      rw [this] at hc
      simp at hc
  · have hperm : y.Perm (List.finRange n) := (List.perm_ext_iff_of_nodup hnd (List.nodup_finRange n)).mpr fun i => by simp [hy]
    exact (hperm.map (starRow A)).map children

/-- one triangle of a matrix -/
def upperTriangle (A : BMat n) : BMat n := BMat.of fun i j => decide (i < j) && A i j

theorem upperTriangle_acyclic (A : BMat n) : Acyclic (upperTriangle A) :=
  ⟨fun i => i.val, fun i j _ h => by simp [upperTriangle] at h; exact h.1⟩

/-- **C221** the two results never agree for a graph with an edge: the triangle gives as many latents as measurements, the whole matrix fewer -/
theorem C221_more_latents (A : BMat n) (hA : Symm A) (hE : ∃ i j, Adj A i j) (o o' : Sched n) (B B' : List (BVec n))
    (h : findHeuristic1pc o A = .ok B) (h' : findHeuristic1pc o' (upperTriangle A) = .ok B') : B.length < n ∧ B'.length = n := by
  obtain ⟨i, j, hij⟩ := hE
  have hn : 0 < n := Nat.lt_of_le_of_lt (Nat.zero_le _) i.isLt
  constructor
  · obtain ⟨-, ⟨T, hT, hc⟩, -⟩ := C05_heuristic_pure_children A hA o B h
    rw [← hc]
    have : T ≠ Finset.univ := fun e => hT i (by rw [e]; simp) j (by rw [e]; simp) hij
    have := Finset.card_lt_univ_of_notMem (s := T) (x := (if i ∈ T then j else i)) (by
      split_ifs with hi
      · exact fun hj => hT i hi j hj hij
      · exact hi)
    simpa using this
  · obtain ⟨C, hC, hs⟩ := C221_acyclic_partial (upperTriangle A) hn (upperTriangle_acyclic A) o'
    rw [hC] at h'
    cases h'
    have := hs.length_eq
    simpa using this

/-- the claim that one triangle of the matrix is enough -/
def C221_statement : Prop := ∀ (n : Nat) (A : BMat n) (o : Sched n) (B B' : List (BVec n)), Symm A → findHeuristic1pc o A = .ok B →
  findHeuristic1pc o (upperTriangle A) = .ok B' → SameRows B B'

/-- the complete graph on two vertices -/
theorem C221_false : ¬ C221_statement := by
  intro hs
  have hA : Symm (BMat.of fun _ _ => true : BMat 2) := fun i j => by simp
  obtain ⟨B, hB, hl⟩ := C07_heuristic_recovers (BMat.of fun _ _ => true : BMat 2) [BVec.full] (by omega)
    ⟨fun i hi => ⟨0, fun k hk => by simp at hi hk; simp [hi, hk]⟩, fun j => ⟨BVec.full, by simp⟩⟩ (fun i j _ => by simp) default
  obtain ⟨B', hB', -⟩ := C221_acyclic_partial (upperTriangle (BMat.of fun _ _ => true : BMat 2)) (by omega) (upperTriangle_acyclic _) default
  have h1 := (hs 2 _ default B B' hA hB hB').length_eq
  have h2 := C221_more_latents _ hA ⟨0, 1, by simp, by decide⟩ default default B B' hB hB'
  simp at h1
  omega

/-- **non-vacuity of C220**: for a directed cycle of three vertices the exception is reached with one order of the sets, the type error with another -/
example : findHeuristic1pc (fun _ _ => 3) (BMat.of fun (i j : Fin 3) => decide (j.val = (i.val + 1) % 3)) = .error .exception ∧
    findHeuristic1pc (fun _ _ => 1) (BMat.of fun (i j : Fin 3) => decide (j.val = (i.val + 1) % 3)) = .error .typeError ∧
    ∃ B, findHeuristic1pc (fun _ _ => 0) (BMat.of fun (i j : Fin 3) => decide (i.val = 2 ∧ j.val = 0)) = .ok B ∧ B.length = 3 := by
  refine ⟨by decide +kernel, by decide +kernel, ?_⟩
  obtain ⟨B, h1, h2⟩ := C221_acyclic_partial (BMat.of fun (i j : Fin 3) => decide (i.val = 2 ∧ j.val = 0)) (by omega)
    ⟨fun i => 2 - i.val, fun i j _ h => by simp at h; show 2 - i.val < 2 - j.val; omega⟩ fun _ _ => 0
  exact ⟨B, h1, by simpa using h2.length_eq⟩

end Medil

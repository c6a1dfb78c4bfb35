import Verif.Proofs.Np
import Mathlib.Data.Finset.Max
namespace Medil
variable {n : Nat}

theorem Adj.symm {A : BMat n} (hA : Symm A) {i j : Fin n} (h : Adj A i j) : Adj A j i :=
  ⟨by rw [← hA]; exact h.1, h.2.symm⟩

/-- a pivot exists as soon as `subg` is non-empty, and lies in `subg` -/
theorem pivot_some {o : Sched n} {t : Nat} {A : BMat n} {subg cand : BVec n} {u : Fin n}
    (h : pivot o t A subg cand = some u) : subg u = true := by
  have := pick_some h
  simp at this
  exact this.1

theorem exists_pivot (o : Sched n) (t : Nat) (A : BMat n) {subg cand : BVec n} {i : Fin n}
    (hi : subg i = true) : ∃ u, pivot o t A subg cand = some u := by
  have hne : (children subg).Nonempty := ⟨i, by simpa using hi⟩
  obtain ⟨u, hu, hmax⟩ := Finset.exists_max_image (children subg)
    (fun u => (cand.inter (nbrSet A u)).card) hne
  obtain ⟨q, hq, -⟩ := pick_of_nonempty o t
    (S := BVec.of fun u => subg u && subg.toList.all fun w =>
      decide ((cand.inter (nbrSet A w)).card ≤ (cand.inter (nbrSet A u)).card)) (i := u)
    (by
      simp only [BVec.get_of, Bool.and_eq_true, List.all_eq_true, BVec.mem_toList,
        decide_eq_true_eq]
      refine ⟨by simpa using hu, fun w hw => hmax w (by simpa using hw)⟩)
  exact ⟨q, hq⟩

theorem extSet_sub (o : Sched n) (t : Nat) (A : BMat n) (subg cand : BVec n) (i : Fin n)
    (h : (extSet o t A subg cand) i = true) : cand i = true := by
  unfold extSet at h
  split at h
  · simp at h; exact h.1
  · simp at h

/-! ### potential -/

def framePot (cand : BVec n) : Nat := 2 ^ (cand.card + 1) - 1

def stackPot : List (BVec n × BVec n × BVec n) → Nat
  | [] => 0
  | f :: st => framePot f.2.1 + stackPot st

def statePot (s : MCState n) : Nat := framePot s.cand + stackPot s.stack

theorem framePot_pos (c : BVec n) : 1 ≤ framePot c := by
  unfold framePot
  have : 2 ^ 1 ≤ 2 ^ (c.card + 1) := Nat.pow_le_pow_right (by omega) (by omega)
  omega

theorem framePot_erase {c : BVec n} {q : Fin n} (h : c q = true) :
    framePot (c.erase q) < framePot c := by
  have := BVec.card_lt_of_erase h
  unfold framePot
  rw [← this]
  have h1 : 0 < 2 ^ ((c.erase q).card + 1) := Nat.pow_pos (by omega)
  rw [Nat.pow_succ 2 ((c.erase q).card + 1)]
  omega

theorem framePot_push {c d : BVec n} {q : Fin n} (h : c q = true)
    (hd : ∀ i, d i = true → (c.erase q) i = true) :
    framePot d + framePot (c.erase q) < framePot c := by
  have h1 := BVec.card_lt_of_erase h
  have h2 := BVec.card_mono hd
  have h3 : framePot d ≤ framePot (c.erase q) := by
    unfold framePot
    have := Nat.pow_le_pow_right (n := 2) (by omega) (Nat.succ_le_succ h2)
    simp only [Nat.succ_eq_add_one] at this
    omega
  have h4 : 2 * framePot (c.erase q) < framePot c := by
    unfold framePot
    rw [← h1]
    have : 0 < 2 ^ ((c.erase q).card + 1) := Nat.pow_pos (by omega)
    rw [Nat.pow_succ 2 ((c.erase q).card + 1)]
    omega
  omega

/-- `ext ⊆ cand` in the current frame and everywhere on the stack -/
def ExtSub (s : MCState n) : Prop :=
  (∀ i, s.ext i = true → s.cand i = true) ∧
  ∀ f ∈ s.stack, ∀ i, f.2.2 i = true → f.2.1 i = true

theorem exists_of_not_isEmpty {v : BVec n} (h : ¬ v.isEmpty = true) : ∃ i, v i = true := by
  by_contra hc
  apply h
  rw [BVec.isEmpty_iff]
  intro i
  simpa using fun h => hc ⟨i, h⟩

theorem mcStep_yield {o : Sched n} {A : BMat n} {s : MCState n} {q : Fin n} {x qs}
    (hp : pick o s.t s.ext = some q) (hc : s.cand q = true) (hq : s.q = x :: qs)
    (h1 : (s.subg.inter (nbrSet A q)).isEmpty = true) :
    mcStep o A s = .yield ((some q :: s.q.tail).reverse.filterMap id)
      { s with q := some q :: s.q.tail, cand := s.cand.erase q, ext := s.ext.erase q, t := s.t + 1 } := by
  unfold mcStep; simp only [hp, hc, hq, h1]; simp

theorem mcStep_drop {o : Sched n} {A : BMat n} {s : MCState n} {q : Fin n} {x qs}
    (hp : pick o s.t s.ext = some q) (hc : s.cand q = true) (hq : s.q = x :: qs)
    (h1 : ¬ (s.subg.inter (nbrSet A q)).isEmpty = true)
    (h2 : ((s.cand.erase q).inter (nbrSet A q)).isEmpty = true) :
    mcStep o A s = .next
      { s with q := some q :: s.q.tail, cand := s.cand.erase q, ext := s.ext.erase q, t := s.t + 1 } := by
  unfold mcStep; simp only [hp, hc, hq, h1, h2]; simp

theorem mcStep_push {o : Sched n} {A : BMat n} {s : MCState n} {q : Fin n} {x qs}
    (hp : pick o s.t s.ext = some q) (hc : s.cand q = true) (hq : s.q = x :: qs)
    (h1 : ¬ (s.subg.inter (nbrSet A q)).isEmpty = true)
    (h2 : ¬ ((s.cand.erase q).inter (nbrSet A q)).isEmpty = true) :
    mcStep o A s = .next
      { q := none :: some q :: s.q.tail, subg := s.subg.inter (nbrSet A q),
        cand := (s.cand.erase q).inter (nbrSet A q),
        ext := extSet o (s.t + 1) A (s.subg.inter (nbrSet A q))
          ((s.cand.erase q).inter (nbrSet A q)),
        stack := (s.subg, s.cand.erase q, s.ext.erase q) :: s.stack, t := s.t + 2 } := by
  obtain ⟨i, hi⟩ := exists_of_not_isEmpty h1
  obtain ⟨u, hu⟩ := exists_pivot o (s.t + 1) A (cand := (s.cand.erase q).inter (nbrSet A q)) hi
  unfold mcStep; simp only [hp, hc, hq, h1, h2, hu]; simp

theorem mcStep_pot (o : Sched n) (A : BMat n) (s : MCState n) (h : ExtSub s) :
    match mcStep o A s with
    | .stop => True
    | .raise _ => False
    | .next s' => ExtSub s' ∧ statePot s' < statePot s
    | .yield _ s' => ExtSub s' ∧ statePot s' < statePot s := by
  cases hp : pick o s.t s.ext with
  | some q =>
    have hq := pick_some hp
    have hc := h.1 q hq
    have herase : ∀ i, (s.ext.erase q) i = true → (s.cand.erase q) i = true := by
      intro i; simp; intro h1 h2; exact ⟨h.1 i h1, h2⟩
    cases hqs : s.q with
    | nil => unfold mcStep; simp only [hp, hc, hqs]; simp
    | cons x qs =>
    by_cases h1 : (s.subg.inter (nbrSet A q)).isEmpty
    · rw [mcStep_yield hp hc hqs h1]
      refine ⟨⟨herase, h.2⟩, ?_⟩
      have := framePot_erase hc
      simp only [statePot]; omega
    · by_cases h2 : ((s.cand.erase q).inter (nbrSet A q)).isEmpty
      · rw [mcStep_drop hp hc hqs h1 h2]
        refine ⟨⟨herase, h.2⟩, ?_⟩
        have := framePot_erase hc
        simp only [statePot]; omega
      · rw [mcStep_push hp hc hqs h1 h2]
        refine ⟨⟨fun i => extSet_sub _ _ _ _ _ i, ?_⟩, ?_⟩
        · intro f hf
          simp only [List.mem_cons] at hf
          rcases hf with rfl | hf
          · exact herase
          · exact h.2 f hf
        · have := framePot_push (d := (s.cand.erase q).inter (nbrSet A q)) hc (by
            intro i hi; simp at hi; simp [hi])
          simp only [statePot, stackPot]; omega
  | none =>
    unfold mcStep
    cases hq : s.q with
    | nil => simp only [hp]
    | cons x qs =>
    cases hs : s.stack with
    | nil => simp only [hp]
    | cons f st =>
      simp only [hp]
      refine ⟨⟨h.2 f (by simp [hs]), fun g hg => h.2 g (by simp [hs, hg])⟩, ?_⟩
      obtain ⟨f1, f2, f3⟩ := f
      have := framePot_pos s.cand
      simp only [statePot, hs, stackPot]; omega

theorem mcRun_isSome (o : Sched n) (A : BMat n) (fuel : Nat) (s : MCState n) (h : ExtSub s)
    (hf : statePot s ≤ fuel) : ∃ ys, mcRun o A fuel s = .ok ys := by
  induction fuel generalizing s with
  | zero => have := framePot_pos s.cand; simp only [statePot] at hf; omega
  | succ fuel ih =>
    have hs := mcStep_pot o A s h
    unfold mcRun
    split at hs <;> rename_i heq
    · simp [heq]
    · exact hs.elim
    · simp only [heq]; exact ih _ hs.1 (by omega)
    · obtain ⟨ys, hy⟩ := ih _ hs.1 (by omega)
      simp only [heq, hy]; exact ⟨_, rfl⟩

theorem statePot_init (o : Sched n) (A : BMat n) : statePot (mcInit o A) ≤ 2 ^ (n + 1) := by
  simp only [statePot, mcInit, stackPot, framePot]
  have : (BVec.full : BVec n).card = n := by
    rw [BVec.card_eq]
    have : children (BVec.full : BVec n) = Finset.univ := by ext; simp
    rw [this]; simp
  rw [this]; exact Nat.sub_le _ _

theorem extSub_init (o : Sched n) (A : BMat n) : ExtSub (mcInit o A) :=
  ⟨fun i h => extSet_sub _ _ _ _ _ i h, by simp [mcInit]⟩

theorem maxCliques_eq_run (o : Sched n) (A : BMat n) (hn : 0 < n) :
    maxCliques o A = mcRun o A (2 ^ (n + 1)) (mcInit o A) := by
  obtain ⟨u, hu⟩ := exists_pivot o 0 A (subg := BVec.full) (cand := BVec.full) (i := ⟨0, hn⟩)
    (by simp)
  unfold maxCliques
  rw [if_neg (by omega), hu]; simp

theorem maxCliques_ok (o : Sched n) (A : BMat n) : ∃ ys, maxCliques o A = .ok ys := by
  rcases Nat.eq_zero_or_pos n with h | h
  · exact ⟨[], by simp [maxCliques, h]⟩
  · rw [maxCliques_eq_run o A h]
    exact mcRun_isSome _ _ _ _ (extSub_init o A) (statePot_init o A)

/-! ### correctness -/

/-- maximal cliques still to be produced by a frame -/
def PF (A : BMat n) (R : List (Fin n)) (cand ext : BVec n) (C : Finset (Fin n)) : Prop :=
  IsMaximalClique A C ∧ (∀ r ∈ R, r ∈ C) ∧ (∀ v ∈ C, v ∉ R → cand v = true) ∧
    ∃ v ∈ C, ext v = true

structure FI (A : BMat n) (R : List (Fin n)) (subg cand ext : BVec n) : Prop where
  nodup : R.Nodup
  clique : IsClique A R.toFinset
  hsubg : ∀ v, subg v = true ↔ ∀ r ∈ R, Adj A r v
  hcand : ∀ v, cand v = true → subg v = true
  hext : ∀ v, ext v = true → cand v = true

inductive StackOK (A : BMat n) : List (Fin n) → List (BVec n × BVec n × BVec n) → Prop
  | nil : StackOK A [] []
  | cons {R q subg cand ext st} : FI A R subg cand ext → cand q = false → StackOK A R st →
      StackOK A (q :: R) ((subg, cand, ext) :: st)

def PendStack (A : BMat n) :
    List (Fin n) → List (BVec n × BVec n × BVec n) → Finset (Fin n) → Prop
  | _ :: R, (_, cand, ext) :: st, C => PF A R cand ext C ∨ PendStack A R st C
  | _, _, _ => False

theorem FI.notMem {A : BMat n} {R : List (Fin n)} {s c e : BVec n} (h : FI A R s c e) {v : Fin n}
    (hv : s v = true) : v ∉ R := fun hr => ((h.hsubg v).mp hv v hr).2 rfl

theorem not_sub_of_pendStack {A : BMat n} {R st C} (h : StackOK A R st) (hnd : R.Nodup)
    (hp : PendStack A R st C) : ¬ ∀ r ∈ R, r ∈ C := by
  induction h with
  | nil => exact absurd hp (by simp [PendStack])
  | @cons R q subg cand ext st hf hq hst ih =>
    intro hsub
    rcases hp with hp | hp
    · have hqC := hsub q (by simp)
      have hqR : q ∉ R := (List.nodup_cons.mp hnd).1
      have := hp.2.2.1 q hqC hqR
      rw [hq] at this; cases this
    · exact ih (List.nodup_cons.mp hnd).2 hp (fun r hr => hsub r (by simp [hr]))

/-- the frame created for `R` sees every maximal clique above `R` inside `cand` -/
theorem PF_new {A : BMat n} (hA : Symm A) {R : List (Fin n)} {subg cand : BVec n} {o : Sched n}
    {t : Nat} (hsubg : ∀ v, subg v = true ↔ ∀ r ∈ R, Adj A r v) {i : Fin n} (hi : subg i = true)
    (C : Finset (Fin n)) :
    PF A R cand (extSet o t A subg cand) C ↔
      IsMaximalClique A C ∧ (∀ r ∈ R, r ∈ C) ∧ (∀ v ∈ C, v ∉ R → cand v = true) := by
  constructor
  · rintro ⟨h1, h2, h3, -⟩; exact ⟨h1, h2, h3⟩
  · rintro ⟨h1, h2, h3⟩
    refine ⟨h1, h2, h3, ?_⟩
    obtain ⟨u, hu⟩ := exists_pivot o t A (cand := cand) hi
    have hus := pivot_some hu
    have hext : ∀ v, (extSet o t A subg cand) v = (cand v && !(nbrSet A u) v) := by
      intro v; simp only [extSet, hu]; simp
    have huR : u ∉ R := fun hr => ((hsubg u).mp hus u hr).2 rfl
    by_contra hno
    simp only [not_exists, not_and] at hno
    -- every vertex of C outside R is a neighbour of u
    have hnb : ∀ v ∈ C, v ≠ u → Adj A u v := by
      intro v hv hvu
      by_cases hvR : v ∈ R
      · exact Adj.symm hA ((hsubg u).mp hus v hvR)
      · have hc := h3 v hv hvR
        have := hno v hv
        rw [hext] at this
        simp [hc, hvu] at this
        exact ⟨this, hvu.symm⟩
    have huC : u ∈ C := by
      by_contra huC
      apply h1.2 u huC
      intro a ha b hb hab
      simp only [Finset.mem_insert] at ha hb
      rcases ha with rfl | ha <;> rcases hb with rfl | hb
      · exact absurd rfl hab
      · exact hnb b hb hab.symm
      · exact Adj.symm hA (hnb a ha hab)
      · exact h1.1 a ha b hb hab
    apply hno u huC
    rw [hext]
    simp [h3 u huC huR]

theorem mcRun_correct {A : BMat n} (hA : Symm A) (o : Sched n) (fuel : Nat) :
    ∀ (s : MCState n) (R : List (Fin n)), (∃ x, s.q = x :: R.map some) →
      FI A R s.subg s.cand s.ext → StackOK A R s.stack → statePot s ≤ fuel →
      ∃ ys, mcRun o A fuel s = .ok ys ∧ (∀ y ∈ ys, y.Nodup) ∧ (ys.map List.toFinset).Nodup ∧
        ∀ C, C ∈ ys.map List.toFinset ↔ (PF A R s.cand s.ext C ∨ PendStack A R s.stack C) := by
  induction fuel with
  | zero => intro s R _ _ _ hf; have := framePot_pos s.cand; simp only [statePot] at hf; omega
  | succ fuel ih =>
    intro s R hQ hF hS hf
    obtain ⟨x, hx⟩ := hQ
    have hES : ExtSub s := by
      refine ⟨hF.hext, ?_⟩
      have : ∀ (R : List (Fin n)) st, StackOK A R st →
          ∀ f ∈ st, ∀ i, f.2.2 i = true → f.2.1 i = true := by
        intro R st h
        induction h with
        | nil => simp
        | cons hf _ _ ih =>
          intro f hf'
          rcases List.mem_cons.mp hf' with rfl | h'
          · exact hf.hext
          · exact ih f h'
      exact this R _ hS
    have hpot := mcStep_pot o A s hES
    unfold mcRun
    cases hp : pick o s.t s.ext with
    | none =>
      have hempty := pick_none hp
      have hnoPF : ∀ C, ¬ PF A R s.cand s.ext C := by
        rintro C ⟨-, -, -, v, -, hv⟩; rw [hempty v] at hv; cases hv
      cases hs : s.stack with
      | nil =>
        refine ⟨[], by unfold mcStep; simp only [hp, hs, hx], by simp, by simp, ?_⟩
        intro C
        cases R <;> simp [hnoPF C, PendStack]
      | cons f st =>
        obtain ⟨sg, cd, ex⟩ := f
        rw [hs] at hS
        cases hS with
        | @cons R' q _ _ _ _ hF' hq' hS' =>
        have hst : mcStep o A s = .next
            { q := s.q.tail, subg := sg, cand := cd, ext := ex, stack := st, t := s.t + 1 } := by
          unfold mcStep; simp only [hp, hs, hx, List.tail_cons]
        simp only [hst] at hpot ⊢
        obtain ⟨ys, h1, h2, h3, h4⟩ := ih
          { q := s.q.tail, subg := sg, cand := cd, ext := ex, stack := st, t := s.t + 1 } R'
          ⟨some q, by simp [hx]⟩ hF' hS' (by omega)
        refine ⟨ys, h1, h2, h3, ?_⟩
        intro C
        rw [h4 C]
        simp only [PendStack]
        constructor
        · intro h; exact Or.inr h
        · rintro (h | h)
          · exact absurd h (hnoPF C)
          · exact h
    | some q =>
      have hq := pick_some hp
      have hqc := hF.hext q hq
      have hqs := hF.hcand q hqc
      have hqR := hF.notMem hqs
      have hRq := (hF.hsubg q).mp hqs
      have hnd : (q :: R).Nodup := List.nodup_cons.mpr ⟨hqR, hF.nodup⟩
      have hQ' : some q :: s.q.tail = (q :: R).map some := by simp [hx]
      -- the clique R ∪ {q}
      have hclq : IsClique A (q :: R).toFinset := by
        intro a ha b hb hab
        simp only [List.toFinset_cons, Finset.mem_insert, List.mem_toFinset] at ha hb
        rcases ha with rfl | ha <;> rcases hb with rfl | hb
        · exact absurd rfl hab
        · exact Adj.symm hA (hRq b hb)
        · exact hRq a ha
        · exact hF.clique a (by simpa using ha) b (by simpa using hb) hab
      have hsubgq : ∀ v, (s.subg.inter (nbrSet A q)) v = true ↔ ∀ r ∈ q :: R, Adj A r v := by
        intro v
        simp only [inter_apply, nbrSet_apply, Bool.and_eq_true, hF.hsubg, List.mem_cons,
          forall_eq_or_imp, decide_eq_true_eq]
        constructor
        · rintro ⟨h1, h2, h3⟩; exact ⟨⟨h2, h3.symm⟩, h1⟩
        · rintro ⟨⟨h2, h3⟩, h1⟩; exact ⟨h1, h2, h3.symm⟩
      -- frame left behind
      have hF' : FI A R s.subg (s.cand.erase q) (s.ext.erase q) :=
        ⟨hF.nodup, hF.clique, hF.hsubg, fun v hv => hF.hcand v (by simp at hv; exact hv.1), by
          intro v; simp; intro h1 h2; exact ⟨hF.hext v h1, h2⟩⟩
      -- cliques of the frame = those with q + those left behind
      have hsplit : ∀ C, PF A R s.cand s.ext C ↔
          ((IsMaximalClique A C ∧ (∀ r ∈ q :: R, r ∈ C) ∧
            ∀ v ∈ C, v ∉ q :: R → ((s.cand.erase q).inter (nbrSet A q)) v = true) ∨
           PF A R (s.cand.erase q) (s.ext.erase q) C) := by
        intro C
        constructor
        · rintro ⟨h1, h2, h3, v, hv, hev⟩
          by_cases hqC : q ∈ C
          · left
            refine ⟨h1, ?_, ?_⟩
            · intro r hr
              rcases List.mem_cons.mp hr with rfl | hr
              · exact hqC
              · exact h2 r hr
            · intro w hw hwR
              simp only [List.mem_cons, not_or] at hwR
              have := h1.1 q hqC w hw (Ne.symm hwR.1)
              simp [h3 w hw hwR.2, hwR.1, this.1]
          · right
            refine ⟨h1, h2, ?_, v, hv, ?_⟩
            · intro w hw hwR
              have : w ≠ q := fun h => hqC (h ▸ hw)
              simp [h3 w hw hwR, this]
            · have : v ≠ q := fun h => hqC (h ▸ hv)
              simp [hev, this]
        · rintro (⟨h1, h2, h3⟩ | ⟨h1, h2, h3, v, hv, hev⟩)
          · refine ⟨h1, fun r hr => h2 r (by simp [hr]), ?_, q, h2 q (by simp), hq⟩
            intro w hw hwR
            by_cases hwq : w = q
            · rw [hwq]; exact hqc
            · have := h3 w hw (by simp [hwq, hwR])
              simp at this
              exact this.1.1
          · refine ⟨h1, h2, ?_, v, hv, ?_⟩
            · intro w hw hwR
              have := h3 w hw hwR
              simp at this; exact this.1
            · simp at hev; exact hev.1
      have hnotq : ∀ C, PF A R (s.cand.erase q) (s.ext.erase q) C → q ∉ C := by
        rintro C ⟨-, -, h3, -⟩ hqC
        have := h3 q hqC hqR
        simp at this
      by_cases he1 : (s.subg.inter (nbrSet A q)).isEmpty
      · simp only [mcStep_yield hp hqc hx he1] at hpot ⊢
        have he1' := (BVec.isEmpty_iff _).mp he1
        obtain ⟨ys, h1, h2, h3, h4⟩ := ih
          { s with q := some q :: s.q.tail, cand := s.cand.erase q, ext := s.ext.erase q,
                   t := s.t + 1 } R ⟨some q, by simp [hx]⟩ hF' hS (by omega)
        have hyield : ((some q :: s.q.tail).reverse.filterMap id) = (q :: R).reverse := by
          rw [hQ', ← List.map_reverse, List.filterMap_map]; simp
        have hmax : IsMaximalClique A (q :: R).toFinset := by
          refine ⟨hclq, fun v hv hc => ?_⟩
          have : (s.subg.inter (nbrSet A q)) v = true := by
            rw [hsubgq]
            intro r hr
            apply hc r (Finset.mem_insert_of_mem (List.mem_toFinset.mpr hr)) v
              (Finset.mem_insert_self _ _)
            rintro rfl
            exact hv (List.mem_toFinset.mpr hr)
          rw [he1'] at this; cases this
        refine ⟨(q :: R).reverse :: ys, ?_, ?_, ?_, ?_⟩
        · simp only [h1, hyield]; rfl
        · intro y hy
          rcases List.mem_cons.mp hy with rfl | hy
          · exact List.nodup_reverse.mpr hnd
          · exact h2 y hy
        · rw [List.map_cons, List.nodup_cons]
          refine ⟨?_, h3⟩
          rw [h4]
          rintro (h | h)
          · apply hnotq _ h; simp
          · apply not_sub_of_pendStack hS hF.nodup h
            intro r hr; simp [hr]
        · intro C
          rw [List.map_cons, List.mem_cons, h4 C, hsplit C, or_assoc]
          apply or_congr_left
          constructor
          · rintro rfl
            refine ⟨by simpa using hmax, by simp, ?_⟩
            intro v hv hvR
            exact absurd (by simpa [or_comm] using hv) hvR
          · rintro ⟨h1, h2, h3⟩
            apply Finset.Subset.antisymm
            · intro v hv
              by_contra hvR
              have hvR' : v ∉ q :: R := by simpa [or_comm] using hvR
              have := h3 v hv hvR'
              simp at this
              have h5 := (hsubgq v).mpr (by
                intro r hr
                exact h1.1 r (h2 r hr) v hv (fun h => hvR' (h ▸ hr)))
              rw [he1'] at h5; cases h5
            · intro v hv
              apply h2
              simpa [or_comm] using hv
      · have he1n : ∃ i, (s.subg.inter (nbrSet A q)) i = true := by
          by_contra hc
          apply he1
          rw [BVec.isEmpty_iff]
          intro i
          simpa using fun h => hc ⟨i, h⟩
        by_cases he2 : ((s.cand.erase q).inter (nbrSet A q)).isEmpty
        · simp only [mcStep_drop hp hqc hx he1 he2] at hpot ⊢
          have he2' := (BVec.isEmpty_iff _).mp he2
          obtain ⟨ys, h1, h2, h3, h4⟩ := ih
            { s with q := some q :: s.q.tail, cand := s.cand.erase q, ext := s.ext.erase q,
                     t := s.t + 1 } R ⟨some q, by simp [hx]⟩ hF' hS (by omega)
          refine ⟨ys, h1, h2, h3, ?_⟩
          intro C
          rw [h4 C, hsplit C]
          apply or_congr_left
          constructor
          · exact Or.inr
          · rintro (⟨h1, h2, h3⟩ | h)
            · exfalso
              obtain ⟨i, hi⟩ := he1n
              have hi' := (hsubgq i).mp hi
              have hiR : i ∉ q :: R := fun h => (hi' i h).2 rfl
              -- C = q :: R, not maximal
              have hCR : ∀ v ∈ C, v ∈ q :: R := by
                intro v hv
                by_contra hvR
                have := h3 v hv hvR
                rw [he2'] at this; cases this
              have hiC : i ∉ C := fun h => hiR (hCR i h)
              apply h1.2 i hiC
              intro a ha b hb hab
              simp only [Finset.mem_insert] at ha hb
              rcases ha with rfl | ha <;> rcases hb with rfl | hb
              · exact absurd rfl hab
              · exact Adj.symm hA (hi' b (hCR b hb))
              · exact hi' a (hCR a ha)
              · exact h1.1 a ha b hb hab
            · exact h
        · simp only [mcStep_push hp hqc hx he1 he2] at hpot ⊢
          obtain ⟨i, hi⟩ := he1n
          obtain ⟨ys, h1, h2, h3, h4⟩ := ih
            { q := none :: some q :: s.q.tail, subg := s.subg.inter (nbrSet A q),
              cand := (s.cand.erase q).inter (nbrSet A q),
              ext := extSet o (s.t + 1) A (s.subg.inter (nbrSet A q))
                ((s.cand.erase q).inter (nbrSet A q)),
              stack := (s.subg, s.cand.erase q, s.ext.erase q) :: s.stack, t := s.t + 2 } (q :: R)
            ⟨none, by rw [hQ']⟩
            ⟨hnd, hclq, hsubgq, by
              intro v hv
              simp at hv
              simp [hF.hcand v hv.1.1, hv.2], fun v => extSet_sub _ _ _ _ _ v⟩
            (StackOK.cons hF' (by simp) hS) (by omega)
          refine ⟨ys, h1, h2, h3, ?_⟩
          intro C
          rw [h4 C, hsplit C, or_assoc]
          simp only [PendStack]
          rw [PF_new hA hsubgq hi]

theorem maxCliques_correct {A : BMat n} (hA : Symm A) (hn : 0 < n) (o : Sched n) :
    ∃ ys, maxCliques o A = .ok ys ∧ (∀ y ∈ ys, y.Nodup) ∧ (ys.map List.toFinset).Nodup ∧
      ∀ C, C ∈ ys.map List.toFinset ↔ IsMaximalClique A C := by
  have hs : ∀ v, (BVec.full : BVec n) v = true ↔ ∀ r ∈ ([] : List (Fin n)), Adj A r v := by simp
  obtain ⟨ys, h1, h2, h3, h4⟩ := mcRun_correct hA o (2 ^ (n + 1)) (mcInit o A) [] ⟨none, rfl⟩
    ⟨List.nodup_nil, by intro i hi; simp at hi, hs, by simp [mcInit],
      fun v h => extSet_sub _ _ _ _ _ v h⟩ StackOK.nil (statePot_init o A)
  refine ⟨ys, ?_, h2, h3, ?_⟩
  · rw [maxCliques_eq_run o A hn]; exact h1
  · intro C
    rw [h4 C]
    simp only [mcInit, PendStack, or_false]
    rw [PF_new hA hs (i := ⟨0, hn⟩) (by simp)]
    simp

end Medil

import Verif.Model.Pool
import Verif.Proofs.Heuristic
import Mathlib.Algebra.BigOperators.Fin
import Mathlib.Tactic.Linarith
import Mathlib.Tactic.FinCases
/-
  C193, C194: the process pool of `estimate_UDG`.
-/
namespace Medil

section generic
variable {α β : Type} {W : Nat} {test : α → Except PyErr β} {cs : List (List α)}

/-- every result that is on its way belongs to its chunk, and the released ones are the first ones, in order -/
structure PoolSafe (test : α → Except PyErr β) (cs : List (List α)) (st : PoolSt β W) : Prop where
  items : st.items = (cs.map (runChunk test)).take st.index
  index : st.index ≤ cs.length
  outq : ∀ e ∈ st.outq, (cs.map (runChunk test))[e.1]? = some e.2
  unsorted : ∀ e ∈ st.unsorted, (cs.map (runChunk test))[e.1]? = some e.2

theorem take_succ_of_getElem? {γ : Type} (l : List γ) (n : Nat) (x : γ) (h : l[n]? = some x) :
    l.take n ++ [x] = l.take (n + 1) ∧ n + 1 ≤ l.length := by
  obtain ⟨hn, hx⟩ := List.getElem?_eq_some_iff.mp h
  exact ⟨by rw [List.take_add_one, h]; rfl, hn⟩

theorem PoolSafe.advance {st : PoolSt β W} (h : PoolSafe test cs st) (r : Except PyErr (List β))
    (hr : (cs.map (runChunk test))[st.index]? = some r) (us : List (Nat × Except PyErr (List β)))
    (hus : ∀ e ∈ us, e ∈ st.unsorted) :
    PoolSafe test cs { st with index := st.index + 1, items := st.items ++ [r], unsorted := us } := by
  have := take_succ_of_getElem? _ _ _ hr
  refine ⟨?_, ?_, h.outq, fun e he => h.unsorted e (hus e he)⟩
  · show st.items ++ [r] = _
    rw [h.items, this.1]
  · have := this.2; rw [List.length_map] at this; exact this

theorem PoolSafe.drain {st : PoolSt β W} (h : PoolSafe test cs st) (fuel : Nat) : PoolSafe test cs (poolDrain fuel st) := by
  induction fuel generalizing st with
  | zero => exact h
  | succ fuel ih =>
    unfold poolDrain
    split
    · exact h
    · rename_i e he
      apply ih
      apply h.advance
      · have h1 := List.find?_some he
        have h2 := h.unsorted e (List.mem_of_find?_eq_some he)
        rw [← beq_iff_eq.mp h1]; exact h2
      · intro e' he'
        exact (List.mem_filter.mp he').1

theorem PoolSafe.set {st : PoolSt β W} (h : PoolSafe test cs st) (i : Nat) (r : Except PyErr (List β))
    (hr : (cs.map (runChunk test))[i]? = some r) : PoolSafe test cs (poolSet i r st) := by
  unfold poolSet
  split
  · rename_i hi
    apply PoolSafe.drain
    subst hi
    exact h.advance r hr st.unsorted fun _ he => he
  · refine ⟨h.items, h.index, h.outq, ?_⟩
    intro e he
    rcases List.mem_cons.mp he with rfl | he
    · exact hr
    · exact h.unsorted e (List.mem_filter.mp he).1

theorem PoolSafe.step {st st' : PoolSt β W} (h : PoolSafe test cs st) (ev : PoolEv W)
    (hs : poolStep test cs st ev = some st') : PoolSafe test cs st' := by
  cases ev with
  | take w =>
    simp only [poolStep] at hs
    split at hs
    · cases hs; exact ⟨h.items, h.index, h.outq, h.unsorted⟩
    · cases hs
  | finish w =>
    simp only [poolStep] at hs
    split at hs
    · cases hs
    · rename_i i hi
      split at hs
      · cases hs
      · rename_i c hc
        cases hs
        refine ⟨h.items, h.index, ?_, h.unsorted⟩
        intro e he
        rcases List.mem_append.mp he with he | he
        · exact h.outq e he
        · rw [List.mem_singleton.mp he]
          simp [hc]
  | handle =>
    simp only [poolStep] at hs
    split at hs
    · cases hs
    · rename_i e q hq
      cases hs
      apply PoolSafe.set
      · exact ⟨h.items, h.index, fun e' he' => h.outq e' (by rw [hq]; exact List.mem_cons_of_mem _ he'), h.unsorted⟩
      · exact h.outq e (by rw [hq]; exact List.mem_cons_self)
  | kill w =>
    simp only [poolStep] at hs
    cases hs; exact ⟨h.items, h.index, h.outq, h.unsorted⟩

theorem PoolSafe.run {st st' : PoolSt β W} (h : PoolSafe test cs st) (evs : List (PoolEv W))
    (hs : poolRun test cs st evs = some st') : PoolSafe test cs st' := by
  induction evs generalizing st with
  | nil => cases hs; exact h
  | cons ev evs ih =>
    simp only [poolRun] at hs
    obtain ⟨st1, h1, h2⟩ := Option.bind_eq_some_iff.mp hs
    exact ih (h.step ev h1) h2

theorem PoolSafe.init : PoolSafe test cs (poolInit β W) :=
  ⟨by simp [poolInit], by simp [poolInit], by simp [poolInit], by simp [poolInit]⟩

theorem poolRun_append (st : PoolSt β W) (e1 e2 : List (PoolEv W)) :
    poolRun test cs st (e1 ++ e2) = (poolRun test cs st e1).bind fun st' => poolRun test cs st' e2 := by
  induction e1 generalizing st with
  | nil => rfl
  | cons ev e1 ih =>
    simp only [List.cons_append, poolRun]
    cases poolStep test cs st ev with
    | none => rfl
    | some st' => exact ih st'

/-! values and exceptions of the released results -/

theorem mapM_ok_iff {γ δ : Type} (f : γ → Except PyErr δ) (l : List γ) (vs : List δ) :
    l.mapM f = .ok vs ↔ l.map f = vs.map .ok := by
  induction l generalizing vs with
  | nil => cases vs <;> simp [pure, Except.pure]
  | cons a l ih =>
    rw [List.mapM_cons]
    cases ha : f a with
    | error e => cases vs <;> simp [bind, Except.bind, ha]
    | ok b =>
      cases hl : l.mapM f with
      | error e =>
        simp only [bind, Except.bind, List.map_cons, ha]
        constructor
        · intro h; cases h
        · intro h
          cases vs with
          | nil => cases h
          | cons v vs =>
            rw [List.map_cons] at h
            have := (ih vs).mpr (List.cons.inj h).2
            rw [hl] at this; cases this
      | ok bs =>
        have hb := (ih bs).mp hl
        simp only [bind, Except.bind, pure, Except.pure, List.map_cons, ha]
        constructor
        · intro h; cases h; rw [List.map_cons, hb]
        · intro h
          cases vs with
          | nil => cases h
          | cons v vs =>
            rw [List.map_cons] at h
            have h1 := (List.cons.inj h).1
            have h2 := (ih vs).mpr (List.cons.inj h).2
            rw [hl] at h2
            cases h1; cases h2; rfl

theorem mapM_error_iff {γ δ : Type} (f : γ → Except PyErr δ) (l : List γ) (e : PyErr) :
    l.mapM f = .error e ↔ ∃ l1 a l2, l = l1 ++ a :: l2 ∧ f a = .error e ∧ ∀ b ∈ l1, ∃ v, f b = .ok v := by
  induction l with
  | nil => simp [pure, Except.pure]
  | cons a l ih =>
    rw [List.mapM_cons]
    cases ha : f a with
    | error e' =>
      simp only [bind, Except.bind]
      constructor
      · intro h; cases h; exact ⟨[], a, l, rfl, ha, by simp⟩
      · rintro ⟨l1, b, l2, hl, hb, h1⟩
        cases l1 with
        | nil => cases hl; rw [ha] at hb; cases hb; rfl
        | cons c l1 =>
          rw [List.cons_append] at hl
          have := (List.cons.inj hl).1
          subst this
          obtain ⟨v, hv⟩ := h1 a List.mem_cons_self
          rw [ha] at hv; cases hv
    | ok b =>
      have : (do let bs ← l.mapM f; pure (b :: bs) : Except PyErr (List δ)) = .error e ↔ l.mapM f = .error e := by
        cases l.mapM f <;> simp [bind, Except.bind, pure, Except.pure]
      simp only [bind, Except.bind] at this ⊢
      rw [this, ih]
      constructor
      · rintro ⟨l1, c, l2, rfl, hc, h1⟩
        refine ⟨a :: l1, c, l2, rfl, hc, ?_⟩
        intro x hx
        rcases List.mem_cons.mp hx with rfl | hx
        · exact ⟨b, ha⟩
        · exact h1 x hx
      · rintro ⟨l1, c, l2, hl, hc, h1⟩
        cases l1 with
        | nil => cases hl; rw [ha] at hc; cases hc
        | cons d l1 =>
          rw [List.cons_append] at hl
          have := List.cons.inj hl
          exact ⟨l1, c, l2, this.2, hc, fun x hx => h1 x (List.mem_cons_of_mem _ hx)⟩

theorem poolChunks_flatten (c : Nat) (hc : 0 < c) (l : List α) : (poolChunks c l).flatten = l := by
  induction hn : l.length using Nat.strong_induction_on generalizing l with
  | _ n ih =>
    rw [poolChunks]
    split
    · rename_i h
      rcases h with h | h
      · omega
      · rw [h]; rfl
    · rename_i h
      have hl : l.length ≠ 0 := fun e => h (Or.inr (List.length_eq_zero_iff.mp e))
      rw [List.flatten_cons, ih (l.drop c).length (by rw [List.length_drop]; omega) _ rfl, List.take_append_drop]

theorem mapM_append_except {γ δ : Type} (f : γ → Except PyErr δ) (l1 l2 : List γ) :
    (l1 ++ l2).mapM f = (l1.mapM f).bind fun a => (l2.mapM f).bind fun b => .ok (a ++ b) := by
  rw [List.mapM_append]
  cases l1.mapM f <;> cases l2.mapM f <;> rfl

/-- reading the chunks one after the other is running the test on all arguments one after the other -/
theorem chunks_mapM (cs : List (List α)) :
    ((cs.map (runChunk test)).mapM id).map List.flatten = cs.flatten.mapM test := by
  induction cs with
  | nil => rfl
  | cons c cs ih =>
    rw [List.map_cons, List.mapM_cons, List.flatten_cons, mapM_append_except, ← ih]
    unfold runChunk
    simp only [id]
    cases c.mapM test with
    | error e => rfl
    | ok b =>
      simp only [bind, Except.bind]
      cases (cs.map fun chunk => chunk.mapM test).mapM id <;> rfl

/-- a result that is handed over is that of a plain loop over the arguments -/
theorem poolOutcome_sequential {st : PoolSt β W} (h : PoolSafe test cs st) (r : Except PyErr (List β))
    (hr : poolOutcome cs.length st.items = some r) : r = cs.flatten.mapM test := by
  unfold poolOutcome at hr
  rw [← chunks_mapM]
  split at hr
  · rename_i e he
    cases hr
    rw [h.items] at he
    obtain ⟨l1, a, l2, hl, ha, h1⟩ := (mapM_error_iff _ _ _).mp he
    have : (cs.map (runChunk test)).mapM id = .error e := by
      rw [mapM_error_iff]
      refine ⟨l1, a, l2 ++ (cs.map (runChunk test)).drop st.index, ?_, ha, h1⟩
      conv_lhs => rw [← List.take_append_drop st.index (cs.map (runChunk test)), hl]
      simp
    rw [this]; rfl
  · rename_i vs hvs
    split at hr
    · rename_i hlen
      cases hr
      have : st.items = cs.map (runChunk test) := by
        have h1 := h.items
        rw [h1, List.length_take, List.length_map] at hlen
        rw [h1, List.take_of_length_le]
        rw [List.length_map]; omega
      rw [← this, hvs]; rfl
    · cases hr

/-! ### no chunk is lost -/

/-- every chunk that was taken is somewhere, and a result that could be released is released -/
structure PoolLive (cs : List (List α)) (st : PoolSt β W) : Prop where
  sent : st.sent ≤ cs.length
  busy : ∀ w i, st.busy w = some i → i < st.sent
  found : ∀ i, i < st.sent → i < st.index ∨ (∃ w, st.busy w = some i) ∨ (∃ r, (i, r) ∈ st.outq) ∨ (∃ r, (i, r) ∈ st.unsorted)
  drained : ∀ r, (st.index, r) ∉ st.unsorted

theorem poolDrain_drained (fuel : Nat) (st : PoolSt β W) (h : st.unsorted.length ≤ fuel) (r : Except PyErr (List β)) :
    ((poolDrain fuel st).index, r) ∉ (poolDrain fuel st).unsorted := by
  induction fuel generalizing st with
  | zero =>
    intro hm
    have : st.unsorted = [] := List.length_eq_zero_iff.mp (by omega)
    simp [poolDrain, this] at hm
  | succ fuel ih =>
    unfold poolDrain
    split
    · rename_i hn
      intro hm
      have := List.find?_eq_none.mp hn _ hm
      simp at this
    · rename_i e he
      apply ih
      have h1 := List.mem_of_find?_eq_some he
      have h2 := List.find?_some he
      have : (st.unsorted.filter fun e' => e'.1 != st.index).length < st.unsorted.length := by
        apply List.length_filter_lt_length_iff_exists.mpr
        refine ⟨e, h1, ?_⟩
        simpa using h2
      show (st.unsorted.filter fun e' => e'.1 != st.index).length ≤ fuel
      omega

theorem poolDrain_found (fuel : Nat) (st : PoolSt β W) (i : Nat)
    (h : i < st.index ∨ ∃ r, (i, r) ∈ st.unsorted) :
    i < (poolDrain fuel st).index ∨ ∃ r, (i, r) ∈ (poolDrain fuel st).unsorted := by
  induction fuel generalizing st with
  | zero => exact h
  | succ fuel ih =>
    unfold poolDrain
    split
    · exact h
    · apply ih
      rcases h with h | ⟨r, hr⟩
      · exact Or.inl (Nat.lt_succ_of_lt h)
      · by_cases hi : i = st.index
        · left; show i < st.index + 1; omega
        · right; exact ⟨r, List.mem_filter.mpr ⟨hr, by simpa using hi⟩⟩

theorem poolDrain_same (fuel : Nat) (st : PoolSt β W) :
    (poolDrain fuel st).sent = st.sent ∧ (poolDrain fuel st).busy = st.busy ∧ (poolDrain fuel st).outq = st.outq := by
  induction fuel generalizing st with
  | zero => exact ⟨rfl, rfl, rfl⟩
  | succ fuel ih =>
    unfold poolDrain
    split
    · exact ⟨rfl, rfl, rfl⟩
    · exact ih _

theorem poolSet_same (i : Nat) (r : Except PyErr (List β)) (st : PoolSt β W) :
    (poolSet i r st).sent = st.sent ∧ (poolSet i r st).busy = st.busy ∧ (poolSet i r st).outq = st.outq := by
  unfold poolSet
  split
  · exact poolDrain_same _ _
  · exact ⟨rfl, rfl, rfl⟩

theorem poolSet_found (i : Nat) (r : Except PyErr (List β)) (st : PoolSt β W) (k : Nat)
    (h : k < st.index ∨ k = i ∨ ∃ r, (k, r) ∈ st.unsorted) :
    k < (poolSet i r st).index ∨ ∃ r', (k, r') ∈ (poolSet i r st).unsorted := by
  unfold poolSet
  split
  · rename_i hi
    apply poolDrain_found
    rcases h with h | h | h
    · left; show k < st.index + 1; omega
    · left; show k < st.index + 1; omega
    · right; exact h
  · rcases h with h | h | ⟨r', h⟩
    · left; exact h
    · right; subst h; exact ⟨r, List.mem_cons_self⟩
    · right
      by_cases hk : k = i
      · subst hk; exact ⟨r, List.mem_cons_self⟩
      · exact ⟨r', List.mem_cons_of_mem _ (List.mem_filter.mpr ⟨h, by simpa using hk⟩)⟩

theorem poolSet_drained (i : Nat) (r : Except PyErr (List β)) (st : PoolSt β W) (h : ∀ r, (st.index, r) ∉ st.unsorted)
    (r' : Except PyErr (List β)) : ((poolSet i r st).index, r') ∉ (poolSet i r st).unsorted := by
  unfold poolSet
  split
  · exact poolDrain_drained _ _ (by exact Nat.le_refl _) r'
  · rename_i hi
    intro hm
    rcases List.mem_cons.mp hm with hm | hm
    · exact hi (Prod.ext_iff.mp hm).1
    · exact h r' (List.mem_filter.mp hm).1

/-- a step that does not kill a working process -/
def harmless (st : PoolSt β W) : PoolEv W → Prop
  | .kill w => st.busy w = none
  | _ => True

theorem PoolLive.step {st st' : PoolSt β W} (h : PoolLive cs st) (ev : PoolEv W) (hev : harmless st ev)
    (hs : poolStep test cs st ev = some st') : PoolLive cs st' := by
  cases ev with
  | take w =>
    simp only [poolStep] at hs
    split at hs
    · rename_i hw
      cases hs
      refine ⟨hw.2, ?_, ?_, h.drained⟩
      · intro w' i hi
        simp only [Function.update_apply] at hi
        show i < st.sent + 1
        split at hi
        · cases hi; omega
        · have := h.busy w' i hi; omega
      · intro i hi
        rcases Nat.lt_succ_iff_lt_or_eq.mp hi with hi | rfl
        · rcases h.found i hi with h1 | ⟨w', h1⟩ | h1 | h1
          · exact Or.inl h1
          · refine Or.inr (Or.inl ⟨w', ?_⟩)
            have : w' ≠ w := by rintro rfl; rw [hw.1] at h1; cases h1
            simp only [Function.update_apply, if_neg this]; exact h1
          · exact Or.inr (Or.inr (Or.inl h1))
          · exact Or.inr (Or.inr (Or.inr h1))
        · exact Or.inr (Or.inl ⟨w, by simp⟩)
    · cases hs
  | finish w =>
    simp only [poolStep] at hs
    split at hs
    · cases hs
    · rename_i i hi
      split at hs
      · cases hs
      · rename_i c hc
        cases hs
        refine ⟨h.sent, ?_, ?_, h.drained⟩
        · intro w' k hk
          simp only [Function.update_apply] at hk
          split at hk
          · cases hk
          · exact h.busy w' k hk
        · intro k hk
          rcases h.found k hk with h1 | ⟨w', h1⟩ | ⟨r, h1⟩ | h1
          · exact Or.inl h1
          · by_cases hw : w' = w
            · subst hw
              rw [hi] at h1; cases h1
              exact Or.inr (Or.inr (Or.inl ⟨_, List.mem_append_right _ (List.mem_singleton.mpr rfl)⟩))
            · exact Or.inr (Or.inl ⟨w', by simp only [Function.update_apply, if_neg hw]; exact h1⟩)
          · exact Or.inr (Or.inr (Or.inl ⟨r, List.mem_append_left _ h1⟩))
          · exact Or.inr (Or.inr (Or.inr h1))
  | handle =>
    simp only [poolStep] at hs
    split at hs
    · cases hs
    · rename_i e q hq
      cases hs
      have hsame := poolSet_same e.1 e.2 { st with outq := q }
      refine ⟨?_, ?_, ?_, poolSet_drained _ _ _ h.drained⟩
      · rw [hsame.1]; exact h.sent
      · rw [hsame.1, hsame.2.1]; exact h.busy
      · rw [hsame.1, hsame.2.1, hsame.2.2]
        intro k hk
        have key := poolSet_found e.1 e.2 { st with outq := q } k
        rcases h.found k hk with h1 | h1 | ⟨r, h1⟩ | h1
        · rcases key (Or.inl h1) with h2 | h2
          · exact Or.inl h2
          · exact Or.inr (Or.inr (Or.inr h2))
        · exact Or.inr (Or.inl h1)
        · rw [hq] at h1
          rcases List.mem_cons.mp h1 with h1 | h1
          · rcases key (Or.inr (Or.inl (by rw [← h1]))) with h2 | h2
            · exact Or.inl h2
            · exact Or.inr (Or.inr (Or.inr h2))
          · exact Or.inr (Or.inr (Or.inl ⟨r, h1⟩))
        · rcases key (Or.inr (Or.inr h1)) with h2 | h2
          · exact Or.inl h2
          · exact Or.inr (Or.inr (Or.inr h2))
  | kill w =>
    simp only [poolStep] at hs
    cases hs
    have hw : Function.update st.busy w none = st.busy := by
      funext w'
      simp only [Function.update_apply]
      split
      · rename_i e; rw [e]; exact (show st.busy w = none from hev).symm
      · rfl
    refine ⟨h.sent, ?_, ?_, h.drained⟩
    · show ∀ w' i, Function.update st.busy w none w' = some i → i < st.sent
      rw [hw]; exact h.busy
    · intro i hi
      show _ ∨ (∃ w', Function.update st.busy w none w' = some i) ∨ _
      rw [hw]; exact h.found i hi

theorem PoolLive.init : PoolLive cs (poolInit β W) :=
  ⟨by simp [poolInit], by simp [poolInit], by simp [poolInit], by simp [poolInit]⟩

/-- no working process gets killed along the run -/
theorem PoolLive.run {st st' : PoolSt β W} (h : PoolLive cs st) (evs : List (PoolEv W))
    (hk : ∀ e1 w e2 st1, evs = e1 ++ PoolEv.kill w :: e2 → poolRun test cs st e1 = some st1 → st1.busy w = none)
    (hs : poolRun test cs st evs = some st') : PoolLive cs st' := by
  induction evs generalizing st with
  | nil => cases hs; exact h
  | cons ev evs ih =>
    simp only [poolRun] at hs
    obtain ⟨st1, h1, h2⟩ := Option.bind_eq_some_iff.mp hs
    refine ih (h.step ev ?_ h1) ?_ h2
    · cases ev with
      | kill w => exact hk [] w evs st rfl rfl
      | _ => trivial
    · intro e1 w e2 st2 he hr
      exact hk (ev :: e1) w e2 st2 (by rw [he]; rfl) (by simp only [poolRun, h1]; exact hr)

/-- without an outcome, some process can go on -/
theorem PoolLive.progress {st : PoolSt β W} (h : PoolLive cs st) (hS : PoolSafe test cs st) (hW : 0 < W)
    (hno : poolOutcome cs.length st.items = none) :
    ∃ ev, (∀ w, ev ≠ PoolEv.kill w) ∧ poolStep test cs st ev ≠ none := by
  by_contra hcon
  push Not at hcon
  have hbusy : ∀ w, st.busy w = none := by
    intro w
    have h1 := hcon (.finish w) (by simp)
    cases hb : st.busy w with
    | none => rfl
    | some i =>
      have hi : i < cs.length := Nat.lt_of_lt_of_le (h.busy w i hb) h.sent
      simp [poolStep, hb, hi] at h1
  have hsent : st.sent = cs.length := by
    have h1 := hcon (.take ⟨0, hW⟩) (by simp)
    have := h.sent
    simp [poolStep, hbusy] at h1
    omega
  have hout : st.outq = [] := by
    have h1 := hcon .handle (by simp)
    cases ho : st.outq with
    | nil => rfl
    | cons e q => simp [poolStep, ho] at h1
  have hidx : st.index = cs.length := by
    by_contra hne
    have hlt : st.index < st.sent := by have := hS.index; omega
    rcases h.found _ hlt with h1 | ⟨w, h1⟩ | ⟨r, h1⟩ | ⟨r, h1⟩
    · omega
    · rw [hbusy] at h1; cases h1
    · rw [hout] at h1; cases h1
    · exact h.drained r h1
  unfold poolOutcome at hno
  split at hno
  · cases hno
  · have hlen : st.items.length = cs.length := by
      rw [hS.items, List.length_take, List.length_map, hidx, Nat.min_self]
    rw [if_pos hlen] at hno; cases hno

/-! ### every execution is finite -/

/-- number of working processes -/
def busyCount (st : PoolSt β W) : Nat := ∑ w, if (st.busy w).isSome then 1 else 0

/-- work that is left -/
def poolLeft (n : Nat) (st : PoolSt β W) : Nat := 3 * (n - st.sent) + 2 * busyCount st + st.outq.length

theorem busyCount_update (st : PoolSt β W) (w : Fin W) (v : Option Nat) :
    (∑ w', if (Function.update st.busy w v w').isSome then 1 else 0) + (if (st.busy w).isSome then 1 else 0) =
      busyCount st + (if v.isSome then 1 else 0) := by
  unfold busyCount
  rw [← Finset.add_sum_erase _ _ (Finset.mem_univ w), ← Finset.add_sum_erase _ (fun w' => if (st.busy w').isSome then 1 else 0) (Finset.mem_univ w)]
  have : ∑ x ∈ Finset.univ.erase w, (if (Function.update st.busy w v x).isSome then 1 else 0) =
      ∑ x ∈ Finset.univ.erase w, (if (st.busy x).isSome then 1 else 0) := by
    apply Finset.sum_congr rfl
    intro x hx
    rw [Function.update_of_ne (Finset.ne_of_mem_erase hx)]
  rw [this, Function.update_self]
  omega

theorem poolStep_left {st st' : PoolSt β W} (ev : PoolEv W) (hev : ∀ w, ev ≠ PoolEv.kill w)
    (hs : poolStep test cs st ev = some st') : poolLeft cs.length st' + 1 ≤ poolLeft cs.length st := by
  cases ev with
  | take w =>
    simp only [poolStep] at hs
    split at hs
    · rename_i hw
      cases hs
      have := busyCount_update st w (some st.sent)
      rw [hw.1] at this
      simp only [poolLeft]
      change 3 * (cs.length - (st.sent + 1)) + 2 * (∑ w', if (Function.update st.busy w (some st.sent) w').isSome then 1 else 0) + st.outq.length + 1 ≤ _
      simp only [Option.isSome_some, Option.isSome_none, Bool.false_eq_true, if_true, if_false] at this
      have := hw.2
      simp only [busyCount] at *
      omega
    · cases hs
  | finish w =>
    simp only [poolStep] at hs
    split at hs
    · cases hs
    · rename_i i hi
      split at hs
      · cases hs
      · cases hs
        have := busyCount_update st w none
        rw [hi] at this
        simp only [poolLeft, List.length_append, List.length_singleton]
        change 3 * (cs.length - st.sent) + 2 * (∑ w', if (Function.update st.busy w none w').isSome then 1 else 0) + (st.outq.length + 1) + 1 ≤ _
        simp only [Option.isSome_some, Option.isSome_none, Bool.false_eq_true, if_true, if_false] at this
        simp only [busyCount] at *
        omega
  | handle =>
    simp only [poolStep] at hs
    split at hs
    · cases hs
    · rename_i e q hq
      cases hs
      have hsame := poolSet_same e.1 e.2 { st with outq := q }
      unfold poolLeft busyCount
      rw [hsame.1, hsame.2.1, hsame.2.2, hq]
      simp only [List.length_cons]
      omega
  | kill w => exact absurd rfl (hev w)

theorem poolRun_left {st st' : PoolSt β W} (evs : List (PoolEv W)) (hev : ∀ w, PoolEv.kill w ∉ evs)
    (hs : poolRun test cs st evs = some st') : poolLeft cs.length st' + evs.length ≤ poolLeft cs.length st := by
  induction evs generalizing st with
  | nil => cases hs; simp
  | cons ev evs ih =>
    simp only [poolRun] at hs
    obtain ⟨st1, h1, h2⟩ := Option.bind_eq_some_iff.mp hs
    have a := poolStep_left ev (fun w he => hev w (he ▸ List.mem_cons_self)) h1
    have b := ih (fun w hw => hev w (List.mem_cons_of_mem _ hw)) h2
    rw [List.length_cons]; omega

/-! ### a chunk whose worker is killed never comes back -/

/-- chunk `i` was taken and is nowhere -/
structure PoolLost (i : Nat) (st : PoolSt β W) : Prop where
  sent : i < st.sent
  index : st.index ≤ i
  busy : ∀ w, st.busy w ≠ some i
  outq : ∀ e ∈ st.outq, e.1 ≠ i
  unsorted : ∀ e ∈ st.unsorted, e.1 ≠ i

/-- chunk `i` is only with worker `w` -/
structure PoolHeld (i : Nat) (w : Fin W) (st : PoolSt β W) : Prop where
  sent : i < st.sent
  index : st.index ≤ i
  busy : ∀ w', st.busy w' = some i → w' = w
  outq : ∀ e ∈ st.outq, e.1 ≠ i
  unsorted : ∀ e ∈ st.unsorted, e.1 ≠ i

theorem poolDrain_away (i : Nat) (fuel : Nat) (st : PoolSt β W) (h1 : st.index ≤ i) (h2 : ∀ e ∈ st.unsorted, e.1 ≠ i) :
    (poolDrain fuel st).index ≤ i ∧ ∀ e ∈ (poolDrain fuel st).unsorted, e.1 ≠ i := by
  induction fuel generalizing st with
  | zero => exact ⟨h1, h2⟩
  | succ fuel ih =>
    unfold poolDrain
    split
    · exact ⟨h1, h2⟩
    · rename_i e he
      apply ih
      · have a := h2 e (List.mem_of_find?_eq_some he)
        have b : e.1 = st.index := by have := List.find?_some he; simpa using this
        show st.index + 1 ≤ i
        omega
      · intro e' he'
        exact h2 e' (List.mem_filter.mp he').1

theorem poolSet_away (i k : Nat) (r : Except PyErr (List β)) (st : PoolSt β W) (hk : k ≠ i) (h1 : st.index ≤ i)
    (h2 : ∀ e ∈ st.unsorted, e.1 ≠ i) :
    (poolSet k r st).index ≤ i ∧ ∀ e ∈ (poolSet k r st).unsorted, e.1 ≠ i := by
  unfold poolSet
  split
  · rename_i hi
    apply poolDrain_away
    · show st.index + 1 ≤ i; omega
    · exact h2
  · refine ⟨h1, ?_⟩
    intro e he
    rcases List.mem_cons.mp he with rfl | he
    · exact hk
    · exact h2 e (List.mem_filter.mp he).1

theorem PoolLost.step {i : Nat} {st st' : PoolSt β W} (h : PoolLost i st) (ev : PoolEv W)
    (hs : poolStep test cs st ev = some st') : PoolLost i st' := by
  cases ev with
  | take w =>
    simp only [poolStep] at hs
    split at hs
    · cases hs
      refine ⟨Nat.lt_succ_of_lt h.sent, h.index, ?_, h.outq, h.unsorted⟩
      intro w' hw'
      simp only [Function.update_apply] at hw'
      split at hw'
      · cases hw'; exact absurd h.sent (Nat.lt_irrefl _)
      · exact h.busy w' hw'
    · cases hs
  | finish w =>
    simp only [poolStep] at hs
    split at hs
    · cases hs
    · rename_i k hk
      split at hs
      · cases hs
      · cases hs
        refine ⟨h.sent, h.index, ?_, ?_, h.unsorted⟩
        · intro w' hw'
          simp only [Function.update_apply] at hw'
          split at hw'
          · cases hw'
          · exact h.busy w' hw'
        · intro e he
          rcases List.mem_append.mp he with he | he
          · exact h.outq e he
          · rw [List.mem_singleton.mp he]
            rintro rfl
            exact h.busy w hk
  | handle =>
    simp only [poolStep] at hs
    split at hs
    · cases hs
    · rename_i e q hq
      cases hs
      have hsame := poolSet_same e.1 e.2 { st with outq := q }
      have key := poolSet_away i e.1 e.2 { st with outq := q } (h.outq e (by rw [hq]; exact List.mem_cons_self)) h.index h.unsorted
      refine ⟨by rw [hsame.1]; exact h.sent, key.1, by rw [hsame.2.1]; exact h.busy, ?_, key.2⟩
      rw [hsame.2.2]
      intro e' he'
      exact h.outq e' (by rw [hq]; exact List.mem_cons_of_mem _ he')
  | kill w =>
    simp only [poolStep] at hs
    cases hs
    refine ⟨h.sent, h.index, ?_, h.outq, h.unsorted⟩
    intro w' hw'
    simp only [Function.update_apply] at hw'
    split at hw'
    · cases hw'
    · exact h.busy w' hw'

theorem PoolLost.run {i : Nat} {st st' : PoolSt β W} (h : PoolLost i st) (evs : List (PoolEv W))
    (hs : poolRun test cs st evs = some st') : PoolLost i st' := by
  induction evs generalizing st with
  | nil => cases hs; exact h
  | cons ev evs ih =>
    simp only [poolRun] at hs
    obtain ⟨st1, h1, h2⟩ := Option.bind_eq_some_iff.mp hs
    exact ih (h.step ev h1) h2

/-- what a worker is working on is nowhere else, and nothing is anywhere before it is taken -/
structure PoolOwn (st : PoolSt β W) : Prop where
  held : ∀ w i, st.busy w = some i → PoolHeld i w st
  outq : ∀ e ∈ st.outq, e.1 < st.sent
  unsorted : ∀ e ∈ st.unsorted, e.1 < st.sent
  index : st.index ≤ st.sent

theorem poolDrain_bound (n : Nat) (fuel : Nat) (st : PoolSt β W) (h1 : st.index ≤ n) (h2 : ∀ e ∈ st.unsorted, e.1 < n) :
    (poolDrain fuel st).index ≤ n ∧ ∀ e ∈ (poolDrain fuel st).unsorted, e.1 < n := by
  induction fuel generalizing st with
  | zero => exact ⟨h1, h2⟩
  | succ fuel ih =>
    unfold poolDrain
    split
    · exact ⟨h1, h2⟩
    · rename_i e he
      apply ih
      · have a := h2 e (List.mem_of_find?_eq_some he)
        have b : e.1 = st.index := by have := List.find?_some he; simpa using this
        show st.index + 1 ≤ n
        omega
      · intro e' he'
        exact h2 e' (List.mem_filter.mp he').1

theorem poolSet_bound (n k : Nat) (r : Except PyErr (List β)) (st : PoolSt β W) (hk : k < n) (h1 : st.index ≤ n)
    (h2 : ∀ e ∈ st.unsorted, e.1 < n) :
    (poolSet k r st).index ≤ n ∧ ∀ e ∈ (poolSet k r st).unsorted, e.1 < n := by
  unfold poolSet
  split
  · apply poolDrain_bound
    · show st.index + 1 ≤ n; omega
    · exact h2
  · refine ⟨h1, ?_⟩
    intro e he
    rcases List.mem_cons.mp he with rfl | he
    · exact hk
    · exact h2 e (List.mem_filter.mp he).1

theorem PoolOwn.step {st st' : PoolSt β W} (h : PoolOwn st) (ev : PoolEv W)
    (hs : poolStep test cs st ev = some st') : PoolOwn st' := by
  cases ev with
  | take w =>
    simp only [poolStep] at hs
    split at hs
    · rename_i hw
      cases hs
      refine ⟨?_, fun e he => Nat.lt_succ_of_lt (h.outq e he), fun e he => Nat.lt_succ_of_lt (h.unsorted e he),
        Nat.le_succ_of_le h.index⟩
      intro w' i hi
      simp only [Function.update_apply] at hi
      split at hi
      · rename_i hw'
        cases hi
        refine ⟨Nat.lt_succ_self _, h.index, ?_, fun e he => Nat.ne_of_lt (h.outq e he),
          fun e he => Nat.ne_of_lt (h.unsorted e he)⟩
        intro w'' hw''
        simp only [Function.update_apply] at hw''
        split at hw''
        · rename_i e; rw [e, hw']
        · exact absurd (h.held w'' _ hw'').sent (Nat.lt_irrefl _)
      · have hh := h.held w' i hi
        refine ⟨Nat.lt_succ_of_lt hh.sent, hh.index, ?_, hh.outq, hh.unsorted⟩
        intro w'' hw''
        simp only [Function.update_apply] at hw''
        split at hw''
        · cases hw''; exact absurd hh.sent (Nat.lt_irrefl _)
        · exact hh.busy w'' hw''
    · cases hs
  | finish w =>
    simp only [poolStep] at hs
    split at hs
    · cases hs
    · rename_i k hk
      split at hs
      · cases hs
      · cases hs
        refine ⟨?_, ?_, h.unsorted, h.index⟩
        · intro w' i hi
          simp only [Function.update_apply] at hi
          split at hi
          · cases hi
          · rename_i hne
            have hh := h.held w' i hi
            refine ⟨hh.sent, hh.index, ?_, ?_, hh.unsorted⟩
            · intro w'' hw''
              simp only [Function.update_apply] at hw''
              split at hw''
              · cases hw''
              · exact hh.busy w'' hw''
            · intro e he
              rcases List.mem_append.mp he with he | he
              · exact hh.outq e he
              · rw [List.mem_singleton.mp he]
                rintro rfl
                exact hne (hh.busy w hk).symm
        · intro e he
          rcases List.mem_append.mp he with he | he
          · exact h.outq e he
          · rw [List.mem_singleton.mp he]
            exact (h.held w k hk).sent
  | handle =>
    simp only [poolStep] at hs
    split at hs
    · cases hs
    · rename_i e q hq
      cases hs
      have hsame := poolSet_same e.1 e.2 { st with outq := q }
      have hb := poolSet_bound st.sent e.1 e.2 { st with outq := q } (h.outq e (by rw [hq]; exact List.mem_cons_self)) h.index h.unsorted
      have hq' : ∀ e' ∈ q, e' ∈ st.outq := fun e' he' => by rw [hq]; exact List.mem_cons_of_mem _ he'
      refine ⟨?_, ?_, ?_, ?_⟩
      · intro w i hi
        rw [hsame.2.1] at hi
        have hh := h.held w i hi
        have key := poolSet_away i e.1 e.2 { st with outq := q } (hh.outq e (by rw [hq]; exact List.mem_cons_self)) hh.index hh.unsorted
        exact ⟨by rw [hsame.1]; exact hh.sent, key.1, by rw [hsame.2.1]; exact hh.busy,
          by rw [hsame.2.2]; exact fun e' he' => hh.outq e' (hq' e' he'), key.2⟩
      · rw [hsame.1, hsame.2.2]; exact fun e' he' => h.outq e' (hq' e' he')
      · rw [hsame.1]; exact hb.2
      · rw [hsame.1]; exact hb.1
  | kill w =>
    simp only [poolStep] at hs
    cases hs
    refine ⟨?_, h.outq, h.unsorted, h.index⟩
    intro w' i hi
    simp only [Function.update_apply] at hi
    split at hi
    · cases hi
    · have hh := h.held w' i hi
      refine ⟨hh.sent, hh.index, ?_, hh.outq, hh.unsorted⟩
      intro w'' hw''
      simp only [Function.update_apply] at hw''
      split at hw''
      · cases hw''
      · exact hh.busy w'' hw''

theorem PoolOwn.run {st st' : PoolSt β W} (h : PoolOwn st) (evs : List (PoolEv W))
    (hs : poolRun test cs st evs = some st') : PoolOwn st' := by
  induction evs generalizing st with
  | nil => cases hs; exact h
  | cons ev evs ih =>
    simp only [poolRun] at hs
    obtain ⟨st1, h1, h2⟩ := Option.bind_eq_some_iff.mp hs
    exact ih (h.step ev h1) h2

theorem PoolOwn.init : PoolOwn (poolInit β W) :=
  ⟨by simp [poolInit], by simp [poolInit], by simp [poolInit], by simp [poolInit]⟩

/-- killing a working process loses its chunk -/
theorem PoolOwn.kill {st st' : PoolSt β W} (h : PoolOwn st) (w : Fin W) (i : Nat) (hw : st.busy w = some i)
    (hs : poolStep test cs st (.kill w) = some st') : PoolLost i st' := by
  simp only [poolStep] at hs
  cases hs
  have hh := h.held w i hw
  refine ⟨hh.sent, hh.index, ?_, hh.outq, hh.unsorted⟩
  intro w' hw'
  simp only [Function.update_apply] at hw'
  split at hw'
  · cases hw'
  · rename_i hne; exact hne (hh.busy w' hw')

/-- while an earlier chunk is missing and no test raises, the caller waits -/
theorem PoolLost.outcome {i : Nat} {st : PoolSt β W} (h : PoolLost i st) (hS : PoolSafe test cs st) (hi : i < cs.length)
    (hok : ∀ a ∈ cs.flatten, ∃ v, test a = .ok v) : poolOutcome cs.length st.items = none := by
  unfold poolOutcome
  split
  · rename_i e he
    exfalso
    obtain ⟨l1, a, l2, hl, ha, -⟩ := (mapM_error_iff _ _ _).mp he
    have hm : a ∈ st.items := by rw [hl]; simp
    rw [hS.items] at hm
    obtain ⟨c, hc, rfl⟩ := List.mem_map.mp (List.mem_of_mem_take hm)
    obtain ⟨l1, b, l2, hl, hb, -⟩ := (mapM_error_iff _ _ _).mp (show runChunk test c = .error e from ha)
    obtain ⟨v, hv⟩ := hok b (List.mem_flatten.mpr ⟨c, hc, by rw [hl]; simp⟩)
    rw [hb] at hv; cases hv
  · rw [if_neg]
    rw [hS.items, List.length_take, List.length_map]
    have := h.index
    omega

end generic

section udg
variable {K : Type} [Field K] [LinearOrder K] {N M : Nat}

theorem foldl_assign {δ : Type} (g : Fin M × Fin M → δ) (entries : List ((Fin M × Fin M) × δ)) (p : Fin M → Fin M → δ)
    (hg : ∀ e ∈ entries, e.2 = g e.1) (i j : Fin M) :
    (entries.foldl (fun (p : Fin M → Fin M → δ) (e : (Fin M × Fin M) × δ) =>
      fun i j => if i = e.1.1 ∧ j = e.1.2 then e.2 else p i j) p) i j =
      if ∃ e ∈ entries, e.1 = (i, j) then g (i, j) else p i j := by
  classical
  induction entries generalizing p with
  | nil => simp
  | cons e entries ih =>
    rw [List.foldl_cons, ih _ fun e' he' => hg e' (List.mem_cons_of_mem _ he')]
    by_cases h1 : ∃ e' ∈ entries, e'.1 = (i, j)
    · rw [if_pos h1, if_pos]
      obtain ⟨e', he', h⟩ := h1
      exact ⟨e', List.mem_cons_of_mem _ he', h⟩
    · rw [if_neg h1]
      by_cases h2 : i = e.1.1 ∧ j = e.1.2
      · rw [if_pos h2, if_pos ⟨e, List.mem_cons_self, by rw [h2.1, h2.2]⟩, hg e List.mem_cons_self, h2.1, h2.2]
      · rw [if_neg h2, if_neg]
        rintro ⟨e', he', h⟩
        rcases List.mem_cons.mp he' with rfl | he'
        · exact h2 (by rw [h]; exact ⟨rfl, rfl⟩)
        · exact h1 ⟨e', he', h⟩

/-- the filled matrix -/
theorem scatterPvals_eq (t : Fin M × Fin M → Except PyErr (Fl K)) (vals : List (Fl K))
    (h : (triuPairs M).map t = vals.map .ok) :
    (∀ i j, i < j → t (i, j) = .ok (scatterPvals vals i j) ∧ scatterPvals vals j i = scatterPvals vals i j) ∧
    ∀ i, scatterPvals (M := M) vals i i = Fl.fin 0 := by
  classical
  set g : Fin M × Fin M → Fl K := fun e => match t e with | .ok v => v | .error _ => .fin 0 with hgdef
  have hz : ∀ e ∈ (triuPairs M).zip vals, t e.1 = .ok e.2 := by
    intro e he
    obtain ⟨n, hn, rfl⟩ := List.getElem_of_mem he
    rw [List.length_zip] at hn
    have : ((triuPairs M).map t)[n]? = (vals.map Except.ok)[n]? := by rw [h]
    rw [List.getElem?_map, List.getElem?_map, List.getElem?_eq_getElem (by omega), List.getElem?_eq_getElem (by omega)] at this
    rw [List.getElem_zip]
    exact Option.some.inj this
  have hlen : vals.length = (triuPairs M).length := by
    have := congrArg List.length h; rw [List.length_map, List.length_map] at this; exact this.symm
  have hmem : ∀ i j : Fin M, (∃ e ∈ (triuPairs M).zip vals, e.1 = (i, j)) ↔ i < j := by
    intro i j
    rw [show i < j ↔ (i, j) ∈ triuPairs M from (mem_triuPairs (e := (i, j))).symm]
    constructor
    · rintro ⟨e, he, hij⟩
      rw [← hij]
      exact (List.of_mem_zip (show (e.1, e.2) ∈ _ from he)).1
    · intro hij
      obtain ⟨n, hn, hn2⟩ := List.getElem_of_mem hij
      refine ⟨((triuPairs M).zip vals)[n]'(by rw [List.length_zip]; omega), List.getElem_mem _, ?_⟩
      rw [List.getElem_zip]; exact hn2
  have hval : ∀ i j, scatterPvals vals i j = if j < i then g (j, i) else if i < j then g (i, j) else Fl.fin 0 := by
    intro i j
    unfold scatterPvals
    rw [foldl_assign (fun e => g (e.2, e.1)), foldl_assign g]
    · have h1 : (∃ e ∈ ((triuPairs M).zip vals).map (fun e => ((e.1.2, e.1.1), e.2)), e.1 = (i, j)) ↔ j < i := by
        rw [← hmem j i]
        constructor
        · rintro ⟨e, he, hij⟩
          obtain ⟨e', he', rfl⟩ := List.mem_map.mp he
          refine ⟨e', he', ?_⟩
          have := Prod.ext_iff.mp hij
          exact Prod.ext this.2 this.1
        · rintro ⟨e, he, hij⟩
          refine ⟨_, List.mem_map.mpr ⟨e, he, rfl⟩, ?_⟩
          rw [hij]
      simp only [h1, hmem]
    · intro e he
      simp only [hgdef, hz e he]
    · intro e he
      obtain ⟨e', he', rfl⟩ := List.mem_map.mp he
      simp only [hgdef, hz e' he']
  refine ⟨?_, ?_⟩
  · intro i j hij
    have h1 : scatterPvals vals i j = g (i, j) := by rw [hval, if_neg (lt_asymm hij), if_pos hij]
    have h2 : scatterPvals vals j i = g (i, j) := by rw [hval, if_pos hij]
    refine ⟨?_, by rw [h1, h2]⟩
    obtain ⟨e, he, hij'⟩ := (hmem i j).mpr hij
    have := hz e he
    rw [h1, ← hij', hgdef]
    simp only [this]
  · intro i
    rw [hval, if_neg (lt_irrefl _), if_neg (lt_irrefl _)]

/-- the test on the columns of a pair -/
abbrev columnTest (test : (Fin N → K) → (Fin N → K) → Except PyErr (Fl K)) (s : Fin N → Fin M → K)
    (e : Fin M × Fin M) : Except PyErr (Fl K) := test (fun k => s k e.1) (fun k => s k e.2)

theorem poolUDG_some (test : (Fin N → K) → (Fin N → K) → Except PyErr (Fl K)) (s : Fin N → Fin M → K) (level : K)
    (W c : Nat) (hc : 0 < c) (evs : List (PoolEv W)) (r)
    (h : poolUDG test s level W c evs = some r) :
    r = ((triuPairs M).mapM (columnTest test s)).map fun vals =>
      (clearDiag fun i j => (scatterPvals (M := M) vals i j).lt level, some (scatterPvals vals)) := by
  unfold poolUDG at h
  simp only [Option.bind_eq_some_iff, Option.map_eq_some_iff] at h
  obtain ⟨st, hst, o, ho, rfl⟩ := h
  have := poolOutcome_sequential (PoolSafe.init.run evs hst) o ho
  rw [this, poolChunks_flatten c hc]

theorem triuPairs_before (i j : Fin M) (l1 l2 : List (Fin M × Fin M)) (h : triuPairs M = l1 ++ (i, j) :: l2)
    (i' j' : Fin M) (hij : i' < j') (hlt : i' < i ∨ (i' = i ∧ j' < j)) : (i', j') ∈ l1 := by
  have hm : (i', j') ∈ triuPairs M := mem_triuPairs.mpr hij
  have hs : (triuPairs M).Pairwise fun a b => a.1 < b.1 ∨ (a.1 = b.1 ∧ a.2 < b.2) := by
    unfold triuPairs
    rw [List.pairwise_flatMap]
    constructor
    · intro u _
      rw [List.pairwise_map]
      apply List.Pairwise.imp_of_mem (R := fun a b : Fin M => a < b)
      · intro a b _ _ hab; exact Or.inr ⟨rfl, hab⟩
      · exact (List.pairwise_lt_finRange M).filter _
    · apply List.Pairwise.imp_of_mem (R := fun a b : Fin M => a < b) _ (List.pairwise_lt_finRange M)
      intro a b _ _ hab x hx y hy
      obtain ⟨_, _, rfl⟩ := List.mem_map.mp hx
      obtain ⟨_, _, rfl⟩ := List.mem_map.mp hy
      exact Or.inl hab
  rw [h] at hm hs
  rcases List.mem_append.mp hm with hm | hm
  · exact hm
  · exfalso
    rcases List.mem_cons.mp hm with hm | hm
    · cases hm
      rcases hlt with hlt | ⟨_, hlt⟩
      · exact lt_irrefl _ hlt
      · exact lt_irrefl _ hlt
    · have := (List.pairwise_cons.mp (List.pairwise_append.mp hs).2.1).1 _ hm
      rcases this with h1 | ⟨h1, h2⟩
      · rcases hlt with h3 | ⟨h3, _⟩
        · exact lt_asymm h1 h3
        · exact absurd h3 (ne_of_gt h1)
      · rcases hlt with h3 | ⟨_, h4⟩
        · exact absurd h1 (ne_of_gt h3)
        · exact lt_asymm h2 h4

/-- **C193** whatever the number of workers, the chunk size and the schedule, a result that is returned holds the
p-values of the pairs at their places; an exception that is raised is that of the first failing pair in row-major order -/
theorem C193_result (test : (Fin N → K) → (Fin N → K) → Except PyErr (Fl K)) (s : Fin N → Fin M → K) (level : K)
    (W c : Nat) (hc : 0 < c) (evs : List (PoolEv W)) :
    (∀ u p, poolUDG test s level W c evs = some (.ok (u, p)) → ∃ P, p = some P ∧
      (∀ i j, i < j → test (fun k => s k i) (fun k => s k j) = .ok (P i j) ∧ P j i = P i j) ∧ (∀ i, P i i = .fin 0) ∧
      ∀ i j, u i j = true ↔ i ≠ j ∧ (P i j).lt level = true) ∧
    (∀ e, poolUDG test s level W c evs = some (.error e) → ∃ i j, i < j ∧
      test (fun k => s k i) (fun k => s k j) = .error e ∧
      ∀ i' j', i' < j' → (i' < i ∨ (i' = i ∧ j' < j)) → ∃ v, test (fun k => s k i') (fun k => s k j') = .ok v) := by
  constructor
  · intro u p h
    have := poolUDG_some test s level W c hc evs _ h
    cases hm : (triuPairs M).mapM (columnTest test s) with
    | error e => rw [hm] at this; cases this
    | ok vals =>
      rw [hm] at this
      cases this
      have hs := scatterPvals_eq (columnTest test s) vals ((mapM_ok_iff _ _ _).mp hm)
      refine ⟨_, rfl, hs.1, hs.2, ?_⟩
      intro i j
      unfold clearDiag
      by_cases hij : i = j
      · simp [hij]
      · simp [hij]
  · intro e h
    have := poolUDG_some test s level W c hc evs _ h
    cases hm : (triuPairs M).mapM (columnTest test s) with
    | ok vals => rw [hm] at this; cases this
    | error e' =>
      rw [hm] at this
      cases this
      obtain ⟨l1, ⟨i, j⟩, l2, hl, ha, h1⟩ := (mapM_error_iff _ _ _).mp hm
      refine ⟨i, j, mem_triuPairs.mp (show (i, j) ∈ triuPairs M by rw [hl]; simp), ha, ?_⟩
      intro i' j' hij hlt
      exact h1 _ (triuPairs_before i j l1 l2 hl i' j' hij hlt)

/-- **C193** two runs that end, end alike -/
theorem C193_same (test : (Fin N → K) → (Fin N → K) → Except PyErr (Fl K)) (s : Fin N → Fin M → K) (level : K)
    (W W' c c' : Nat) (hc : 0 < c) (hc' : 0 < c') (evs : List (PoolEv W)) (evs' : List (PoolEv W')) (r r')
    (h : poolUDG test s level W c evs = some r) (h' : poolUDG test s level W' c' evs' = some r') : r = r' := by
  rw [poolUDG_some test s level W c hc evs r h, poolUDG_some test s level W' c' hc' evs' r' h']

/-- **C193** for the tests of the package, which do not raise, it is what `estimate_UDG` is elsewhere in this model -/
theorem C193_refines (lib : TestLib K N) (s : Fin N → Fin M → K) (level : K) (W c : Nat) (hc : 0 < c)
    (evs : List (PoolEv W)) (name : String) (test : (Fin N → K) → (Fin N → K) → Fl K)
    (hn : (name = "dcov_big" ∧ test = lib.dcorTest) ∨ (name = "xicor" ∧ test = lib.xicorTest)) (r)
    (h : poolUDG (fun x y => .ok (test x y)) s level W c evs = some r) :
    r = estimateUDG lib s (.name name) level := by
  have hr := poolUDG_some _ s level W c hc evs r h
  have hm : (triuPairs M).mapM (columnTest (fun x y => .ok (test x y)) s) =
      .ok ((triuPairs M).map fun e => test (fun k => s k e.1) (fun k => s k e.2)) := by
    rw [mapM_ok_iff, List.map_map]; rfl
  rw [hm] at hr
  have hs := scatterPvals_eq (K := K) (columnTest (fun x y => .ok (test x y)) s) _ ((mapM_ok_iff _ _ _).mp hm)
  have hp : scatterPvals (M := M) ((triuPairs M).map fun e => test (fun k => s k e.1) (fun k => s k e.2)) = pairPvals test s := by
    funext i j
    unfold pairPvals
    rcases lt_trichotomy i j with hij | rfl | hij
    · rw [if_pos hij]; exact (Except.ok.inj (hs.1 i j hij).1).symm
    · rw [if_neg (lt_irrefl _), if_neg (lt_irrefl _)]; exact hs.2 i
    · rw [if_neg (lt_asymm hij), if_pos hij, (hs.1 j i hij).2]
      exact (Except.ok.inj (hs.1 j i hij).1).symm
  rw [hr]
  simp only [Except.map]
  rw [hp]
  rcases hn with ⟨rfl, rfl⟩ | ⟨rfl, rfl⟩ <;> simp [estimateUDG]

/-- **C193** as long as no worker is killed, the caller cannot wait forever: every schedule has at most three steps per
chunk, and before there is a result some process can make a step -/
theorem C193_ends (test : (Fin N → K) → (Fin N → K) → Except PyErr (Fl K)) (s : Fin N → Fin M → K) (level : K)
    (cpus c : Nat) (evs : List (PoolEv (poolWorkers cpus))) (hev : ∀ w, PoolEv.kill w ∉ evs)
    (hpos : poolRun (columnTest test s) (poolChunks c (triuPairs M)) (poolInit (Fl K) (poolWorkers cpus)) evs ≠ none) :
    evs.length ≤ 3 * (poolChunks c (triuPairs M)).length ∧
    (poolUDG test s level (poolWorkers cpus) c evs = none → ∃ ev, (∀ w, ev ≠ PoolEv.kill w) ∧
      poolRun (columnTest test s) (poolChunks c (triuPairs M)) (poolInit (Fl K) (poolWorkers cpus)) (evs ++ [ev]) ≠ none) := by
  obtain ⟨st, hst⟩ := Option.ne_none_iff_exists'.mp hpos
  constructor
  · have := poolRun_left evs hev hst
    have h0 : poolLeft (poolChunks c (triuPairs M)).length (poolInit (Fl K) (poolWorkers cpus)) =
        3 * (poolChunks c (triuPairs M)).length := by
      simp [poolLeft, poolInit, busyCount]
    omega
  · intro hno
    have hL : PoolLive (poolChunks c (triuPairs M)) st := by
      refine PoolLive.init.run evs ?_ hst
      intro e1 w e2 st1 he _
      exact absurd (by rw [he]; simp) (hev w)
    have hS := PoolSafe.init.run evs hst
    have hno' : poolOutcome (poolChunks c (triuPairs M)).length st.items = none := by
      have hst' : poolRun (fun e : Fin M × Fin M => test (fun k => s k e.1) (fun k => s k e.2)) (poolChunks c (triuPairs M)) (poolInit (Fl K) (poolWorkers cpus)) evs = some st := hst
      unfold poolUDG at hno
      simpa [hst'] using hno
    obtain ⟨ev, h1, h2⟩ := hL.progress hS (by unfold poolWorkers; omega) hno'
    refine ⟨ev, h1, ?_⟩
    rw [poolRun_append, hst]
    obtain ⟨st', hst'⟩ := Option.ne_none_iff_exists'.mp h2
    simp [poolRun, hst']

/-- **C194**, false in general: when a worker is killed while it works on a chunk, the call never returns, whatever
happens afterwards -/
theorem C194_false (test : (Fin N → K) → (Fin N → K) → Except PyErr (Fl K)) (s : Fin N → Fin M → K) (level : K)
    (hok : ∀ x y, ∃ v, test x y = .ok v) (W c : Nat) (evs evs' : List (PoolEv W)) (w : Fin W) (i : Nat) (st)
    (hst : poolRun (columnTest test s) (poolChunks c (triuPairs M)) (poolInit (Fl K) W) evs = some st)
    (hw : st.busy w = some i) : poolUDG test s level W c (evs ++ .kill w :: evs') = none := by
  unfold poolUDG
  simp only [Option.bind_eq_none_iff, Option.map_eq_none_iff]
  intro st2 hst2
  change poolRun (columnTest test s) _ _ _ = _ at hst2
  have hS := PoolSafe.init.run _ hst2
  rw [poolRun_append, hst] at hst2
  simp only [Option.bind_some, poolRun] at hst2
  obtain ⟨st1, h1, h2⟩ := Option.bind_eq_some_iff.mp hst2
  have hlost := (PoolOwn.init.run evs hst).kill w i hw h1
  have hL : PoolLost i st2 := hlost.run evs' h2
  have hi : i < (poolChunks c (triuPairs M)).length := by
    have hb : ∀ (evs : List (PoolEv W)) (a b : PoolSt (Fl K) W), a.sent ≤ (poolChunks c (triuPairs M)).length →
        poolRun (columnTest test s) (poolChunks c (triuPairs M)) a evs = some b → b.sent ≤ (poolChunks c (triuPairs M)).length := by
      intro evs
      induction evs with
      | nil => intro a b h hab; cases hab; exact h
      | cons ev evs ih =>
        intro a b h hab
        simp only [poolRun] at hab
        obtain ⟨a1, h1, h2⟩ := Option.bind_eq_some_iff.mp hab
        refine ih a1 b ?_ h2
        cases ev with
        | take w =>
          simp only [poolStep] at h1
          split at h1
          · rename_i hw; cases h1; exact hw.2
          · cases h1
        | finish w =>
          simp only [poolStep] at h1
          split at h1
          · cases h1
          · split at h1
            · cases h1
            · cases h1; exact h
        | handle =>
          simp only [poolStep] at h1
          split at h1
          · cases h1
          · rename_i e q hq
            cases h1
            rw [(poolSet_same e.1 e.2 { a with outq := q }).1]; exact h
        | kill w => simp only [poolStep] at h1; cases h1; exact h
    have := hb evs _ _ (by simp [poolInit]) hst
    have := ((PoolOwn.init.run evs hst).held w i hw).sent
    omega
  exact hL.outcome hS hi fun a _ => hok _ _

/-- **C194** what holds: killing workers never changes a result that is returned, and killing only idle workers does not
make the caller wait forever -/
theorem C194_partial (test : (Fin N → K) → (Fin N → K) → Except PyErr (Fl K)) (s : Fin N → Fin M → K) (level : K)
    (cpus c : Nat) (hc : 0 < c) (evs : List (PoolEv (poolWorkers cpus))) (st)
    (hst : poolRun (columnTest test s) (poolChunks c (triuPairs M)) (poolInit (Fl K) (poolWorkers cpus)) evs = some st) :
    (∀ r W' evs' r', poolUDG test s level (poolWorkers cpus) c evs = some r → (∀ w, PoolEv.kill w ∉ evs') →
      poolUDG test s level W' c evs' = some r' → r = r') ∧
    ((∀ e1 w e2 st1, evs = e1 ++ PoolEv.kill w :: e2 →
        poolRun (columnTest test s) (poolChunks c (triuPairs M)) (poolInit (Fl K) (poolWorkers cpus)) e1 = some st1 →
        st1.busy w = none) →
      ∃ evs' r, (∀ w, PoolEv.kill w ∉ evs') ∧ evs'.length ≤ 3 * (poolChunks c (triuPairs M)).length ∧
        poolUDG test s level (poolWorkers cpus) c (evs ++ evs') = some r) := by
  constructor
  · intro r W' evs' r' h _ h'
    exact C193_same test s level _ _ c c hc hc evs evs' r r' h h'
  · intro hk
    have hL := PoolLive.init.run evs hk hst
    have hS := PoolSafe.init.run evs hst
    have key : ∀ (n : Nat) (st : PoolSt (Fl K) (poolWorkers cpus)), PoolLive (poolChunks c (triuPairs M)) st →
        PoolSafe (columnTest test s) (poolChunks c (triuPairs M)) st → poolLeft (poolChunks c (triuPairs M)).length st ≤ n →
        ∃ evs' st', (∀ w, PoolEv.kill w ∉ evs') ∧ evs'.length ≤ n ∧
          poolRun (columnTest test s) (poolChunks c (triuPairs M)) st evs' = some st' ∧
          poolOutcome (poolChunks c (triuPairs M)).length st'.items ≠ none := by
      intro n
      induction n with
      | zero =>
        intro st hL hS hn
        refine ⟨[], st, by simp, by simp, rfl, ?_⟩
        intro hno
        obtain ⟨ev, h1, h2⟩ := hL.progress hS (by unfold poolWorkers; omega) hno
        obtain ⟨st', hst'⟩ := Option.ne_none_iff_exists'.mp h2
        have := poolStep_left ev h1 hst'
        omega
      | succ n ih =>
        intro st hL hS hn
        by_cases hno : poolOutcome (poolChunks c (triuPairs M)).length st.items = none
        · obtain ⟨ev, h1, h2⟩ := hL.progress hS (by unfold poolWorkers; omega) hno
          obtain ⟨st', hst'⟩ := Option.ne_none_iff_exists'.mp h2
          have := poolStep_left ev h1 hst'
          have hharm : harmless st ev := by
            cases ev with
            | kill w => exact absurd rfl (h1 w)
            | _ => trivial
          obtain ⟨evs', st'', a, b, cc, d⟩ := ih st' (hL.step ev hharm hst') (hS.step ev hst') (by omega)
          refine ⟨ev :: evs', st'', ?_, by simpa using b, by simp only [poolRun, hst']; exact cc, d⟩
          intro w hw
          rcases List.mem_cons.mp hw with hw | hw
          · exact h1 w hw.symm
          · exact a w hw
        · exact ⟨[], st, by simp, by simp, rfl, hno⟩
    have hinit : poolLeft (poolChunks c (triuPairs M)).length st ≤ 3 * (poolChunks c (triuPairs M)).length := by
      have hmono : ∀ (evs : List (PoolEv (poolWorkers cpus))) (a b : PoolSt (Fl K) (poolWorkers cpus)),
          poolRun (columnTest test s) (poolChunks c (triuPairs M)) a evs = some b →
          poolLeft (poolChunks c (triuPairs M)).length b ≤ poolLeft (poolChunks c (triuPairs M)).length a := by
        intro evs
        induction evs with
        | nil => intro a b h; cases h; exact Nat.le_refl _
        | cons ev evs ih =>
          intro a b h
          simp only [poolRun] at h
          obtain ⟨a1, h1, h2⟩ := Option.bind_eq_some_iff.mp h
          refine Nat.le_trans (ih a1 b h2) ?_
          by_cases hkill : ∃ w, ev = .kill w
          · obtain ⟨w, rfl⟩ := hkill
            simp only [poolStep] at h1
            cases h1
            have := busyCount_update a w none
            simp only [poolLeft]
            change 3 * _ + 2 * (∑ w', if (Function.update a.busy w none w').isSome then 1 else 0) + a.outq.length ≤ _
            simp only [Option.isSome_none, Bool.false_eq_true, if_false] at this
            simp only [busyCount] at *
            omega
          · have := poolStep_left ev (fun w he => hkill ⟨w, he⟩) h1
            omega
      have h0 : poolLeft (poolChunks c (triuPairs M)).length (poolInit (Fl K) (poolWorkers cpus)) =
          3 * (poolChunks c (triuPairs M)).length := by
        simp [poolLeft, poolInit, busyCount]
      have := hmono evs _ _ hst
      omega
    obtain ⟨evs', st', a, b, cc, d⟩ := key _ st hL hS hinit
    obtain ⟨o, ho⟩ := Option.ne_none_iff_exists'.mp d
    refine ⟨evs', o.map fun vals => (clearDiag fun i j => (scatterPvals (M := M) vals i j).lt level, some (scatterPvals vals)), a, b, ?_⟩
    unfold poolUDG
    have hrun : poolRun (fun e : Fin M × Fin M => test (fun k => s k e.1) (fun k => s k e.2)) (poolChunks c (triuPairs M))
        (poolInit (Fl K) (poolWorkers cpus)) (evs ++ evs') = some st' := by
      change poolRun (columnTest test s) _ _ _ = _
      rw [poolRun_append, hst]; exact cc
    simp [hrun, ho]

/-! a concrete case: three measurements, two workers, chunks of one pair; the second pair is finished first -/

theorem chunks3 : poolChunks 1 (triuPairs 3) = [[(0, 1)], [(0, 2)], [(1, 2)]] := by
  rw [show triuPairs 3 = [(0, 1), (0, 2), (1, 2)] from by decide]
  simp [poolChunks]

/-- a schedule in which the results arrive out of order -/
def exSchedule : List (PoolEv 2) :=
  [.take 0, .take 1, .finish 1, .handle, .take 1, .finish 1, .handle, .finish 0, .handle]

example (test : (Fin N → K) → (Fin N → K) → Fl K) (s : Fin N → Fin 3 → K) (level : K) :
    poolUDG (fun x y => .ok (test x y)) s level 2 1 exSchedule =
      some (.ok (clearDiag fun i j => (pairPvals test s i j).lt level, some (pairPvals test s))) := by
  have h : ∃ r, poolUDG (fun x y => .ok (test x y)) s level 2 1 exSchedule = some r := by
    unfold poolUDG
    rw [chunks3]
    exact ⟨_, rfl⟩
  obtain ⟨r, hr⟩ := h
  have := C193_refines ⟨fun x => x, test, test⟩ s level 2 1 (by decide) exSchedule "xicor" test (Or.inr ⟨rfl, rfl⟩) r hr
  rw [hr, this]
  simp [estimateUDG]

/-- the schedule is possible, as `C193_ends` demands, and does not kill -/
example (test : (Fin N → K) → (Fin N → K) → Fl K) (s : Fin N → Fin 3 → K) :
    poolRun (columnTest (fun x y => .ok (test x y)) s) (poolChunks 1 (triuPairs 3)) (poolInit (Fl K) 2) exSchedule ≠ none := by
  rw [chunks3]; exact fun h => nomatch (show some _ = none from h)

/-- the hypotheses of `C194_false`: worker 0 works on the first pair -/
example (test : (Fin N → K) → (Fin N → K) → Fl K) (s : Fin N → Fin 3 → K) (level : K) (evs' : List (PoolEv 2)) :
    poolUDG (fun x y => .ok (test x y)) s level 2 1 ([.take 0, .take 1] ++ .kill 0 :: evs') = none := by
  have h : ∃ st, poolRun (columnTest (fun x y => .ok (test x y)) s) (poolChunks 1 (triuPairs 3)) (poolInit (Fl K) 2)
      [.take 0, .take 1] = some st ∧ st.busy 0 = some 0 := by
    rw [chunks3]; exact ⟨_, rfl, rfl⟩
  obtain ⟨st, h1, h2⟩ := h
  exact C194_false _ s level (fun x y => ⟨_, rfl⟩) 2 1 [.take 0, .take 1] evs' 0 0 st h1 h2

end udg
end Medil

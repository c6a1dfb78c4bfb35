import Verif.Props.Threads
/-
  C242: several threads sample from fitted models.
-/
namespace Medil
variable {M : Nat} {G : Type}

/-- `g'` is the state of a generator that was in state `g` and has then made some draws -/
def DrawnFrom (gen : MvnGen G) (g g' : G) : Prop :=
  Relation.ReflTransGen (fun a b => ∃ (k : Nat) (m : Fin k → ℝ) (C : Fin k → Fin k → ℝ) (n : Nat), b = (gen.mvn m C n a).2) g g'

/-- the generator that the methods of object `i` use -/
def Session.genAt (s : Session M G) (i : Nat) : G := (s.own i).getD s.shared

/-- `X` is a sample of size `n` of the model `st`: standard normal latents drawn at a state of the generator that is reached from `g₀`, times the
weights, plus errors with the means and variances of the model, drawn at a later state -/
def SampleOf (gen : MvnGen G) (st : GState M) (g₀ : G) (n : Nat) (X : Fin n → Fin M → ℝ) : Prop :=
  ∃ (m : Fin M → ℝ) (p : GParams M) (h : p.weightsOn.length = st.biadj.length) (g₁ g₂ : G),
    st.means = some m ∧ st.params = some p ∧
    let z := gen.mvn (fun _ : Fin st.biadj.length => 0) (fun i j => if i = j then 1 else 0) n g₁
    let e := gen.mvn m (fun i j => if i = j then p.variances i else 0) n g₂
    DrawnFrom gen g₀ g₁ ∧ DrawnFrom gen z.2 g₂ ∧ X = fun k j => (∑ r, z.1 k (Fin.cast h r) * p.weights r j) + e.1 k j

/-- `r` is a result of the call `c` of `sample` on an object of `s`, as the documentation describes it -/
def SampleResult (gen : MvnGen G) (s : Session M G) (c : SessionCall M) (r : Nat × SessionOut M) : Prop :=
  ∃ i n X, c = .sample i n ∧ r = (i, .sampled n (.ok X)) ∧ SampleOf gen (s.obj i) (s.genAt i) n X

section proof
variable (gen : MvnGen G)

structure SampleReady (st : GState M) (m : Fin M → ℝ) (p : GParams M) : Prop where
  lat : st.biadj.length ≠ 0
  cols : M ≠ 0
  means : st.means = some m
  params : st.params = some p
  rows : p.weightsOn.length = st.biadj.length

theorem ready_of_sample (st : GState M) (n : Nat) (g : G) (X : Fin n → Fin M → ℝ) (h : (st.sample gen n g).1 = .ok X) : ∃ m p, SampleReady st m p := by
  unfold GState.sample at h
  split at h
  · cases h
  next hl =>
  cases hm : st.means with
  | none => simp [hm] at h
  | some m =>
    cases hp : st.params with
    | none => simp [hm, hp] at h
    | some p =>
      simp only [hm, hp] at h
      split at h
      · cases h
      next hM =>
      split at h
      next hr => exact ⟨m, p, hl, hM, hm, hp, hr⟩
      · cases h

/-- what is known at the points of a call of `sample`; `g` is the present state of the generator -/
def pcSample (st : GState M) (m : Fin M → ℝ) (p : GParams M) (g₀ g : G) (n : Nat) : GPc M → Prop
  | .latents n' => n' = n
  | .errors n' L z => ∃ (hn : n' = n) (h : L = st.biadj.length) (g₁ : G), DrawnFrom gen g₀ g₁ ∧
      DrawnFrom gen (gen.mvn (fun _ : Fin st.biadj.length => 0) (fun i j => if i = j then 1 else 0) n g₁).2 g ∧
      ∀ k r, z k r = (gen.mvn (fun _ : Fin st.biadj.length => 0) (fun i j => if i = j then 1 else 0) n g₁).1 (Fin.cast hn k) (Fin.cast h r)
  | .multiply n' L z e => ∃ (hn : n' = n) (h : L = st.biadj.length) (g₁ g₂ : G), DrawnFrom gen g₀ g₁ ∧
      DrawnFrom gen (gen.mvn (fun _ : Fin st.biadj.length => 0) (fun i j => if i = j then 1 else 0) n g₁).2 g₂ ∧
      (∀ k r, z k r = (gen.mvn (fun _ : Fin st.biadj.length => 0) (fun i j => if i = j then 1 else 0) n g₁).1 (Fin.cast hn k) (Fin.cast h r)) ∧
      ∀ k j, e k j = (gen.mvn m (fun i j => if i = j then p.variances i else 0) n g₂).1 (Fin.cast hn k) j
  | .done r => ∃ X, r = .sampled n (.ok X) ∧ SampleOf gen st g₀ n X
  | _ => False

theorem pcSample.mono {st : GState M} {m : Fin M → ℝ} {p : GParams M} {g₀ g g' : G} {n : Nat} {pc : GPc M} (h : pcSample gen st m p g₀ g n pc)
    (hg : DrawnFrom gen g g') : pcSample gen st m p g₀ g' n pc := by
  cases pc <;> simp only [pcSample] at h ⊢ <;> try exact h
  obtain ⟨a, b, g₁, c, d, e⟩ := h
  exact ⟨a, b, g₁, c, d.trans hg, e⟩

theorem pcSample.step {st : GState M} {m : Fin M → ℝ} {p : GParams M} (hr : SampleReady st m p) {g₀ g : G} {n : Nat} {pc : GPc M}
    (h : pcSample gen st m p g₀ g n pc) (h0 : DrawnFrom gen g₀ g) (hd : ∀ r, pc ≠ .done r) (opt : Optimizer) :
    pcSample gen st m p g₀ (pc.step gen opt st.attrs g).2.2 n (pc.step gen opt st.attrs g).1 ∧ (pc.step gen opt st.attrs g).2.1 = st.attrs ∧
    DrawnFrom gen g (pc.step gen opt st.attrs g).2.2 := by
  have hl : st.attrs.biadj.length ≠ 0 := hr.lat
  cases pc <;> simp only [pcSample] at h <;> try exact h.elim
  case latents n' =>
    subst h
    simp only [GPc.step, if_neg hl]
    refine ⟨?_, trivial, ?_⟩
    exacts [⟨rfl, rfl, g, h0, Relation.ReflTransGen.refl, fun k r => rfl⟩, Relation.ReflTransGen.single ⟨_, _, _, _, rfl⟩]
  case errors n' L z =>
    obtain ⟨rfl, rfl, g₁, a, b, c⟩ := h
    have hm : st.attrs.means = some m := hr.means
    have hv : st.attrs.variances = some p.variances := by simp [GState.attrs, hr.params]
    simp only [GPc.step, hm, hv, if_neg hr.cols]
    exact ⟨⟨rfl, rfl, g₁, g, a, b, c, fun k j => rfl⟩, trivial, Relation.ReflTransGen.single ⟨_, _, _, _, rfl⟩⟩
  case multiply n' L z e =>
    obtain ⟨rfl, rfl, g₁, g₂, a, b, c, d⟩ := h
    have hw : st.attrs.weights = some ⟨p.weightsOn, p.weights⟩ := by simp [GState.attrs, hr.params]
    simp only [GPc.step, hw, dif_pos hr.rows]
    refine ⟨⟨_, rfl, m, p, hr.rows, g₁, g₂, hr.means, hr.params, a, b, ?_⟩, trivial, Relation.ReflTransGen.refl⟩
    funext k j
    rw [d k j]
    congr 1
    exact Finset.sum_congr rfl fun r _ => by rw [c]; rfl
  case done r => exact absurd rfl (hd r)

/-- the invariant -/
structure SampleInv (s : Session M G) (calls : Nat → List (SessionCall M)) (p : GProc M G) : Prop where
  obj : ∀ i, p.obj i = (s.obj i).attrs
  state : ∀ i, DrawnFrom gen (s.genAt i) (p.genOf i)
  thread : ∀ t, ∃ made, List.Forall₂ (SampleResult gen s) made (p.thread t).out ∧
    (((p.thread t).cur = none ∧ calls t = made ++ (p.thread t).todo) ∨
     ∃ i n pc m q, (p.thread t).cur = some (i, pc) ∧ calls t = made ++ .sample i n :: (p.thread t).todo ∧ SampleReady (s.obj i) m q ∧
       pcSample gen (s.obj i) m q (s.genAt i) (p.genOf i) n pc)

theorem SampleInv.step {s : Session M G} {calls : Nat → List (SessionCall M)} {p : GProc M G} (h : SampleInv gen s calls p)
    (hcalls : ∀ t, ∀ c ∈ calls t, ∃ i n m q, c = .sample i n ∧ SampleReady (s.obj i) m q) (opt : Optimizer) (t0 : Nat) :
    SampleInv gen s calls (p.step gen opt t0) := by
  rcases GProc.step_cases gen opt p t0 with ⟨_, _, e⟩ | ⟨c, cs, h1, h2, e⟩ | ⟨j, r, h1, e⟩ | ⟨j, pc, h1, h2, e⟩ <;> rw [e]
  · exact h
  · refine ⟨h.obj, h.state, fun t => ?_⟩
    by_cases ht : t = t0
    · subst ht
      obtain ⟨made, hf, ⟨_, ha⟩ | ⟨i, n, pc, m, q, hc, _⟩⟩ := h.thread t
      · obtain ⟨i, n, m, q, rfl, hr⟩ := hcalls t c (by rw [ha, h2]; simp)
        refine ⟨made, by simpa using hf, Or.inr ⟨i, n, .latents n, m, q, by simp [SessionCall.on, SessionCall.start], by simpa [h2] using ha, hr, rfl⟩⟩
      · rw [h1] at hc; cases hc
    · simp only [Function.update_of_ne ht]
      exact h.thread t
  · refine ⟨h.obj, h.state, fun t => ?_⟩
    by_cases ht : t = t0
    · subst ht
      obtain ⟨made, hf, ⟨hc, ha⟩ | ⟨i, n, pc, m, q, hc, ha, hr, hp⟩⟩ := h.thread t
      · rw [h1] at hc; cases hc
      · rw [h1] at hc
        cases hc
        obtain ⟨X, rfl, hX⟩ := hp
        refine ⟨made ++ [.sample j n], ?_, Or.inl ⟨by simp, by simpa using ha⟩⟩
        simp only [Function.update_self]
        exact List.rel_append hf (.cons ⟨j, n, X, rfl, rfl, hX⟩ .nil)
    · simp only [Function.update_of_ne ht]
      exact h.thread t
  · obtain ⟨made, hf, ⟨hc, ha⟩ | ⟨i, n, pc', m, q, hc, ha, hr, hp⟩⟩ := h.thread t0
    · rw [h1] at hc; cases hc
    rw [h1] at hc
    cases hc
    obtain ⟨g1, g2, g3⟩ := hp.step gen hr (h.state j) h2 opt
    rw [← h.obj j] at g1 g2 g3
    have key : ∀ P : GPc M × GAttrs M × G, pcSample gen (s.obj j) m q (s.genAt j) P.2.2 n P.1 → P.2.1 = p.obj j → DrawnFrom gen (p.genOf j) P.2.2 →
        SampleInv gen s calls
          { obj := Function.update p.obj j P.2.1
            own := if (p.own j).isSome then Function.update p.own j (some P.2.2) else p.own
            shared := if (p.own j).isSome then p.shared else P.2.2
            thread := Function.update p.thread t0 { p.thread t0 with cur := some (j, P.1) } } := by
      rintro ⟨pc', a', g'⟩ k1 k2 k3
      simp only at k1 k2 k3
      subst k2
      have hgj : (GProc.genOf { obj := Function.update p.obj j (p.obj j), own := if (p.own j).isSome then Function.update p.own j (some g') else p.own, shared := if (p.own j).isSome then p.shared else g', thread := Function.update p.thread t0 { p.thread t0 with cur := some (j, pc') } } j) = g' := by
        unfold GProc.genOf
        cases ho : p.own j <;> simp [ho]
      have hgi : ∀ i, DrawnFrom gen (p.genOf i) (GProc.genOf { obj := Function.update p.obj j (p.obj j), own := if (p.own j).isSome then Function.update p.own j (some g') else p.own, shared := if (p.own j).isSome then p.shared else g', thread := Function.update p.thread t0 { p.thread t0 with cur := some (j, pc') } } i) := by
        intro i
        by_cases hij : i = j
        · subst hij; rw [hgj]; exact k3
        · unfold GProc.genOf at k3 ⊢
          cases ho : p.own j with
          | some v => simp [hij]; exact Relation.ReflTransGen.refl
          | none =>
            rw [ho] at k3
            cases hi : p.own i with
            | some v => simp [hi]; exact Relation.ReflTransGen.refl
            | none => simpa [hi] using k3
      refine ⟨fun i => by simpa using h.obj i, fun i => (h.state i).trans (hgi i), fun t => ?_⟩
      by_cases ht : t = t0
      · subst ht
        refine ⟨made, by simpa using hf, Or.inr ⟨j, n, pc', m, q, by simp, by simpa using ha, hr, ?_⟩⟩
        rw [hgj]; exact k1
      · obtain ⟨made', hf', h' | ⟨i, n', pc₂, m', q', a, b, c, d⟩⟩ := h.thread t
        · exact ⟨made', by simpa [ht] using hf', Or.inl (by simpa [ht] using h')⟩
        · exact ⟨made', by simpa [ht] using hf', Or.inr ⟨i, n', pc₂, m', q', by simpa [ht] using a, by simpa [ht] using b, c, d.mono gen (hgi i)⟩⟩
    exact key _ g1 g2 g3

theorem SampleInv.run {s : Session M G} {calls : Nat → List (SessionCall M)} {p : GProc M G} (h : SampleInv gen s calls p)
    (hcalls : ∀ t, ∀ c ∈ calls t, ∃ i n m q, c = .sample i n ∧ SampleReady (s.obj i) m q) (opt : Optimizer) (sched : List Nat) :
    SampleInv gen s calls (p.run gen opt sched) := by
  unfold GProc.run
  induction sched generalizing p with
  | nil => exact h
  | cons t rest ih => exact ih (h.step gen hcalls opt t)
end proof

/-- **C242** Any number of threads sample from any objects, and each of the calls, made alone, succeeds.  Under every schedule, at every moment, no
object has changed, and the results of a thread are those of its first calls, in order, none of them an exception; each is a sample of the model as
it was, of the size asked for: latents drawn at a state of the generator reached by draws, times the weights, plus errors drawn at a later state.  A
thread that has finished has the results of all its calls. -/
theorem C242_samples (gen : MvnGen G) (opt : Optimizer) (s : Session M G) (calls : Nat → List (SessionCall M)) (sched : List Nat)
    (hcalls : ∀ t, ∀ c ∈ calls t, ∃ i n X, c = .sample i n ∧ (s.step gen opt c).2 = .sampled n (.ok X)) :
    let p := (GProc.start s calls).run gen opt sched
    (∀ i, p.obj i = (s.obj i).attrs) ∧
    ∀ t, ∃ made rest, calls t = made ++ rest ∧ List.Forall₂ (SampleResult gen s) made (p.thread t).out ∧ ((p.thread t).Finished → rest = []) := by
  intro p
  have hr : ∀ t, ∀ c ∈ calls t, ∃ i n m q, c = .sample i n ∧ SampleReady (s.obj i) m q := by
    intro t c hc
    obtain ⟨i, n, X, rfl, h⟩ := hcalls t c hc
    have h' : ∃ g, ((s.obj i).sample gen n g).1 = .ok X := by
      unfold Session.step at h
      cases hg : s.own i with
      | some g => simp only [hg, SessionOut.sampled.injEq, heq_eq_eq, true_and] at h; exact ⟨g, h⟩
      | none => simp only [hg, SessionOut.sampled.injEq, heq_eq_eq, true_and] at h; exact ⟨_, h⟩
    obtain ⟨g, hg⟩ := h'
    obtain ⟨m, q, h⟩ := ready_of_sample gen _ _ _ _ hg
    exact ⟨i, n, m, q, rfl, h⟩
  have h0 : SampleInv gen s calls (GProc.start s calls) :=
    ⟨fun i => rfl, fun i => by
      have : (GProc.start s calls).genOf i = s.genAt i := by
        unfold GProc.genOf Session.genAt GProc.start
        cases h : s.own i <;> simp [h]
      rw [this]; exact Relation.ReflTransGen.refl, fun t => ⟨[], .nil, Or.inl ⟨rfl, rfl⟩⟩⟩
  have h := h0.run gen hr opt sched
  refine ⟨h.obj, fun t => ?_⟩
  obtain ⟨made, hf, ⟨_, ha⟩ | ⟨i, n, pc, m, q, hc, ha, _⟩⟩ := h.thread t
  · exact ⟨made, _, ha, hf, fun hfin => hfin.2⟩
  · exact ⟨made, _, ha, hf, fun hfin => by rw [hfin.1] at hc; cases hc⟩

/-- a generator that counts its draws and returns the count -/
def countMvn : MvnGen ℕ := ⟨fun _ _ _ g => (fun _ _ => (g : ℝ), g + 1)⟩

/-- one object, with one latent and one measurement, weight 1, mean 0 and error variance 1, with its own generator -/
def countSession : Session 1 ℕ :=
  ⟨fun _ => { biadj := [BVec.full], means := some fun _ => 0, params := some ⟨fun _ => 1, [BVec.full], fun _ _ => 1⟩ }, fun _ => some 0, 0⟩

/-- two threads, one call of `sample` each, on object 0 -/
def twoSamples (t : Nat) : List (SessionCall 1) := if t < 2 then [.sample 0 1] else []

theorem countMvn_run (opt : Optimizer) : Session.run countMvn opt countSession [.sample 0 1, .sample 0 1] =
    [(0, .sampled 1 (.ok fun _ _ => 1)), (0, .sampled 1 (.ok fun _ _ => 5))] := by
  simp [Session.run, Session.step, countSession, GState.sample, countMvn, SessionCall.on]
  norm_num

/-- The hypotheses of `C242_samples` are met by two threads that sample from one model, and there is a schedule after which all have finished and the
results are not those of the two calls made one after the other, in either order. -/
theorem C242_not_serial (opt : Optimizer) :
    (∀ t, ∀ c ∈ twoSamples t, ∃ i n X, c = .sample i n ∧ (countSession.step countMvn opt c).2 = .sampled n (.ok X)) ∧
    ∃ sched x y, let p := (GProc.start countSession twoSamples).run countMvn opt sched
      (∀ t, (p.thread t).Finished) ∧ (p.thread 0).out = [(0, x)] ∧ (p.thread 1).out = [(0, y)] ∧
      Session.run countMvn opt countSession [.sample 0 1, .sample 0 1] ≠ [(0, x), (0, y)] ∧
      Session.run countMvn opt countSession [.sample 0 1, .sample 0 1] ≠ [(0, y), (0, x)] := by
  constructor
  · intro t c hc
    have hc' : c = .sample 0 1 := by
      unfold twoSamples at hc
      split at hc
      · simpa using hc
      · cases hc
    subst hc'
    refine ⟨0, 1, fun _ _ => 1, rfl, ?_⟩
    simp [Session.step, countSession, GState.sample, countMvn]
  · refine ⟨[0, 0, 1, 1, 0, 0, 0, 1, 1, 1], .sampled 1 (.ok fun _ _ => 2), .sampled 1 (.ok fun _ _ => 4), ?_⟩
    have h : ∃ P : GProc 1 ℕ, (GProc.start countSession twoSamples).run countMvn opt [0, 0, 1, 1, 0, 0, 0, 1, 1, 1] = P ∧
        P.thread 0 = { cur := none, todo := [], out := [(0, .sampled 1 (.ok fun _ _ => 2))] } ∧
        P.thread 1 = { cur := none, todo := [], out := [(0, .sampled 1 (.ok fun _ _ => 4))] } ∧
        ∀ t, t ≠ 0 → t ≠ 1 → P.thread t = { cur := none, todo := [], out := [] } := by
      refine ⟨_, rfl, ?_, ?_, ?_⟩
      · simp [GProc.run, GProc.step, GProc.start, countSession, twoSamples, SessionCall.on, SessionCall.start, GPc.step, GState.attrs, countMvn]
      · simp [GProc.run, GProc.step, GProc.start, countSession, twoSamples, SessionCall.on, SessionCall.start, GPc.step, GState.attrs, countMvn]
        try norm_num
      · intro t h0 h1
        simp [GProc.run, GProc.step, GProc.start, countSession, twoSamples, SessionCall.on, SessionCall.start, GPc.step, GState.attrs, countMvn, h0, h1]
        try omega
    obtain ⟨P, hP, e0, e1, e2⟩ := h
    rw [hP]
    refine ⟨fun t => ?_, by rw [e0], by rw [e1], ?_, ?_⟩
    · by_cases h0 : t = 0
      · subst h0; rw [e0]; exact ⟨rfl, rfl⟩
      · by_cases h1 : t = 1
        · subst h1; rw [e1]; exact ⟨rfl, rfl⟩
        · rw [e2 t h0 h1]; exact ⟨rfl, rfl⟩
    · rw [countMvn_run]
      intro h
      simp only [List.cons.injEq, Prod.mk.injEq, true_and, SessionOut.sampled.injEq, heq_eq_eq, Except.ok.injEq, and_true] at h
      have := congrFun (congrFun h.1 0) 0
      norm_num at this
    · rw [countMvn_run]
      intro h
      simp only [List.cons.injEq, Prod.mk.injEq, true_and, SessionOut.sampled.injEq, heq_eq_eq, Except.ok.injEq, and_true] at h
      have := congrFun (congrFun h.1 0) 0
      norm_num at this
end Medil

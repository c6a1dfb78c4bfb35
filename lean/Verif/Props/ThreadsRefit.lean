import Verif.Props.Threads
/-
  C243: threads that refit a fitted model while others sample from it.
-/
namespace Medil
variable {M : Nat} {G : Type}

/-- the object has been fitted: it is as a successful call of `fit` left it -/
def WasFitted (st : GState M) : Prop :=
  ∃ (opt : Optimizer) (o : Sched M) (d : Dataset M) (st₀ : GState M) (w : Bool), gaussianFit opt o d st₀ = (st, .ok w)

/-- `r` is a result of the call `c` that is not an exception: a warning or none for `fit`, an array of the size asked for for `sample` -/
def Succeeds (c : SessionCall M) (r : Nat × SessionOut M) : Prop :=
  (∃ i o d w, c = .fit i o d ∧ r = (i, .fitted (.ok w))) ∨ ∃ i n X, c = .sample i n ∧ r = (i, .sampled n (.ok X))

/-- the attributes of a fitted object with structure `B` -/
structure Complete (B : List (BVec M)) (a : GAttrs M) : Prop where
  size : B.length * M ≠ 0
  biadj : a.biadj = B
  means : ∃ m, a.means = some m
  variances : ∃ v, a.variances = some v
  weights : ∃ W, a.weights = some ⟨B, W⟩

theorem WasFitted.complete {st : GState M} (h : WasFitted st) : Complete st.biadj st.attrs := by
  obtain ⟨opt, o, d, st₀, w, h⟩ := h
  have key : ∀ st1 : GState M, st1.biadj.length * M ≠ 0 → st = (fitParams opt d st1).1 → Complete st.biadj st.attrs := by
    rintro st1 h1 rfl
    exact ⟨h1, rfl, ⟨_, rfl⟩, ⟨_, rfl⟩, ⟨_, rfl⟩⟩
  by_cases h0 : st₀.biadj.length * M = 0
  · unfold gaussianFit at h
    simp only [if_pos h0] at h
    unfold computeBiadj at h
    cases hu : udgOr d st₀.udg with
    | error e => simp [hu] at h
    | ok U =>
      cases hf : findHeuristic1pc o U with
      | error e => simp [hu, hf] at h
      | ok B =>
        simp only [hu, hf, Prod.mk.injEq] at h
        exact key _ (heuristic_nonempty o U B hf) h.1.symm
  · rw [fit_given opt o d st₀ h0] at h
    simp only [Prod.mk.injEq] at h
    exact key { st₀ with dataset := some d } h0 h.1.symm

section proof
variable (B : List (BVec M))

/-- what is known at the points of a call -/
def pcRefit (data : Bool) : SessionCall M → GPc M → Prop
  | .fit _ _ _, .fitStart _ _ => True
  | .fit _ _ _, .fitTest _ => data = true
  | .fit _ _ _, .meanRead => data = true
  | .fit _ _ _, .meanSet _ => data = true
  | .fit _ _ _, .covRead => data = true
  | .fit _ _ _, .minimize _ => data = true
  | .fit _ _ _, .varSet k _ _ => k = (maskPositions B).length
  | .fit _ _ _, .zeros k _ _ => k = (maskPositions B).length
  | .fit _ _ _, .fill k _ _ => k = (maskPositions B).length
  | .fit _ _ _, .done r => ∃ w, r = .fitted (.ok w)
  | .sample _ n, .latents n' => n' = n
  | .sample _ n, .errors n' L _ => n' = n ∧ L = B.length
  | .sample _ n, .multiply n' L _ _ => n' = n ∧ L = B.length
  | .sample _ n, .done r => ∃ X, r = .sampled n (.ok X)
  | _, _ => False

theorem pcRefit.step {gen : MvnGen G} {opt : Optimizer} {a : GAttrs M} (ha : Complete B a) {c : SessionCall M} {pc : GPc M}
    (h : pcRefit B a.dataset.isSome c pc) (hd : ∀ r, pc ≠ .done r) (g : G) :
    pcRefit B (pc.step gen opt a g).2.1.dataset.isSome c (pc.step gen opt a g).1 ∧ Complete B (pc.step gen opt a g).2.1 ∧
    (a.dataset.isSome = true → (pc.step gen opt a g).2.1.dataset.isSome = true) := by
  obtain ⟨hs, hb, ⟨m, hm⟩, ⟨v, hv⟩, ⟨W, hW⟩⟩ := ha
  have hl : a.biadj.length * M ≠ 0 := by rw [hb]; exact hs
  have hl0 : B.length ≠ 0 := fun e => hs (by rw [e, Nat.zero_mul])
  have hM : M ≠ 0 := fun e => hs (Nat.mul_eq_zero.mpr (Or.inr e))
  have hC : Complete B a := ⟨hs, hb, ⟨m, hm⟩, ⟨v, hv⟩, ⟨W, hW⟩⟩
  cases c with
  | fit i o d =>
    cases pc <;> simp only [pcRefit] at h <;> try exact h.elim
    case fitStart => simp only [GPc.step]; exact ⟨rfl, ⟨hs, hb, ⟨m, hm⟩, ⟨v, hv⟩, ⟨W, hW⟩⟩, fun _ => rfl⟩
    case fitTest => simp only [GPc.step, if_neg hl]; exact ⟨h, hC, id⟩
    case meanRead =>
      obtain ⟨d', hd'⟩ := Option.isSome_iff_exists.mp h
      simp only [GPc.step, hd']
      exact ⟨rfl, hC, fun _ => rfl⟩
    case meanSet => simp only [GPc.step]; exact ⟨h, ⟨hs, hb, ⟨_, rfl⟩, ⟨v, hv⟩, ⟨W, hW⟩⟩, id⟩
    case covRead =>
      obtain ⟨d', hd'⟩ := Option.isSome_iff_exists.mp h
      simp only [GPc.step, hd']
      exact ⟨rfl, hC, fun _ => rfl⟩
    case minimize =>
      simp only [GPc.step]
      exact ⟨by rw [hb]; rfl, hC, id⟩
    case varSet => simp only [GPc.step]; exact ⟨h, ⟨hs, hb, ⟨m, hm⟩, ⟨_, rfl⟩, ⟨W, hW⟩⟩, id⟩
    case zeros => simp only [GPc.step]; exact ⟨h, ⟨hs, hb, ⟨m, hm⟩, ⟨v, hv⟩, ⟨fun _ _ => 0, by subst hb; rfl⟩⟩, id⟩
    case fill k x w =>
      subst h
      have hx : ∃ W', maskAssign B W a.biadj (maskPositions B).length (headPart x) = .ok W' := by
        unfold maskAssign
        rw [hb, dif_pos rfl, dif_pos rfl]
        exact ⟨_, rfl⟩
      obtain ⟨W', hW'⟩ := hx
      simp only [GPc.step, hW, hW']
      exact ⟨⟨w, rfl⟩, ⟨hs, hb, ⟨m, hm⟩, ⟨v, hv⟩, ⟨W', rfl⟩⟩, id⟩
    case done r => exact absurd rfl (hd r)
  | sample i n =>
    cases pc <;> simp only [pcRefit] at h <;> try exact h.elim
    case latents n' =>
      have : a.biadj.length ≠ 0 := by rw [hb]; exact hl0
      simp only [GPc.step, if_neg this]
      exact ⟨⟨h, by rw [hb]⟩, hC, id⟩
    case errors n' L z =>
      simp only [GPc.step, hm, hv, if_neg hM]
      exact ⟨h, hC, id⟩
    case multiply n' L z e =>
      obtain ⟨rfl, rfl⟩ := h
      simp only [GPc.step, hW, dite_true]
      exact ⟨⟨_, rfl⟩, hC, id⟩
    case done r => exact absurd rfl (hd r)

theorem pcRefit.mono {b b' : Bool} {c : SessionCall M} {pc : GPc M} (h : pcRefit B b c pc) (hb : b = true → b' = true) : pcRefit B b' c pc := by
  cases c <;> cases pc <;> simp only [pcRefit] at h ⊢ <;> first | exact h | exact hb h

/-- the invariant -/
structure RefitInv (s : Session M G) (calls : Nat → List (SessionCall M)) (p : GProc M G) : Prop where
  obj : ∀ i, WasFitted (s.obj i) → Complete (s.obj i).biadj (p.obj i)
  thread : ∀ t, ∃ made, List.Forall₂ Succeeds made (p.thread t).out ∧
    (((p.thread t).cur = none ∧ calls t = made ++ (p.thread t).todo) ∨
     ∃ c pc, (p.thread t).cur = some (c.on, pc) ∧ calls t = made ++ c :: (p.thread t).todo ∧
       pcRefit (s.obj c.on).biadj (p.obj c.on).dataset.isSome c pc)

theorem RefitInv.step {s : Session M G} {calls : Nat → List (SessionCall M)} {p : GProc M G} (h : RefitInv s calls p)
    (hcalls : ∀ t, ∀ c ∈ calls t, WasFitted (s.obj c.on)) (gen : MvnGen G) (opt : Optimizer) (t0 : Nat) :
    RefitInv s calls (p.step gen opt t0) := by
  rcases GProc.step_cases gen opt p t0 with ⟨_, _, e⟩ | ⟨c, cs, h1, h2, e⟩ | ⟨j, r, h1, e⟩ | ⟨j, pc, h1, h2, e⟩ <;> rw [e]
  · exact h
  · refine ⟨h.obj, fun t => ?_⟩
    by_cases ht : t = t0
    · subst ht
      obtain ⟨made, hf, ⟨_, ha⟩ | ⟨c', pc, hc, _⟩⟩ := h.thread t
      · refine ⟨made, by simpa using hf, Or.inr ⟨c, c.start, by simp, by simpa [h2] using ha, ?_⟩⟩
        cases c <;> simp [pcRefit, SessionCall.start]
      · rw [h1] at hc; cases hc
    · simp only [Function.update_of_ne ht]
      exact h.thread t
  · refine ⟨h.obj, fun t => ?_⟩
    by_cases ht : t = t0
    · subst ht
      obtain ⟨made, hf, ⟨hc, ha⟩ | ⟨c, pc, hc, ha, hp⟩⟩ := h.thread t
      · rw [h1] at hc; cases hc
      · rw [h1] at hc
        cases hc
        refine ⟨made ++ [c], ?_, Or.inl ⟨by simp, by simpa using ha⟩⟩
        simp only [Function.update_self]
        refine List.rel_append hf (.cons ?_ .nil)
        cases c with
        | fit i o d => obtain ⟨w, rfl⟩ := hp; exact Or.inl ⟨i, o, d, w, rfl, rfl⟩
        | sample i n => obtain ⟨X, rfl⟩ := hp; exact Or.inr ⟨i, n, X, rfl, rfl⟩
    · simp only [Function.update_of_ne ht]
      exact h.thread t
  · obtain ⟨made, hf, ⟨hc, ha⟩ | ⟨c, pc', hc, ha, hp⟩⟩ := h.thread t0
    · rw [h1] at hc; cases hc
    rw [h1] at hc
    cases hc
    have hfit := hcalls t0 c (by rw [ha]; simp)
    obtain ⟨g1, g2, g3⟩ := hp.step (gen := gen) (opt := opt) _ (h.obj _ hfit) h2 (p.genOf c.on)
    generalize pc.step gen opt (p.obj c.on) (p.genOf c.on) = P at g1 g2 g3 ⊢
    refine ⟨fun i hi => ?_, fun t => ?_⟩
    · by_cases hij : i = c.on
      · subst hij; simpa using g2
      · simpa [hij] using h.obj i hi
    · by_cases ht : t = t0
      · subst ht
        exact ⟨made, by simpa using hf, Or.inr ⟨c, P.1, by simp, by simpa using ha, by simpa using g1⟩⟩
      · obtain ⟨made', hf', h' | ⟨c', pc₂, a, b, d⟩⟩ := h.thread t
        · exact ⟨made', by simpa [ht] using hf', Or.inl (by simpa [ht] using h')⟩
        · refine ⟨made', by simpa [ht] using hf', Or.inr ⟨c', pc₂, by simpa [ht] using a, by simpa [ht] using b, d.mono _ fun hb => ?_⟩⟩
          by_cases hij : c'.on = c.on
          · rw [hij] at hb ⊢; simpa using g3 hb
          · simpa [hij] using hb

theorem RefitInv.run {s : Session M G} {calls : Nat → List (SessionCall M)} {p : GProc M G} (h : RefitInv s calls p)
    (hcalls : ∀ t, ∀ c ∈ calls t, WasFitted (s.obj c.on)) (gen : MvnGen G) (opt : Optimizer) (sched : List Nat) :
    RefitInv s calls (p.run gen opt sched) := by
  unfold GProc.run
  induction sched generalizing p with
  | nil => exact h
  | cons t rest ih => exact ih (h.step hcalls gen opt t)
end proof

/-- **C243** Any number of threads fit and sample fitted objects, with any datasets and sizes.  Under every schedule, at every moment, the structure of
a fitted object is what it was, its parameters are there, with one row of weights per latent, and the results of a thread are those of its first calls,
in order, none of them an exception.  A thread that has finished has the results of all its calls. -/
theorem C243_refit (gen : MvnGen G) (opt : Optimizer) (s : Session M G) (calls : Nat → List (SessionCall M)) (sched : List Nat)
    (hcalls : ∀ t, ∀ c ∈ calls t, WasFitted (s.obj c.on)) :
    let p := (GProc.start s calls).run gen opt sched
    (∀ i, WasFitted (s.obj i) → (p.obj i).biadj = (s.obj i).biadj ∧ (∃ m, (p.obj i).means = some m) ∧ (∃ v, (p.obj i).variances = some v) ∧
      ∃ W, (p.obj i).weights = some ⟨(s.obj i).biadj, W⟩) ∧
    ∀ t, ∃ made rest, calls t = made ++ rest ∧ List.Forall₂ Succeeds made (p.thread t).out ∧ ((p.thread t).Finished → rest = []) := by
  intro p
  have h0 : RefitInv s calls (GProc.start s calls) := ⟨fun i hi => hi.complete, fun t => ⟨[], .nil, Or.inl ⟨rfl, rfl⟩⟩⟩
  have h := h0.run hcalls gen opt sched
  refine ⟨fun i hi => ⟨(h.obj i hi).biadj, (h.obj i hi).means, (h.obj i hi).variances, (h.obj i hi).weights⟩, fun t => ?_⟩
  obtain ⟨made, hf, ⟨_, ha⟩ | ⟨c, pc, hc, ha, _⟩⟩ := h.thread t
  · exact ⟨made, _, ha, hf, fun hfin => hfin.2⟩
  · exact ⟨made, _, ha, hf, fun hfin => by rw [hfin.1] at hc; cases hc⟩

/-- The hypothesis of `C243_refit` is met by an object fitted with a given structure, refitted in one thread and sampled from in the others. -/
example (opt : Optimizer) (o : Sched 2) (d d' : Dataset 2) :
    let s : Session 2 Nat := ⟨fun _ => (gaussianFit opt o d { biadj := [BVec.full] }).1, fun i => some i, 7⟩
    let calls : Nat → List (SessionCall 2) := fun t => if t = 0 then [.fit 0 o d', .fit 0 o d] else [.sample 0 5, .sample 1 3]
    ∀ t, ∀ c ∈ calls t, WasFitted (s.obj c.on) := by
  intro s calls t c _
  have h := fit_given opt o d ({ biadj := [BVec.full] } : GState 2) (by simp)
  refine ⟨opt, o, d, { biadj := [BVec.full] }, (fitParams opt d { biadj := [BVec.full], dataset := some d }).2, ?_⟩
  show gaussianFit opt o d { biadj := [BVec.full] } = ((gaussianFit opt o d { biadj := [BVec.full] }).1, _)
  rw [h]

/-- a generator all of whose draws are 1 -/
def onesMvn : MvnGen Unit := ⟨fun _ _ _ g => (fun _ _ => 1, g)⟩

/-- one object with one latent and one measurement, weight 1, error mean 0 and error variance 1 -/
def onesSession : Session 1 Unit :=
  ⟨fun _ => { biadj := [BVec.full], means := some fun _ => 0, params := some ⟨fun _ => 1, [BVec.full], fun _ _ => 1⟩ }, fun _ => none, ()⟩

/-- thread 0 fits the object, thread 1 samples from it -/
noncomputable def fitAndSample (o : Sched 1) (t : Nat) : List (SessionCall 1) :=
  if t = 0 then [.fit 0 o (pairData 0 1)] else if t = 1 then [.sample 0 1] else []

/-- An optimizer that returns the starting point.  Before and after the fit the weight is 1, and a sample is 1 · 1 + 1; there is a schedule under
which the sample is taken with weight 0. -/
theorem C243_zero_weights (o : Sched 1) : let opt : Optimizer := fun _ _ => (fun _ => 1, true)
    Session.run onesMvn opt onesSession [.sample 0 1, .fit 0 o (pairData 0 1), .sample 0 1] =
      [(0, .sampled 1 (.ok fun _ _ => 2)), (0, .fitted (.ok false)), (0, .sampled 1 (.ok fun _ _ => 2))] ∧
    ∃ sched, (((GProc.start onesSession (fitAndSample o)).run onesMvn opt sched).thread 1).out = [(0, .sampled 1 (.ok fun _ _ => 1))] := by
  intro opt
  constructor
  · have hp : maskPositions [(BVec.full : BVec 1)] = [(0, 0)] := by decide +kernel
    have hw : ∀ x : Fin (maskPositions [(BVec.full : BVec 1)]).length → ℝ, (∀ k, x k = 1) → ∀ i j, placeWeights [BVec.full] x i j = 1 := by
      intro x hx i j
      have hij : (i, j) ∈ maskPositions [(BVec.full : BVec 1)] := by
        rw [hp, show i = 0 from Subsingleton.elim (α := Fin 1) i 0, show j = 0 from Subsingleton.elim _ _]; exact List.mem_singleton_self _
      unfold placeWeights
      rw [dif_pos (List.idxOf_lt_length_iff.mpr hij), hx]
    have hw' : ∀ i j, placeWeights [(BVec.full : BVec 1)] (headPart (b := 1) fun _ => 1) i j = 1 := hw _ fun _ => rfl
    simp [Session.run, Session.step, SessionCall.on, gaussianFit, fitParams, onesSession, GState.sample, onesMvn, opt, hw']
    norm_num
  · refine ⟨[0, 0, 0, 0, 0, 0, 0, 0, 0, 1, 1, 1, 1, 1], ?_⟩
    simp [GProc.run, GProc.step, GProc.start, onesSession, fitAndSample, SessionCall.on, SessionCall.start, GPc.step, GState.attrs, onesMvn]
end Medil

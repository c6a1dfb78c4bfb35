import Verif.Props.ThreadsRefit
/-
  C243: the parameters a sample uses while other threads refit the model.
-/
namespace Medil
variable {M : Nat} {G : Type}

/-- `v` are the error means of the model `st` or of a fit to one of the datasets `D` -/
def MeanOf (st : GState M) (D : Dataset M → Prop) (v : Fin M → ℝ) : Prop := st.means = some v ∨ ∃ d, D d ∧ v = d.mean

/-- `v` are the error variances of the model `st` or those that a fit of its structure to one of the datasets `D` finds -/
def VarOf (opt : Optimizer) (st : GState M) (D : Dataset M → Prop) (v : Fin M → ℝ) : Prop :=
  (∃ p, st.params = some p ∧ p.variances = v) ∨ ∃ d, D d ∧ v = tailPart (fitVec opt st.biadj d)

/-- `W` are the weights of the model `st`, or all 0, or those that a fit of its structure to one of the datasets `D` finds -/
def WeightOf (opt : Optimizer) (st : GState M) (D : Dataset M → Prop) (W : Fin st.biadj.length → Fin M → ℝ) : Prop :=
  (∃ p, st.params = some p ∧ (⟨p.weightsOn, p.weights⟩ : (B : List (BVec M)) × (Fin B.length → Fin M → ℝ)) = ⟨st.biadj, W⟩) ∨ W = (fun _ _ => 0) ∨
  ∃ d, D d ∧ W = placeWeights st.biadj (headPart (fitVec opt st.biadj d))

/-- a sample of size `n` with parameters each of which is one of those -/
def MixedSample (gen : MvnGen G) (opt : Optimizer) (st : GState M) (D : Dataset M → Prop) (n : Nat) (X : Fin n → Fin M → ℝ) : Prop :=
  ∃ (m v : Fin M → ℝ) (W : Fin st.biadj.length → Fin M → ℝ) (g₁ g₂ : G), MeanOf st D m ∧ VarOf opt st D v ∧ WeightOf opt st D W ∧
    X = fun k j => (∑ r, (gen.mvn (fun _ : Fin st.biadj.length => 0) (fun i j => if i = j then 1 else 0) n g₁).1 k r * W r j) +
      (gen.mvn m (fun i j => if i = j then v i else 0) n g₂).1 k j

/-- what a call returns when other threads fit the objects of `s` to the datasets `D i` -/
def MixedResult (gen : MvnGen G) (opt : Optimizer) (s : Session M G) (D : Nat → Dataset M → Prop) (c : SessionCall M) (r : Nat × SessionOut M) : Prop :=
  (∃ i o d w, c = .fit i o d ∧ r = (i, .fitted (.ok w))) ∨
  ∃ i n X, c = .sample i n ∧ r = (i, .sampled n (.ok X)) ∧ MixedSample gen opt (s.obj i) (D i) n X

/-- the datasets to which some thread fits object `i` -/
def FitData (calls : Nat → List (SessionCall M)) (i : Nat) (d : Dataset M) : Prop := ∃ t o, SessionCall.fit i o d ∈ calls t

section proof
variable (gen : MvnGen G) (opt : Optimizer) (st : GState M) (D : Dataset M → Prop)

structure MixedAttrs (a : GAttrs M) : Prop where
  size : st.biadj.length * M ≠ 0
  biadj : a.biadj = st.biadj
  means : ∃ m, a.means = some m ∧ MeanOf st D m
  variances : ∃ v, a.variances = some v ∧ VarOf opt st D v
  weights : ∃ W, a.weights = some ⟨st.biadj, W⟩ ∧ WeightOf opt st D W

theorem WasFitted.placed {st : GState M} (h : WasFitted st) :
    st.biadj.length * M ≠ 0 ∧ ∃ m v y, st.means = some m ∧ st.params = some ⟨v, st.biadj, placeWeights st.biadj y⟩ := by
  obtain ⟨opt, o, d, st₀, w, h⟩ := h
  have key : ∀ st1 : GState M, st1.biadj.length * M ≠ 0 → st = (fitParams opt d st1).1 →
      st.biadj.length * M ≠ 0 ∧ ∃ m v y, st.means = some m ∧ st.params = some ⟨v, st.biadj, placeWeights st.biadj y⟩ := by
    rintro st1 h1 rfl
    exact ⟨h1, _, _, _, rfl, rfl⟩
  by_cases h0 : st₀.biadj.length * M = 0
  · unfold gaussianFit at h
    simp only [if_pos h0] at h
    unfold computeBiadj at h
    cases hu : udgOr d st₀.udg with
    | error e => simp [hu] at h
    | ok U =>
      cases hf : findHeuristic1pc o U with
      | error e => simp [hu, hf] at h
      | ok B =>
        simp only [hu, hf, Prod.mk.injEq] at h
        exact key _ (heuristic_nonempty o U B hf) h.1.symm
  · rw [fit_given opt o d st₀ h0] at h
    simp only [Prod.mk.injEq] at h
    exact key { st₀ with dataset := some d } h0 h.1.symm

theorem WasFitted.mixed {st : GState M} (h : WasFitted st) : MixedAttrs opt st D st.attrs := by
  obtain ⟨hs, m, v, y, hm, hp⟩ := h.placed
  refine ⟨hs, rfl, ⟨m, hm, Or.inl hm⟩, ⟨v, by simp [GState.attrs, hp], Or.inl ⟨_, hp, rfl⟩⟩,
    ⟨placeWeights st.biadj y, by simp [GState.attrs, hp], Or.inl ⟨_, hp, rfl⟩⟩⟩

theorem WeightOf.place {st : GState M} {D : Dataset M → Prop} (h : WasFitted st) {W : Fin st.biadj.length → Fin M → ℝ} (hW : WeightOf opt st D W) :
    W = (fun _ _ => 0) ∨ ∃ y, W = placeWeights st.biadj y := by
  rcases hW with ⟨p, hp, e⟩ | hW | ⟨d, _, hW⟩
  · obtain ⟨_, m, v, y, _, hp'⟩ := h.placed
    rw [hp] at hp'
    cases hp'
    simp only [Sigma.mk.injEq, heq_eq_eq, true_and] at e
    exact Or.inr ⟨y, e.symm⟩
  · exact Or.inl hW
  · exact Or.inr ⟨_, hW⟩

/-- what is known at the points of a call -/
def pcMixed (a : GAttrs M) : SessionCall M → GPc M → Prop
  | .fit _ _ _, .fitStart _ d => D d
  | .fit _ _ _, .fitTest _ => HasData D a
  | .fit _ _ _, .meanRead => HasData D a
  | .fit _ _ _, .meanSet v => HasData D a ∧ ∃ d, D d ∧ v = d.mean
  | .fit _ _ _, .covRead => HasData D a
  | .fit _ _ _, .minimize cov => ∃ d, D d ∧ cov = d.cov
  | .fit _ _ _, .varSet k x _ => FromFit D opt st.biadj k x
  | .fit _ _ _, .zeros k x _ => FromFit D opt st.biadj k x
  | .fit _ _ _, .fill k x _ => FromFit D opt st.biadj k x
  | .fit _ _ _, .done r => ∃ w, r = .fitted (.ok w)
  | .sample _ n, .latents n' => n' = n
  | .sample _ n, .errors n' L z => ∃ (hn : n' = n) (h : L = st.biadj.length) (g₁ : G),
      ∀ k r, z k r = (gen.mvn (fun _ : Fin st.biadj.length => 0) (fun i j => if i = j then 1 else 0) n g₁).1 (Fin.cast hn k) (Fin.cast h r)
  | .sample _ n, .multiply n' L z e => ∃ (hn : n' = n) (h : L = st.biadj.length) (g₁ g₂ : G) (m v : Fin M → ℝ), MeanOf st D m ∧ VarOf opt st D v ∧
      (∀ k r, z k r = (gen.mvn (fun _ : Fin st.biadj.length => 0) (fun i j => if i = j then 1 else 0) n g₁).1 (Fin.cast hn k) (Fin.cast h r)) ∧
      ∀ k j, e k j = (gen.mvn m (fun i j => if i = j then v i else 0) n g₂).1 (Fin.cast hn k) j
  | .sample _ n, .done r => ∃ X, r = .sampled n (.ok X) ∧ MixedSample gen opt st D n X
  | _, _ => False

theorem pcMixed.mono {a a' : GAttrs M} {c : SessionCall M} {pc : GPc M} (h : pcMixed gen opt st D a c pc) (hb : HasData D a → HasData D a') :
    pcMixed gen opt st D a' c pc := by
  cases c <;> cases pc <;> simp only [pcMixed] at h ⊢ <;> first | exact h | exact hb h | exact ⟨hb h.1, h.2⟩

theorem pcMixed.step {a : GAttrs M} (hfit : WasFitted st) (ha : MixedAttrs opt st D a) {c : SessionCall M} {pc : GPc M}
    (h : pcMixed gen opt st D a c pc) (hd : ∀ r, pc ≠ .done r) (g : G) :
    pcMixed gen opt st D (pc.step gen opt a g).2.1 c (pc.step gen opt a g).1 ∧ MixedAttrs opt st D (pc.step gen opt a g).2.1 ∧
    (HasData D a → HasData D (pc.step gen opt a g).2.1) := by
  obtain ⟨hs, hb, ⟨m, hm, hm'⟩, ⟨v, hv, hv'⟩, ⟨W, hW, hW'⟩⟩ := ha
  have hl : a.biadj.length * M ≠ 0 := by rw [hb]; exact hs
  have hl0 : a.biadj.length ≠ 0 := fun e => hl (by rw [e, Nat.zero_mul])
  have hM : M ≠ 0 := fun e => hs (Nat.mul_eq_zero.mpr (Or.inr e))
  have hC : MixedAttrs opt st D a := ⟨hs, hb, ⟨m, hm, hm'⟩, ⟨v, hv, hv'⟩, ⟨W, hW, hW'⟩⟩
  cases c with
  | fit i o d =>
    cases pc <;> simp only [pcMixed] at h <;> try exact h.elim
    case fitStart o' d' =>
      simp only [GPc.step]
      exact ⟨⟨d', h, rfl⟩, ⟨hs, hb, ⟨m, hm, hm'⟩, ⟨v, hv, hv'⟩, ⟨W, hW, hW'⟩⟩, fun _ => ⟨d', h, rfl⟩⟩
    case fitTest => simp only [GPc.step, if_neg hl]; exact ⟨h, hC, id⟩
    case meanRead =>
      obtain ⟨d', h1, hd'⟩ := id h
      simp only [GPc.step, hd']
      exact ⟨⟨h, d', h1, rfl⟩, hC, fun _ => h⟩
    case meanSet x => simp only [GPc.step]; exact ⟨h.1, ⟨hs, hb, ⟨_, rfl, Or.inr h.2⟩, ⟨v, hv, hv'⟩, ⟨W, hW, hW'⟩⟩, id⟩
    case covRead =>
      obtain ⟨d', h1, hd'⟩ := id h
      simp only [GPc.step, hd']
      exact ⟨⟨d', h1, rfl⟩, hC, fun _ => h⟩
    case minimize cov =>
      obtain ⟨d', h1, rfl⟩ := h
      simp only [GPc.step]
      exact ⟨⟨d', h1, by rw [hb]; rfl⟩, hC, id⟩
    case varSet k x w =>
      obtain ⟨d', h1, e⟩ := id h
      cases e
      simp only [GPc.step]
      exact ⟨h, ⟨hs, hb, ⟨m, hm, hm'⟩, ⟨_, rfl, Or.inr ⟨d', h1, rfl⟩⟩, ⟨W, hW, hW'⟩⟩, id⟩
    case zeros k x w =>
      simp only [GPc.step]
      exact ⟨h, ⟨hs, hb, ⟨m, hm, hm'⟩, ⟨v, hv, hv'⟩, ⟨fun _ _ => 0, by rw [hb], Or.inr (Or.inl rfl)⟩⟩, id⟩
    case fill k x w =>
      obtain ⟨d', h1, e⟩ := id h
      cases e
      have e := maskAssign_over W (headPart (fitVec opt st.biadj d')) (hW'.place opt hfit)
      have e' : ∀ B', B' = st.biadj → maskAssign st.biadj W B' (maskPositions st.biadj).length (headPart (fitVec opt st.biadj d')) =
          .ok (placeWeights st.biadj (headPart (fitVec opt st.biadj d'))) := by rintro _ rfl; exact e
      simp only [GPc.step, hW, e' _ hb]
      exact ⟨⟨w, rfl⟩, ⟨hs, hb, ⟨m, hm, hm'⟩, ⟨v, hv, hv'⟩, ⟨_, rfl, Or.inr (Or.inr ⟨d', h1, rfl⟩)⟩⟩, id⟩
    case done r => exact absurd rfl (hd r)
  | sample i n =>
    cases pc <;> simp only [pcMixed] at h <;> try exact h.elim
    case latents n' =>
      subst h
      simp only [GPc.step, if_neg hl0]
      refine ⟨⟨rfl, by rw [hb], g, fun k r => ?_⟩, hC, id⟩
      obtain ⟨b, u, ds, mm, vv, ww⟩ := a
      replace hb : b = st.biadj := hb
      subst hb
      rfl
    case errors n' L z =>
      obtain ⟨rfl, rfl, g₁, c⟩ := h
      simp only [GPc.step, hm, hv, if_neg hM]
      exact ⟨⟨rfl, rfl, g₁, g, m, v, hm', hv', c, fun k j => rfl⟩, hC, id⟩
    case multiply n' L z e =>
      obtain ⟨rfl, rfl, g₁, g₂, m', v', h1, h2, c, d⟩ := h
      simp only [GPc.step, hW, dite_true]
      refine ⟨⟨_, rfl, m', v', W, g₁, g₂, h1, h2, hW', ?_⟩, hC, id⟩
      funext k j
      rw [d k j]
      congr 1
      exact Finset.sum_congr rfl fun r _ => by rw [c]; rfl
    case done r => exact absurd rfl (hd r)
end proof

/-- the invariant -/
structure MixedInv (gen : MvnGen G) (opt : Optimizer) (s : Session M G) (calls : Nat → List (SessionCall M)) (p : GProc M G) : Prop where
  obj : ∀ i, WasFitted (s.obj i) → MixedAttrs opt (s.obj i) (FitData calls i) (p.obj i)
  thread : ∀ t, ∃ made, List.Forall₂ (MixedResult gen opt s (FitData calls)) made (p.thread t).out ∧
    (((p.thread t).cur = none ∧ calls t = made ++ (p.thread t).todo) ∨
     ∃ c pc, (p.thread t).cur = some (c.on, pc) ∧ calls t = made ++ c :: (p.thread t).todo ∧
       pcMixed gen opt (s.obj c.on) (FitData calls c.on) (p.obj c.on) c pc)

theorem MixedInv.step {gen : MvnGen G} {opt : Optimizer} {s : Session M G} {calls : Nat → List (SessionCall M)} {p : GProc M G}
    (h : MixedInv gen opt s calls p) (hcalls : ∀ t, ∀ c ∈ calls t, WasFitted (s.obj c.on)) (t0 : Nat) : MixedInv gen opt s calls (p.step gen opt t0) := by
  rcases GProc.step_cases gen opt p t0 with ⟨_, _, e⟩ | ⟨c, cs, h1, h2, e⟩ | ⟨j, r, h1, e⟩ | ⟨j, pc, h1, h2, e⟩ <;> rw [e]
  · exact h
  · refine ⟨h.obj, fun t => ?_⟩
    by_cases ht : t = t0
    · subst ht
      obtain ⟨made, hf, ⟨_, ha⟩ | ⟨c', pc, hc, _⟩⟩ := h.thread t
      · refine ⟨made, by simpa using hf, Or.inr ⟨c, c.start, by simp, by simpa [h2] using ha, ?_⟩⟩
        cases c with
        | fit i o d => exact ⟨t, o, by rw [ha, h2]; simp [SessionCall.on]⟩
        | sample i n => exact rfl
      · rw [h1] at hc; cases hc
    · simp only [Function.update_of_ne ht]
      exact h.thread t
  · refine ⟨h.obj, fun t => ?_⟩
    by_cases ht : t = t0
    · subst ht
      obtain ⟨made, hf, ⟨hc, ha⟩ | ⟨c, pc, hc, ha, hp⟩⟩ := h.thread t
      · rw [h1] at hc; cases hc
      · rw [h1] at hc
        cases hc
        refine ⟨made ++ [c], ?_, Or.inl ⟨by simp, by simpa using ha⟩⟩
        simp only [Function.update_self]
        refine List.rel_append hf (.cons ?_ .nil)
        cases c with
        | fit i o d => obtain ⟨w, rfl⟩ := hp; exact Or.inl ⟨i, o, d, w, rfl, rfl⟩
        | sample i n => obtain ⟨X, rfl, hX⟩ := hp; exact Or.inr ⟨i, n, X, rfl, rfl, hX⟩
    · simp only [Function.update_of_ne ht]
      exact h.thread t
  · obtain ⟨made, hf, ⟨hc, ha⟩ | ⟨c, pc', hc, ha, hp⟩⟩ := h.thread t0
    · rw [h1] at hc; cases hc
    rw [h1] at hc
    cases hc
    have hfit := hcalls t0 c (by rw [ha]; simp)
    obtain ⟨g1, g2, g3⟩ := hp.step gen opt _ _ hfit (h.obj _ hfit) h2 (p.genOf c.on)
    generalize pc.step gen opt (p.obj c.on) (p.genOf c.on) = P at g1 g2 g3 ⊢
    refine ⟨fun i hi => ?_, fun t => ?_⟩
    · by_cases hij : i = c.on
      · subst hij; simpa using g2
      · simpa [hij] using h.obj i hi
    · by_cases ht : t = t0
      · subst ht
        exact ⟨made, by simpa using hf, Or.inr ⟨c, P.1, by simp, by simpa using ha, by simpa using g1⟩⟩
      · obtain ⟨made', hf', h' | ⟨c', pc₂, a, b, d⟩⟩ := h.thread t
        · exact ⟨made', by simpa [ht] using hf', Or.inl (by simpa [ht] using h')⟩
        · refine ⟨made', by simpa [ht] using hf', Or.inr ⟨c', pc₂, by simpa [ht] using a, by simpa [ht] using b, d.mono gen opt _ _ fun hb => ?_⟩⟩
          by_cases hij : c'.on = c.on
          · rw [hij] at hb ⊢; simpa using g3 hb
          · simpa [hij] using hb

theorem MixedInv.run {gen : MvnGen G} {opt : Optimizer} {s : Session M G} {calls : Nat → List (SessionCall M)} {p : GProc M G}
    (h : MixedInv gen opt s calls p) (hcalls : ∀ t, ∀ c ∈ calls t, WasFitted (s.obj c.on)) (sched : List Nat) :
    MixedInv gen opt s calls (p.run gen opt sched) := by
  unfold GProc.run
  induction sched generalizing p with
  | nil => exact h
  | cons t rest ih => exact ih (h.step hcalls t)

/-- **C243**, what is sampled: under every schedule, every sample uses error means that are those of the object at the start or of one of the datasets
to which it is fitted, error variances that are those at the start or of a fit to one of these datasets, and weights that are those at the start, or
of a fit to one of these datasets, or all 0. -/
theorem C243_mixed (gen : MvnGen G) (opt : Optimizer) (s : Session M G) (calls : Nat → List (SessionCall M)) (sched : List Nat)
    (hcalls : ∀ t, ∀ c ∈ calls t, WasFitted (s.obj c.on)) :
    let p := (GProc.start s calls).run gen opt sched
    ∀ t, ∃ made rest, calls t = made ++ rest ∧ List.Forall₂ (MixedResult gen opt s (FitData calls)) made (p.thread t).out ∧
      ((p.thread t).Finished → rest = []) := by
  intro p
  have h0 : MixedInv gen opt s calls (GProc.start s calls) := ⟨fun i hi => hi.mixed opt _, fun t => ⟨[], .nil, Or.inl ⟨rfl, rfl⟩⟩⟩
  have h := h0.run hcalls sched
  intro t
  obtain ⟨made, hf, ⟨_, ha⟩ | ⟨c, pc, hc, ha, _⟩⟩ := h.thread t
  · exact ⟨made, _, ha, hf, fun hfin => hfin.2⟩
  · exact ⟨made, _, ha, hf, fun hfin => by rw [hfin.1] at hc; cases hc⟩
end Medil

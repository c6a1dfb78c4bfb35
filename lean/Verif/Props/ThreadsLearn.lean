import Verif.Props.Threads
/-
  C241: several threads learn the structure of one `GaussianMCM` from the same dataset.
-/
namespace Medil
variable {M : Nat} {G : Type}

section learn
variable (d : Dataset M) (opt : Optimizer) (B : List (BVec M)) (U : BMat M)

/-- the structure and the graph of the object: not yet learned, or learned -/
def ObjLearn (a : GAttrs M) : Prop :=
  (a.biadj.length * M = 0 ∧ (a.udg = some U ∨ a.udg = none ∧ estimateUdgCov d = .ok U)) ∨ (a.biadj = B ∧ a.udg = some U)

/-- what is known at the points of a fit before the structure is stored -/
def pcEarly (a : GAttrs M) : GPc M → Prop
  | .fitStart o d' => d' = d ∧ findHeuristic1pc o U = .ok B
  | .fitTest o => HasData (· = d) a ∧ findHeuristic1pc o U = .ok B
  | .compTest o => HasData (· = d) a ∧ findHeuristic1pc o U = .ok B
  | .estSize o => HasData (· = d) a ∧ findHeuristic1pc o U = .ok B ∧ estimateUdgCov d = .ok U
  | .estCov o n => HasData (· = d) a ∧ findHeuristic1pc o U = .ok B ∧ estimateUdgCov d = .ok U ∧ n = d.size
  | .estCorr o n cov => HasData (· = d) a ∧ findHeuristic1pc o U = .ok B ∧ estimateUdgCov d = .ok U ∧ n = d.size ∧ cov = d.cov
  | .setUdg o V => HasData (· = d) a ∧ findHeuristic1pc o U = .ok B ∧ V = U
  | .heur o => HasData (· = d) a ∧ findHeuristic1pc o U = .ok B ∧ a.udg = some U
  | .setBiadj B' => HasData (· = d) a ∧ B' = B ∧ a.udg = some U
  | _ => False

/-- what is known at any point -/
def pcLearn (a : GAttrs M) (pc : GPc M) : Prop := pcEarly d B U a pc ∨ (a.biadj = B ∧ pcGood (· = d) opt B a pc)

/-- nothing known of `a` is lost in `a'` -/
structure KeptLearn (a a' : GAttrs M) : Prop where
  biadj : a.biadj = B → a'.biadj = B
  udg : a.udg = some U → a'.udg = some U
  data : HasData (· = d) a → HasData (· = d) a'
  mean : HasMean (· = d) a → HasMean (· = d) a'
  var : HasVar (· = d) opt B a → HasVar (· = d) opt B a'
  w : ZeroW B a ∨ HasW (· = d) opt B a → ZeroW B a' ∨ HasW (· = d) opt B a'

variable {d opt B U}

theorem pcGood_mono {D : Dataset M → Prop} {a a' : GAttrs M} (hdata : HasData D a → HasData D a') (hmean : HasMean D a → HasMean D a')
    (hvar : HasVar D opt B a → HasVar D opt B a') (hw : ZeroW B a ∨ HasW D opt B a → ZeroW B a' ∨ HasW D opt B a') {pc : GPc M}
    (hp : pcGood D opt B a pc) : pcGood D opt B a' pc := by
  cases pc <;> simp only [pcGood] at hp ⊢ <;> first
    | exact hp
    | exact hdata hp
    | exact ⟨hdata hp.1, hp.2⟩
    | exact ⟨hdata hp.1, hmean hp.2⟩
    | exact ⟨hdata hp.1, hmean hp.2.1, hp.2.2⟩
    | exact ⟨hdata hp.1, hmean hp.2.1, hvar hp.2.2.1, hp.2.2.2⟩
    | exact ⟨hdata hp.1, hmean hp.2.1, hvar hp.2.2.1, hw hp.2.2.2.1, hp.2.2.2.2⟩

theorem KeptLearn.good {a a' : GAttrs M} (h : KeptLearn d opt B U a a') {pc : GPc M} (hp : pcLearn d opt B U a pc) : pcLearn d opt B U a' pc := by
  rcases hp with hp | ⟨h1, hp⟩
  · left
    cases pc <;> simp only [pcEarly] at hp ⊢ <;> first
      | exact hp
      | exact ⟨h.data hp.1, hp.2⟩
      | exact ⟨h.data hp.1, hp.2.1, h.udg hp.2.2⟩
  · exact Or.inr ⟨h.biadj h1, pcGood_mono h.data h.mean h.var h.w hp⟩

theorem pcLearn.step (gen : MvnGen G) {a : GAttrs M} {pc : GPc M} (hM : B.length * M ≠ 0) (ha : ObjLearn d B U a) (hp : pcLearn d opt B U a pc)
    (hne : ∀ r, pc ≠ .done r) (g : G) :
    ObjLearn d B U (pc.step gen opt a g).2.1 ∧ pcLearn d opt B U (pc.step gen opt a g).2.1 (pc.step gen opt a g).1 ∧
    KeptLearn d opt B U a (pc.step gen opt a g).2.1 ∧
    ((∃ k x w, (pc.step gen opt a g).1 = .fill k x w) ∨ HasW (· = d) opt B (pc.step gen opt a g).2.1 ∨
      ((pc.step gen opt a g).2.1.weights = a.weights ∧ (∀ k x w, pc ≠ .fill k x w) ∧ ∀ r, (pc.step gen opt a g).1 ≠ .done r)) := by
  rcases hp with hp | ⟨hB, hp⟩
  · have hself : KeptLearn d opt B U a a := ⟨id, id, id, id, id, id⟩
    cases pc <;> simp only [pcEarly] at hp <;> try exact hp.elim
    case fitStart o d' =>
      obtain ⟨rfl, ho⟩ := hp
      exact ⟨ha, Or.inl ⟨⟨d', rfl, rfl⟩, ho⟩, ⟨id, id, fun _ => ⟨d', rfl, rfl⟩, id, id, id⟩, Or.inr (Or.inr ⟨rfl, by simp, by simp [GPc.step]⟩)⟩
    case fitTest o =>
      simp only [GPc.step]
      rcases ha with ha' | ha'
      · rw [if_pos ha'.1]
        exact ⟨Or.inl ha', Or.inl hp, hself, Or.inr (Or.inr ⟨trivial, by simp, by simp⟩)⟩
      · rw [if_neg (by rw [ha'.1]; exact hM)]
        exact ⟨Or.inr ha', Or.inr ⟨ha'.1, hp.1⟩, hself, Or.inr (Or.inr ⟨trivial, by simp, by simp⟩)⟩
    case compTest o =>
      have hMM : M * M ≠ 0 := fun h => hM (Nat.mul_eq_zero.mpr (Or.inr (mul_self_eq_zero.mp h)))
      simp only [GPc.step]
      have hu : a.udg = some U ∨ a.udg = none ∧ estimateUdgCov d = .ok U := by
        rcases ha with ha' | ha'
        · exact ha'.2
        · exact Or.inl ha'.2
      rcases hu with hu | ⟨hu, he⟩
      · rw [if_pos (by simp [hu, hMM])]
        exact ⟨ha, Or.inl ⟨hp.1, hp.2, hu⟩, hself, Or.inr (Or.inr ⟨trivial, by simp, by simp⟩)⟩
      · rw [if_neg (by simp [hu])]
        exact ⟨ha, Or.inl ⟨hp.1, hp.2, he⟩, hself, Or.inr (Or.inr ⟨trivial, by simp, by simp⟩)⟩
    case estSize o =>
      obtain ⟨⟨_, rfl, e⟩, h2, h3⟩ := hp
      simp only [GPc.step, e]
      exact ⟨ha, Or.inl ⟨⟨_, rfl, e⟩, h2, h3, rfl⟩, hself, Or.inr (Or.inr ⟨trivial, by simp, by simp⟩)⟩
    case estCov o n =>
      obtain ⟨⟨_, rfl, e⟩, h2, h3, h4⟩ := hp
      simp only [GPc.step, e]
      exact ⟨ha, Or.inl ⟨⟨_, rfl, e⟩, h2, h3, h4, rfl⟩, hself, Or.inr (Or.inr ⟨trivial, by simp, by simp⟩)⟩
    case estCorr o n cov =>
      obtain ⟨⟨_, rfl, e⟩, h2, h3, rfl, rfl⟩ := hp
      simp only [GPc.step, e, udgFrom_eq, h3]
      exact ⟨ha, Or.inl ⟨⟨_, rfl, e⟩, h2, rfl⟩, hself, Or.inr (Or.inr ⟨trivial, by simp, by simp⟩)⟩
    case setUdg o V =>
      obtain ⟨h1, h2, rfl⟩ := hp
      refine ⟨?_, Or.inl ⟨h1, h2, rfl⟩, ⟨id, fun _ => rfl, id, id, id, id⟩, Or.inr (Or.inr ⟨rfl, by simp, by simp [GPc.step]⟩)⟩
      rcases ha with ha' | ha'
      · exact Or.inl ⟨ha'.1, Or.inl rfl⟩
      · exact Or.inr ⟨ha'.1, rfl⟩
    case heur o =>
      obtain ⟨h1, h2, h3⟩ := hp
      simp only [GPc.step, h3, h2]
      exact ⟨ha, Or.inl ⟨h1, rfl, h3⟩, hself, Or.inr (Or.inr ⟨trivial, by simp, by simp⟩)⟩
    case setBiadj B' =>
      obtain ⟨h1, rfl, h3⟩ := hp
      exact ⟨Or.inr ⟨rfl, h3⟩, Or.inr ⟨rfl, h1⟩, ⟨fun _ => rfl, id, id, id, id, id⟩, Or.inr (Or.inr ⟨rfl, by simp, by simp [GPc.step]⟩)⟩
  · obtain ⟨g1, g2, g3⟩ := hp.step gen hB hM hne g
    have hb : (pc.step gen opt a g).2.1.biadj = B := by rw [g2.biadj, hB]
    have hu : a.udg = some U := by
      rcases ha with ha' | ha'
      · rw [hB] at ha'; exact absurd ha'.1 hM
      · exact ha'.2
    exact ⟨Or.inr ⟨hb, by rw [g2.udg, hu]⟩, Or.inr ⟨hb, g1⟩, ⟨fun _ => hb, fun h => by rw [g2.udg, h], g2.data, g2.mean, g2.var, g2.w⟩, g3⟩

/-- what is true of every reachable process -/
structure LearnInv (d : Dataset M) (opt : Optimizer) (B : List (BVec M)) (U : BMat M) (i : Nat) (p : GProc M G) : Prop where
  obj : ObjLearn d B U (p.obj i)
  cur : ∀ t j pc, (p.thread t).cur = some (j, pc) → j = i ∧ pcLearn d opt B U (p.obj i) pc
  todo : ∀ t, ∀ c ∈ (p.thread t).todo, ∃ o, c = .fit i o d ∧ findHeuristic1pc o U = .ok B
  out : ∀ t, ∀ r ∈ (p.thread t).out, (p.obj i).biadj = B ∧ HasData (· = d) (p.obj i) ∧ HasMean (· = d) (p.obj i) ∧ HasVar (· = d) opt B (p.obj i) ∧
    (ZeroW B (p.obj i) ∨ HasW (· = d) opt B (p.obj i)) ∧ ∃ w, r = (i, .fitted (.ok w))
  zero : HasW (· = d) opt B (p.obj i) ∨ (∃ t k x w, (p.thread t).cur = some (i, .fill k x w)) ∨
    ∀ t, (p.thread t).out = [] ∧ ∀ r, (p.thread t).cur ≠ some (i, .done r)

theorem LearnInv.step {i : Nat} {p : GProc M G} (h : LearnInv d opt B U i p) (hM : B.length * M ≠ 0) (gen : MvnGen G) (t0 : Nat) :
    LearnInv d opt B U i (p.step gen opt t0) := by
  rcases GProc.step_cases gen opt p t0 with ⟨_, _, e⟩ | ⟨c, cs, h1, h2, e⟩ | ⟨j, r, h1, e⟩ | ⟨j, pc, h1, h2, e⟩ <;> rw [e]
  · exact h
  · obtain ⟨o, rfl, ho⟩ := h.todo t0 c (by rw [h2]; exact List.mem_cons_self)
    refine ⟨h.obj, fun t j pc hc => ?_, fun t c hc => ?_, fun t r hr => ?_, ?_⟩
    · by_cases ht : t = t0
      · subst ht
        simp only [Function.update_self, Option.some.injEq, Prod.mk.injEq] at hc
        obtain ⟨rfl, rfl⟩ := hc
        exact ⟨rfl, Or.inl ⟨rfl, ho⟩⟩
      · simp only [Function.update_of_ne ht] at hc; exact h.cur t j pc hc
    · by_cases ht : t = t0
      · subst ht
        simp only [Function.update_self] at hc
        exact h.todo t c (by rw [h2]; exact List.mem_cons_of_mem _ hc)
      · simp only [Function.update_of_ne ht] at hc; exact h.todo t c hc
    · by_cases ht : t = t0
      · subst ht
        simp only [Function.update_self] at hr
        exact h.out t r hr
      · simp only [Function.update_of_ne ht] at hr; exact h.out t r hr
    · rcases h.zero with hz | ⟨t, k, x, w, hz⟩ | hz
      · exact Or.inl hz
      · have ht : t ≠ t0 := by rintro rfl; rw [h1] at hz; cases hz
        exact Or.inr (Or.inl ⟨t, k, x, w, by simp [ht, hz]⟩)
      · refine Or.inr (Or.inr fun t => ?_)
        by_cases ht : t = t0
        · subst ht; simp [(hz t).1, SessionCall.start]
        · simpa [ht] using hz t
  · obtain ⟨rfl, hg⟩ := h.cur t0 j _ h1
    refine ⟨h.obj, fun t j' pc hc => ?_, fun t c hc => ?_, fun t r' hr => ?_, ?_⟩
    · by_cases ht : t = t0
      · subst ht; simp at hc
      · simp only [Function.update_of_ne ht] at hc; exact h.cur t j' pc hc
    · by_cases ht : t = t0
      · subst ht; simp only [Function.update_self] at hc; exact h.todo t c hc
      · simp only [Function.update_of_ne ht] at hc; exact h.todo t c hc
    · by_cases ht : t = t0
      · subst ht
        simp only [Function.update_self, List.mem_append, List.mem_singleton] at hr
        rcases hr with hr | rfl
        · exact h.out t r' hr
        · rcases hg with hg | ⟨hb, a, b, c, d, w, rfl⟩
          · exact hg.elim
          · exact ⟨hb, a, b, c, d, w, rfl⟩
      · simp only [Function.update_of_ne ht] at hr; exact h.out t r' hr
    · rcases h.zero with hz | ⟨t, k, x, w, hz⟩ | hz
      · exact Or.inl hz
      · have ht : t ≠ t0 := by rintro rfl; rw [h1] at hz; cases hz
        exact Or.inr (Or.inl ⟨t, k, x, w, by simp [ht, hz]⟩)
      · exact absurd h1 ((hz t0).2 r)
  · obtain ⟨rfl, hg⟩ := h.cur t0 j pc h1
    obtain ⟨g0, g1, g2, g3⟩ := hg.step gen hM h.obj h2 (p.genOf j)
    generalize pc.step gen opt (p.obj j) (p.genOf j) = q at g0 g1 g2 g3 ⊢
    refine ⟨by simpa using g0, fun t j' pc' hc => ?_, fun t c hc => ?_, fun t r' hr => ?_, ?_⟩
    · by_cases ht : t = t0
      · subst ht
        simp only [Function.update_self, Option.some.injEq, Prod.mk.injEq] at hc ⊢
        obtain ⟨rfl, rfl⟩ := hc
        exact ⟨rfl, g1⟩
      · simp only [Function.update_of_ne ht] at hc
        obtain ⟨a, b⟩ := h.cur t j' pc' hc
        exact ⟨a, by simpa using g2.good b⟩
    · by_cases ht : t = t0
      · subst ht; simp only [Function.update_self] at hc; exact h.todo t c hc
      · simp only [Function.update_of_ne ht] at hc; exact h.todo t c hc
    · have hr' : r' ∈ (p.thread t).out := by
        by_cases ht : t = t0
        · subst ht; simpa using hr
        · simpa [ht] using hr
      obtain ⟨hb, a, b, c, d, e⟩ := h.out t r' hr'
      simp only [Function.update_self]
      exact ⟨g2.biadj hb, g2.data a, g2.mean b, g2.var c, g2.w d, e⟩
    · rcases g3 with ⟨k, x, w, hk⟩ | hw | ⟨hw, hf, hdone⟩
      · exact Or.inr (Or.inl ⟨t0, k, x, w, by simp [hk]⟩)
      · exact Or.inl (by simpa using hw)
      · rcases h.zero with ⟨d', hd, hz⟩ | ⟨t, k, x, w, hz⟩ | hz
        · exact Or.inl ⟨d', hd, by simpa [hw] using hz⟩
        · have ht : t ≠ t0 := by
            rintro rfl; rw [h1] at hz
            simp only [Option.some.injEq, Prod.mk.injEq, true_and] at hz
            exact hf k x w hz
          exact Or.inr (Or.inl ⟨t, k, x, w, by simp [ht, hz]⟩)
        · refine Or.inr (Or.inr fun t => ?_)
          by_cases ht : t = t0
          · subst ht; simpa [(hz t).1] using hdone
          · simpa [ht] using hz t

theorem LearnInv.run {i : Nat} {p : GProc M G} (h : LearnInv d opt B U i p) (hM : B.length * M ≠ 0) (gen : MvnGen G) (sched : List Nat) :
    LearnInv d opt B U i (p.run gen opt sched) := by
  unfold GProc.run
  induction sched generalizing p with
  | nil => exact h
  | cons t rest ih => exact ih (h.step hM gen t)
end learn

/-- what a call of `fit` that learns the structure has done -/
theorem fit_learned (opt : Optimizer) (o : Sched M) (d : Dataset M) (st : GState M) (h0 : st.biadj.length * M = 0) (w : Bool)
    (h : (gaussianFit opt o d st).2 = .ok w) :
    ∃ U B, udgOr d st.udg = .ok U ∧ findHeuristic1pc o U = .ok B ∧
      (gaussianFit opt o d st).1 = (fitParams opt d { st with dataset := some d, udg := some U, biadj := B }).1 := by
  unfold gaussianFit at h ⊢
  simp only [if_pos h0] at h ⊢
  unfold computeBiadj at h ⊢
  cases hu : udgOr d st.udg with
  | error e => simp only [hu] at h; cases h
  | ok U =>
    simp only [hu] at h ⊢
    cases hf : findHeuristic1pc o U with
    | error e => simp only [hf] at h; cases h
    | ok B => exact ⟨U, B, rfl, hf, rfl⟩

/-- **C241** One object without a structure is fitted to the same dataset in any number of threads; each of the calls, made alone, succeeds and learns
the structure `B`.  Under every schedule no call raises, and when all threads have finished the object is as after any one of the calls, made alone. -/
theorem C241_same_dataset (gen : MvnGen G) (opt : Optimizer) (s : Session M G) (calls : Nat → List (SessionCall M)) (i : Nat) (sched : List Nat)
    (d : Dataset M) (B : List (BVec M)) (h0 : (s.obj i).biadj.length * M = 0) (hB : B.length * M ≠ 0)
    (hcalls : ∀ t, ∀ c ∈ calls t, ∃ o w, c = .fit i o d ∧ (gaussianFit opt o d (s.obj i)).2 = .ok w ∧ (gaussianFit opt o d (s.obj i)).1.biadj = B)
    (hfin : ∀ t, (((GProc.start s calls).run gen opt sched).thread t).Finished) :
    let p := (GProc.start s calls).run gen opt sched
    (∀ t, ∀ r ∈ (p.thread t).out, ∃ w, r = (i, .fitted (.ok w))) ∧
    ∀ t o, SessionCall.fit i o d ∈ calls t → p.obj i = (gaussianFit opt o d (s.obj i)).1.attrs := by
  intro p
  have hM0 : M * M ≠ 0 := fun h => hB (Nat.mul_eq_zero.mpr (Or.inr (mul_self_eq_zero.mp h)))
  by_cases hsome : ∃ t o, SessionCall.fit i o d ∈ calls t
  swap
  · have hnil : ∀ t, calls t = [] := fun t => List.eq_nil_iff_forall_not_mem.mpr fun c hc => by
      obtain ⟨o, _, rfl, _⟩ := hcalls t c hc
      exact hsome ⟨t, o, hc⟩
    have hrun : ∀ l : List Nat, (GProc.start s calls).run gen opt l = GProc.start s calls := by
      intro l
      induction l with
      | nil => rfl
      | cons x l ih =>
        show GProc.run gen opt (GProc.step gen opt (GProc.start s calls) x) l = _
        have e : GProc.step gen opt (GProc.start s calls) x = GProc.start s calls := by
          unfold GProc.step
          simp [GProc.start, hnil]
        rw [e, ih]
    refine ⟨fun t r hr => ?_, fun t o ho => absurd ⟨t, o, ho⟩ hsome⟩
    rw [show p = GProc.start s calls from hrun sched] at hr
    cases hr
  obtain ⟨t1, o1, hc1⟩ := hsome
  obtain ⟨o', w1, e1, hw1, hb1⟩ := hcalls t1 _ hc1
  obtain rfl : o1 = o' := by cases e1; rfl
  obtain ⟨U, B', hU, hB', hfit⟩ := fit_learned opt o1 d _ h0 w1 hw1
  have hlearn : ∀ t, ∀ c ∈ calls t, ∃ o, c = .fit i o d ∧ findHeuristic1pc o U = .ok B := by
    intro t c hc
    obtain ⟨o, w, rfl, hw, hb⟩ := hcalls t c hc
    obtain ⟨U2, B2, hU2, hB2, hfit2⟩ := fit_learned opt o d _ h0 w hw
    rw [hU] at hU2
    injection hU2 with hU2
    subst hU2
    rw [hfit2] at hb
    exact ⟨o, rfl, by rw [hB2]; exact congrArg _ hb⟩
  have hinv : LearnInv d opt B U i (GProc.start s calls) := by
    refine ⟨Or.inl ⟨h0, ?_⟩, ?_, fun t c hc => hlearn t c hc, ?_, Or.inr (Or.inr fun t => ⟨rfl, ?_⟩)⟩
    rotate_left
    · intro t j pc h; cases h
    · intro t r hr; cases hr
    · intro r h; cases h
    show (s.obj i).udg = some U ∨ (s.obj i).udg = none ∧ _
    unfold udgOr at hU
    cases hu : (s.obj i).udg with
    | none => rw [hu] at hU; exact Or.inr ⟨rfl, hU⟩
    | some V =>
      rw [hu] at hU
      simp only [if_neg hM0] at hU
      injection hU with hU
      exact Or.inl (by rw [hU])
  have h := hinv.run hB gen sched
  refine ⟨fun t r hr => (h.out t r hr).2.2.2.2.2, fun t o ho => ?_⟩
  have hout := GProc.nonempty gen opt t sched (GProc.start s calls) (Or.inr (Or.inl (List.ne_nil_of_mem ho))) (hfin t)
  obtain ⟨r, hr⟩ := List.exists_mem_of_ne_nil _ hout
  obtain ⟨hb, ⟨d₁, hd₁, e₁⟩, ⟨d₂, hd₂, e₂⟩, ⟨d₃, hd₃, e₃⟩, _⟩ := h.out t r hr
  obtain ⟨d₄, hd₄, e₄⟩ : HasW (· = d) opt B (p.obj i) := by
    rcases h.zero with hz | ⟨t', k, x, w, hz⟩ | hz
    · exact hz
    · rw [(hfin t').1] at hz; cases hz
    · exact absurd (hz t).1 hout
  have hu : (p.obj i).udg = some U := by
    rcases h.obj with h' | h'
    · rw [hb] at h'; exact absurd h'.1 hB
    · exact h'.2
  obtain ⟨o2, w2, e2, hw2, hb2⟩ := hcalls t _ ho
  obtain rfl : o = o2 := by cases e2; rfl
  obtain ⟨U2, B2, hU2, hB2, hfit2⟩ := fit_learned opt o _ _ h0 w2 hw2
  rw [hU] at hU2
  injection hU2 with hU2
  subst hU2
  rw [hfit2] at hb2 ⊢
  replace hb2 : B2 = B := hb2
  subst hb2
  rw [hd₁] at e₁; rw [hd₂] at e₂; rw [hd₃] at e₃; rw [hd₄] at e₄
  show (GProc.run gen opt (GProc.start s calls) sched).obj i = _
  replace hb : ((GProc.run gen opt (GProc.start s calls) sched).obj i).biadj = _ := hb
  replace hu : ((GProc.run gen opt (GProc.start s calls) sched).obj i).udg = _ := hu
  revert hb hu e₁ e₂ e₃ e₄
  generalize (GProc.run gen opt (GProc.start s calls) sched).obj i = a
  obtain ⟨b, u, ds, m, v, w⟩ := a
  intro e₁ e₂ e₃ e₄ hb hu
  replace hb : b = B2 := hb
  replace hu : u = some U := hu
  subst hb hu
  subst e₁ e₂ e₃ e₄
  rfl

theorem learnPair (opt : Optimizer) : (gaussianFit opt (fun _ _ => 0) (twoPoints 1 2) {}).1.biadj = [BVec.full] ∧
    ∃ w, (gaussianFit opt (fun _ _ => 0) (twoPoints 1 2) {}).2 = .ok w := by
  obtain ⟨U, hU, -, h, -⟩ := (C55_fit_structure (le_refl _) opt (fun _ _ => 0) (twoPoints 1 2) {}).2 rfl
  rcases hU with hU | ⟨-, hU⟩
  · cases hU
  · rw [twoPoints_edge 1 2 (by norm_num) (by norm_num) (by norm_num)] at hU
    cases hU
    obtain ⟨h1, w, h2⟩ := h _ heuristic_edge2
    exact ⟨h1, w, h2⟩

/-- Two threads fit one object that has no structure to one dataset: the hypotheses of `C241_same_dataset` are met, and there is a schedule in which
all the threads finish. -/
theorem C241_example (gen : MvnGen Unit) (opt : Optimizer) :
    let s : Session 2 Unit := ⟨fun _ => {}, fun _ => none, ()⟩
    let calls := fun t => if t < 2 then [SessionCall.fit 0 (fun _ _ => 0) (twoPoints 1 2)] else []
    (s.obj 0).biadj.length * 2 = 0 ∧ ([BVec.full] : List (BVec 2)).length * 2 ≠ 0 ∧
    (∀ t, ∀ c ∈ calls t, ∃ o w, c = .fit 0 o (twoPoints 1 2) ∧ (gaussianFit opt o (twoPoints 1 2) (s.obj 0)).2 = .ok w ∧
      (gaussianFit opt o (twoPoints 1 2) (s.obj 0)).1.biadj = [BVec.full]) ∧
    ∃ sched, ∀ t, (((GProc.start s calls).run gen opt sched).thread t).Finished := by
  intro s calls
  obtain ⟨hl, w, hw⟩ := learnPair opt
  refine ⟨by simp [s], by simp, fun t c hc => ?_, ?_⟩
  · have hc' : c = .fit 0 (fun _ _ => 0) (twoPoints 1 2) := by
      simp only [calls] at hc
      split at hc
      · simpa using hc
      · cases hc
    exact ⟨_, w, hc', hw, hl⟩
  · obtain ⟨k, -, a1, a2, a3, a4⟩ := GProc.oneCall gen opt s (GProc.start s calls) 0 (.fit 0 (fun _ _ => 0) (twoPoints 1 2)) []
      (fun i => rfl) rfl rfl rfl rfl
    set q := (fun q => GProc.step gen opt q 0)^[k] (GProc.start s calls) with hq
    have hq1 : ∀ t, t ≠ 0 → q.thread t = (GProc.start s calls).thread t := fun t ht => GProc.iterate_thread gen opt 0 t ht k _
    obtain ⟨m, -, b1, b2, b3, b4⟩ := GProc.oneCall gen opt _ q 1 (.fit 0 (fun _ _ => 0) (twoPoints 1 2)) []
      a1 a2 a3 (by rw [hq1 1 (by omega)]; rfl) (by rw [hq1 1 (by omega)]; rfl)
    refine ⟨List.replicate k 0 ++ List.replicate m 1, fun t => ?_⟩
    have hrun : (GProc.start s calls).run gen opt (List.replicate k 0 ++ List.replicate m 1) = (fun q => GProc.step gen opt q 1)^[m] q := by
      rw [show ∀ x y, (GProc.start s calls).run gen opt (x ++ y) = ((GProc.start s calls).run gen opt x).run gen opt y from fun _ _ => List.foldl_append,
        GProc.run_replicate, GProc.run_replicate]
    rw [hrun]
    by_cases h1 : t = 1
    · subst h1; rw [b4]; exact ⟨rfl, rfl⟩
    · rw [GProc.iterate_thread gen opt 1 t h1]
      by_cases h0 : t = 0
      · subst h0; rw [a4]; exact ⟨rfl, rfl⟩
      · rw [hq1 t h0]
        refine ⟨rfl, ?_⟩
        show calls t = []
        simp only [calls]
        rw [if_neg (by omega)]
end Medil

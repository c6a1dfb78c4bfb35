import Verif.Model.Threads
import Verif.Props.InterruptGaussian
import Verif.Props.Session
/-
  Property theorems C234, C235: `GaussianMCM` objects used from several threads.
-/
namespace Medil
variable {M : Nat} {G : Type}

theorem maskAssign_same (B : List (BVec M)) (x : Fin (maskPositions B).length → ℝ) :
    maskAssign B (fun _ _ => 0) B (maskPositions B).length x = .ok (placeWeights B x) := by
  unfold maskAssign
  rw [dif_pos rfl, dif_pos rfl]
  rfl

theorem udgFrom_eq (d : Dataset M) : udgFrom d.size d.cov d.corr = estimateUdgCov d := rfl

/-- the steps of one call, undisturbed -/
noncomputable def soloStep (gen : MvnGen G) (opt : Optimizer) (x : GPc M × GAttrs M × G) : GPc M × GAttrs M × G :=
  GPc.step gen opt x.1 x.2.1 x.2.2

theorem solo_done (gen : MvnGen G) (opt : Optimizer) (r : SessionOut M) (a : GAttrs M) (g : G) (n : Nat) :
    (soloStep gen opt)^[n] (.done r, a, g) = (.done r, a, g) := by
  induction n with
  | zero => rfl
  | succ n ih => rw [Function.iterate_succ_apply]; exact ih

theorem solo_params (gen : MvnGen G) (opt : Optimizer) (d : Dataset M) (st : GState M) (h : st.dataset = some d) (g : G) :
    (soloStep gen opt)^[7] (.meanRead, st.attrs, g) =
      (.done (.fitted (.ok (fitParams opt d st).2)), (fitParams opt d st).1.attrs, g) := by
  obtain ⟨B, U, ds, m, p⟩ := st
  subst h
  have e := maskAssign_same B (headPart (opt _ (objective d.cov B)).1)
  iterate 6 rw [Function.iterate_succ_apply]; simp only [soloStep, GPc.step, GState.attrs, fitParams]
  rw [Function.iterate_succ_apply]; simp only [soloStep, GPc.step, e]
  rfl

theorem solo_reach {gen : MvnGen G} {opt : Optimizer} {x : GPc M × GAttrs M × G} {r : SessionOut M} {a : GAttrs M} {g : G} (k n : Nat)
    (h : (soloStep gen opt)^[k] x = (.done r, a, g)) (hk : k ≤ n) : (soloStep gen opt)^[n] x = (.done r, a, g) := by
  obtain ⟨j, rfl⟩ := Nat.exists_eq_add_of_le' hk
  rw [Function.iterate_add_apply, h, solo_done]

theorem solo_fit (gen : MvnGen G) (opt : Optimizer) (o : Sched M) (d : Dataset M) (st : GState M) (g : G) :
    (soloStep gen opt)^[16] (.fitStart o d, st.attrs, g) =
      (.done (.fitted (gaussianFit opt o d st).2), (gaussianFit opt o d st).1.attrs, g) := by
  have h0 : (soloStep gen opt)^[1] (.fitStart o d, st.attrs, g) = (.fitTest o, ({ st with dataset := some d } : GState M).attrs, g) := rfl
  by_cases h : st.biadj.length * M = 0
  · have h1 : (soloStep gen opt)^[2] (.fitStart o d, st.attrs, g) = (.compTest o, ({ st with dataset := some d } : GState M).attrs, g) := by
      rw [show 2 = 1 + 1 from rfl, Function.iterate_add_apply, h0]
      simp [soloStep, GPc.step, GState.attrs, h]
    have hheur : ∀ (U : BMat M) (n : Nat), udgOr d st.udg = .ok U → n ≤ 6 →
        (soloStep gen opt)^[n] (.fitStart o d, st.attrs, g) = (.heur o, ({ st with dataset := some d, udg := some U } : GState M).attrs, g) →
        (soloStep gen opt)^[16] (.fitStart o d, st.attrs, g) =
          (.done (.fitted (gaussianFit opt o d st).2), (gaussianFit opt o d st).1.attrs, g) := by
      intro U n hU hn hr
      rw [fit_learn opt o d st h U hU]
      rcases hf : findHeuristic1pc o U with e | B
      · refine solo_reach (1 + n) _ ?_ (by omega)
        rw [Function.iterate_add_apply, hr]
        simp [soloStep, GPc.step, GState.attrs, hf]
      · refine solo_reach (7 + (2 + n)) _ ?_ (by omega)
        rw [Function.iterate_add_apply, Function.iterate_add_apply, hr]
        have : (soloStep gen opt)^[2] (.heur o, ({ st with dataset := some d, udg := some U } : GState M).attrs, g) =
            (.meanRead, ({ st with dataset := some d, udg := some U, biadj := B } : GState M).attrs, g) := by
          simp [soloStep, GPc.step, GState.attrs, hf]
        rw [this]
        exact solo_params gen opt d _ rfl g
    by_cases hs : (st.udg.isSome && decide (M * M ≠ 0)) = true
    · obtain ⟨V, hV⟩ : ∃ V, st.udg = some V := Option.isSome_iff_exists.mp (by simp at hs; exact hs.1)
      have hM : M * M ≠ 0 := by simp at hs; simpa using hs.2
      refine hheur V 3 ?_ (by omega) ?_
      · unfold udgOr; simp only [hV, hM, if_false]
      · rw [show 3 = 1 + 2 from rfl, Function.iterate_add_apply, h1]
        simp only [Function.iterate_one, soloStep, GPc.step]
        exact Prod.ext (if_pos hs) (by simp [GState.attrs, hV])
    · have hU : udgOr d st.udg = estimateUdgCov d := by
        unfold udgOr
        cases hV : st.udg with
        | none => rfl
        | some V =>
          have : M * M = 0 := by
            rw [hV] at hs; simpa using hs
          simp only [this, if_true]
      have h2 : (soloStep gen opt)^[5] (.fitStart o d, st.attrs, g) = (.estCorr o d.size d.cov, ({ st with dataset := some d } : GState M).attrs, g) := by
        rw [show 5 = 3 + 2 from rfl, Function.iterate_add_apply, h1]
        have e1 : soloStep gen opt (.compTest o, ({ st with dataset := some d } : GState M).attrs, g) =
            (.estSize o, ({ st with dataset := some d } : GState M).attrs, g) := Prod.ext (if_neg hs) rfl
        rw [Function.iterate_succ_apply, e1]
        rfl
      rcases he : estimateUdgCov d with e | U
      · rw [he] at hU
        have hfit : gaussianFit opt o d st = ({ st with dataset := some d }, .error e) := by
          unfold gaussianFit computeBiadj; simp [h, hU]
        rw [hfit]
        refine solo_reach 6 _ ?_ (by omega)
        rw [show 6 = 1 + 5 from rfl, Function.iterate_add_apply, h2]
        simp [soloStep, GPc.step, GState.attrs, udgFrom_eq, he]
      · rw [he] at hU
        have h3 : (soloStep gen opt)^[6] (.fitStart o d, st.attrs, g) = (.setUdg o U, ({ st with dataset := some d } : GState M).attrs, g) := by
          rw [show 6 = 1 + 5 from rfl, Function.iterate_add_apply, h2]
          simp [soloStep, GPc.step, GState.attrs, udgFrom_eq, he]
        rw [fit_learn opt o d st h U hU]
        have h4 : (soloStep gen opt)^[7] (.fitStart o d, st.attrs, g) = (.heur o, ({ st with dataset := some d, udg := some U } : GState M).attrs, g) := by
          rw [show 7 = 1 + 6 from rfl, Function.iterate_add_apply, h3]
          rfl
        rcases hf : findHeuristic1pc o U with e | B
        · refine solo_reach (1 + 7) _ ?_ (by omega)
          rw [Function.iterate_add_apply, h4]
          simp [soloStep, GPc.step, GState.attrs, hf]
        · refine solo_reach (7 + (2 + 7)) _ ?_ (by omega)
          rw [Function.iterate_add_apply, Function.iterate_add_apply, h4]
          have : (soloStep gen opt)^[2] (.heur o, ({ st with dataset := some d, udg := some U } : GState M).attrs, g) =
              (.meanRead, ({ st with dataset := some d, udg := some U, biadj := B } : GState M).attrs, g) := by
            simp [soloStep, GPc.step, GState.attrs, hf]
          rw [this]
          exact solo_params gen opt d _ rfl g
  · rw [fit_given opt o d st h]
    refine solo_reach (7 + 2) _ ?_ (by omega)
    rw [Function.iterate_add_apply, show 2 = 1 + 1 from rfl, Function.iterate_add_apply, h0]
    have : (soloStep gen opt)^[1] (.fitTest o, ({ st with dataset := some d } : GState M).attrs, g) =
        (.meanRead, ({ st with dataset := some d } : GState M).attrs, g) := by
      simp [soloStep, GPc.step, GState.attrs, h]
    rw [this]
    exact solo_params gen opt d _ rfl g

theorem solo_sample (gen : MvnGen G) (opt : Optimizer) (size : Nat) (st : GState M) (g : G) :
    (soloStep gen opt)^[16] (.latents size, st.attrs, g) =
      (.done (.sampled size (st.sample gen size g).1), st.attrs, (st.sample gen size g).2) := by
  refine solo_reach 3 _ ?_ (by omega)
  iterate 3 rw [Function.iterate_succ_apply]
  unfold GState.sample
  rw [Function.iterate_zero_apply]
  by_cases h : st.biadj.length = 0
  · simp [soloStep, GPc.step, GState.attrs, h]
  · cases hm : st.means with
    | none => simp [soloStep, GPc.step, GState.attrs, h, hm]; rfl
    | some m =>
      cases hp : st.params with
      | none => simp [soloStep, GPc.step, GState.attrs, h, hm, hp]; rfl
      | some p =>
        by_cases hM : M = 0
        · simp [soloStep, GPc.step, GState.attrs, h, hm, hp, hM]; rfl
        · by_cases hl : p.weightsOn.length = st.biadj.length
          · simp [soloStep, GPc.step, GState.attrs, h, hm, hp, hM, hl]; exact ⟨rfl, rfl⟩
          · simp [soloStep, GPc.step, GState.attrs, h, hm, hp, hM, hl]; rfl

/-! ### one thread of several -/

/-- the process after thread `t` has taken the result `r` of a call on object `i` that left the attributes `a` and the generator `g` -/
def GProc.took (q : GProc M G) (t i : Nat) (a : GAttrs M) (g : G) (r : SessionOut M) : GProc M G :=
  { obj := Function.update q.obj i a
    own := if (q.own i).isSome then Function.update q.own i (some g) else q.own
    shared := if (q.own i).isSome then q.shared else g
    thread := Function.update q.thread t { q.thread t with cur := none, out := (q.thread t).out ++ [(i, r)] } }

/-- the generator of an object -/
def GProc.genOf (q : GProc M G) (i : Nat) : G := (q.own i).getD q.shared

theorem GProc.step_call (gen : MvnGen G) (opt : Optimizer) (q : GProc M G) (t i : Nat) (pc : GPc M)
    (h : (q.thread t).cur = some (i, pc)) (hne : ∀ r, pc ≠ .done r) :
    q.step gen opt t =
      { obj := Function.update q.obj i (pc.step gen opt (q.obj i) (q.genOf i)).2.1
        own := if (q.own i).isSome then Function.update q.own i (some (pc.step gen opt (q.obj i) (q.genOf i)).2.2) else q.own
        shared := if (q.own i).isSome then q.shared else (pc.step gen opt (q.obj i) (q.genOf i)).2.2
        thread := Function.update q.thread t { q.thread t with cur := some (i, (pc.step gen opt (q.obj i) (q.genOf i)).1) } } := by
  unfold GProc.step GProc.genOf
  rw [h]
  cases hg : q.own i with
  | none => cases pc <;> first | exact absurd rfl (hne _) | simp [hg]
  | some g => cases pc <;> first | exact absurd rfl (hne _) | simp [hg]

theorem GProc.step_done (gen : MvnGen G) (opt : Optimizer) (q : GProc M G) (t i : Nat) (r : SessionOut M)
    (h : (q.thread t).cur = some (i, .done r)) : q.step gen opt t = q.took t i (q.obj i) (q.genOf i) r := by
  unfold GProc.step GProc.took GProc.genOf
  rw [h]
  cases hg : q.own i with
  | none => simp
  | some g => simp [hg]

theorem GProc.call (gen : MvnGen G) (opt : Optimizer) (t i : Nat) (r : SessionOut M) (a : GAttrs M) (g : G) (n : Nat) (q : GProc M G) (pc : GPc M)
    (h : (q.thread t).cur = some (i, pc)) (hs : (soloStep gen opt)^[n] (pc, q.obj i, q.genOf i) = (.done r, a, g)) :
    ∃ k ≤ n + 1, (fun q => GProc.step gen opt q t)^[k] q = q.took t i a g r := by
  induction n generalizing q pc with
  | zero =>
    simp only [Function.iterate_zero, id, Prod.mk.injEq] at hs
    obtain ⟨rfl, rfl, rfl⟩ := hs
    exact ⟨1, le_refl _, by simpa using GProc.step_done gen opt q t i r h⟩
  | succ n ih =>
    by_cases hne : ∀ r, pc ≠ .done r
    · rw [Function.iterate_succ_apply] at hs
      obtain ⟨k, hk, e⟩ := ih (q.step gen opt t) (pc.step gen opt (q.obj i) (q.genOf i)).1 (by rw [GProc.step_call gen opt q t i pc h hne]; simp)
        (by
          rw [GProc.step_call gen opt q t i pc h hne]
          convert hs using 2
          simp only [soloStep, Function.update_self, GProc.genOf]
          cases hg : q.own i <;> simp [hg])
      refine ⟨k + 1, by omega, ?_⟩
      rw [Function.iterate_succ_apply, e, GProc.step_call gen opt q t i pc h hne]
      unfold GProc.took
      cases hg : q.own i <;> simp [hg]
    · push Not at hne
      obtain ⟨r', rfl⟩ := hne
      rw [solo_done] at hs
      simp only [Prod.mk.injEq, GPc.done.injEq] at hs
      obtain ⟨rfl, rfl, rfl⟩ := hs
      exact ⟨1, by omega, by simpa using GProc.step_done gen opt q t i _ h⟩

/-- the session after a history of calls -/
noncomputable def Session.after (gen : MvnGen G) (opt : Optimizer) (s : Session M G) (cs : List (SessionCall M)) : Session M G :=
  cs.foldl (fun s c => (s.step gen opt c).1) s

/-- one call of a thread that is alone -/
theorem GProc.oneCall (gen : MvnGen G) (opt : Optimizer) (s : Session M G) (q : GProc M G) (t : Nat) (c : SessionCall M) (cs : List (SessionCall M))
    (hobj : ∀ i, q.obj i = (s.obj i).attrs) (hown : q.own = s.own) (hsh : q.shared = s.shared)
    (hc : (q.thread t).cur = none) (htodo : (q.thread t).todo = c :: cs) :
    ∃ n ≤ 18, let q' := (fun q => GProc.step gen opt q t)^[n] q
      (∀ i, q'.obj i = ((s.step gen opt c).1.obj i).attrs) ∧ q'.own = (s.step gen opt c).1.own ∧ q'.shared = (s.step gen opt c).1.shared ∧
      q'.thread t = { cur := none, todo := cs, out := (q.thread t).out ++ [(c.on, (s.step gen opt c).2)] } := by
  have h1 : q.step gen opt t = { q with thread := Function.update q.thread t { q.thread t with cur := some (c.on, c.start), todo := cs } } := by
    unfold GProc.step
    rw [hc, htodo]
  cases c with
  | fit i o d =>
    obtain ⟨k, hk, e⟩ := GProc.call gen opt t i _ _ _ 16 (q.step gen opt t) (.fitStart o d) (by rw [h1]; simp [SessionCall.on, SessionCall.start])
      (by
        have := solo_fit gen opt o d (s.obj i) (q.genOf i)
        rw [← hobj i] at this
        rw [h1]
        exact this)
    refine ⟨k + 1, by omega, ?_⟩
    simp only [Function.iterate_succ_apply]
    rw [e, h1]
    refine ⟨fun j => ?_, ?_, ?_, ?_⟩
    · simp only [GProc.took, Session.step]
      by_cases hj : j = i
      · subst hj; simp
      · simp [hj, hobj]
    · simp only [GProc.took, Session.step, GProc.genOf, ← hown]
      cases hg : q.own i with
      | none => simp
      | some g => simp [hg]
    · simp only [GProc.took, Session.step, GProc.genOf, ← hsh]
      cases hg : q.own i <;> simp
    · simp [GProc.took, Session.step, SessionCall.on]
  | sample i size =>
    obtain ⟨k, hk, e⟩ := GProc.call gen opt t i _ _ _ 16 (q.step gen opt t) (.latents size) (by rw [h1]; simp [SessionCall.on, SessionCall.start])
      (by
        have := solo_sample gen opt size (s.obj i) (q.genOf i)
        rw [← hobj i] at this
        rw [h1]
        exact this)
    refine ⟨k + 1, by omega, ?_⟩
    simp only [Function.iterate_succ_apply]
    rw [e, h1]
    simp only [GProc.took, Session.step, GProc.genOf, ← hsh, ← hown]
    cases hg : q.own i with
    | none =>
      refine ⟨fun j => ?_, ?_, ?_, ?_⟩
      · by_cases hj : j = i
        · subst hj; simp [hobj]
        · simp [hj, hobj]
      · simp
      · simp
      · simp [SessionCall.on]
    | some g =>
      refine ⟨fun j => ?_, ?_, ?_, ?_⟩
      · by_cases hj : j = i
        · subst hj; simp [hobj]
        · simp [hj, hobj]
      · simp
      · simp
      · simp [SessionCall.on]

theorem GProc.solo (gen : MvnGen G) (opt : Optimizer) (t : Nat) (cs : List (SessionCall M)) (s : Session M G) (q : GProc M G)
    (hobj : ∀ i, q.obj i = (s.obj i).attrs) (hown : q.own = s.own) (hsh : q.shared = s.shared)
    (hc : (q.thread t).cur = none) (htodo : (q.thread t).todo = cs) :
    ∃ n ≤ 18 * cs.length, let q' := (fun q => GProc.step gen opt q t)^[n] q
      (∀ i, q'.obj i = ((s.after gen opt cs).obj i).attrs) ∧ q'.own = (s.after gen opt cs).own ∧
      q'.thread t = { cur := none, todo := [], out := (q.thread t).out ++ s.run gen opt cs } := by
  induction cs generalizing s q with
  | nil => exact ⟨0, by simp, hobj, hown, by simp [Session.run, ← htodo, ← hc]⟩
  | cons c cs ih =>
    obtain ⟨n, hn, a1, a2, a3, a4⟩ := GProc.oneCall gen opt s q t c cs hobj hown hsh hc htodo
    obtain ⟨m, hm, b1, b2, b3⟩ := ih _ _ a1 a2 a3 (by rw [a4]) (by rw [a4])
    refine ⟨m + n, by simp only [List.length_cons]; omega, ?_⟩
    rw [Function.iterate_add_apply]
    refine ⟨b1, b2, ?_⟩
    rw [b3, a4]
    simp [Session.run]

/-! ### several threads -/

/-- a call of `fit` -/
def SessionCall.IsFit : SessionCall M → Prop
  | .fit _ _ _ => True
  | .sample _ _ => False

/-- a point of a call of `fit`, or the end of a call -/
def GPc.NoDraw : GPc M → Prop
  | .latents _ => False
  | .errors _ _ _ => False
  | .multiply _ _ _ _ => False
  | _ => True

theorem GPc.NoDraw.step {pc : GPc M} (h : pc.NoDraw) (gen : MvnGen G) (opt : Optimizer) (a : GAttrs M) (g g' : G) :
    (pc.step gen opt a g).1.NoDraw ∧ (pc.step gen opt a g).1 = (pc.step gen opt a g').1 ∧
    (pc.step gen opt a g).2.1 = (pc.step gen opt a g').2.1 ∧ (pc.step gen opt a g).2.2 = g := by
  cases pc <;> simp only [GPc.NoDraw] at h <;> simp only [GPc.step] <;> (repeat' split) <;> simp_all [GPc.NoDraw]

/-- thread `t` and the objects in `S` -/
structure GProc.Sep (t : Nat) (S : Nat → Prop) (p : GProc M G) : Prop where
  cur : ∀ i pc, (p.thread t).cur = some (i, pc) → S i ∧ ((p.own i).isSome ∨ pc.NoDraw)
  todo : ∀ c ∈ (p.thread t).todo, S c.on ∧ ((p.own c.on).isSome ∨ c.IsFit)
  ocur : ∀ t' ≠ t, ∀ i pc, (p.thread t').cur = some (i, pc) → ¬ S i
  otodo : ∀ t' ≠ t, ∀ c ∈ (p.thread t').todo, ¬ S c.on

/-- what a step does, by cases -/
theorem GProc.step_cases (gen : MvnGen G) (opt : Optimizer) (p : GProc M G) (t : Nat) :
    ((p.thread t).cur = none ∧ (p.thread t).todo = [] ∧ p.step gen opt t = p) ∨
    (∃ c cs, (p.thread t).cur = none ∧ (p.thread t).todo = c :: cs ∧
      p.step gen opt t = { p with thread := Function.update p.thread t { p.thread t with cur := some (c.on, c.start), todo := cs } }) ∨
    (∃ i r, (p.thread t).cur = some (i, .done r) ∧ p.step gen opt t =
      { p with thread := Function.update p.thread t { p.thread t with cur := none, out := (p.thread t).out ++ [(i, r)] } }) ∨
    (∃ i pc, (p.thread t).cur = some (i, pc) ∧ (∀ r, pc ≠ .done r) ∧ p.step gen opt t =
      { obj := Function.update p.obj i (pc.step gen opt (p.obj i) (p.genOf i)).2.1
        own := if (p.own i).isSome then Function.update p.own i (some (pc.step gen opt (p.obj i) (p.genOf i)).2.2) else p.own
        shared := if (p.own i).isSome then p.shared else (pc.step gen opt (p.obj i) (p.genOf i)).2.2
        thread := Function.update p.thread t { p.thread t with cur := some (i, (pc.step gen opt (p.obj i) (p.genOf i)).1) } }) := by
  rcases h : (p.thread t).cur with _ | ⟨i, pc⟩
  · rcases ht : (p.thread t).todo with _ | ⟨c, cs⟩
    · exact Or.inl ⟨rfl, rfl, by unfold GProc.step; rw [h, ht]⟩
    · exact Or.inr (Or.inl ⟨c, cs, rfl, rfl, by unfold GProc.step; rw [h, ht]⟩)
  · by_cases hne : ∀ r, pc ≠ .done r
    · exact Or.inr (Or.inr (Or.inr ⟨i, pc, rfl, hne, GProc.step_call gen opt p t i pc h hne⟩))
    · push Not at hne
      obtain ⟨r, rfl⟩ := hne
      exact Or.inr (Or.inr (Or.inl ⟨i, r, rfl, by unfold GProc.step; rw [h]⟩))

theorem GProc.step_own (gen : MvnGen G) (opt : Optimizer) (p : GProc M G) (t i : Nat) : ((p.step gen opt t).own i).isSome = (p.own i).isSome := by
  rcases GProc.step_cases gen opt p t with ⟨_, _, e⟩ | ⟨c, cs, _, _, e⟩ | ⟨j, r, _, e⟩ | ⟨j, pc, _, _, e⟩ <;> rw [e]
  dsimp only
  split
  · next hj =>
    by_cases hij : i = j
    · subst hij; simp [hj]
    · simp [hij]
  · rfl

theorem GProc.step_thread (gen : MvnGen G) (opt : Optimizer) (p : GProc M G) (t t' : Nat) (h : t' ≠ t) :
    (p.step gen opt t).thread t' = p.thread t' := by
  rcases GProc.step_cases gen opt p t with ⟨_, _, e⟩ | ⟨c, cs, _, _, e⟩ | ⟨j, r, _, e⟩ | ⟨j, pc, _, _, e⟩ <;> rw [e] <;> simp [h]

theorem GProc.Sep.step {t : Nat} {S : Nat → Prop} {p : GProc M G} (h : p.Sep t S) (gen : MvnGen G) (opt : Optimizer) (t' : Nat) :
    (p.step gen opt t').Sep t S := by
  by_cases ht : t' = t
  · subst ht
    refine ⟨?_, ?_, fun u hu => ?_, fun u hu => ?_⟩
    · intro i pc hi
      rw [GProc.step_own]
      rcases GProc.step_cases gen opt p t' with ⟨_, _, e⟩ | ⟨c, cs, h1, h2, e⟩ | ⟨j, r, _, e⟩ | ⟨j, pc', h1, h2, e⟩ <;> rw [e] at hi
      · exact h.cur i pc hi
      · simp only [Function.update_self, Option.some.injEq, Prod.mk.injEq] at hi
        obtain ⟨rfl, rfl⟩ := hi
        obtain ⟨a, b⟩ := h.todo c (by rw [h2]; exact List.mem_cons_self)
        refine ⟨a, b.imp id fun hf => ?_⟩
        cases c with
        | fit => trivial
        | sample => exact hf.elim
      · simp at hi
      · simp only [Function.update_self, Option.some.injEq, Prod.mk.injEq] at hi
        obtain ⟨rfl, rfl⟩ := hi
        obtain ⟨a, b⟩ := h.cur j pc' h1
        exact ⟨a, b.imp id fun hf => (hf.step gen opt _ _ (p.genOf j)).1⟩
    · intro c hc
      rw [GProc.step_own]
      apply h.todo c
      rcases GProc.step_cases gen opt p t' with ⟨_, _, e⟩ | ⟨c', cs, h1, h2, e⟩ | ⟨j, r, _, e⟩ | ⟨j, pc', h1, h2, e⟩ <;> rw [e] at hc
      · exact hc
      · simp only [Function.update_self] at hc
        rw [h2]; exact List.mem_cons_of_mem _ hc
      · simpa using hc
      · simpa using hc
    · rw [GProc.step_thread gen opt p t' u hu]; exact h.ocur u hu
    · rw [GProc.step_thread gen opt p t' u hu]; exact h.otodo u hu
  · refine ⟨?_, ?_, fun u hu => ?_, fun u hu => ?_⟩
    · intro i pc hi
      rw [GProc.step_thread gen opt p t' t (Ne.symm ht)] at hi
      rw [GProc.step_own]; exact h.cur i pc hi
    · intro c hc
      rw [GProc.step_thread gen opt p t' t (Ne.symm ht)] at hc
      rw [GProc.step_own]; exact h.todo c hc
    · by_cases hut : u = t'
      · subst hut
        intro i pc hi
        rcases GProc.step_cases gen opt p u with ⟨_, _, e⟩ | ⟨c, cs, h1, h2, e⟩ | ⟨j, r, _, e⟩ | ⟨j, pc', h1, h2, e⟩ <;> rw [e] at hi
        · exact h.ocur u hu i pc hi
        · simp only [Function.update_self, Option.some.injEq, Prod.mk.injEq] at hi
          obtain ⟨rfl, rfl⟩ := hi
          exact h.otodo u hu c (by rw [h2]; exact List.mem_cons_self)
        · simp at hi
        · simp only [Function.update_self, Option.some.injEq, Prod.mk.injEq] at hi
          obtain ⟨rfl, rfl⟩ := hi
          exact h.ocur u hu j pc' h1
      · rw [GProc.step_thread gen opt p t' u hut]; exact h.ocur u hu
    · by_cases hut : u = t'
      · subst hut
        intro c hc
        apply h.otodo u hu c
        rcases GProc.step_cases gen opt p u with ⟨_, _, e⟩ | ⟨c', cs, h1, h2, e⟩ | ⟨j, r, _, e⟩ | ⟨j, pc', h1, h2, e⟩ <;> rw [e] at hc
        · exact hc
        · simp only [Function.update_self] at hc
          rw [h2]; exact List.mem_cons_of_mem _ hc
        · simpa using hc
        · simpa using hc
      · rw [GProc.step_thread gen opt p t' u hut]; exact h.otodo u hu

/-- two processes that agree on thread `t` and on the objects in `S` -/
def GProc.Same (t : Nat) (S : Nat → Prop) (p q : GProc M G) : Prop :=
  p.thread t = q.thread t ∧ ∀ i, S i → p.obj i = q.obj i ∧ p.own i = q.own i

theorem GProc.Same.other {t : Nat} {S : Nat → Prop} {p q : GProc M G} (h : p.Same t S q) (hp : p.Sep t S) (gen : MvnGen G) (opt : Optimizer)
    (t' : Nat) (ht : t' ≠ t) : (p.step gen opt t').Same t S q := by
  refine ⟨by rw [GProc.step_thread gen opt p t' t (Ne.symm ht)]; exact h.1, fun i hi => ?_⟩
  rw [← (h.2 i hi).1, ← (h.2 i hi).2]
  rcases GProc.step_cases gen opt p t' with ⟨_, _, e⟩ | ⟨c, cs, h1, h2, e⟩ | ⟨j, r, _, e⟩ | ⟨j, pc', h1, h2, e⟩ <;> rw [e]
  · exact ⟨rfl, rfl⟩
  · exact ⟨rfl, rfl⟩
  · exact ⟨rfl, rfl⟩
  · have hij : i ≠ j := fun e => hp.ocur t' ht j pc' h1 (e ▸ hi)
    refine ⟨by simp [hij], ?_⟩
    dsimp only
    split
    · simp [hij]
    · rfl

theorem GProc.Same.own {t : Nat} {S : Nat → Prop} {p q : GProc M G} (h : p.Same t S q) (hp : p.Sep t S) (gen : MvnGen G) (opt : Optimizer) :
    (p.step gen opt t).Same t S (q.step gen opt t) := by
  obtain ⟨h1, h2⟩ := h
  rcases GProc.step_cases gen opt p t with ⟨a, b, e⟩ | ⟨c, cs, a, b, e⟩ | ⟨j, r, a, e⟩ | ⟨j, pc, a, b, e⟩ <;> rw [e]
  · have : q.step gen opt t = q := by unfold GProc.step; rw [← h1, a, b]
    rw [this]; exact ⟨h1, h2⟩
  · have : q.step gen opt t = { q with thread := Function.update q.thread t { q.thread t with cur := some (c.on, c.start), todo := cs } } := by
      unfold GProc.step; rw [← h1, a, b]
    rw [this]; exact ⟨by simp [h1], h2⟩
  · have : q.step gen opt t = { q with thread := Function.update q.thread t { q.thread t with cur := none, out := (q.thread t).out ++ [(j, r)] } } := by
      unfold GProc.step; rw [← h1, a]
    rw [this]; exact ⟨by simp [h1], h2⟩
  · rw [GProc.step_call gen opt q t j pc (by rw [← h1]; exact a) b]
    obtain ⟨hS, hd⟩ := hp.cur j pc a
    obtain ⟨ho, hw⟩ := h2 j hS
    cases hg : p.own j with
    | some g =>
      have hgen : p.genOf j = g := by simp [GProc.genOf, hg]
      have hgen' : q.genOf j = g := by simp [GProc.genOf, ← hw, hg]
      simp only [hgen, hgen', ← ho, ← hw, hg]
      refine ⟨by simp [h1], fun i hi => ?_⟩
      by_cases hij : i = j
      · subst hij; simp
      · simp [hij, h2 i hi]
    | none =>
      have hnd : pc.NoDraw := by
        rcases hd with hd | hd
        · rw [hg] at hd; cases hd
        · exact hd
      have e1 := hnd.step gen opt (p.obj j) (p.genOf j) (q.genOf j)
      simp only [← hw, hg, ← ho, e1.2.1, e1.2.2.1]
      refine ⟨by simp [h1], fun i hi => ?_⟩
      by_cases hij : i = j
      · subst hij; simp [hw]
      · simp [hij, h2 i hi]

theorem GProc.Same.run {t : Nat} {S : Nat → Prop} (gen : MvnGen G) (opt : Optimizer) (sched : List Nat) {p q : GProc M G} (h : p.Same t S q)
    (hp : p.Sep t S) : (p.run gen opt sched).Same t S ((fun q => GProc.step gen opt q t)^[sched.count t] q) := by
  unfold GProc.run
  induction sched generalizing p q with
  | nil => exact h
  | cons t' rest ih =>
    by_cases ht : t' = t
    · subst ht
      simp only [List.foldl_cons, List.count_cons_self, Function.iterate_succ_apply]
      exact ih (h.own hp gen opt) (hp.step gen opt t')
    · simp only [List.foldl_cons, List.count_cons_of_ne ht]
      exact ih (h.other hp gen opt t' ht) (hp.step gen opt t')

theorem GProc.idle (gen : MvnGen G) (opt : Optimizer) (q : GProc M G) (t : Nat) (h : (q.thread t).Finished) (n : Nat) :
    (fun q => GProc.step gen opt q t)^[n] q = q := by
  have h1 : q.step gen opt t = q := by unfold GProc.step; rw [h.1, h.2]
  induction n with
  | zero => rfl
  | succ n ih => rw [Function.iterate_succ_apply, h1, ih]

/-- **C234** Threads that use different objects.  Let no other thread make a call on an object of thread `t`, and let the objects from which
thread `t` samples have their own generators.  Then, whatever the schedule, once thread `t` has had 18 steps for each of its calls it has
finished; and whenever it has finished, its calls have returned, and left in its objects, what they return and leave when they are made one
after the other with no other thread. -/
theorem C234_threads (gen : MvnGen G) (opt : Optimizer) (s : Session M G) (calls : Nat → List (SessionCall M)) (t : Nat)
    (hown : ∀ c ∈ calls t, (s.own c.on).isSome ∨ c.IsFit)
    (hsep : ∀ t' ≠ t, ∀ c' ∈ calls t', ∀ c ∈ calls t, c'.on ≠ c.on) (sched : List Nat) :
    let p := (GProc.start s calls).run gen opt sched
    (18 * (calls t).length ≤ sched.count t → (p.thread t).Finished) ∧
    ((p.thread t).Finished → (p.thread t).out = s.run gen opt (calls t) ∧
      ∀ c ∈ calls t, p.obj c.on = ((s.after gen opt (calls t)).obj c.on).attrs ∧ p.own c.on = (s.after gen opt (calls t)).own c.on) := by
  intro p
  have hp : (GProc.start s calls).Sep t fun i => ∃ c ∈ calls t, c.on = i := by
    refine ⟨?_, fun c hc => ⟨⟨c, hc, rfl⟩, hown c hc⟩, ?_, ?_⟩
    · intro i pc hi; cases hi
    · intro t' _ i pc hi; cases hi
    · rintro t' ht c' hc' ⟨c, hc, e⟩
      exact hsep t' ht c' hc' c hc e.symm
  have hsame := GProc.Same.run gen opt sched (p := GProc.start s calls) (q := GProc.start s calls) ⟨rfl, fun _ _ => ⟨rfl, rfl⟩⟩ hp
  obtain ⟨n, hn, a1, a2, a3⟩ := GProc.solo gen opt t (calls t) s (GProc.start s calls) (fun _ => rfl) rfl rfl rfl rfl
  have hfin := GProc.idle gen opt _ t (show (((fun q => GProc.step gen opt q t)^[n] (GProc.start s calls)).thread t).Finished by rw [a3]; exact ⟨rfl, rfl⟩)
  refine ⟨fun hk => ?_, fun hf => ?_⟩
  · obtain ⟨m, hm⟩ := Nat.exists_eq_add_of_le' (hn.trans hk)
    rw [hm, Function.iterate_add_apply, hfin] at hsame
    show (p.thread t).Finished
    rw [hsame.1, a3]
    exact ⟨rfl, rfl⟩
  · have hf' : (((fun q => GProc.step gen opt q t)^[sched.count t] (GProc.start s calls)).thread t).Finished := by rw [← hsame.1]; exact hf
    have e : (fun q => GProc.step gen opt q t)^[sched.count t] (GProc.start s calls) = (fun q => GProc.step gen opt q t)^[n] (GProc.start s calls) := by
      rw [← GProc.idle gen opt _ t hf' n, ← hfin (sched.count t), ← Function.iterate_add_apply, ← Function.iterate_add_apply, Nat.add_comm]
    rw [e] at hsame
    refine ⟨by rw [hsame.1, a3]; rfl, fun c hc => ?_⟩
    obtain ⟨b1, b2⟩ := hsame.2 c.on ⟨c, hc, rfl⟩
    exact ⟨by rw [b1, a1], by rw [b2, a2]⟩

/-! ### one object, several threads -/

/-- the datasets of the calls -/
def FitCalls (calls : Nat → List (SessionCall M)) (d : Dataset M) : Prop := ∃ t i o, SessionCall.fit i o d ∈ calls t

/-- the parameters of an object are those of the call `fit d` (made alone) -/
def GAttrs.SameParams (a b : GAttrs M) : Prop := a.means = b.means ∧ a.variances = b.variances ∧ a.weights = b.weights

/-- **C235** (as stated; false): if one object is fitted in several threads, its parameters are afterwards those of one of the calls -/
def C235_statement : Prop :=
  ∀ (M : Nat) (G : Type) (gen : MvnGen G) (opt : Optimizer) (s : Session M G) (calls : Nat → List (SessionCall M)) (i : Nat) (sched : List Nat),
    (∀ t, ∀ c ∈ calls t, ∃ o d, c = .fit i o d) → (∃ t, calls t ≠ []) →
    (∀ t, (((GProc.start s calls).run gen opt sched).thread t).Finished) →
    ∃ t o d, SessionCall.fit i o d ∈ calls t ∧
      (((GProc.start s calls).run gen opt sched).obj i).SameParams (gaussianFit opt o d (s.obj i)).1.attrs

section oneObject
variable (D : Dataset M → Prop) (opt : Optimizer) (B : List (BVec M))

/-- what the optimizer returns for a dataset -/
noncomputable def fitVec (d : Dataset M) : Fin ((maskPositions B).length + M) → ℝ := (opt _ (objective d.cov B)).1

def HasData (a : GAttrs M) : Prop := ∃ d, D d ∧ a.dataset = some d
def HasMean (a : GAttrs M) : Prop := ∃ d, D d ∧ a.means = some d.mean
def HasVar (a : GAttrs M) : Prop := ∃ d, D d ∧ a.variances = some (tailPart (fitVec opt B d))
def HasW (a : GAttrs M) : Prop := ∃ d, D d ∧ a.weights = some ⟨B, placeWeights B (headPart (fitVec opt B d))⟩
def ZeroW (a : GAttrs M) : Prop := a.weights = some ⟨B, fun _ _ => 0⟩
def FromFit (k : Nat) (x : Fin (k + M) → ℝ) : Prop :=
  ∃ d, D d ∧ (⟨k, x⟩ : (k : Nat) × (Fin (k + M) → ℝ)) = ⟨(maskPositions B).length, fitVec opt B d⟩

/-- what is known when a thread is at a point of a fit -/
def pcGood (a : GAttrs M) : GPc M → Prop
  | .fitStart _ d => D d
  | .fitTest _ => HasData D a
  | .meanRead => HasData D a
  | .meanSet v => HasData D a ∧ ∃ d, D d ∧ v = d.mean
  | .covRead => HasData D a ∧ HasMean D a
  | .minimize cov => HasData D a ∧ HasMean D a ∧ ∃ d, D d ∧ cov = d.cov
  | .varSet k x _ => HasData D a ∧ HasMean D a ∧ FromFit D opt B k x
  | .zeros k x _ => HasData D a ∧ HasMean D a ∧ HasVar D opt B a ∧ FromFit D opt B k x
  | .fill k x _ => HasData D a ∧ HasMean D a ∧ HasVar D opt B a ∧ (ZeroW B a ∨ HasW D opt B a) ∧ FromFit D opt B k x
  | .done r => HasData D a ∧ HasMean D a ∧ HasVar D opt B a ∧ (ZeroW B a ∨ HasW D opt B a) ∧ ∃ w, r = .fitted (.ok w)
  | _ => False

/-- nothing known of `a` is lost in `a'` -/
structure Kept (a a' : GAttrs M) : Prop where
  biadj : a'.biadj = a.biadj
  udg : a'.udg = a.udg
  data : HasData D a → HasData D a'
  mean : HasMean D a → HasMean D a'
  var : HasVar D opt B a → HasVar D opt B a'
  w : ZeroW B a ∨ HasW D opt B a → ZeroW B a' ∨ HasW D opt B a'

variable {D opt B}

theorem Kept.good {a a' : GAttrs M} (h : Kept D opt B a a') {pc : GPc M} (hp : pcGood D opt B a pc) : pcGood D opt B a' pc := by
  cases pc <;> simp only [pcGood] at hp ⊢ <;> first
    | exact hp
    | exact h.data hp
    | exact ⟨h.data hp.1, hp.2⟩
    | exact ⟨h.data hp.1, h.mean hp.2⟩
    | exact ⟨h.data hp.1, h.mean hp.2.1, hp.2.2⟩
    | exact ⟨h.data hp.1, h.mean hp.2.1, h.var hp.2.2.1, hp.2.2.2⟩
    | exact ⟨h.data hp.1, h.mean hp.2.1, h.var hp.2.2.1, h.w hp.2.2.2.1, hp.2.2.2.2⟩

theorem maskAssign_over (W : Fin B.length → Fin M → ℝ) (x : Fin (maskPositions B).length → ℝ)
    (h : W = (fun _ _ => 0) ∨ ∃ y, W = placeWeights B y) :
    maskAssign B W B (maskPositions B).length x = .ok (placeWeights B x) := by
  unfold maskAssign
  rw [dif_pos rfl, dif_pos rfl]
  refine congrArg Except.ok (funext fun i => funext fun j => ?_)
  unfold placeWeights
  split
  · next h1 =>
    have h2 : (maskPositions B).idxOf (i, j) < (maskPositions B).length := h1
    rw [dif_pos h2]
    rfl
  · next h1 =>
    rw [dif_neg (by simpa using h1)]
    rcases h with rfl | ⟨y, rfl⟩
    · rfl
    · unfold placeWeights
      exact dif_neg (by simpa using h1)

theorem pcGood.step (gen : MvnGen G) {a : GAttrs M} {pc : GPc M} (hB : a.biadj = B) (hM : B.length * M ≠ 0) (hp : pcGood D opt B a pc)
    (hne : ∀ r, pc ≠ .done r) (g : G) :
    pcGood D opt B (pc.step gen opt a g).2.1 (pc.step gen opt a g).1 ∧ Kept D opt B a (pc.step gen opt a g).2.1 ∧
    ((∃ k x w, (pc.step gen opt a g).1 = .fill k x w) ∨ HasW D opt B (pc.step gen opt a g).2.1 ∨
      ((pc.step gen opt a g).2.1.weights = a.weights ∧ (∀ k x w, pc ≠ .fill k x w) ∧ ∀ r, (pc.step gen opt a g).1 ≠ .done r)) := by
  have hself : Kept D opt B a a := ⟨rfl, rfl, id, id, id, id⟩
  cases pc <;> simp only [pcGood] at hp <;> try exact hp.elim
  case fitStart o d => exact ⟨⟨d, hp, rfl⟩, ⟨rfl, rfl, fun _ => ⟨d, hp, rfl⟩, id, id, id⟩, Or.inr (Or.inr ⟨rfl, by simp, by simp [GPc.step]⟩)⟩
  case fitTest o =>
    simp only [GPc.step, hB, hM, if_false]
    exact ⟨hp, hself, Or.inr (Or.inr ⟨trivial, by simp, by simp⟩)⟩
  case meanRead =>
    obtain ⟨d, hd, e⟩ := hp
    simp only [GPc.step, e]
    exact ⟨⟨⟨d, hd, e⟩, d, hd, rfl⟩, hself, Or.inr (Or.inr ⟨trivial, by simp, by simp⟩)⟩
  case meanSet v =>
    obtain ⟨h1, d, hd, rfl⟩ := hp
    exact ⟨⟨h1, d, hd, rfl⟩, ⟨rfl, rfl, id, fun _ => ⟨d, hd, rfl⟩, id, id⟩, Or.inr (Or.inr ⟨rfl, by simp, by simp [GPc.step]⟩)⟩
  case covRead =>
    obtain ⟨⟨d, hd, e⟩, h2⟩ := hp
    simp only [GPc.step, e]
    exact ⟨⟨⟨d, hd, e⟩, h2, d, hd, rfl⟩, hself, Or.inr (Or.inr ⟨trivial, by simp, by simp⟩)⟩
  case minimize cov =>
    obtain ⟨h1, h2, d, hd, rfl⟩ := hp
    subst hB
    exact ⟨⟨h1, h2, d, hd, rfl⟩, hself, Or.inr (Or.inr ⟨rfl, by simp, by simp [GPc.step]⟩)⟩
  case varSet k x w =>
    obtain ⟨h1, h2, d, hd, e⟩ := hp
    have hv : HasVar D opt B (GPc.step gen opt (.varSet k x w) a g).2.1 := by
      cases e; exact ⟨d, hd, rfl⟩
    exact ⟨⟨h1, h2, hv, d, hd, e⟩, ⟨rfl, rfl, id, id, fun _ => hv, id⟩, Or.inr (Or.inr ⟨rfl, by simp, by simp [GPc.step]⟩)⟩
  case zeros k x w =>
    obtain ⟨h1, h2, h3, h4⟩ := hp
    have hz : ZeroW B (GPc.step gen opt (.zeros k x w) a g).2.1 := by
      subst hB; rfl
    exact ⟨⟨h1, h2, h3, Or.inl hz, h4⟩, ⟨rfl, rfl, id, id, id, fun _ => Or.inl hz⟩, Or.inl ⟨k, x, w, rfl⟩⟩
  case fill k x w =>
    obtain ⟨h1, h2, h3, h4, d, hd, e⟩ := hp
    have hW : ∃ W, a.weights = some ⟨B, W⟩ ∧ (W = (fun _ _ => 0) ∨ ∃ y, W = placeWeights B y) := by
      rcases h4 with h | ⟨d', _, h⟩
      · exact ⟨_, h, Or.inl rfl⟩
      · exact ⟨_, h, Or.inr ⟨_, rfl⟩⟩
    obtain ⟨W, hW, hc⟩ := hW
    cases e
    have e := maskAssign_over W (headPart (fitVec opt B d)) hc
    have hw : HasW D opt B { a with weights := some ⟨B, placeWeights B (headPart (fitVec opt B d))⟩ } := ⟨d, hd, rfl⟩
    simp only [GPc.step, hW, hB, e]
    exact ⟨⟨h1, h2, h3, Or.inr hw, w, rfl⟩, ⟨hB.symm, rfl, id, id, id, fun _ => Or.inr hw⟩, Or.inr (Or.inl hw)⟩
  case done r => exact absurd rfl (hne r)

/-- what is true of every reachable process -/
structure OneInv (D : Dataset M → Prop) (opt : Optimizer) (B : List (BVec M)) (U : Option (BMat M)) (i : Nat) (p : GProc M G) : Prop where
  biadj : (p.obj i).biadj = B
  udg : (p.obj i).udg = U
  cur : ∀ t j pc, (p.thread t).cur = some (j, pc) → j = i ∧ pcGood D opt B (p.obj i) pc
  todo : ∀ t, ∀ c ∈ (p.thread t).todo, ∃ o d, c = .fit i o d ∧ D d
  out : ∀ t, ∀ r ∈ (p.thread t).out, HasData D (p.obj i) ∧ HasMean D (p.obj i) ∧ HasVar D opt B (p.obj i) ∧
    (ZeroW B (p.obj i) ∨ HasW D opt B (p.obj i)) ∧ ∃ w, r = (i, .fitted (.ok w))
  zero : HasW D opt B (p.obj i) ∨ (∃ t k x w, (p.thread t).cur = some (i, .fill k x w)) ∨
    ∀ t, (p.thread t).out = [] ∧ ∀ r, (p.thread t).cur ≠ some (i, .done r)

theorem OneInv.step {U : Option (BMat M)} {i : Nat} {p : GProc M G} (h : OneInv D opt B U i p) (hM : B.length * M ≠ 0) (gen : MvnGen G) (t0 : Nat) :
    OneInv D opt B U i (p.step gen opt t0) := by
  rcases GProc.step_cases gen opt p t0 with ⟨_, _, e⟩ | ⟨c, cs, h1, h2, e⟩ | ⟨j, r, h1, e⟩ | ⟨j, pc, h1, h2, e⟩ <;> rw [e]
  · exact h
  · obtain ⟨o, d, rfl, hd⟩ := h.todo t0 c (by rw [h2]; exact List.mem_cons_self)
    refine ⟨h.biadj, h.udg, fun t j pc hc => ?_, fun t c hc => ?_, fun t r hr => ?_, ?_⟩
    · by_cases ht : t = t0
      · subst ht
        simp only [Function.update_self, Option.some.injEq, Prod.mk.injEq] at hc
        obtain ⟨rfl, rfl⟩ := hc
        exact ⟨rfl, hd⟩
      · simp only [Function.update_of_ne ht] at hc; exact h.cur t j pc hc
    · by_cases ht : t = t0
      · subst ht
        simp only [Function.update_self] at hc
        exact h.todo t c (by rw [h2]; exact List.mem_cons_of_mem _ hc)
      · simp only [Function.update_of_ne ht] at hc; exact h.todo t c hc
    · by_cases ht : t = t0
      · subst ht
        simp only [Function.update_self] at hr
        exact h.out t r hr
      · simp only [Function.update_of_ne ht] at hr; exact h.out t r hr
    · rcases h.zero with hz | ⟨t, k, x, w, hz⟩ | hz
      · exact Or.inl hz
      · have ht : t ≠ t0 := by rintro rfl; rw [h1] at hz; cases hz
        exact Or.inr (Or.inl ⟨t, k, x, w, by simp [ht, hz]⟩)
      · refine Or.inr (Or.inr fun t => ?_)
        by_cases ht : t = t0
        · subst ht; simp [(hz t).1, SessionCall.start]
        · simpa [ht] using hz t
  · obtain ⟨rfl, hg⟩ := h.cur t0 j _ h1
    refine ⟨h.biadj, h.udg, fun t j' pc hc => ?_, fun t c hc => ?_, fun t r' hr => ?_, ?_⟩
    · by_cases ht : t = t0
      · subst ht; simp at hc
      · simp only [Function.update_of_ne ht] at hc; exact h.cur t j' pc hc
    · by_cases ht : t = t0
      · subst ht; simp only [Function.update_self] at hc; exact h.todo t c hc
      · simp only [Function.update_of_ne ht] at hc; exact h.todo t c hc
    · by_cases ht : t = t0
      · subst ht
        simp only [Function.update_self, List.mem_append, List.mem_singleton] at hr
        rcases hr with hr | rfl
        · exact h.out t r' hr
        · obtain ⟨a, b, c, d, w, rfl⟩ := hg
          exact ⟨a, b, c, d, w, rfl⟩
      · simp only [Function.update_of_ne ht] at hr; exact h.out t r' hr
    · rcases h.zero with hz | ⟨t, k, x, w, hz⟩ | hz
      · exact Or.inl hz
      · have ht : t ≠ t0 := by rintro rfl; rw [h1] at hz; cases hz
        exact Or.inr (Or.inl ⟨t, k, x, w, by simp [ht, hz]⟩)
      · exact absurd h1 ((hz t0).2 r)
  · obtain ⟨rfl, hg⟩ := h.cur t0 j pc h1
    obtain ⟨g1, g2, g3⟩ := hg.step gen h.biadj hM h2 (p.genOf j)
    generalize pc.step gen opt (p.obj j) (p.genOf j) = q at g1 g2 g3 ⊢
    refine ⟨by simpa [g2.biadj] using h.biadj, by simpa [g2.udg] using h.udg, fun t j' pc' hc => ?_, fun t c hc => ?_, fun t r' hr => ?_, ?_⟩
    · by_cases ht : t = t0
      · subst ht
        simp only [Function.update_self, Option.some.injEq, Prod.mk.injEq] at hc ⊢
        obtain ⟨rfl, rfl⟩ := hc
        exact ⟨rfl, g1⟩
      · simp only [Function.update_of_ne ht] at hc
        obtain ⟨a, b⟩ := h.cur t j' pc' hc
        exact ⟨a, by simpa using g2.good b⟩
    · by_cases ht : t = t0
      · subst ht; simp only [Function.update_self] at hc; exact h.todo t c hc
      · simp only [Function.update_of_ne ht] at hc; exact h.todo t c hc
    · have hr' : r' ∈ (p.thread t).out := by
        by_cases ht : t = t0
        · subst ht; simpa using hr
        · simpa [ht] using hr
      obtain ⟨a, b, c, d, e⟩ := h.out t r' hr'
      simp only [Function.update_self]
      exact ⟨g2.data a, g2.mean b, g2.var c, g2.w d, e⟩
    · rcases g3 with ⟨k, x, w, hk⟩ | hw | ⟨hw, hf, hdone⟩
      · exact Or.inr (Or.inl ⟨t0, k, x, w, by simp [hk]⟩)
      · exact Or.inl (by simpa using hw)
      · rcases h.zero with ⟨d, hd, hz⟩ | ⟨t, k, x, w, hz⟩ | hz
        · exact Or.inl ⟨d, hd, by simpa [hw] using hz⟩
        · have ht : t ≠ t0 := by
            rintro rfl; rw [h1] at hz
            simp only [Option.some.injEq, Prod.mk.injEq, true_and] at hz
            exact hf k x w hz
          exact Or.inr (Or.inl ⟨t, k, x, w, by simp [ht, hz]⟩)
        · refine Or.inr (Or.inr fun t => ?_)
          by_cases ht : t = t0
          · subst ht; simpa [(hz t).1] using hdone
          · simpa [ht] using hz t

theorem OneInv.run {U : Option (BMat M)} {i : Nat} {p : GProc M G} (h : OneInv D opt B U i p) (hM : B.length * M ≠ 0) (gen : MvnGen G) (sched : List Nat) :
    OneInv D opt B U i (p.run gen opt sched) := by
  unfold GProc.run
  induction sched generalizing p with
  | nil => exact h
  | cons t rest ih => exact ih (h.step hM gen t)
end oneObject

/-- A call in progress or to be made, or a result, remains. -/
theorem GProc.nonempty (gen : MvnGen G) (opt : Optimizer) (t : Nat) (sched : List Nat) (p : GProc M G)
    (h : (p.thread t).cur ≠ none ∨ (p.thread t).todo ≠ [] ∨ (p.thread t).out ≠ []) (hf : ((p.run gen opt sched).thread t).Finished) :
    ((p.run gen opt sched).thread t).out ≠ [] := by
  unfold GProc.run at *
  induction sched generalizing p with
  | nil =>
    rcases h with h | h | h
    · exact absurd hf.1 h
    · exact absurd hf.2 h
    · exact h
  | cons t' rest ih =>
    refine ih (p.step gen opt t') ?_ hf
    by_cases ht : t = t'
    · subst ht
      rcases GProc.step_cases gen opt p t with ⟨_, _, e⟩ | ⟨c, cs, h1, h2, e⟩ | ⟨j, r, h1, e⟩ | ⟨j, pc, h1, h2, e⟩ <;> rw [e]
      · exact h
      · exact Or.inl (by simp)
      · exact Or.inr (Or.inr (by simp))
      · exact Or.inl (by simp)
    · rw [GProc.step_thread gen opt p t' t ht]; exact h

/-- **C235** (partial): one object, with a structure, fitted in any number of threads, under any schedule.  When all threads have finished, no
call has raised, the structure and the graph are unchanged, and `dataset`, the error means, the error variances and the weights are each those of one
of the calls, made alone - but perhaps of different calls.  If all calls are given the same dataset, the object is as after one call. -/
theorem C235_partial (gen : MvnGen G) (opt : Optimizer) (s : Session M G) (calls : Nat → List (SessionCall M)) (i : Nat) (sched : List Nat)
    (hB : (s.obj i).biadj.length * M ≠ 0)
    (hcalls : ∀ t, ∀ c ∈ calls t, ∃ o d, c = .fit i o d) (hsome : ∃ t, calls t ≠ [])
    (hfin : ∀ t, (((GProc.start s calls).run gen opt sched).thread t).Finished) :
    let p := (GProc.start s calls).run gen opt sched
    (∀ t, ∀ r ∈ (p.thread t).out, ∃ w, r = (i, .fitted (.ok w))) ∧
    (p.obj i).biadj = (s.obj i).biadj ∧ (p.obj i).udg = (s.obj i).udg ∧
    (∃ d₁ d₂ d₃ d₄ : Dataset M, FitCalls calls d₁ ∧ FitCalls calls d₂ ∧ FitCalls calls d₃ ∧ FitCalls calls d₄ ∧ ∀ o,
      (p.obj i).dataset = some d₁ ∧
      (p.obj i).means = (gaussianFit opt o d₂ (s.obj i)).1.attrs.means ∧
      (p.obj i).variances = (gaussianFit opt o d₃ (s.obj i)).1.attrs.variances ∧
      (p.obj i).weights = (gaussianFit opt o d₄ (s.obj i)).1.attrs.weights) ∧
    ∀ d, (∀ d', FitCalls calls d' → d' = d) → ∀ o, p.obj i = (gaussianFit opt o d (s.obj i)).1.attrs := by
  intro p
  have h0 : OneInv (FitCalls calls) opt (s.obj i).biadj (s.obj i).udg i (GProc.start s calls) := by
    refine ⟨rfl, rfl, ?_, fun t c hc => ?_, ?_, Or.inr (Or.inr fun t => ⟨rfl, ?_⟩)⟩
    · intro t j pc h; cases h
    · obtain ⟨o, d, rfl⟩ := hcalls t c hc
      exact ⟨o, d, rfl, t, i, o, hc⟩
    · intro t r hr; cases hr
    · intro r h; cases h
  have h := h0.run hB gen sched
  obtain ⟨t, ht⟩ := hsome
  have hout := GProc.nonempty gen opt t sched (GProc.start s calls) (Or.inr (Or.inl ht)) (hfin t)
  obtain ⟨r, hr⟩ := List.exists_mem_of_ne_nil _ hout
  obtain ⟨⟨d₁, hd₁, e₁⟩, ⟨d₂, hd₂, e₂⟩, ⟨d₃, hd₃, e₃⟩, _⟩ := h.out t r hr
  obtain ⟨d₄, hd₄, e₄⟩ : HasW (FitCalls calls) opt (s.obj i).biadj (p.obj i) := by
    rcases h.zero with hz | ⟨t', k, x, w, hz⟩ | hz
    · exact hz
    · rw [(hfin t').1] at hz; cases hz
    · exact absurd (hz t).1 hout
  refine ⟨fun t r hr => (h.out t r hr).2.2.2.2, h.biadj, h.udg, ⟨d₁, d₂, d₃, d₄, hd₁, hd₂, hd₃, hd₄, fun o => ?_⟩, fun d hd o => ?_⟩
  · rw [fit_given opt o d₂ _ hB, fit_given opt o d₃ _ hB, fit_given opt o d₄ _ hB]
    exact ⟨e₁, e₂, e₃, e₄⟩
  · rw [fit_given opt o d _ hB]
    rw [hd _ hd₁] at e₁; rw [hd _ hd₂] at e₂; rw [hd _ hd₃] at e₃; rw [hd _ hd₄] at e₄
    have hb := h.biadj
    have hu := h.udg
    show (GProc.run gen opt (GProc.start s calls) sched).obj i = _
    revert hb hu e₁ e₂ e₃ e₄
    generalize (GProc.run gen opt (GProc.start s calls) sched).obj i = a
    obtain ⟨b, u, ds, m, v, w⟩ := a
    intro hb hu e₁ e₂ e₃ e₄
    subst hb hu e₁ e₂ e₃ e₄
    rfl

theorem solo_meanSet (gen : MvnGen G) (opt : Optimizer) (d : Dataset M) (v : Fin M → ℝ) (st : GState M) (h : st.dataset = some d) (g : G) :
    (soloStep gen opt)^[6] (.meanSet v, st.attrs, g) =
      (.done (.fitted (.ok (fitParams opt d st).2)), { (fitParams opt d st).1.attrs with means := some v }, g) := by
  obtain ⟨B, U, ds, m, p⟩ := st
  subst h
  have e := maskAssign_same B (headPart (opt _ (objective d.cov B)).1)
  iterate 5 rw [Function.iterate_succ_apply]; simp only [soloStep, GPc.step, GState.attrs, fitParams]
  rw [Function.iterate_succ_apply]; simp only [soloStep, GPc.step, e]
  rfl

theorem GProc.run_replicate (gen : MvnGen G) (opt : Optimizer) (t k : Nat) (p : GProc M G) :
    p.run gen opt (List.replicate k t) = (fun q => GProc.step gen opt q t)^[k] p := by
  unfold GProc.run
  induction k generalizing p with
  | zero => rfl
  | succ k ih => rw [List.replicate_succ, List.foldl_cons, Function.iterate_succ_apply]; exact ih _

theorem GProc.iterate_thread (gen : MvnGen G) (opt : Optimizer) (t' t : Nat) (ht : t ≠ t') (k : Nat) (q : GProc M G) :
    ((fun q => GProc.step gen opt q t')^[k] q).thread t = q.thread t := by
  induction k generalizing q with
  | zero => rfl
  | succ k ih => rw [Function.iterate_succ_apply, ih, GProc.step_thread gen opt q t' t ht]

/-- two threads, one call of `fit` each, on object 0 -/
def twoFits (o : Sched M) (d₀ d₁ : Dataset M) (t : Nat) : List (SessionCall M) :=
  if t = 0 then [.fit 0 o d₀] else if t = 1 then [.fit 0 o d₁] else []

/-- For every structure and any two datasets there is a schedule after which the error means are those of the first dataset, the error variances
and the weights those of the second. -/
theorem C235_mixed (gen : MvnGen G) (opt : Optimizer) (s : Session M G) (o : Sched M) (d₀ d₁ : Dataset M) (hB : (s.obj 0).biadj.length * M ≠ 0) :
    ∃ sched, (∀ t, (((GProc.start s (twoFits o d₀ d₁)).run gen opt sched).thread t).Finished) ∧
      let a := ((GProc.start s (twoFits o d₀ d₁)).run gen opt sched).obj 0
      a.means = (gaussianFit opt o d₀ (s.obj 0)).1.attrs.means ∧ a.variances = (gaussianFit opt o d₁ (s.obj 0)).1.attrs.variances ∧
      a.weights = (gaussianFit opt o d₁ (s.obj 0)).1.attrs.weights := by
  set p0 := GProc.start s (twoFits o d₀ d₁) with hp0
  set s1 : Session M G := { s with obj := Function.update s.obj 0 { s.obj 0 with dataset := some d₀ } } with hs1
  set p1 : GProc M G := { p0 with obj := Function.update p0.obj 0 { p0.obj 0 with dataset := some d₀ }
                                  thread := Function.update p0.thread 0 { cur := some (0, .meanSet d₀.mean), todo := [] } } with hp1
  have hstep : ∀ (pc pc' : GPc M) (a a' : GAttrs M), (∀ r, pc ≠ .done r) → (∀ g, pc.step gen opt a g = (pc', a', g)) →
      GProc.step gen opt { p0 with obj := Function.update p0.obj 0 a, thread := Function.update p0.thread 0 { cur := some (0, pc), todo := [] } } 0 =
      { p0 with obj := Function.update p0.obj 0 a', thread := Function.update p0.thread 0 { cur := some (0, pc'), todo := [] } } := by
    intro pc pc' a a' h1 h2
    rw [GProc.step_call gen opt _ 0 0 pc (by simp) h1]
    simp only [Function.update_self, h2, GProc.genOf, Function.update_idem]
    cases hg : p0.own 0 with
    | none => simp
    | some g => simp [hg]
  have hstart : p0.step gen opt 0 =
      { p0 with obj := Function.update p0.obj 0 (p0.obj 0), thread := Function.update p0.thread 0 { cur := some (0, .fitStart o d₀), todo := [] } } := by
    unfold GProc.step; simp [hp0, GProc.start, twoFits, SessionCall.on, SessionCall.start]
  have hfour : p0.run gen opt [0, 0, 0, 0] = p1 := by
    unfold GProc.run
    simp only [List.foldl_cons, List.foldl_nil, hstart]
    have hb : (p0.obj 0).biadj.length * M ≠ 0 := hB
    rw [hstep (.fitStart o d₀) (.fitTest o) _ { p0.obj 0 with dataset := some d₀ } (by simp) (fun g => rfl)]
    rw [hstep (.fitTest o) .meanRead _ { p0.obj 0 with dataset := some d₀ } (by simp) (fun g => by simp only [GPc.step, hb, if_false])]
    rw [hstep .meanRead (.meanSet d₀.mean) _ { p0.obj 0 with dataset := some d₀ } (by simp) (fun g => rfl)]
  obtain ⟨k, -, a1, a2, a3, a4⟩ := GProc.oneCall gen opt s1 p1 1 (.fit 0 o d₁) []
    (fun i => by
      by_cases hi : i = 0
      · subst hi; simp [hp1, hs1, hp0, GProc.start, GState.attrs]
      · simp [hp1, hs1, hp0, GProc.start, hi])
    rfl rfl (by simp [hp1, hp0, GProc.start]) (by simp [hp1, hp0, GProc.start, twoFits])
  set p2 := (fun q => GProc.step gen opt q 1)^[k] p1 with hp2
  have ht2 : ∀ t, t ≠ 1 → p2.thread t = p1.thread t := by
    intro t ht
    exact GProc.iterate_thread gen opt 1 t ht k p1
  have hfit : gaussianFit opt o d₁ (s1.obj 0) = ((fitParams opt d₁ { s.obj 0 with dataset := some d₁ }).1, .ok (fitParams opt d₁ { s.obj 0 with dataset := some d₁ }).2) := by
    rw [fit_given opt o d₁ _ (by simpa [hs1] using hB)]
    simp [hs1]
  obtain ⟨m, -, b⟩ := GProc.call gen opt 0 0 _ _ _ 6 p2 (.meanSet d₀.mean) (by rw [ht2 0 (by omega)]; simp [hp1])
    (by
      rw [a1 0]
      simp only [Session.step, Function.update_self, hfit]
      exact solo_meanSet gen opt d₁ d₀.mean _ rfl (p2.genOf 0))
  refine ⟨[0, 0, 0, 0] ++ (List.replicate k 1 ++ List.replicate m 0), ?_⟩
  have hrun : p0.run gen opt ([0, 0, 0, 0] ++ (List.replicate k 1 ++ List.replicate m 0)) =
      p2.run gen opt (List.replicate m 0) := by
    have : ∀ (p : GProc M G) (x y : List Nat), p.run gen opt (x ++ y) = (p.run gen opt x).run gen opt y := fun p x y => List.foldl_append
    rw [this, this, hfour, GProc.run_replicate gen opt 1 k]
  rw [hrun, GProc.run_replicate, b]
  refine ⟨fun t => ?_, ?_⟩
  · by_cases h0 : t = 0
    · subst h0; simp [GProc.took, GThread.Finished, ht2 0, hp1]
    · by_cases h1 : t = 1
      · subst h1; simp [GProc.took, GThread.Finished, a4]
      · simp [GProc.took, h0, GThread.Finished, ht2 t h1, hp1, hp0, GProc.start, twoFits, h1]
  · rw [fit_given opt o d₀ _ hB, fit_given opt o d₁ _ hB]
    simp only [GProc.took, Function.update_self]
    exact ⟨rfl, rfl, rfl⟩

/-- a dataset with one measurement and two observations -/
def pairData (a b : ℝ) : Dataset 1 := ⟨2, le_refl 2, fun k _ => if k = 0 then a else b⟩

theorem pairData_mean (a b : ℝ) : (pairData a b).mean 0 = (a + b) / 2 := by
  show (∑ k : Fin 2, (if k = 0 then a else b)) / ((2 : ℕ) : ℝ) = _
  simp [Fin.sum_univ_two]

theorem pairData_cov (a b : ℝ) : (pairData a b).cov 0 0 = (a - b) ^ 2 / 2 := by
  show (∑ k : Fin 2, ((if k = 0 then a else b) - (pairData a b).mean 0) * ((if k = 0 then a else b) - (pairData a b).mean 0)) / (((2 : ℕ) : ℝ) - 1) = _
  rw [pairData_mean]
  simp [Fin.sum_univ_two]
  ring

/-- two datasets with different means and different covariances -/
theorem C235_false : ¬ C235_statement := by
  intro h
  let opt : Optimizer := fun n f => (fun _ => f (fun _ => 0), true)
  let s : Session 1 Unit := ⟨fun _ => { biadj := [BVec.full] }, fun _ => none, ()⟩
  let gen : MvnGen Unit := ⟨fun _ _ _ g => (fun _ _ => 0, g)⟩
  have hB : (s.obj 0).biadj.length * 1 ≠ 0 := by simp [s]
  obtain ⟨sched, hf, h1, h2, h3⟩ := C235_mixed gen opt s (fun _ _ => 0) (pairData 0 0) (pairData 0 2) hB
  obtain ⟨t, o, d, hd, e1, e2, e3⟩ := h 1 Unit gen opt s (twoFits (fun _ _ => 0) (pairData 0 0) (pairData 0 2)) 0 sched
    (by
      intro t c hc
      unfold twoFits at hc
      split at hc
      · exact ⟨_, _, by simpa using hc⟩
      · split at hc
        · exact ⟨_, _, by simpa using hc⟩
        · cases hc)
    ⟨0, by simp [twoFits]⟩ hf
  rw [h1] at e1
  rw [h2] at e2
  have hdd : d = pairData 0 0 ∨ d = pairData 0 2 := by
    unfold twoFits at hd
    split at hd
    · left; simp only [List.mem_singleton, SessionCall.fit.injEq] at hd; exact hd.2.2
    · split at hd
      · right; simp only [List.mem_singleton, SessionCall.fit.injEq] at hd; exact hd.2.2
      · cases hd
  rw [fit_given opt _ _ _ hB, fit_given opt _ _ _ hB] at e1 e2
  have e1' : (pairData 0 0).mean 0 = d.mean 0 := congrFun (Option.some.inj e1) 0
  have hobj : ∀ d : Dataset 1, objective d.cov [BVec.full] (fun _ => 0) = d.cov 0 0 ^ 2 := by
    intro d
    simp [objective, placeWeights, headPart, tailPart]
  have e2' : objective (pairData 0 2).cov [BVec.full] (fun _ => 0) = objective d.cov [BVec.full] (fun _ => 0) := congrFun (Option.some.inj e2) 0
  rw [hobj, hobj] at e2'
  rcases hdd with rfl | rfl
  · rw [pairData_cov, pairData_cov] at e2'; norm_num at e2'
  · rw [pairData_mean, pairData_mean] at e1'; norm_num at e1'

/-- Two threads, each with its own object, one with a given structure and one that learns it: the hypotheses of `C234_threads` are met. -/
example (o : Sched 2) (d₀ d₁ : Dataset 2) :
    let s : Session 2 Nat := ⟨fun i => if i = 0 then { biadj := [BVec.full] } else {}, fun i => some i, 7⟩
    let calls : Nat → List (SessionCall 2) := fun t => if t < 2 then [.fit t o d₀, .sample t 5, .fit t o d₁] else []
    (∀ c ∈ calls 1, (s.own c.on).isSome ∨ c.IsFit) ∧ ∀ t' ≠ 1, ∀ c' ∈ calls t', ∀ c ∈ calls 1, c'.on ≠ c.on := by
  intro s calls
  refine ⟨fun c _ => Or.inl rfl, fun t' ht c' hc' c hc => ?_⟩
  have on : ∀ t, ∀ c ∈ calls t, c.on = t := by
    intro t c hc
    simp only [calls] at hc
    split at hc
    · simp only [List.mem_cons, List.not_mem_nil, or_false] at hc
      rcases hc with rfl | rfl | rfl <;> rfl
    · cases hc
  rw [on t' c' hc', on 1 c hc]
  exact ht

/-- The hypotheses of `C235_partial` are met (`C235_mixed` gives the schedule). -/
example (o : Sched 1) : (∀ t, ∀ c ∈ twoFits o (pairData 0 0) (pairData 0 2) t, ∃ o d, c = SessionCall.fit 0 o d) ∧
    (∃ t, twoFits o (pairData 0 0) (pairData 0 2) t ≠ []) := by
  refine ⟨fun t c hc => ?_, 0, by simp [twoFits]⟩
  unfold twoFits at hc
  split at hc
  · exact ⟨_, _, by simpa using hc⟩
  · split at hc
    · exact ⟨_, _, by simpa using hc⟩
    · cases hc
end Medil

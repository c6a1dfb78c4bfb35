import Verif.Model.Session
import Verif.Props.Gaussian
/-
  C76: interference between model objects; C77: learning a one-pure-child structure.
-/
namespace Medil
variable {M : Nat} {G : Type}

/-! ### C76 -/

/-- what the calls on object `i` return, in order -/
def resultsOf (i : Nat) (out : List (Nat × SessionOut M)) : List (Nat × SessionOut M) :=
  out.filter fun r => r.1 = i

/-- **C76** (as stated; false): what the calls on an object return does not depend on the calls made on other
objects -/
def C76_statement : Prop :=
  ∀ (M : Nat) (G : Type) (gen : MvnGen G) (opt : Optimizer) (s : Session M G) (calls : List (SessionCall M)) (i : Nat),
    resultsOf i (s.run gen opt calls) = resultsOf i (s.run gen opt (calls.filter fun c => c.on = i))

/-- a generator that counts its draws and returns the number of draws made so far -/
def counter : MvnGen Nat := ⟨fun _ _ _ g => (fun _ _ => g, g + 1)⟩

/-- an object with one measurement, one latent and weight 0 -/
def plainObj : GState 1 := { biadj := [BVec.full], means := some 0, params := some ⟨0, [BVec.full], fun _ _ => 0⟩ }

theorem plainObj_sample (g : Nat) : (plainObj.sample counter 1 g).1 = .ok fun _ _ => ((g + 1 : ℕ) : ℝ) := by
  unfold GState.sample plainObj
  simp only [counter]
  rw [dif_pos trivial]
  refine congrArg Except.ok (funext fun k => funext fun j => ?_)
  simp

/-- two objects created without `rng`: sampling from the first changes what the second returns -/
theorem C76_false : ¬ C76_statement := by
  intro h
  have h1 := h 1 Nat counter (fun _ _ => (0, true)) ⟨fun _ => plainObj, fun _ => none, 0⟩ [.sample 0 1, .sample 1 1] 1
  have e : ∀ g : Nat, (plainObj.sample counter 1 g).2 = g + 2 := by
    intro g; unfold GState.sample plainObj; rfl
  simp only [resultsOf, Session.run, Session.step, SessionCall.on, plainObj_sample, e, List.filter] at h1
  simp only [decide_false, decide_true, Session.run, Session.step, plainObj_sample, List.filter,
    List.cons.injEq, Prod.mk.injEq, true_and, SessionOut.sampled.injEq, and_true, heq_eq_eq, zero_ne_one,
    SessionCall.on] at h1
  have h2 := congrFun (congrFun (Except.ok.inj h1) 0) 0
  norm_num at h2

theorem step_other (gen : MvnGen G) (opt : Optimizer) (s : Session M G) (c : SessionCall M) (i : Nat) (h : c.on ≠ i) :
    (s.step gen opt c).1.obj i = s.obj i ∧ (s.step gen opt c).1.own i = s.own i := by
  cases c with
  | fit j o d =>
    unfold Session.step
    exact ⟨Function.update_of_ne (Ne.symm h) _ _, rfl⟩
  | sample j size =>
    unfold Session.step
    dsimp only
    split
    · exact ⟨rfl, Function.update_of_ne (Ne.symm h) _ _⟩
    · exact ⟨rfl, rfl⟩

theorem step_same (gen : MvnGen G) (opt : Optimizer) (s s' : Session M G) (c : SessionCall M)
    (h1 : s.obj c.on = s'.obj c.on) (h2 : s.own c.on = s'.own c.on) (h3 : (s.own c.on).isSome) :
    (s.step gen opt c).2 = (s'.step gen opt c).2 ∧ (s.step gen opt c).1.obj c.on = (s'.step gen opt c).1.obj c.on ∧
    (s.step gen opt c).1.own c.on = (s'.step gen opt c).1.own c.on ∧ ((s.step gen opt c).1.own c.on).isSome := by
  cases c with
  | fit i o d =>
    simp only [SessionCall.on] at h1 h2 h3
    unfold Session.step
    simp only [h1, SessionCall.on, Function.update_self, true_and]
    exact ⟨h2, h3⟩
  | sample i size =>
    simp only [SessionCall.on] at h1 h2 h3
    obtain ⟨g, hg⟩ := Option.isSome_iff_exists.mp h3
    have hg' := h2.symm.trans hg
    unfold Session.step
    simp only [hg, hg', h1, SessionCall.on, Function.update_self]
    simp

/-- **C76** What is true: the results of the calls on an object that was created with its own generator do not
depend on the calls made on other objects, for every session and every history.

Missing from the full claim: objects created without `rng` share one generator (`C76_false`). -/
theorem C76_own_rng_partial (gen : MvnGen G) (opt : Optimizer) (s : Session M G) (calls : List (SessionCall M)) (i : Nat)
    (hi : (s.own i).isSome) :
    resultsOf i (s.run gen opt calls) = resultsOf i (s.run gen opt (calls.filter fun c => c.on = i)) := by
  have key : ∀ (calls : List (SessionCall M)) (s s' : Session M G), s.obj i = s'.obj i → s.own i = s'.own i →
      (s.own i).isSome → resultsOf i (s.run gen opt calls) =
        resultsOf i (s'.run gen opt (calls.filter fun c => c.on = i)) := by
    intro calls
    induction calls with
    | nil => intros; rfl
    | cons c cs ih =>
      intro s s' h1 h2 h3
      by_cases hc : c.on = i
      · have hf : (c :: cs).filter (fun c => decide (c.on = i)) = c :: cs.filter (fun c => decide (c.on = i)) := by
          simp [hc]
        rw [hf]
        unfold Session.run resultsOf
        rw [List.filter_cons_of_pos (by simp [hc]), List.filter_cons_of_pos (by simp [hc])]
        have hst := step_same gen opt s s' c (by rw [hc]; exact h1) (by rw [hc]; exact h2) (by rw [hc]; exact h3)
        rw [hc] at hst
        rw [hst.1]
        congr 1
        exact ih _ _ hst.2.1 hst.2.2.1 hst.2.2.2
      · have hf : (c :: cs).filter (fun c => decide (c.on = i)) = cs.filter (fun c => decide (c.on = i)) := by
          simp [hc]
        rw [hf]
        conv_lhs => unfold Session.run resultsOf
        rw [List.filter_cons_of_neg (by simp [hc])]
        have ho := step_other gen opt s c i hc
        exact ih _ _ (ho.1.trans h1) (ho.2.trans h2) (by rw [ho.2]; exact h3)
  exact key calls s s rfl rfl hi

example : ((⟨fun _ => plainObj, fun i => some i, 0⟩ : Session 1 Nat).own 3).isSome := rfl

/-! ### C77 -/

/-- **C77** `fit` recovers a one-pure-child structure from its dependence graph: if no structure was given and the
graph used (given, or estimated from the dataset when none was given) is, off the diagonal, the dependence graph of
a one-pure-child structure `B`, then `fit` returns, for every set order and optimizer, and the rows of the stored
structure are those of `B` up to order. -/
theorem C77_fit_recovers (hM : 2 ≤ M) (opt : Optimizer) (o : Sched M) (d : Dataset M) (st : GState M) (hst : st.biadj = [])
    (U : BMat M) (hU : GraphUsed d st.udg U) (B : List (BVec M)) (hB : OnePureChild B) (hUB : IsUDGOf U B) :
    (∃ warned, (gaussianFit opt o d st).2 = .ok warned) ∧ SameRows (gaussianFit opt o d st).1.biadj B ∧
      (gaussianFit opt o d st).1.udg = some U := by
  obtain ⟨V, hV, hv, hok, -⟩ := (C55_fit_structure hM opt o d st).2 hst
  have hUV : U = V := by
    rcases hU with hU | ⟨h1, h2⟩ <;> rcases hV with hV | ⟨h3, h4⟩
    · exact Option.some.inj (hU.symm.trans hV)
    · rw [hU] at h3; cases h3
    · rw [h1] at hV; cases hV
    · rw [h2] at h4; exact Except.ok.inj h4
  subst hUV
  obtain ⟨C, hC, hs⟩ := C07_heuristic_recovers U B (by omega) hB hUB o
  exact ⟨(hok C hC).2, by rw [(hok C hC).1]; exact hs, hv⟩

/-- an estimated graph that is the dependence graph of a one-pure-child structure -/
example : ∃ U, GraphUsed (twoPoints 1 2) none U ∧ IsUDGOf U [BVec.full] ∧ OnePureChild [BVec.full (n := 2)] := by
  refine ⟨_, Or.inr ⟨rfl, twoPoints_edge 1 2 (by norm_num) (by norm_num) (by norm_num)⟩, ?_, ?_, ?_⟩
  · unfold IsUDGOf; decide +kernel
  · intro i hi
    have : i = 0 := by simpa using hi
    subst this
    exact ⟨0, by unfold PureChild; simp only [List.length]; decide +kernel⟩
  · unfold CoversVertices; decide +kernel

end Medil

import Verif.Model.InterruptGaussian
import Verif.Props.Gaussian
/-
  Property theorems C158, C159: interrupted calls of `GaussianMCM.fit`.
-/
namespace Medil
variable {M : Nat}

theorem foldl_paramAssigns (opt : Optimizer) (d : Dataset M) (st : GState M) :
    (paramAssigns opt d st.biadj).foldl GAssign.apply st.attrs = (fitParams opt d st).1.attrs := rfl

/-- the assignments, by cases: those of the structure, then the four of the parameters, unless structure learning raises -/
theorem gaussianAssigns_cases (opt : Optimizer) (o : Sched M) (d : Dataset M) (st : GState M) :
    ∃ pre : List (GAssign M), ∃ st' : GState M,
      pre.foldl GAssign.apply { st.attrs with dataset := some d } = st'.attrs ∧ st'.means = st.means ∧ st'.params = st.params ∧
      st'.dataset = some d ∧
      ((∃ e, gaussianFit opt o d st = (st', .error e) ∧ gaussianAssigns opt o d st.attrs = .dataset d :: pre) ∨
       (gaussianFit opt o d st = ((fitParams opt d st').1, .ok (fitParams opt d st').2) ∧
        gaussianAssigns opt o d st.attrs = .dataset d :: (pre ++ paramAssigns opt d st'.biadj))) ∧
      (∀ k, ((pre.take k).foldl GAssign.apply { st.attrs with dataset := some d }) = { st.attrs with dataset := some d } ∨
        ((pre.take k).foldl GAssign.apply { st.attrs with dataset := some d }) = { st.attrs with dataset := some d, udg := st'.udg } ∨
        ((pre.take k).foldl GAssign.apply { st.attrs with dataset := some d }) = { st.attrs with dataset := some d, udg := st'.udg, biadj := st'.biadj }) := by
  have hb : st.attrs.biadj = st.biadj := rfl
  have hu : st.attrs.udg = st.udg := rfl
  by_cases h : st.biadj.length * M = 0
  · rcases hU : udgOr d st.udg with e | U
    · refine ⟨[], { st with dataset := some d }, rfl, rfl, rfl, rfl, Or.inl ⟨e, ?_, ?_⟩, fun k => Or.inl (by simp)⟩
      · unfold gaussianFit computeBiadj
        simp [h, hU]
      · unfold gaussianAssigns
        simp [hb, hu, h, hU]
    · rw [fit_learn opt o d st h U hU]
      unfold gaussianAssigns
      simp only [hb, hu, h, if_true, hU]
      have hsame : (st.udg.isSome && decide (M * M ≠ 0)) = true → st.udg = some U := by
        intro hc
        unfold udgOr at hU
        cases hs : st.udg with
        | none => rw [hs] at hc; simp at hc
        | some V =>
          rw [hs] at hU hc
          simp only [Option.isSome_some, Bool.true_and, decide_eq_true_eq] at hc
          simp only [hc, if_false] at hU
          cases hU; rfl
      generalize hc : (st.udg.isSome && decide (M * M ≠ 0)) = c at hsame
      rcases hf : findHeuristic1pc o U with e | B
      · dsimp only
        refine ⟨if c = true then [] else [.udg U], { st with dataset := some d, udg := some U }, ?_, rfl, rfl, rfl, Or.inl ⟨e, rfl, ?_⟩, fun k => ?_⟩
        · cases c
          · rfl
          · simp [GState.attrs, hsame rfl]
        · simp
        · cases c
          · cases k with
            | zero => left; simp
            | succ k => right; left; simp [GAssign.apply]
          · left; simp
      · dsimp only
        refine ⟨(if c = true then [] else [.udg U]) ++ [.biadj B], { st with dataset := some d, udg := some U, biadj := B }, ?_, rfl, rfl, rfl,
          Or.inr ⟨rfl, ?_⟩, fun k => ?_⟩
        · cases c
          · rfl
          · simp [GState.attrs, hsame rfl, GAssign.apply]
        · simp
        · cases c
          · match k with
            | 0 => left; simp
            | 1 => right; left; simp [GAssign.apply]
            | k + 2 => right; right; simp [GAssign.apply]
          · match k with
            | 0 => left; simp
            | k + 1 => right; right; simp [GAssign.apply, hsame rfl, GState.attrs]
  · rw [fit_given opt o d st h]
    refine ⟨[], { st with dataset := some d }, rfl, rfl, rfl, rfl, Or.inr ⟨rfl, ?_⟩, fun k => Or.inl (by simp)⟩
    unfold gaussianAssigns
    simp [hb, h]

/-- A call that is not interrupted has exactly the assignments listed. -/
theorem C158_all_assignments (opt : Optimizer) (o : Sched M) (d : Dataset M) (st : GState M) :
    gaussianInterrupted opt o d st.attrs (gaussianAssigns opt o d st.attrs).length = (gaussianFit opt o d st).1.attrs := by
  unfold gaussianInterrupted
  rw [List.take_length]
  obtain ⟨pre, st', h1, h2, h3, h4, h5, -⟩ := gaussianAssigns_cases opt o d st
  rcases h5 with ⟨e, h5, h6⟩ | ⟨h5, h6⟩
  · rw [h6, h5, List.foldl_cons]; exact h1
  · rw [h6, h5, List.foldl_cons, List.foldl_append]
    show List.foldl _ (pre.foldl GAssign.apply { st.attrs with dataset := some d }) _ = _
    rw [h1]
    rfl

/-- **C158** (as stated; false): whenever `fit` is interrupted, means, error variances and weights of the object come from the same fit -/
def C158_statement : Prop :=
  ∀ (M : Nat) (opt : Optimizer) (o : Sched M) (d : Dataset M) (st : GState M) (k : Nat),
    let s := gaussianInterrupted opt o d st.attrs k
    let before := st.attrs
    let after := (gaussianFit opt o d st).1.attrs
    (s.means = before.means ∧ s.variances = before.variances ∧ s.weights = before.weights) ∨
    (s.means = after.means ∧ s.variances = after.variances ∧ s.weights = after.weights)

/-- **C158**, what is true: there is a number `j` of the four parameter assignments that were done, in the order means, error variances, weights filled with zeros,
weights.  The means are new from the first on, the variances from the second on; the weights are the old ones before the third, zero on the stored structure
after the third, and the new ones after the fourth.  Graph and structure are the old or the new ones (the structure is only new if the graph is), and the new ones as
soon as a parameter was assigned; a given structure stays.  The dataset is new from the first assignment of the call on.

Missing from the full claim: parameters of two fits can be mixed, `C158_false`. -/
theorem C158_partial (opt : Optimizer) (o : Sched M) (d : Dataset M) (st : GState M) (k : Nat) :
    let s := gaussianInterrupted opt o d st.attrs k
    let before := st.attrs
    let after := (gaussianFit opt o d st).1.attrs
    s.dataset = (if k = 0 then before.dataset else some d) ∧
    (s.udg = before.udg ∧ s.biadj = before.biadj ∨ s.udg = after.udg ∧ s.biadj = before.biadj ∨ s.udg = after.udg ∧ s.biadj = after.biadj) ∧
    ∃ j ≤ 4,
      (0 < j → s.udg = after.udg ∧ s.biadj = after.biadj) ∧
      s.means = (if j = 0 then before.means else after.means) ∧
      s.variances = (if j < 2 then before.variances else after.variances) ∧
      s.weights = (if j < 3 then before.weights else if j = 3 then some ⟨s.biadj, fun _ _ => 0⟩ else after.weights) := by
  dsimp only
  unfold gaussianInterrupted
  obtain ⟨pre, st', h1, h2, h3, h4, h5, h7⟩ := gaussianAssigns_cases opt o d st
  have hm : st'.attrs.means = st.attrs.means := h2
  have hv : st'.attrs.variances = st.attrs.variances := by unfold GState.attrs; rw [h3]
  have hw : st'.attrs.weights = st.attrs.weights := by unfold GState.attrs; rw [h3]
  cases k with
  | zero =>
    refine ⟨rfl, Or.inl ⟨rfl, rfl⟩, 0, by omega, by omega, rfl, rfl, rfl⟩
  | succ k =>
    have hpre : ∀ (after : GAttrs M), st'.udg = after.udg → st'.biadj = after.biadj →
        let s := (pre.take k).foldl GAssign.apply { st.attrs with dataset := some d }
        s.dataset = some d ∧ s.means = st.attrs.means ∧ s.variances = st.attrs.variances ∧ s.weights = st.attrs.weights ∧
        (s.udg = st.attrs.udg ∧ s.biadj = st.attrs.biadj ∨ s.udg = after.udg ∧ s.biadj = st.attrs.biadj ∨ s.udg = after.udg ∧ s.biadj = after.biadj) := by
      intro after e1 e2
      dsimp only
      rcases h7 k with h | h | h <;> rw [h]
      · exact ⟨rfl, rfl, rfl, rfl, Or.inl ⟨rfl, rfl⟩⟩
      · exact ⟨rfl, rfl, rfl, rfl, Or.inr (Or.inl ⟨e1, rfl⟩)⟩
      · exact ⟨rfl, rfl, rfl, rfl, Or.inr (Or.inr ⟨e1, e2⟩)⟩
    rcases h5 with ⟨e, h5, h6⟩ | ⟨h5, h6⟩
    · rw [h5, h6, List.take_succ_cons, List.foldl_cons]
      obtain ⟨a1, a2, a3, a4, a5⟩ := hpre st'.attrs rfl rfl
      exact ⟨a1, a5, 0, by omega, by omega, a2, a3, a4⟩
    · rw [h5, h6, List.take_succ_cons, List.foldl_cons, List.take_append, List.foldl_append]
      by_cases hk : k ≤ pre.length
      · rw [show k - pre.length = 0 by omega, List.take_zero, List.foldl_nil]
        obtain ⟨a1, a2, a3, a4, a5⟩ := hpre (fitParams opt d st').1.attrs rfl rfl
        exact ⟨a1, a5, 0, by omega, by omega, a2, a3, a4⟩
      · rw [List.take_of_length_le (by omega : pre.length ≤ k)]
        show (List.foldl GAssign.apply (pre.foldl GAssign.apply { st.attrs with dataset := some d }) _).dataset = _ ∧ _
        have hx : pre.foldl GAssign.apply (GAssign.apply st.attrs (.dataset d)) = st'.attrs := h1
        rw [h1, hx]
        have hd : st'.attrs.dataset = some d := h4
        have hj : (paramAssigns opt d st'.biadj).take (k - pre.length) = (paramAssigns opt d st'.biadj).take (min (k - pre.length) 4) := by
          rw [List.take_eq_take_min, show (paramAssigns opt d st'.biadj).length = 4 from rfl]
        rw [hj]
        have hlo : 1 ≤ min (k - pre.length) 4 := by omega
        have hhi : min (k - pre.length) 4 ≤ 4 := min_le_right _ _
        generalize min (k - pre.length) 4 = j at hlo hhi
        have : j = 1 ∨ j = 2 ∨ j = 3 ∨ j = 4 := by omega
        rcases this with rfl | rfl | rfl | rfl
        · exact ⟨hd, Or.inr (Or.inr ⟨rfl, rfl⟩), 1, by omega, fun _ => ⟨rfl, rfl⟩, rfl, hv, hw⟩
        · exact ⟨hd, Or.inr (Or.inr ⟨rfl, rfl⟩), 2, by omega, fun _ => ⟨rfl, rfl⟩, rfl, rfl, hw⟩
        · exact ⟨hd, Or.inr (Or.inr ⟨rfl, rfl⟩), 3, by omega, fun _ => ⟨rfl, rfl⟩, rfl, rfl, rfl⟩
        · exact ⟨hd, Or.inr (Or.inr ⟨rfl, rfl⟩), 4, by omega, fun _ => ⟨rfl, rfl⟩, rfl, rfl, rfl⟩

/-- an optimizer that returns ones, its start value -/
def allOnesOpt : Optimizer := fun _ _ => (fun _ => 1, true)

/-- an optimizer whose result depends on the objective -/
def valueOpt : Optimizer := fun _ f => (fun _ => f 0, true)

theorem objective_twoPoints (a : ℝ) : objective (twoPoints a a).cov [BVec.full] 0 = a ^ 4 := by
  unfold objective
  have hz : ∀ (r : Fin [(BVec.full : BVec 2)].length) (j : Fin 2), placeWeights [(BVec.full : BVec 2)] (headPart (b := 2) 0) r j = 0 := by
    intro r j
    unfold placeWeights
    split <;> rfl
  have ht : ∀ i : Fin 2, tailPart (a := (maskPositions [(BVec.full : BVec 2)]).length) (0 : Fin ((maskPositions [(BVec.full : BVec 2)]).length + 2) → ℝ) i = 0 := fun _ => rfl
  simp only [hz, ht, twoPoints_cov, ite_self, mul_zero, Finset.sum_const_zero, sub_zero, Fin.sum_univ_two]
  ring

/-- an object with one latent of two measurements, fitted to the rows (0,0), (1,1) -/
noncomputable def fittedPair : GState 2 := (gaussianFit valueOpt (fun _ _ => 0) (twoPoints 1 1) { biadj := [BVec.full] }).1

/-- the claim is false: an interruption during the optimization of a second fit leaves the means of the new data with the variances of the old -/
theorem C158_false : ¬ C158_statement := by
  intro h
  have key := h 2 valueOpt (fun _ _ => 0) (twoPoints 3 3) fittedPair 2
  have hb : fittedPair.biadj = [BVec.full] := rfl
  have hm : fittedPair.attrs.means = some (twoPoints 1 1).mean := rfl
  have hv : fittedPair.attrs.variances = some fun _ => objective (twoPoints 1 1).cov [BVec.full] 0 := rfl
  have hne : fittedPair.biadj.length * 2 ≠ 0 := by rw [hb]; decide
  have hne' : fittedPair.attrs.biadj.length * 2 ≠ 0 := hne
  have e1 : gaussianAssigns valueOpt (fun _ _ => 0) (twoPoints 3 3) fittedPair.attrs =
      .dataset (twoPoints 3 3) :: paramAssigns valueOpt (twoPoints 3 3) fittedPair.biadj := by
    unfold gaussianAssigns
    rw [if_neg hne']; rfl
  dsimp only at key
  unfold gaussianInterrupted at key
  rw [e1, fit_given _ _ _ _ hne] at key
  rcases key with ⟨k1, -, -⟩ | ⟨-, k2, -⟩
  · have k1' : some (twoPoints 3 3).mean = some (twoPoints 1 1).mean := k1
    have := congrFun (Option.some.inj k1') 0
    have hmean : ∀ a : ℝ, (twoPoints a a).mean 0 = a / 2 := fun a => by
      show (∑ k : Fin 2, (if k = 0 then (0 : ℝ) else if (0 : Fin 2) = 0 then a else a)) / ((2 : ℕ) : ℝ) = a / 2
      simp [Fin.sum_univ_two]
    rw [hmean, hmean] at this
    norm_num at this
  · have k2' : (some fun _ : Fin 2 => objective (twoPoints 1 1).cov [BVec.full] 0) =
        some fun _ => objective (twoPoints 3 3).cov [BVec.full] 0 := k2
    have := congrFun (Option.some.inj k2') 0
    rw [objective_twoPoints, objective_twoPoints] at this
    norm_num at this

/-! ### C159: fitting again -/

/-- a call of `fit` that is interrupted after `steps` assignments -/
structure GICall (M : Nat) where
  opt : Optimizer
  order : Sched M
  data : Dataset M
  steps : Nat

/-- several interrupted calls on one object -/
noncomputable def runGInterrupted (a : GAttrs M) (cs : List (GICall M)) : GAttrs M :=
  cs.foldl (fun a c => gaussianInterrupted c.opt c.order c.data a c.steps) a

/-- **C159** (as stated; false): after interrupted calls, a call that completes gives the object the attributes it would have if the interrupted
calls had never been made -/
def C159_statement : Prop :=
  ∀ (M : Nat) (opt : Optimizer) (o : Sched M) (d : Dataset M) (st : GState M) (cs : List (GICall M)) (w : Bool),
    (gaussianFit opt o d st).2 = .ok w →
    let left := runGInterrupted st.attrs cs
    gaussianInterrupted opt o d left (gaussianAssigns opt o d left).length = (gaussianFit opt o d st).1.attrs

theorem gaussianInterrupted_given (opt : Optimizer) (o : Sched M) (d : Dataset M) (a : GAttrs M) (k : Nat) (h : a.biadj.length * M ≠ 0) :
    (gaussianInterrupted opt o d a k).biadj = a.biadj ∧ (gaussianInterrupted opt o d a k).udg = a.udg := by
  unfold gaussianInterrupted gaussianAssigns
  rw [if_neg h]
  match k with
  | 0 => exact ⟨rfl, rfl⟩
  | 1 => exact ⟨rfl, rfl⟩
  | 2 => exact ⟨rfl, rfl⟩
  | 3 => exact ⟨rfl, rfl⟩
  | 4 => exact ⟨rfl, rfl⟩
  | k + 5 =>
    rw [List.take_of_length_le (by simp [paramAssigns])]
    exact ⟨rfl, rfl⟩

theorem runGInterrupted_given (a : GAttrs M) (cs : List (GICall M)) (h : a.biadj.length * M ≠ 0) :
    (runGInterrupted a cs).biadj = a.biadj ∧ (runGInterrupted a cs).udg = a.udg := by
  induction cs generalizing a with
  | nil => exact ⟨rfl, rfl⟩
  | cons c cs ih =>
    obtain ⟨b1, b2⟩ := gaussianInterrupted_given c.opt c.order c.data a c.steps h
    have := ih (gaussianInterrupted c.opt c.order c.data a c.steps) (by rw [b1]; exact h)
    rw [b1, b2] at this
    exact this

/-- the attributes of an object whose parameters are consistent or not: any combination -/
theorem complete_given (opt : Optimizer) (o : Sched M) (d : Dataset M) (a : GAttrs M) (h : a.biadj.length * M ≠ 0) :
    gaussianInterrupted opt o d a (gaussianAssigns opt o d a).length =
      { biadj := a.biadj, udg := a.udg, dataset := some d, means := some d.mean
        variances := some (tailPart (opt _ (objective d.cov a.biadj)).1)
        weights := some ⟨a.biadj, placeWeights a.biadj (headPart (opt _ (objective d.cov a.biadj)).1)⟩ } := by
  unfold gaussianInterrupted
  rw [List.take_length]
  unfold gaussianAssigns
  rw [if_neg h]
  rfl

/-- **C159**, what is true: the claim holds if the object was created with a structure.  In every case, whatever mixture of attributes the interrupted calls left: a
completed call on an object that then has a structure (given or learned by an interrupted call) gives dataset, means, error variances and weights as
a new object with that structure would get them — nothing but structure and graph is left of the interrupted calls.

Missing from the full claim: a structure learned in an interrupted call from other data is kept, `C159_false`. -/
theorem C159_partial (opt : Optimizer) (o : Sched M) (d : Dataset M) (st : GState M) (cs : List (GICall M)) :
    let left := runGInterrupted st.attrs cs
    let t := gaussianInterrupted opt o d left (gaussianAssigns opt o d left).length
    (st.biadj.length * M ≠ 0 → t = (gaussianFit opt o d st).1.attrs) ∧
    (left.biadj.length * M ≠ 0 → t = (gaussianFit opt o d { biadj := left.biadj, udg := left.udg }).1.attrs) := by
  dsimp only
  have key : ∀ (a : GAttrs M) (st' : GState M), a.biadj = st'.biadj → a.udg = st'.udg → st'.biadj.length * M ≠ 0 →
      gaussianInterrupted opt o d a (gaussianAssigns opt o d a).length = (gaussianFit opt o d st').1.attrs := by
    intro a st' h1 h2 h
    have h' : a.biadj.length * M ≠ 0 := by rw [h1]; exact h
    rw [complete_given opt o d a h', fit_given opt o d st' h]
    rw [h1, h2]
    rfl
  refine ⟨fun h => ?_, fun h => key _ _ rfl rfl h⟩
  obtain ⟨b1, b2⟩ := runGInterrupted_given st.attrs cs h
  exact key _ st b1 b2 h

/-- the claim is false: the structure was learned in an interrupted call from other data -/
theorem C159_false : ¬ C159_statement := by
  intro h
  have hU := twoPoints_no_edge (1 / 10) 1 (by norm_num) (by norm_num) (by norm_num)
  have key := h 2 allOnesOpt (fun _ _ => 0) (twoPoints 1 2) {} [⟨allOnesOpt, fun _ _ => 0, twoPoints (1 / 10) 1, 3⟩]
  obtain ⟨V, hV, -, h4, -⟩ := (C55_fit_structure (le_refl _) allOnesOpt (fun _ _ => 0) (twoPoints 1 2) {}).2 rfl
  rcases hV with hV | ⟨-, hV⟩
  · cases hV
  rw [twoPoints_edge 1 2 (by norm_num) (by norm_num) (by norm_num)] at hV
  cases hV
  obtain ⟨h5, w, h6⟩ := h4 _ heuristic_edge2
  have key := key w h6
  have hl : (runGInterrupted (M := 2) (GState.attrs {}) [⟨allOnesOpt, fun _ _ => 0, twoPoints (1 / 10) 1, 3⟩]).biadj = [BVec.single 0, BVec.single 1] := by
    unfold runGInterrupted
    rw [List.foldl_cons, List.foldl_nil]
    unfold gaussianInterrupted gaussianAssigns
    have hu : udgOr (twoPoints (1 / 10) 1) (GState.attrs (M := 2) {}).udg = .ok (BMat.of fun _ _ => false) := hU
    have hb : (GState.attrs (M := 2) {}).biadj.length * 2 = 0 := rfl
    have hn : ((GState.attrs (M := 2) {}).udg.isSome && decide (2 * 2 ≠ 0)) = false := rfl
    dsimp only
    rw [if_pos hb, hu]
    dsimp only
    rw [hn, heuristic_empty2]
    rfl
  dsimp only at key
  rw [complete_given _ _ _ _ (by rw [hl]; decide)] at key
  have hb := congrArg GAttrs.biadj key
  dsimp only at hb
  rw [hl] at hb
  have h7 : (gaussianFit allOnesOpt (fun _ _ => 0) (twoPoints 1 2) {}).1.attrs.biadj = [BVec.full] := h5
  rw [h7] at hb
  exact absurd (congrArg List.length hb) (by decide)

end Medil

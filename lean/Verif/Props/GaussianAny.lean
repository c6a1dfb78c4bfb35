import Verif.Model.GaussianAny
import Verif.Props.Gaussian
import Verif.Props.Dev
/-
  Property theorem C180: `GaussianMCM` and datasets with another number of columns than the structure.
-/
namespace Medil
open Finset

/-- **C180** (as stated; false): a dataset with another number of columns than the structure is rejected, and a fitted object stays usable -/
def C180_statement : Prop :=
  ∀ (opt : Optimizer) (o o' : (M : Nat) → Sched M) (M : Nat) (B : List (BVec M)) (d d' : AnyData), B.length * M ≠ 0 → d.cols = M → d'.cols ≠ M →
    let st := (anyFit opt o d { biadj := ⟨M, B⟩ }).1
    (anyFit opt o' d' st).2 = .error .valueError ∧
    ∀ (G : Type) (gen : MvnGen G) (size : Nat) (g : G), ∃ s, (anySample gen (anyFit opt o' d' st).1 size g).1 = .ok s

/-- parameters belong to the structure, and an empty structure has none -/
def AGState.consistent (st : AGState) : Prop :=
  (∀ M p, st.params = some ⟨M, p⟩ → st.biadj = ⟨M, p.weightsOn⟩) ∧ (st.biadj.2.length * st.biadj.1 = 0 → st.params = none)

/-- what the last call left -/
def AGState.after (st : AGState) (d : AnyData) : Prop :=
  st.consistent ∧ (st.biadj.2.length * st.biadj.1 ≠ 0 → st.means = some ⟨d.cols, d.data.mean⟩ ∧ (d.cols = st.biadj.1 → st.params ≠ none))

theorem anyParams_after (opt : Optimizer) (d : AnyData) (st : AGState) (h : st.consistent) (hB : st.biadj.2.length * st.biadj.1 ≠ 0) :
    (anyParams opt d st).1.after d ∧ (anyParams opt d st).1.biadj = st.biadj ∧ (anyParams opt d st).1.udg = st.udg ∧
      (anyParams opt d st).1.dataset = st.dataset := by
  unfold anyParams
  dsimp only
  split
  · refine ⟨⟨⟨?_, fun h0 => absurd h0 hB⟩, fun _ => ⟨rfl, fun _ => by simp⟩⟩, rfl, rfl, rfl⟩
    intro M p hp
    dsimp only at hp ⊢
    cases hp
    rfl
  · rename_i hc
    refine ⟨⟨⟨h.1, fun h0 => absurd h0 hB⟩, fun _ => ⟨rfl, fun he => absurd ?_ hc⟩⟩, rfl, rfl, rfl⟩
    dsimp only at he ⊢
    simp [covFits, he]

theorem anyFit_given (opt : Optimizer) (o : (M : Nat) → Sched M) (d : AnyData) (st : AGState) (hB : st.biadj.2.length * st.biadj.1 ≠ 0) :
    anyFit opt o d st = anyParams opt d { st with dataset := some d } := by
  unfold anyFit
  exact if_neg hB

theorem anyFit_learn (opt : Optimizer) (o : (M : Nat) → Sched M) (d : AnyData) (st : AGState) (hB : st.biadj.2.length * st.biadj.1 = 0) :
    anyFit opt o d st = match anyUdg d st.udg with
      | .error e => ({ st with dataset := some d }, .error e)
      | .ok U => match findHeuristic1pc (o U.1) U.2 with
        | .error e => ({ st with dataset := some d, udg := some U }, .error e)
        | .ok B => anyParams opt d { st with dataset := some d, udg := some U, biadj := ⟨U.1, B⟩ } := by
  unfold anyFit anyBiadj
  dsimp only
  rw [if_pos hB]
  split
  · rename_i heq
    split at heq
    · cases heq; simp_all
    · split at heq <;> cases heq; simp_all
  · rename_i heq
    split at heq
    · cases heq
    · split at heq <;> cases heq; simp_all

theorem anyFit_after (opt : Optimizer) (o : (M : Nat) → Sched M) (d : AnyData) (st : AGState) (h : st.consistent) :
    (anyFit opt o d st).1.after d := by
  by_cases hB : st.biadj.2.length * st.biadj.1 = 0
  · rw [anyFit_learn opt o d st hB]
    split
    · exact ⟨h, fun h0 => absurd hB h0⟩
    · split
      · exact ⟨h, fun h0 => absurd hB h0⟩
      · rename_i B hh
        refine (anyParams_after opt d _ ⟨?_, ?_⟩ (heuristic_nonempty _ _ _ hh)).1
        · intro M p hp
          exact absurd (hp.symm.trans (h.2 hB)) (by simp)
        · intro _; exact h.2 hB
  · rw [anyFit_given opt o d st hB]
    exact (anyParams_after opt d { st with dataset := some d } h hB).1

theorem anyFitAll_snoc (opt : Optimizer) (st : AGState) (calls : List (((M : Nat) → Sched M) × AnyData)) (o : (M : Nat) → Sched M) (d : AnyData) :
    anyFitAll opt st (calls ++ [(o, d)]) = (anyFit opt o d (anyFitAll opt st calls)).1 := by
  unfold anyFitAll; rw [List.foldl_append]; rfl

theorem anyFitAll_consistent (opt : Optimizer) (calls : List (((M : Nat) → Sched M) × AnyData)) :
    ∀ st : AGState, st.consistent → (anyFitAll opt st calls).consistent := by
  induction calls with
  | nil => intro st h; exact h
  | cons c cs ih => intro st h; exact ih _ (anyFit_after opt c.1 c.2 st h).1

/-- sampling an object after a call: possible exactly if the last dataset had the number of columns of the structure -/
theorem anySample_after (st : AGState) (d : AnyData) (h : st.after d) {G : Type} (gen : MvnGen G) (size : Nat) (g : G) :
    (st.biadj.2.length * st.biadj.1 ≠ 0 ∧ d.cols = st.biadj.1 →
      ∃ s : Fin size → Fin st.biadj.1 → ℝ, (anySample gen st size g).1 = .ok ⟨_, s⟩) ∧
    (¬ (st.biadj.2.length * st.biadj.1 ≠ 0 ∧ d.cols = st.biadj.1) → (anySample gen st size g).1 = .error .valueError) := by
  obtain ⟨⟨h1, h2⟩, h3⟩ := h
  by_cases hB : st.biadj.2.length * st.biadj.1 = 0
  · refine ⟨fun hc => absurd hB hc.1, fun _ => ?_⟩
    unfold anySample
    split
    · rfl
    · dsimp only
      rw [h2 hB]
      split
      · rename_i hp; cases hp
      · rfl
  · obtain ⟨hm, hp⟩ := h3 hB
    have hl : st.biadj.2.length ≠ 0 := fun h => hB (Nat.mul_eq_zero.mpr (Or.inl h))
    have hM : st.biadj.1 ≠ 0 := fun h => hB (Nat.mul_eq_zero.mpr (Or.inr h))
    constructor
    · rintro ⟨-, hd⟩
      obtain ⟨⟨M, p⟩, hpp⟩ := Option.ne_none_iff_exists'.mp (hp hd)
      have hb := h1 M p hpp
      obtain ⟨⟨M', B⟩, udg, ds, means, params⟩ := st
      dsimp only at *
      obtain rfl : M' = M := congrArg Sigma.fst hb
      obtain rfl : B = p.weightsOn := eq_of_heq (Sigma.mk.inj hb).2
      subst hpp
      subst hm
      unfold anySample
      simp only [hl, hM, hd, if_false, dif_pos]
      exact ⟨_, rfl⟩
    · intro hc
      have hd : d.cols ≠ st.biadj.1 := fun hd => hc ⟨hB, hd⟩
      unfold anySample
      rw [if_neg hl, hm]
      dsimp only
      split
      · rename_i heq1 heq2
        cases heq1
        rw [dif_neg]
        rw [h1 _ _ heq2] at hd
        exact hd
      · rfl

/-- **C180, proved part** An object with a structure for `M` measurements, and any history of calls of `fit` with datasets of any numbers of columns, the last one
with the dataset `d`:
* structure and graph never change; the dataset and the error means are those of `d`, whether the call returned or not;
* the last call returns exactly if `d` has `M` columns or one column or `M = 1`; otherwise it raises `ValueError` and the error variances and
  weights are those before the call;
* if it returns, the earlier calls have left no trace: the object is as if only `d` had been fitted;
* `sample` returns, for all generators and sizes, exactly if `d` has `M` columns; otherwise it raises `ValueError`.

Missing for the full claim: it is false (`C180_false`): one column is accepted, and the error means of a rejected dataset make `sample` fail. -/
theorem C180_partial (opt : Optimizer) (M : Nat) (B : List (BVec M)) (udg : Option (Σ M, BMat M)) (hB : B.length * M ≠ 0)
    (calls : List (((M : Nat) → Sched M) × AnyData)) (o : (M : Nat) → Sched M) (d : AnyData) :
    let st0 : AGState := { biadj := ⟨M, B⟩, udg := udg }
    let before := anyFitAll opt st0 calls
    let st := anyFitAll opt st0 (calls ++ [(o, d)])
    st.biadj = ⟨M, B⟩ ∧ st.udg = udg ∧ st.dataset = some d ∧ st.means = some ⟨d.cols, fun j => sampleMean fun k => d.data.val k j⟩ ∧
    ((∃ warned, (anyFit opt o d before).2 = .ok warned) ↔ d.cols = M ∨ d.cols = 1 ∨ M = 1) ∧
    (¬ (d.cols = M ∨ d.cols = 1 ∨ M = 1) → (anyFit opt o d before).2 = .error .valueError ∧ st.params = before.params) ∧
    (d.cols = M ∨ d.cols = 1 ∨ M = 1 → st = (anyFit opt o d st0).1) ∧
    ∀ (G : Type) (gen : MvnGen G) (size : Nat) (g : G),
      (d.cols = M → ∃ s : Fin size → Fin M → ℝ, (anySample gen st size g).1 = .ok ⟨M, s⟩) ∧
      (d.cols ≠ M → (anySample gen st size g).1 = .error .valueError) := by
  intro st0 before st
  have hc0 : st0.consistent := by
    constructor
    · intro M p hp; cases hp
    · intro _; rfl
  have hkeep : ∀ (calls : List (((M : Nat) → Sched M) × AnyData)) (s : AGState), s.biadj = ⟨M, B⟩ → s.udg = udg → s.consistent →
      (anyFitAll opt s calls).biadj = ⟨M, B⟩ ∧ (anyFitAll opt s calls).udg = udg ∧ (anyFitAll opt s calls).consistent := by
    intro calls
    induction calls with
    | nil => intro s h1 h2 h3; exact ⟨h1, h2, h3⟩
    | cons c cs ih =>
      intro s h1 h2 h3
      have hs : s.biadj.2.length * s.biadj.1 ≠ 0 := by rw [h1]; exact hB
      have hg := anyFit_given opt c.1 c.2 s hs
      obtain ⟨ha, hb, hu, -⟩ := anyParams_after opt c.2 { s with dataset := some c.2 } h3 hs
      refine ih (anyFit opt c.1 c.2 s).1 ?_ ?_ ?_ <;> rw [hg]
      · exact hb.trans h1
      · exact hu.trans h2
      · exact ha.1
  obtain ⟨hb1, hb2, hb3⟩ := hkeep calls st0 rfl rfl hc0
  have hs : before.biadj.2.length * before.biadj.1 ≠ 0 := by
    show (anyFitAll opt st0 calls).biadj.2.length * _ ≠ 0
    rw [hb1]; exact hB
  have hst : st = (anyParams opt d { before with dataset := some d }).1 := by
    rw [← anyFit_given opt o d before hs]
    exact anyFitAll_snoc opt st0 calls o d
  obtain ⟨ha, hb, hu, hd⟩ := anyParams_after opt d { before with dataset := some d } hb3 hs
  have hM : before.biadj.1 = M := by show (anyFitAll opt st0 calls).biadj.1 = M; rw [hb1]
  have hfit : covFits d.cols before.biadj.1 = true ↔ d.cols = M ∨ d.cols = 1 ∨ M = 1 := by
    rw [hM]; simp [covFits, or_assoc]
  have hstb : st.biadj = ⟨M, B⟩ := by rw [hst]; exact hb.trans hb1
  have hsta : st.after d := by rw [hst]; exact ha
  refine ⟨hstb, by rw [hst]; exact hu.trans hb2, by rw [hst]; exact hd, ?_, ?_, ?_, ?_, ?_⟩
  · exact (hsta.2 (by rw [hstb]; exact hB)).1
  · rw [anyFit_given opt o d before hs, ← hfit]
    unfold anyParams
    dsimp only
    split
    · rename_i h; exact ⟨fun _ => h, fun _ => ⟨_, rfl⟩⟩
    · rename_i h
      refine ⟨?_, fun hc => absurd hc h⟩
      rintro ⟨w, hw⟩
      cases hw
  · intro hn
    rw [← hfit] at hn
    rw [anyFit_given opt o d before hs, hst]
    unfold anyParams
    dsimp only
    rw [if_neg hn]
    exact ⟨rfl, rfl⟩
  · intro hy
    rw [← hfit] at hy
    rw [hst, anyFit_given opt o d st0 hB]
    have hbb : before.biadj = ⟨M, B⟩ := hb1
    have hbu : before.udg = udg := hb2
    obtain ⟨bb, bu, bd, bm, bp⟩ := before
    dsimp only at hbb hbu hy
    subst hbb
    subst hbu
    unfold anyParams
    dsimp only [st0]
    rw [if_pos hy, if_pos hy]
  · intro G gen size g
    have := anySample_after st d hsta gen size g
    rw [hstb] at this
    exact ⟨fun h => this.1 ⟨hB, h⟩, fun h => this.2 fun hc => h hc.2⟩

theorem sigma_cast {size W n : Nat} (h : W = n) (s : Fin size → Fin W → ℝ) :
    (⟨W, s⟩ : Σ n, Fin size → Fin n → ℝ) = ⟨n, fun k j => s k (Fin.cast h.symm j)⟩ := by
  subst h; rfl

/-- **C180, fresh objects** An object made without structure and graph, and a history of calls of `fit` in which `d1` is the first dataset with at least two columns:
the graph is the one of `d1` for ever (whether its call returned or not), the structure has as many measurements as `d1` has columns, and after a last call with the
dataset `d`, `sample` returns exactly if a structure was found and `d` has as many columns as `d1`. Before `d1`, every call raises and `sample` raises. -/
theorem C180_fresh (opt : Optimizer) (pre post : List (((M : Nat) → Sched M) × AnyData)) (hpre : ∀ c ∈ pre, c.2.cols < 2)
    (o1 : (M : Nat) → Sched M) (d1 : AnyData) (h1 : 2 ≤ d1.cols) :
    (∀ (o : (M : Nat) → Sched M) (d : AnyData), d.cols < 2 → ∃ e, (anyFit opt o d (anyFitAll opt {} pre)).2 = .error e) ∧
    (∀ (G : Type) (gen : MvnGen G) (size : Nat) (g : G), (anySample gen (anyFitAll opt {} pre) size g).1 = .error .valueError) ∧
    ∃ U, estimateUdgCov d1.data = .ok U ∧
      let st := anyFitAll opt {} (pre ++ (o1, d1) :: post)
      st.udg = some ⟨d1.cols, U⟩ ∧
      (∀ B, findHeuristic1pc (o1 _) U = .ok B → st.biadj = ⟨d1.cols, B⟩) ∧
      (st.biadj = ⟨0, []⟩ ∨ ∃ o B, findHeuristic1pc o U = .ok B ∧ st.biadj = ⟨d1.cols, B⟩) ∧
      ∀ (d : AnyData), (((o1, d1) :: post).getLast?.map Prod.snd) = some d →
        ∀ (G : Type) (gen : MvnGen G) (size : Nat) (g : G),
          (st.biadj ≠ ⟨0, []⟩ ∧ d.cols = d1.cols → ∃ s : Fin size → Fin d1.cols → ℝ, (anySample gen st size g).1 = .ok ⟨_, s⟩) ∧
          (¬ (st.biadj ≠ ⟨0, []⟩ ∧ d.cols = d1.cols) → (anySample gen st size g).1 = .error .valueError) := by
  -- before `d1`
  have hno : ∀ (o : (M : Nat) → Sched M) (d : AnyData) (st : AGState), d.cols < 2 → st.biadj = ⟨0, []⟩ → (st.udg = none ∨ ∃ U, st.udg = some ⟨0, U⟩) →
      (anyFit opt o d st).1.biadj = ⟨0, []⟩ ∧ ((anyFit opt o d st).1.udg = none ∨ ∃ U, (anyFit opt o d st).1.udg = some ⟨0, U⟩) ∧
      ∃ e, (anyFit opt o d st).2 = .error e := by
    intro o d st hd hb hu
    rw [anyFit_learn opt o d st (by rw [hb]; rfl)]
    have hU : anyUdg d st.udg = (estimateUdgCov d.data).map fun V => ⟨d.cols, V⟩ := by
      rcases hu with hu | ⟨U, hu⟩ <;> rw [hu] <;> rfl
    rw [hU]
    obtain ⟨C, dd⟩ := d
    dsimp only at hd ⊢
    have : C = 0 ∨ C = 1 := by omega
    rcases this with rfl | rfl
    · unfold estimateUdgCov
      simp only [Nat.zero_ne_one, if_false, Except.map]
      split
      · exact ⟨hb, Or.inr ⟨_, rfl⟩, _, rfl⟩
      · rename_i hh
        exact absurd (heuristic_nonempty _ _ _ hh) (by simp)
    · unfold estimateUdgCov
      simp only [if_true, Except.map]
      exact ⟨hb, hu, _, rfl⟩
  have hpre' : ∀ (pre : List (((M : Nat) → Sched M) × AnyData)) (st : AGState), (∀ c ∈ pre, c.2.cols < 2) → st.biadj = ⟨0, []⟩ →
      (st.udg = none ∨ ∃ U, st.udg = some ⟨0, U⟩) →
      (anyFitAll opt st pre).biadj = ⟨0, []⟩ ∧ ((anyFitAll opt st pre).udg = none ∨ ∃ U, (anyFitAll opt st pre).udg = some ⟨0, U⟩) := by
    intro pre
    induction pre with
    | nil => intro st _ h1 h2; exact ⟨h1, h2⟩
    | cons c cs ih =>
      intro st h h1 h2
      obtain ⟨a, b, -⟩ := hno c.1 c.2 st (h c List.mem_cons_self) h1 h2
      exact ih _ (fun c' h' => h c' (List.mem_cons_of_mem _ h')) a b
  obtain ⟨hb0, hu0⟩ := hpre' pre {} hpre rfl (Or.inl rfl)
  refine ⟨fun o d hd => (hno o d _ hd hb0 hu0).2.2, fun G gen size g => ?_, ?_⟩
  · unfold anySample
    rw [if_pos (by rw [hb0]; rfl)]
  obtain ⟨U, hU, -⟩ := (C60_estimated_graph d1.data).2 (by omega)
  refine ⟨U, hU, ?_⟩
  have hc0 : ({} : AGState).consistent := by
    constructor
    · intro M p hp; cases hp
    · intro _; rfl
  have hcp := anyFitAll_consistent opt pre {} hc0
  generalize hsp : anyFitAll opt {} pre = sp at *
  -- from `d1` on the graph stays
  have hgraph : ∀ (o : (M : Nat) → Sched M) (d : AnyData) (st : AGState), anyUdg d st.udg = .ok ⟨d1.cols, U⟩ →
      st.biadj = ⟨0, []⟩ → (anyFit opt o d st).1.udg = some ⟨d1.cols, U⟩ ∧
        (∀ B, findHeuristic1pc (o _) U = .ok B → (anyFit opt o d st).1.biadj = ⟨d1.cols, B⟩) ∧
        ((anyFit opt o d st).1.biadj = ⟨0, []⟩ ∨ ∃ o' B, findHeuristic1pc o' U = .ok B ∧ (anyFit opt o d st).1.biadj = ⟨d1.cols, B⟩) := by
    intro o d st hu hb
    rw [anyFit_learn opt o d st (by rw [hb]; rfl), hu]
    dsimp only
    have hk : ∀ st' : AGState, (anyParams opt d st').1.udg = st'.udg ∧ (anyParams opt d st').1.biadj = st'.biadj := by
      intro st'
      unfold anyParams
      dsimp only
      split <;> exact ⟨rfl, rfl⟩
    split
    · rename_i heq
      refine ⟨rfl, ?_, Or.inl hb⟩
      intro B hB
      rw [hB] at heq
      cases heq
    · rename_i B heq
      refine ⟨(hk _).1, fun B' hB' => ?_, Or.inr ⟨o _, B, heq, (hk _).2⟩⟩
      rw [hB'] at heq
      cases heq
      exact (hk _).2
  have hfix : ∀ (o : (M : Nat) → Sched M) (d : AnyData) (st : AGState), st.udg = some ⟨d1.cols, U⟩ →
      (∃ o B, findHeuristic1pc o U = .ok B ∧ st.biadj = ⟨d1.cols, B⟩) →
      (anyFit opt o d st).1.udg = some ⟨d1.cols, U⟩ ∧ (anyFit opt o d st).1.biadj = st.biadj := by
    rintro o d st hu ⟨o', B, hh, hb⟩
    rw [anyFit_given opt o d st (by rw [hb]; exact heuristic_nonempty _ _ _ hh)]
    unfold anyParams
    dsimp only
    split <;> exact ⟨hu, rfl⟩
  have hpost : ∀ (post : List (((M : Nat) → Sched M) × AnyData)) (st : AGState), st.udg = some ⟨d1.cols, U⟩ →
      (st.biadj = ⟨0, []⟩ ∨ ∃ o B, findHeuristic1pc o U = .ok B ∧ st.biadj = ⟨d1.cols, B⟩) →
      (anyFitAll opt st post).udg = some ⟨d1.cols, U⟩ ∧
      (st.biadj ≠ ⟨0, []⟩ → (anyFitAll opt st post).biadj = st.biadj) ∧
      ((anyFitAll opt st post).biadj = ⟨0, []⟩ ∨ ∃ o B, findHeuristic1pc o U = .ok B ∧ (anyFitAll opt st post).biadj = ⟨d1.cols, B⟩) := by
    intro post
    induction post with
    | nil => intro st h1 h2; exact ⟨h1, fun _ => rfl, h2⟩
    | cons c cs ih =>
      intro st hu hb
      have hne : d1.cols * d1.cols ≠ 0 := by positivity
      rcases hb with hb | hb
      · obtain ⟨a1, -, a3⟩ := hgraph c.1 c.2 st (by rw [hu]; unfold anyUdg; dsimp only; rw [if_neg hne]) hb
        obtain ⟨b1, -, b3⟩ := ih _ a1 a3
        exact ⟨b1, fun h => absurd hb h, b3⟩
      · obtain ⟨a1, a2⟩ := hfix c.1 c.2 st hu hb
        obtain ⟨b1, b2, b3⟩ := ih (anyFit opt c.1 c.2 st).1 a1 (Or.inr (by rw [a2]; exact hb))
        exact ⟨b1, fun h => (b2 (by rw [a2]; exact h)).trans a2, b3⟩
  have hU1 : anyUdg d1 sp.udg = .ok ⟨d1.cols, U⟩ := by
    rcases hu0 with hu | ⟨V, hu⟩ <;> rw [hu] <;> unfold anyUdg <;> simp [hU, Except.map]
  obtain ⟨a1, a2, a3⟩ := hgraph o1 d1 sp hU1 hb0
  have hrun : anyFitAll opt {} (pre ++ (o1, d1) :: post) = anyFitAll opt (anyFit opt o1 d1 sp).1 post := by
    rw [← hsp]
    unfold anyFitAll; rw [List.foldl_append]; rfl
  obtain ⟨b1, b2, b3⟩ := hpost post _ a1 a3
  dsimp only
  rw [hrun]
  refine ⟨b1, fun B hB => ?_, b3, ?_⟩
  · have h2 := a2 B hB
    rw [b2 ?_, h2]
    rw [h2]
    intro h0
    have := congrArg Sigma.fst h0
    dsimp only at this
    omega
  · intro d hd G gen size g
    have hafter : (anyFitAll opt (anyFit opt o1 d1 sp).1 post).after d := by
      rcases List.eq_nil_or_concat post with rfl | ⟨ps, ⟨o', d'⟩, rfl⟩
      · simp only [List.getLast?_singleton, Option.map_some, Option.some.injEq] at hd
        subst hd
        exact anyFit_after opt o1 d1 sp hcp
      · rw [List.concat_eq_append] at hd ⊢
        rw [← List.cons_append, List.getLast?_append] at hd
        simp only [List.getLast?_singleton, Option.some_or, Option.map_some, Option.some.injEq] at hd
        subst hd
        rw [anyFitAll_snoc]
        exact anyFit_after opt o' d' _ (anyFitAll_consistent opt ps _ (anyFit_after opt o1 d1 sp hcp).1)
    have hs := anySample_after _ d hafter gen size g
    have hiff : (anyFitAll opt (anyFit opt o1 d1 sp).1 post).biadj.2.length * (anyFitAll opt (anyFit opt o1 d1 sp).1 post).biadj.1 ≠ 0 ↔
        (anyFitAll opt (anyFit opt o1 d1 sp).1 post).biadj ≠ ⟨0, []⟩ := by
      rcases b3 with b3 | ⟨o', B, hh, b3⟩
      · rw [b3]; simp
      · rw [b3]
        refine ⟨fun _ h0 => ?_, fun _ => heuristic_nonempty _ _ _ hh⟩
        have := congrArg Sigma.fst h0
        dsimp only at this
        omega
    rw [hiff] at hs
    rcases b3 with b3 | ⟨o', B, hh, b3⟩
    · exact ⟨fun h => absurd b3 h.1, fun _ => hs.2 fun h => h.1 b3⟩
    · have : (anyFitAll opt (anyFit opt o1 d1 sp).1 post).biadj.1 = d1.cols := by rw [b3]
      refine ⟨fun h => ?_, fun h => hs.2 (by rw [this]; exact h)⟩
      obtain ⟨s, hs1⟩ := hs.1 (by rw [this]; exact h)
      rw [hs1]
      refine ⟨fun k j => s k (Fin.cast this.symm j), ?_⟩
      exact congrArg Except.ok (sigma_cast this s)

/-- **C180** what a fit with one column or one measurement stores: the result of the optimizer for the squared distance between the model covariance and the matrix in which
every entry is the variance of the column; or, for one measurement, for the summed squared distances of all entries of the sample covariance matrix to the one
model variance -/
theorem C180_what_is_fitted (opt : Optimizer) (o : (M : Nat) → Sched M) (M : Nat) (B : List (BVec M)) (udg : Option (Σ M, BMat M)) (hB : B.length * M ≠ 0) (d : AnyData)
    (hd : d.cols = 1 ∨ M = 1) (hne : d.cols ≠ M) :
    ∃ (dim : Nat) (f : (Fin dim → ℝ) → ℝ) (p : GParams M) (hp : p.weightsOn = B), dim = numOnes B + M ∧
      (∀ (j0 : Fin d.cols), d.cols = 1 → ∀ x, f x = sqDist (fun _ _ => sampleCov (fun k => d.data.val k j0) fun k => d.data.val k j0)
        (modelCov (weightsOf B x) (variancesOf (numOnes B) x))) ∧
      (∀ (m0 : Fin M), M = 1 → ∀ x, f x = ∑ i, ∑ j, (sampleCov (fun k => d.data.val k i) (fun k => d.data.val k j) -
        modelCov (weightsOf B x) (variancesOf (numOnes B) x) m0 m0) ^ 2) ∧
      (anyFit opt o d { biadj := ⟨M, B⟩, udg := udg }).1.params = some ⟨M, p⟩ ∧
      (∀ r j, p.weights (Fin.cast (by rw [hp]) r) j = weightsOf B (opt dim f).1 r j) ∧
      p.variances = variancesOf (numOnes B) (opt dim f).1 ∧
      (anyFit opt o d { biadj := ⟨M, B⟩, udg := udg }).2 = .ok !(opt dim f).2 := by
  have hfit : covFits d.cols M = true := by
    rcases hd with h | h <;> simp [covFits, h]
  rw [anyFit_given opt o d _ (by exact hB)]
  unfold anyParams
  dsimp only
  rw [if_pos hfit]
  refine ⟨_, anyObjective d B, _, rfl, ?_, ?_, ?_, rfl, ?_, ?_, rfl⟩
  · rw [length_maskPositions]
  · intro j0 h1 x
    have hj : j0 = ⟨0, by omega⟩ := Fin.ext (by have := j0.isLt; omega)
    unfold anyObjective
    rw [dif_neg hne, dif_pos h1, ← hj]
    exact objective_eq (fun _ _ => d.data.cov j0 j0) B x
  · intro m0 h1 x
    have hj : m0 = ⟨0, by omega⟩ := Fin.ext (by have := m0.isLt; omega)
    unfold anyObjective
    rw [dif_neg hne, dif_neg (by omega), dif_pos h1, ← hj]
    refine sum_congr rfl fun i _ => sum_congr rfl fun j _ => ?_
    unfold modelCov
    rw [if_pos rfl, sub_sub, tailPart_eq]
    congr 3
    refine sum_congr rfl fun r _ => ?_
    rw [placeWeights_eq]
  · intro r j
    show placeWeights _ _ _ _ = _
    rw [placeWeights_eq]; rfl
  · exact tailPart_eq _ _

/-- an object of `Verif/Model/Gaussian.lean`, whose arrays all have `M` columns -/
def GState.any {M : Nat} (st : GState M) : AGState :=
  { biadj := if st.biadj = [] then ⟨0, []⟩ else ⟨M, st.biadj⟩
    udg := st.udg.map fun U => ⟨M, U⟩
    dataset := st.dataset.map fun d => ⟨M, d⟩
    means := st.means.map fun m => ⟨M, m⟩
    params := st.params.map fun p => ⟨M, p⟩ }

/-- **C180** agreement with the model for one number of columns: if all sizes agree, `fit` and `sample` are those of `Verif/Model/Gaussian.lean` -/
theorem C180_same_width {M : Nat} (opt : Optimizer) (o : (M : Nat) → Sched M) (d : Dataset M) (st : GState M) :
    (anyFit opt o ⟨M, d⟩ st.any).1 = (gaussianFit opt (o M) d st).1.any ∧ (anyFit opt o ⟨M, d⟩ st.any).2 = (gaussianFit opt (o M) d st).2 ∧
    ∀ (G : Type) (gen : MvnGen G) (size : Nat) (g : G),
      (anySample gen st.any size g).1 = (st.sample gen size g).1.map (fun s => ⟨M, s⟩) ∧ (anySample gen st.any size g).2 = (st.sample gen size g).2 := by
  have hfits : covFits M M = true := by simp [covFits]
  have hobj : ∀ B : List (BVec M), anyObjective ⟨M, d⟩ B = objective d.cov B := by
    intro B; funext x
    unfold anyObjective
    rw [dif_pos rfl]
    rfl
  have hpar : ∀ st' : GState M, st'.biadj.length * M ≠ 0 → ∀ st'' : AGState, st''.biadj = ⟨M, st'.biadj⟩ → st''.udg = st'.any.udg → st''.dataset = st'.any.dataset →
      anyParams opt ⟨M, d⟩ st'' = ((fitParams opt d st').1.any, .ok (fitParams opt d st').2) := by
    intro st' hne st'' h1 h2 h3
    obtain ⟨b, u, ds, m, p⟩ := st''
    dsimp only at h1 h2 h3
    subst h1 h2 h3
    have hb : st'.biadj ≠ [] := fun h => hne (by rw [h]; simp)
    unfold anyParams fitParams GState.any
    dsimp only
    rw [if_pos hfits, if_neg hb, hobj]
    rfl
  have hudg : anyUdg ⟨M, d⟩ st.any.udg = (udgOr d st.udg).map fun U => ⟨M, U⟩ := by
    unfold anyUdg udgOr GState.any
    cases st.udg with
    | none => rfl
    | some U =>
      dsimp only [Option.map_some]
      split <;> rfl
  have hany0 : st.biadj = [] → st.any.biadj = ⟨0, []⟩ := fun h => if_pos h
  have hany1 : st.biadj ≠ [] → st.any.biadj = ⟨M, st.biadj⟩ := fun h => if_neg h
  have hsize : st.any.biadj.2.length * st.any.biadj.1 = st.biadj.length * M := by
    by_cases h : st.biadj = []
    · rw [hany0 h, h]; simp
    · rw [hany1 h]
  have main : anyFit opt o ⟨M, d⟩ st.any = ((gaussianFit opt (o M) d st).1.any, (gaussianFit opt (o M) d st).2) := by
    by_cases hB : st.biadj.length * M = 0
    · rw [anyFit_learn opt o ⟨M, d⟩ st.any (hsize.trans hB), hudg]
      cases hu : udgOr d st.udg with
      | error e =>
        unfold gaussianFit computeBiadj
        simp only [hB, hu, if_true, Except.map]
        rfl
      | ok U =>
        rw [fit_learn opt (o M) d st hB U hu]
        simp only [Except.map]
        cases hh : findHeuristic1pc (o M) U with
        | error e => rfl
        | ok B =>
          dsimp only
          exact hpar { st with dataset := some d, udg := some U, biadj := B } (heuristic_nonempty _ _ _ hh) _ rfl rfl rfl
    · rw [anyFit_given opt o ⟨M, d⟩ st.any (by rw [hsize]; exact hB), fit_given opt (o M) d st hB]
      refine hpar { st with dataset := some d } hB _ ?_ rfl rfl
      have hb : st.biadj ≠ [] := fun h => hB (by rw [h]; simp)
      unfold GState.any
      exact if_neg hb
  refine ⟨by rw [main], by rw [main], fun G gen size g => ?_⟩
  by_cases hb : st.biadj = []
  · have h1 : st.any.biadj.2.length = 0 := by rw [hany0 hb]; rfl
    unfold anySample GState.sample
    rw [if_pos h1, if_pos (by rw [hb]; rfl)]
    exact ⟨rfl, rfl⟩
  · have h0 : st.biadj.length ≠ 0 := by simpa using hb
    have e : st.any = { st.any with biadj := ⟨M, st.biadj⟩ } := by
      conv_lhs => unfold GState.any
      rw [if_neg hb]
      rfl
    rw [e]
    obtain ⟨B, udg, ds, means, params⟩ := st
    dsimp only at hb h0
    unfold anySample GState.sample GState.any
    simp only [if_neg h0]
    cases means with
    | none => exact ⟨rfl, rfl⟩
    | some m =>
      cases params with
      | none => exact ⟨rfl, rfl⟩
      | some p =>
        simp only [Option.map_some, dif_pos]
        by_cases hM : M = 0
        · rw [if_pos hM, if_pos hM]; exact ⟨rfl, rfl⟩
        · rw [if_neg hM, if_neg hM]
          by_cases hl : p.weightsOn.length = B.length
          · simp only [hl, dif_pos, Fin.cast_eq_self]
            exact ⟨rfl, trivial⟩
          · simp only [hl, dif_neg, not_false_iff, Fin.cast_eq_self]
            exact ⟨rfl, trivial⟩

/-- two data points on a line, with one column -/
def oneColumn : AnyData := ⟨1, { size := 2, two_le := le_refl _, val := fun k _ => k.val }⟩

/-- two data points with three columns -/
def threeColumns : AnyData := ⟨3, { size := 2, two_le := le_refl _, val := fun k j => k.val * (j.val + 1) }⟩

/-- **C180** is false: an object with a structure for two measurements, fitted to data with two columns, accepts data with one column; and data with
three columns are rejected, but `sample` fails from then on -/
theorem C180_false : ¬ C180_statement := by
  intro h
  have h1 := (h (fun _ _ => (0, true)) (fun _ _ _ => 0) (fun _ _ _ => 0) 2 [BVec.of fun _ => true] ⟨2, twoPoints 1 2⟩ oneColumn (by decide) rfl (by decide)).1
  have h2 := (C180_partial (fun _ _ => (0, true)) 2 [BVec.of fun _ => true] none (by decide) [(fun _ _ _ => 0, ⟨2, twoPoints 1 2⟩)] (fun _ _ _ => 0) oneColumn).2.2.2.2.1.mpr
    (Or.inr (Or.inl rfl))
  obtain ⟨w, hw⟩ := h2
  have : Except.error PyErr.valueError = Except.ok w := h1.symm.trans hw
  cases this

/-- … the second failure -/
example (G : Type) (gen : MvnGen G) (opt : Optimizer) (size : Nat) (g : G) :
    let st0 := anyFitAll opt { biadj := ⟨2, [BVec.of fun _ => true]⟩ } [(fun _ _ _ => 0, ⟨2, twoPoints 1 2⟩)]
    let st := anyFitAll opt { biadj := ⟨2, [BVec.of fun _ => true]⟩ } [(fun _ _ _ => 0, ⟨2, twoPoints 1 2⟩), (fun _ _ _ => 0, threeColumns)]
    (∃ s, (anySample gen st0 size g).1 = .ok s) ∧ (anyFit opt (fun _ _ _ => 0) threeColumns st0).2 = .error .valueError ∧
      (anySample gen st size g).1 = .error .valueError := by
  have h1 := C180_partial opt 2 [BVec.of fun _ => true] none (by decide) [] (fun _ _ _ => 0) ⟨2, twoPoints 1 2⟩
  have h2 := C180_partial opt 2 [BVec.of fun _ => true] none (by decide) [(fun _ _ _ => 0, ⟨2, twoPoints 1 2⟩)] (fun _ _ _ => 0) threeColumns
  obtain ⟨s, hs⟩ := (h1.2.2.2.2.2.2.2 G gen size g).1 rfl
  exact ⟨⟨_, hs⟩, (h2.2.2.2.2.2.1 (by decide)).1, (h2.2.2.2.2.2.2.2 G gen size g).2 (by decide)⟩

/-- not vacuous: a fresh object that sees one column, then two columns, then three: the structure is the one of the two columns, and `sample` fails; a further fit
with two columns repairs the object -/
example (G : Type) (gen : MvnGen G) (opt : Optimizer) (size : Nat) (g : G) :
    let calls : List (((M : Nat) → Sched M) × AnyData) :=
      [(fun _ _ _ => 0, oneColumn), (fun _ _ _ => 0, ⟨2, twoPoints 1 2⟩), (fun _ _ _ => 0, threeColumns)]
    (anySample gen (anyFitAll opt {} calls) size g).1 = .error .valueError ∧
      ∃ s, (anySample gen (anyFitAll opt {} (calls ++ [(fun _ _ _ => 0, ⟨2, twoPoints 3 4⟩)])) size g).1 = .ok s := by
  obtain ⟨-, -, U, hU, h1⟩ := C180_fresh opt [(fun _ _ _ => 0, oneColumn)] [(fun _ _ _ => 0, threeColumns)]
    (by intro c hc; rw [List.mem_singleton.mp hc]; decide) (fun _ _ _ => 0) ⟨2, twoPoints 1 2⟩ (le_refl 2)
  obtain ⟨-, -, U', hU', h2⟩ := C180_fresh opt [(fun _ _ _ => 0, oneColumn)] [(fun _ _ _ => 0, threeColumns), (fun _ _ _ => 0, ⟨2, twoPoints 3 4⟩)]
    (by intro c hc; rw [List.mem_singleton.mp hc]; decide) (fun _ _ _ => 0) ⟨2, twoPoints 1 2⟩ (le_refl 2)
  have hV : estimateUdgCov (twoPoints 1 2) = .ok U' := hU'
  rw [twoPoints_edge 1 2 (by norm_num) (by norm_num) (by norm_num)] at hV
  cases hV
  have hb := h2.2.1 _ heuristic_edge2
  refine ⟨(h1.2.2.2 threeColumns rfl G gen size g).2 (fun h => absurd h.2 (by decide)), ?_⟩
  obtain ⟨s, hs⟩ := (h2.2.2.2 ⟨2, twoPoints 3 4⟩ rfl G gen size g).1
    ⟨fun h => absurd (congrArg Sigma.fst (hb.symm.trans h)) (by decide : ¬ (2 : Nat) = 0), rfl⟩
  exact ⟨_, hs⟩

/-- … and the hypotheses of C180_what_is_fitted -/
example : oneColumn.cols = 1 ∧ oneColumn.cols ≠ 2 ∧ [BVec.of fun _ : Fin 2 => true].length * 2 ≠ 0 := by decide

end Medil

import Verif.Proofs.NcfaFit
import Verif.Props.Gaussian
/-
  Properties of `NeuroCausalFactorAnalysis.fit` (C66-C68, C80-C81, ...).
-/
namespace Medil
open Finset
variable {M w : Nat} {G O : Type}

/-! ### C67: histories, log, outcome -/

/-- the index arrays of a split are within the dataset -/
def SplitIn (d : Dataset M) (s : List Int × List Int) : Prop :=
  ∀ i, i ∈ s.1 ∨ i ∈ s.2 → -(d.size : Int) ≤ i ∧ i < d.size

theorem takeRows_ok (d : Dataset M) (l : List Int) (h : ∀ i ∈ l, -(d.size : Int) ≤ i ∧ i < d.size) :
    ∃ rs, takeRows d l = .ok rs ∧ rs.length = l.length := by
  induction l with
  | nil => exact ⟨[], rfl, rfl⟩
  | cons i l ih =>
    obtain ⟨rs, h1, h2⟩ := ih fun i hi => h i (List.mem_cons_of_mem _ hi)
    have := h i List.mem_cons_self
    unfold takeRows
    by_cases hi : 0 ≤ i
    · rw [dif_pos ⟨hi, by omega⟩, h1]; exact ⟨_, rfl, by simp [h2]⟩
    · rw [dif_neg (by omega), dif_pos (by omega), h1]; exact ⟨_, rfl, by simp [h2]⟩

theorem takeRows_error (d : Dataset M) (l : List Int) (h : ∃ i ∈ l, ¬ (-(d.size : Int) ≤ i ∧ i < d.size)) :
    takeRows d l = .error .indexError := by
  induction l with
  | nil => obtain ⟨i, hi, _⟩ := h; cases hi
  | cons i l ih =>
    unfold takeRows
    by_cases hi : -(d.size : Int) ≤ i ∧ i < d.size
    · have : takeRows d l = .error .indexError := by
        apply ih
        obtain ⟨k, hk, hk'⟩ := h
        rcases List.mem_cons.mp hk with rfl | hk
        · exact absurd hi hk'
        · exact ⟨k, hk, hk'⟩
      rw [this]
      split
      · rfl
      · split <;> rfl
    · rw [dif_neg (by omega), dif_neg (by omega)]

theorem takeRows_length (d : Dataset M) (l : List Int) (rs : List (Row M)) (h : takeRows d l = .ok rs) :
    rs.length = l.length := by
  by_cases hl : ∃ i ∈ l, ¬ (-(d.size : Int) ≤ i ∧ i < d.size)
  · rw [takeRows_error d l hl] at h; cases h
  · push Not at hl
    obtain ⟨rs', h1, h2⟩ := takeRows_ok d l hl
    rw [h1] at h; cases h; exact h2

theorem randomSplit_length (env : NcfaEnv G O) (seed : Nat) (d : Dataset M) :
    (randomSplit env seed d).1.length = env.trainSize d.size ∧
    (randomSplit env seed d).2.length = d.size - env.trainSize d.size := by
  have := env.trainSize_lt d.size d.two_le
  simp only [randomSplit, List.length_map, List.length_drop, List.length_take, List.length_finRange]
  omega

open Classical in
/-- **C67**, the outcome: `fit` returns exactly when there is a column, the batch size is positive, the given indices
are within the dataset, and neither part of the split is empty (or there are 0 epochs); the exception is named in
the other cases. -/
theorem C67_outcome (env : NcfaEnv G O) (d : Dataset M) (split : Option (List Int × List Int)) (st : NState M)
    (wd : NWorld G) :
    (ncfaFit env d split st wd).2.2.2 =
      if M = 0 then .error .valueError
      else if ∃ s, split = some s ∧ ¬ SplitIn d s then .error .indexError
      else if st.hp.batchSize = 0 then .error .valueError
      else if st.hp.numEpochs ≠ 0 ∧ ∃ s, split = some s ∧ (s.1 = [] ∨ s.2 = []) then .error .zeroDivision
      else .ok () := by
  have hsplit : ncfaSplit env st.seed d split =
      if M = 0 then .error .valueError
      else if ∃ s, split = some s ∧ ¬ SplitIn d s then .error .indexError
      else ncfaSplit env st.seed d split := by
    by_cases hM : M = 0
    · simp [ncfaSplit, hM]
    · simp only [hM, if_false]
      split
      · rename_i h
        obtain ⟨⟨a, b⟩, rfl, hs⟩ := h
        simp only [ncfaSplit, hM, if_false]
        by_cases ha : ∃ i ∈ a, ¬ (-(d.size : Int) ≤ i ∧ i < d.size)
        · rw [takeRows_error d a ha]
        · push Not at ha
          obtain ⟨rs, h1, _⟩ := takeRows_ok d a ha
          rw [h1]
          have hb : ∃ i ∈ b, ¬ (-(d.size : Int) ≤ i ∧ i < d.size) := by
            by_contra hb
            push Not at hb
            exact hs fun i hi => hi.elim (ha i) (hb i)
          rw [takeRows_error d b hb]
      · rfl
  have herr : ∀ e, ncfaSplit env st.seed d split = .error e → M = 0 ∨ ∃ s, split = some s ∧ ¬ SplitIn d s := by
    intro e he
    by_contra hc
    push Not at hc
    obtain ⟨hM, hc⟩ := hc
    simp only [ncfaSplit, hM, if_false] at he
    rcases split with _ | ⟨a, b⟩
    · cases he
    · have hs := hc (a, b) rfl
      obtain ⟨r1, h1, _⟩ := takeRows_ok d a fun i hi => hs i (.inl hi)
      obtain ⟨r2, h2, _⟩ := takeRows_ok d b fun i hi => hs i (.inr hi)
      simp only [h1, h2] at he
      cases he
  have hempty : ∀ t v, ncfaSplit env st.seed d split = .ok (t, v) →
      ((t = [] ∨ v = []) ↔ ∃ s, split = some s ∧ (s.1 = [] ∨ s.2 = [])) := by
    intro t v h
    by_cases hM : M = 0
    · simp [ncfaSplit, hM] at h
    · simp only [ncfaSplit, hM, if_false] at h
      rcases split with _ | ⟨a, b⟩
      · have hl := randomSplit_length env st.seed d
        have h1 := env.trainSize_lt d.size d.two_le
        have h2 := env.trainSize_pos d.size d.two_le
        simp only [Except.ok.injEq] at h
        rw [h] at hl
        simp only [reduceCtorEq, false_and, exists_false, iff_false, not_or]
        constructor
        · rintro rfl; simp at hl; omega
        · rintro rfl; simp at hl; omega
      · dsimp only at h
        rcases ha : takeRows d a with e | t'
        · rw [ha] at h; cases h
        · rcases hb : takeRows d b with e | v'
          · rw [ha, hb] at h; cases h
          · rw [ha, hb] at h
            simp only [Except.ok.injEq, Prod.mk.injEq] at h
            obtain ⟨rfl, rfl⟩ := h
            have l1 := takeRows_length d a _ ha
            have l2 := takeRows_length d b _ hb
            simp only [Option.some.injEq, exists_eq_left', ← List.length_eq_zero_iff, l1, l2]
  have hok : ∀ t v, ncfaSplit env st.seed d split = .ok (t, v) → M ≠ 0 ∧ ¬ ∃ s, split = some s ∧ ¬ SplitIn d s := by
    intro t v h
    rw [hsplit] at h
    by_cases hM : M = 0
    · simp [hM] at h
    · refine ⟨hM, fun hs => ?_⟩
      simp only [hM, if_false] at h
      rw [if_pos hs] at h
      cases h
  rcases ncfaFit_cases env d split st wd with ⟨e, h1, h2⟩ | ⟨t, v, h1, h2, h3⟩ | ⟨t, v, h1, h2, h3, h4, r, h5⟩ |
    ⟨t, v, h1, h2, h3, r, h, _, _, h5⟩
  · rw [h2]
    by_cases hM : M = 0
    · rw [if_pos hM]
      rw [hsplit, if_pos hM] at h1
      cases h1; rfl
    · have hs := (herr e h1).resolve_left hM
      rw [if_neg hM, if_pos hs]
      rw [hsplit, if_neg hM, if_pos hs] at h1
      cases h1; rfl
  · obtain ⟨a, b⟩ := hok t v h1
    rw [h3, if_neg a, if_neg b, if_pos h2]
  · obtain ⟨a, b⟩ := hok t v h1
    rw [h5, if_neg a, if_neg b, if_neg h2, if_pos ⟨h3, (hempty t v h1).mp h4⟩]
  · obtain ⟨a, b⟩ := hok t v h1
    rw [h5, if_neg a, if_neg b, if_neg h2, if_neg]
    rintro ⟨c, c'⟩
    have := (hempty t v h1).mpr c'
    rcases h3 with h3 | ⟨h3, h4⟩
    · exact c h3
    · rcases this with rfl | rfl
      · exact h3 rfl
      · exact h4 rfl

/-- **C67**.  Whenever `fit` returns: the four stored histories have one entry per epoch, which is the average over
the epoch's batches of loss (or error) divided by the size of the batch; and the log file got `1 + 3·num_epochs` new
entries at its end, in the order "number of parameters", then per epoch "training", "training finished" with the
stored training loss, "validation finished" with the stored validation loss.  Loss and error of every batch are the
ones of the network with the weights of that moment (`PassOk`), and every epoch goes through all training batches
and then through all validation batches. -/
theorem C67_histories (env : NcfaEnv G O) (d : Dataset M) (split : Option (List Int × List Int)) (st : NState M)
    (wd : NWorld G) (h : (ncfaFit env d split st wd).2.2.2 = .ok ()) :
    ∃ (hist : Histories) (ps : List (Pass M st.hp.width)),
      (ncfaFit env d split st wd).1.loss = some hist ∧ (ncfaFit env d split st wd).2.2.1 = ps ∧
      hist.trainElbo.length = st.hp.numEpochs ∧ hist.trainError.length = st.hp.numEpochs ∧
      hist.validElbo.length = st.hp.numEpochs ∧ hist.validError.length = st.hp.numEpochs ∧
      (∀ e, e < st.hp.numEpochs →
        hist.trainElbo[e]? = some (average ((passesOf ps e true).map fun p => p.loss / p.batch.length)) ∧
        hist.trainError[e]? = some (average ((passesOf ps e true).map fun p => p.error / p.batch.length)) ∧
        hist.validElbo[e]? = some (average ((passesOf ps e false).map fun p => p.loss / p.batch.length)) ∧
        hist.validError[e]? = some (average ((passesOf ps e false).map fun p => p.error / p.batch.length))) ∧
      (∀ p ∈ ps, PassOk st.hp p) ∧
      (∃ t v, ncfaSplit env st.seed d split = .ok (t, v) ∧
        ps.map (fun p => (p.epoch, p.isTrain, p.batch)) = (List.range st.hp.numEpochs).flatMap fun e =>
          (batches st.hp.batchSize t).map (fun b => (e, true, b)) ++
          (batches st.hp.batchSize v).map (fun b => (e, false, b))) ∧
      (∃ es, (ncfaFit env d split st wd).2.1.logs (st.path ++ "training.log") = wd.logs (st.path ++ "training.log") ++ es ∧
        es.length = 1 + 3 * st.hp.numEpochs ∧
        es = .numParams ((((vaeObj st.hp.numHidden).parameters).map (ParamId.numel M M st.hp.width)).sum) ::
          (List.range st.hp.numEpochs).flatMap fun e => [.trainingOn e, .finishTraining e (hist.trainElbo.getD e 0),
            .finishValidation (hist.validElbo.getD e 0)]) := by
  rcases ncfaFit_cases env d split st wd with ⟨e, _, h2⟩ | ⟨t, v, _, _, h3⟩ | ⟨t, v, _, _, _, _, r, h5⟩ |
    ⟨t, v, h1, h2, h3, r, hist, h4, ok, h5⟩
  · rw [h2] at h; cases h
  · rw [h3] at h; cases h
  · rw [h5] at h; cases h
  · rw [h5]
    refine ⟨hist, r.passes, rfl, rfl, ?_, ?_, ?_, ?_, ?_, fun p hp => (ok.each p hp).1, ⟨t, v, h1, ok.shape⟩,
      r.log, ?_, ?_, ?_⟩
    · rw [ok.hist]; simp
    · rw [ok.hist]; simp
    · rw [ok.hist]; simp
    · rw [ok.hist]; simp
    · intro e he
      rw [ok.hist]
      simp only [List.getElem?_map, List.getElem?_range he, Option.map_some]
      exact ⟨rfl, rfl, rfl, rfl⟩
    · simp [NWorld.save, NWorld.addLog]
    · rw [ok.log]
      simp only [List.length_cons, List.length_flatMap, List.length_nil]
      simp; omega
    · rw [ok.log]
      refine congrArg (List.cons _) ?_
      apply List.flatMap_congr
      intro e he
      have he := List.mem_range.mp he
      rw [ok.hist]
      simp [List.getD_eq_getElem?_getD, List.getElem?_map, List.getElem?_range he]

/-! ### C66: training mode -/

/-- **C66** (as stated; false): every batch of the training loop is processed with noise -/
def C66_statement : Prop :=
  ∀ (G O : Type) (env : NcfaEnv G O) (M : Nat) (d : Dataset M) (split : Option (List Int × List Int)) (st : NState M)
    (wd : NWorld G), ∀ p ∈ (ncfaFit env d split st wd).2.2.1, p.isTrain = true → p.noise ≠ none

/-- **C66**, what is true instead: a training batch is processed with noise exactly in the first epoch, because the
validation switches the network to evaluation mode and nothing switches it back.  So the claim holds exactly for runs
with at most one epoch.  Validation never uses noise. -/
theorem C66_partial (env : NcfaEnv G O) (d : Dataset M) (split : Option (List Int × List Int)) (st : NState M)
    (wd : NWorld G) (h : (ncfaFit env d split st wd).2.2.2 = .ok ()) :
    (∀ p ∈ (ncfaFit env d split st wd).2.2.1, (p.noise ≠ none ↔ p.isTrain = true ∧ p.epoch = 0)) ∧
    ((∀ p ∈ (ncfaFit env d split st wd).2.2.1, p.isTrain = true → p.noise ≠ none) ↔ st.hp.numEpochs ≤ 1) := by
  rcases ncfaFit_cases env d split st wd with ⟨e, _, h2⟩ | ⟨t, v, _, _, h3⟩ | ⟨t, v, _, _, _, _, r, h5⟩ |
    ⟨t, v, h1, h2, h3, r, hist, h4, ok, h5⟩
  · rw [h2] at h; cases h
  · rw [h3] at h; cases h
  · rw [h5] at h; cases h
  · rw [h5]
    have key : ∀ p ∈ r.passes, (p.noise ≠ none ↔ p.isTrain = true ∧ p.epoch = 0) := by
      intro p hp
      have := (ok.each p hp).2
      rw [← Option.isSome_iff_ne_none, this, decide_eq_true_iff]
    refine ⟨key, ?_⟩
    constructor
    · intro hall
      by_contra hn
      obtain ⟨ht, hv⟩ := h3.resolve_left (by omega)
      have hmem : (1, true, (batches st.hp.batchSize t).head ((batches_eq_nil _ _).not.mpr ht)) ∈
          r.passes.map (fun p => (p.epoch, p.isTrain, p.batch)) := by
        rw [ok.shape, List.mem_flatMap]
        refine ⟨1, List.mem_range.mpr (by omega), List.mem_append_left _ (List.mem_map.mpr ⟨_, List.head_mem _, rfl⟩)⟩
      obtain ⟨p, hp, hpe⟩ := List.mem_map.mp hmem
      simp only [Prod.mk.injEq] at hpe
      have h1 := hall p hp hpe.2.1
      have h2 := ((key p hp).mp h1).2
      omega
    · intro hn p hp hpt
      rw [key p hp]
      refine ⟨hpt, ?_⟩
      have : (p.epoch, p.isTrain, p.batch) ∈ r.passes.map (fun p => (p.epoch, p.isTrain, p.batch)) :=
        List.mem_map.mpr ⟨p, hp, rfl⟩
      rw [ok.shape, List.mem_flatMap] at this
      obtain ⟨e, he, hmem⟩ := this
      have := List.mem_range.mp he
      rcases List.mem_append.mp hmem with hm | hm
      · obtain ⟨b, _, hb⟩ := List.mem_map.mp hm
        simp only [Prod.mk.injEq] at hb
        omega
      · obtain ⟨b, _, hb⟩ := List.mem_map.mp hm
        simp only [Prod.mk.injEq] at hb
        omega

/-- a simple environment: `onesGen`, an optimizer that adds 1 to every value, the identity permutation, and
`floor(7N/10)` training rows -/
def demoEnv : NcfaEnv Nat Unit where
  gen := onesGen
  optInit := ()
  optStep := fun _ _ W => (fun l => ⟨fun o i => (W l).weight o i + 1, fun o => (W l).bias o + 1⟩, ())
  schedStep := id
  perm := fun _ _ => 1
  trainSize := fun N => 7 * N / 10
  trainSize_pos := fun N h => by omega
  trainSize_lt := fun N h => by omega

/-- a dataset with one column and the three rows 0, 1, 3 -/
def demoData : Dataset 1 := ⟨3, by omega, fun k _ => if k.val = 0 then 0 else if k.val = 1 then 1 else 3⟩

/-- an empty world -/
def demoWorld : NWorld Nat := ⟨0, none, fun _ => [], fun _ => none, []⟩

/-- a new object with two epochs -/
noncomputable def demoNcfa : NState 1 := { hp := { numEpochs := 2 } }

theorem demo_ok : (ncfaFit demoEnv demoData none demoNcfa demoWorld).2.2.2 = .ok () := by
  rw [C67_outcome]; simp [demoNcfa]

/-- the claim is false for two epochs (the default is 200) -/
theorem C66_false : ¬ C66_statement := by
  intro h
  have := ((C66_partial demoEnv demoData none demoNcfa demoWorld demo_ok).2.mp
    (h _ _ demoEnv 1 demoData none demoNcfa demoWorld))
  simp [demoNcfa] at this

/-! ### C80: the hidden layers are never trained -/

theorem Evolves.keeps {step : Pass M w → Weights M M w → Weights M M w → Prop} {W W' : Weights M M w}
    {ps : List (Pass M w)} (h : Evolves step W ps W') (l : LayerId) (hs : ∀ p W V, step p W V → V l = W l) :
    (∀ p ∈ ps, p.weights l = W l) ∧ W' l = W l := by
  induction ps generalizing W with
  | nil => cases h; simp
  | cons p ps ih =>
    obtain ⟨a, V, b, c⟩ := h
    obtain ⟨d, e⟩ := ih c
    have hV : V l = W l := by
      split at b
      · exact hs p W V b
      · rw [b]
    refine ⟨?_, by rw [e, hV]⟩
    intro q hq
    rcases List.mem_cons.mp hq with rfl | hq
    · rw [a]
    · rw [d q hq, hV]

theorem OptimizerStep.keeps {env : NcfaEnv G O} {hp : Hyper} {trained : List ParamId} {p : Pass M w}
    {W V : Weights M M w} (h : OptimizerStep env hp trained p W V) (l : LayerId) (h1 : .weight l ∉ trained)
    (h2 : .bias l ∉ trained) : V l = W l := by
  obtain ⟨o, h⟩ := h
  apply Layer.ext
  · rw [(h l).1, if_neg h1]
  · rw [(h l).2, if_neg h2]

/-- **C80**, the training.  The weights start with torch's random initial values; every training batch changes them by
one step of the optimizer for the loss of that batch (with its noise), restricted to the tensors listed by
`parameters()`; validation changes nothing; the network stored by `fit` has the weights after the last batch. -/
theorem C80_training (env : NcfaEnv G O) (d : Dataset M) (split : Option (List Int × List Int)) (st : NState M)
    (wd : NWorld G) (h : (ncfaFit env d split st wd).2.2.2 = .ok ()) :
    ∃ W : Weights M M st.hp.width,
      (ncfaFit env d split st wd).1.vae = some ⟨st.hp.width, st.hp.numHidden, W, decide (st.hp.numEpochs = 0)⟩ ∧
      Evolves (OptimizerStep env st.hp (vaeObj st.hp.numHidden).parameters)
        (env.gen.init M M st.hp.numHidden st.hp.width wd.torch).1 (ncfaFit env d split st wd).2.2.1 W := by
  rcases ncfaFit_cases env d split st wd with ⟨e, _, h2⟩ | ⟨t, v, _, _, h3⟩ | ⟨t, v, _, _, _, _, r, h5⟩ |
    ⟨t, v, h1, h2, h3, r, hist, h4, ok, h5⟩
  · rw [h2] at h; cases h
  · rw [h3] at h; cases h
  · rw [h5] at h; cases h
  · rw [h5]
    exact ⟨r.weights, by rw [ok.mode], ok.evolves⟩

/-- **C80**.  Whatever the optimizer does, in every pass of every epoch and in the network stored by `fit` the hidden
layers of the decoder have their random initial values. -/
theorem C80_hidden_layers_stay_random (env : NcfaEnv G O) (d : Dataset M) (split : Option (List Int × List Int))
    (st : NState M) (wd : NWorld G) (h : (ncfaFit env d split st wd).2.2.2 = .ok ()) (i : Nat) :
    ∃ W : Weights M M st.hp.width,
      (ncfaFit env d split st wd).1.vae = some ⟨st.hp.width, st.hp.numHidden, W, decide (st.hp.numEpochs = 0)⟩ ∧
      W (.meanHidden i) = (env.gen.init M M st.hp.numHidden st.hp.width wd.torch).1 (.meanHidden i) ∧
      W (.covHidden i) = (env.gen.init M M st.hp.numHidden st.hp.width wd.torch).1 (.covHidden i) ∧
      ∀ p ∈ (ncfaFit env d split st wd).2.2.1,
        p.weights (.meanHidden i) = W (.meanHidden i) ∧ p.weights (.covHidden i) = W (.covHidden i) := by
  rcases ncfaFit_cases env d split st wd with ⟨e, _, h2⟩ | ⟨t, v, _, _, h3⟩ | ⟨t, v, _, _, _, _, r, h5⟩ |
    ⟨t, v, h1, h2, h3, r, hist, h4, ok, h5⟩
  · rw [h2] at h; cases h
  · rw [h3] at h; cases h
  · rw [h5] at h; cases h
  · rw [h5]
    have hm := ok.evolves.keeps (.meanHidden i) fun p W V hV =>
      hV.keeps _ (by rw [parameters_vae]; simp) (by rw [parameters_vae]; simp)
    have hc := ok.evolves.keeps (.covHidden i) fun p W V hV =>
      hV.keeps _ (by rw [parameters_vae]; simp) (by rw [parameters_vae]; simp)
    refine ⟨r.weights, by rw [ok.mode], hm.2, hc.2, ?_⟩
    intro p hp
    exact ⟨by rw [hm.1 p hp, hm.2], by rw [hc.1 p hp, hc.2]⟩

end Medil

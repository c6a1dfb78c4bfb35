import Verif.Spec.Ncfa
import Verif.Props.Vae
import Mathlib.Tactic.Linarith
import Mathlib.Tactic.Ring
/-
  The training loop of `NeuroCausalFactorAnalysis`: what is recorded, logged and stored.
-/
namespace Medil
open Finset
variable {M w : Nat} {G O : Type}

/-- loss and error of a pass are those of the batch, the weights and the noise of the pass -/
def PassOk (hp : Hyper) (p : Pass M w) : Prop :=
  p.loss = elboGaussian hp p.batch.get (networkResult hp.numHidden p.weights p.noise p.batch.get)
    (if p.isTrain then some (p.weights .covFulcon).weight else none) ∧
  p.error = spectralNorm (diffMat p.batch.get (networkResult hp.numHidden p.weights p.noise p.batch.get).recon)

theorem vaeForward_eq {L : Nat} (gen : TorchGen G) (H : Nat) (W : Weights L M w) (training : Bool) {N : Nat}
    (x : Fin N → Fin M → ℝ) (g : G) :
    (vaeForward gen H W training x g).1 = networkResult H W (vaeForward gen H W training x g).2.2 x := by
  cases training
  · simp only [vaeForward, latentSample, networkResult]
    simp
  · simp only [vaeForward, latentSample, networkResult]
    congr 1
    · funext k; congr 2; funext l; simp only [if_true]; rw [mul_one_div]; ring
    · funext k; congr 2; funext l; simp only [if_true]; rw [mul_one_div]; ring

theorem vaeForward_noise {L : Nat} (gen : TorchGen G) (H : Nat) (W : Weights L M w) (training : Bool) {N : Nat}
    (x : Fin N → Fin M → ℝ) (g : G) : ((vaeForward gen H W training x g).2.2).isSome = training := by
  cases training <;> rfl

theorem Evolves.append {step : Pass M w → Weights M M w → Weights M M w → Prop} {W W' W'' : Weights M M w}
    {ps qs : List (Pass M w)} (h : Evolves step W ps W') (h' : Evolves step W' qs W'') : Evolves step W (ps ++ qs) W'' := by
  induction ps generalizing W with
  | nil => cases h; exact h'
  | cons p ps ih =>
    obtain ⟨h1, V, h2, h3⟩ := h
    exact ⟨h1, V, h2, ih h3⟩

/-- the share of a pass in the reported loss: the loss divided by the number of rows -/
noncomputable def Pass.lossPerRow (p : Pass M w) : ℝ := p.loss / p.batch.length
/-- the same for the error -/
noncomputable def Pass.errorPerRow (p : Pass M w) : ℝ := p.error / p.batch.length

theorem foldl_trainBatch (env : NcfaEnv G O) (hp : Hyper) (ps : List ParamId) (e : Nat) (tl : List (List (Row M)))
    (s : TrainState M w G O) (a : EpochAcc) :
    ∃ new : List (Pass M w), ∃ r, tl.foldl (trainBatch env hp ps e) (s, a) = r ∧
      r.1.passes = s.passes ++ new ∧ new.map (·.batch) = tl ∧
      (∀ p ∈ new, p.epoch = e ∧ p.isTrain = true ∧ p.noise.isSome = s.training ∧ PassOk hp p) ∧
      r.1.training = s.training ∧ r.1.log = s.log ∧
      r.2.lb = a.lb + (new.map Pass.lossPerRow).sum ∧ r.2.er = a.er + (new.map Pass.errorPerRow).sum ∧
      r.2.nbatch = a.nbatch + tl.length ∧ Evolves (OptimizerStep env hp ps) s.weights new r.1.weights ∧
      (s.training = false → r.1.gen = s.gen) := by
  induction tl generalizing s a with
  | nil => exact ⟨[], (s, a), rfl, by simp, rfl, by simp, rfl, rfl, by simp, by simp, by simp, rfl, fun _ => rfl⟩
  | cons b tl ih =>
    obtain ⟨new, r, h0, h1, h2, h3, h4, h5, h6, h7, h8, h9, h10⟩ :=
      ih (trainBatch env hp ps e (s, a) b).1 (trainBatch env hp ps e (s, a) b).2
    refine ⟨⟨e, true, b, s.weights, (vaeForward env.gen hp.numHidden s.weights s.training b.get s.gen).2.2,
        elboGaussian hp b.get (vaeForward env.gen hp.numHidden s.weights s.training b.get s.gen).1
          (some (s.weights .covFulcon).weight),
        reconError b.get (vaeForward env.gen hp.numHidden s.weights s.training b.get s.gen).1 false⟩ :: new, r, h0,
      ?_, ?_, ?_, h4, h5, ?_, ?_, ?_, ?_, ?_⟩
    · rw [h1]; simp [trainBatch]
    · simp [h2]
    · intro p hp'
      rcases List.mem_cons.mp hp' with rfl | hp'
      · refine ⟨rfl, rfl, vaeForward_noise env.gen hp.numHidden s.weights s.training b.get s.gen, ?_, ?_⟩
        · simp only [if_true]; rw [← vaeForward_eq]
        · simp only [reconError]; rw [← vaeForward_eq]; rfl
      · exact h3 p hp'
    · rw [h6]; simp [trainBatch, Pass.lossPerRow]; ring
    · rw [h7]; simp [trainBatch, Pass.errorPerRow]; ring
    · rw [h8]; simp [trainBatch]; ring
    · refine ⟨rfl, _, ?_, h9⟩
      rw [if_pos rfl]
      refine ⟨s.opt, fun l => ?_⟩
      have hl : (fun W : Weights M M w => elboGaussian hp b.get
          (vaeForward env.gen hp.numHidden W s.training b.get s.gen).1 (some (W .covFulcon).weight)) =
        batchLoss hp ⟨e, true, b, s.weights, (vaeForward env.gen hp.numHidden s.weights s.training b.get s.gen).2.2,
          elboGaussian hp b.get (vaeForward env.gen hp.numHidden s.weights s.training b.get s.gen).1
            (some (s.weights .covFulcon).weight),
          reconError b.get (vaeForward env.gen hp.numHidden s.weights s.training b.get s.gen).1 false⟩ := by
        funext W
        unfold batchLoss
        rw [vaeForward_eq]
        congr 2
        cases s.training <;> rfl
      rw [← hl]
      exact ⟨rfl, rfl⟩
    · intro hs
      rw [h10 hs]
      simp [trainBatch, vaeForward, latentSample, hs]

theorem foldl_validBatch (env : NcfaEnv G O) (hp : Hyper) (step : Pass M w → Weights M M w → Weights M M w → Prop) (e : Nat)
    (vl : List (List (Row M))) (s : TrainState M w G O) (hs : s.training = false) (a : EpochAcc) :
    ∃ new : List (Pass M w), ∃ r, vl.foldl (validBatch env hp e) (s, a) = r ∧
      r.1.passes = s.passes ++ new ∧ new.map (·.batch) = vl ∧
      (∀ p ∈ new, p.epoch = e ∧ p.isTrain = false ∧ p.noise.isSome = false ∧ PassOk hp p) ∧
      r.1.training = false ∧ r.1.log = s.log ∧ r.1.gen = s.gen ∧
      r.2.lb = a.lb + (new.map Pass.lossPerRow).sum ∧ r.2.er = a.er + (new.map Pass.errorPerRow).sum ∧
      r.2.nbatch = a.nbatch + vl.length ∧ Evolves step s.weights new r.1.weights := by
  induction vl generalizing s a with
  | nil => exact ⟨[], (s, a), rfl, by simp, rfl, by simp, hs, rfl, rfl, by simp, by simp, by simp, rfl⟩
  | cons b vl ih =>
    obtain ⟨new, r, h0, h1, h2, h3, h4, h5, h5', h6, h7, h8, h9⟩ :=
      ih (validBatch env hp e (s, a) b).1 hs (validBatch env hp e (s, a) b).2
    refine ⟨⟨e, false, b, s.weights, (vaeForward env.gen hp.numHidden s.weights s.training b.get s.gen).2.2,
        elboGaussian (a := M) (b := M) hp b.get (vaeForward env.gen hp.numHidden s.weights s.training b.get s.gen).1
          none,
        reconError b.get (vaeForward env.gen hp.numHidden s.weights s.training b.get s.gen).1 false⟩ :: new, r, h0,
      ?_, ?_, ?_, h4, h5, ?_, ?_, ?_, ?_, ?_⟩
    · rw [h1]; simp [validBatch]
    · simp [h2]
    · intro p hp'
      rcases List.mem_cons.mp hp' with rfl | hp'
      · refine ⟨rfl, rfl, by rw [← hs]; exact vaeForward_noise env.gen hp.numHidden s.weights s.training b.get s.gen, ?_, ?_⟩
        · simp only; rw [← vaeForward_eq]; rfl
        · simp only [reconError]; rw [← vaeForward_eq]; rfl
      · exact h3 p hp'
    · rw [h5']; simp [validBatch, vaeForward, latentSample, hs]
    · rw [h6]; simp [validBatch, Pass.lossPerRow]; ring
    · rw [h7]; simp [validBatch, Pass.errorPerRow]; ring
    · rw [h8]; simp [validBatch]; ring
    · exact ⟨rfl, s.weights, rfl, h9⟩

theorem trainEpoch_ok (env : NcfaEnv G O) (hp : Hyper) (ps : List ParamId) (tl vl : List (List (Row M)))
    (htl : tl ≠ []) (hvl : vl ≠ []) (e : Nat) (s : TrainState M w G O) (h : Histories) :
    ∃ (T V : List (Pass M w)) (s' : TrainState M w G O),
      trainEpoch env hp ps tl vl e s h = (s', .ok
        { trainElbo := h.trainElbo ++ [average (T.map Pass.lossPerRow)]
          trainError := h.trainError ++ [average (T.map Pass.errorPerRow)]
          validElbo := h.validElbo ++ [average (V.map Pass.lossPerRow)]
          validError := h.validError ++ [average (V.map Pass.errorPerRow)] }) ∧
      s'.passes = s.passes ++ (T ++ V) ∧ T.map (·.batch) = tl ∧ V.map (·.batch) = vl ∧
      (∀ p ∈ T, p.epoch = e ∧ p.isTrain = true ∧ p.noise.isSome = s.training ∧ PassOk hp p) ∧
      (∀ p ∈ V, p.epoch = e ∧ p.isTrain = false ∧ p.noise.isSome = false ∧ PassOk hp p) ∧
      s'.training = false ∧
      s'.log = s.log ++ [.trainingOn e, .finishTraining e (average (T.map Pass.lossPerRow)),
        .finishValidation (average (V.map Pass.lossPerRow))] ∧
      Evolves (OptimizerStep env hp ps) s.weights (T ++ V) s'.weights ∧ (s.training = false → s'.gen = s.gen) := by
  obtain ⟨T, r, h0, h1, h2, h3, h4, h5, h6, h7, h8, h9, h10⟩ :=
    foldl_trainBatch env hp ps e tl { s with log := s.log ++ [.trainingOn e] } {}
  obtain ⟨V, q, g0, g1, g2, g3, g4, g5, g5', g6, g7, g8, g9⟩ :=
    foldl_validBatch env hp (OptimizerStep env hp ps) e vl
      { r.1 with
        opt := env.schedStep r.1.opt
        log := r.1.log ++ [.finishTraining e (r.2.lb / r.2.nbatch)]
        training := false } rfl {}
  have hT : (T.length : ℝ) = r.2.nbatch := by rw [h8, ← h2]; simp
  have hV : (V.length : ℝ) = q.2.nbatch := by rw [g8, ← g2]; simp
  have hn : r.2.nbatch ≠ 0 := by
    rw [h8]; simp; exact htl
  have hq : q.2.nbatch ≠ 0 := by
    rw [g8]; simp; exact hvl
  have e1 : average (T.map Pass.lossPerRow) = r.2.lb / r.2.nbatch := by
    rw [average, List.length_map, hT, h6]; simp
  have e2 : average (T.map Pass.errorPerRow) = r.2.er / r.2.nbatch := by
    rw [average, List.length_map, hT, h7]; simp
  have e3 : average (V.map Pass.lossPerRow) = q.2.lb / q.2.nbatch := by
    rw [average, List.length_map, hV, g6]; simp
  have e4 : average (V.map Pass.errorPerRow) = q.2.er / q.2.nbatch := by
    rw [average, List.length_map, hV, g7]; simp
  refine ⟨T, V, { q.1 with log := q.1.log ++ [.finishValidation (q.2.lb / q.2.nbatch)] }, ?_, ?_, h2, g2, h3, g3, g4, ?_,
    ?_, ?_⟩
  · rw [e1, e2, e3, e4]
    simp only [trainEpoch, h0, hn, if_false, validVae, g0, hq]
  · simp only [g1, h1, List.append_assoc]
  · simp only [g5, h5, e1, e3, List.append_assoc, List.cons_append, List.nil_append]
  · exact Evolves.append h9 g9
  · intro hs
    simp only [g5']
    exact h10 hs

/-- the passes of all epochs -/
theorem trainEpochs_ok (env : NcfaEnv G O) (hp : Hyper) (ps : List ParamId) (tl vl : List (List (Row M)))
    (es : List Nat) (hne : es = [] ∨ tl ≠ [] ∧ vl ≠ []) (hes : es.Nodup) (s : TrainState M w G O) (h : Histories) :
    ∃ (T V : Nat → List (Pass M w)) (s' : TrainState M w G O),
      trainEpochs env hp ps tl vl es s h = (s', .ok
        { trainElbo := h.trainElbo ++ es.map fun e => average ((T e).map Pass.lossPerRow)
          trainError := h.trainError ++ es.map fun e => average ((T e).map Pass.errorPerRow)
          validElbo := h.validElbo ++ es.map fun e => average ((V e).map Pass.lossPerRow)
          validError := h.validError ++ es.map fun e => average ((V e).map Pass.errorPerRow) }) ∧
      s'.passes = s.passes ++ es.flatMap (fun e => T e ++ V e) ∧
      (∀ e ∈ es, (T e).map (·.batch) = tl ∧ (V e).map (·.batch) = vl ∧
        (∀ p ∈ T e, p.epoch = e ∧ p.isTrain = true ∧
          p.noise.isSome = (decide (es.head? = some e) && s.training) ∧ PassOk hp p) ∧
        (∀ p ∈ V e, p.epoch = e ∧ p.isTrain = false ∧ p.noise.isSome = false ∧ PassOk hp p)) ∧
      s'.log = s.log ++ es.flatMap (fun e => [.trainingOn e, .finishTraining e (average ((T e).map Pass.lossPerRow)),
        .finishValidation (average ((V e).map Pass.lossPerRow))]) ∧
      Evolves (OptimizerStep env hp ps) s.weights (es.flatMap fun e => T e ++ V e) s'.weights ∧
      (s.training = false → s'.gen = s.gen ∧ s'.training = false) ∧ (es ≠ [] → s'.training = false) := by
  induction es generalizing s h with
  | nil => exact ⟨fun _ => [], fun _ => [], s, by simp [trainEpochs], by simp, by simp, by simp, rfl, fun hs => ⟨rfl, hs⟩,
      by simp⟩
  | cons e es ih =>
    rw [List.nodup_cons] at hes
    obtain ⟨htl, hvl⟩ := hne.resolve_left (by simp)
    obtain ⟨T1, V1, s1, a0, a1, a2, a3, a4, a5, a6, a7, a8, a9⟩ := trainEpoch_ok env hp ps tl vl htl hvl e s h
    obtain ⟨T, V, s2, b0, b1, b2, b3, b4, b5, b6⟩ := ih (Or.inr ⟨htl, hvl⟩) hes.2 s1 _
    have ne : ∀ e' ∈ es, e' ≠ e := by rintro e' he' rfl; exact hes.1 he'
    refine ⟨Function.update T e T1, Function.update V e V1, s2, ?_, ?_, ?_, ?_, ?_, ?_, ?_⟩
    · have hT : ∀ f : List (Pass M w) → ℝ, (es.map fun e' => f (Function.update T e T1 e')) = es.map fun e' => f (T e') := by
        intro f
        apply List.map_congr_left
        intro e' he'
        rw [Function.update_of_ne (ne e' he')]
      have hV : ∀ f : List (Pass M w) → ℝ, (es.map fun e' => f (Function.update V e V1 e')) = es.map fun e' => f (V e') := by
        intro f
        apply List.map_congr_left
        intro e' he'
        rw [Function.update_of_ne (ne e' he')]
      simp only [trainEpochs, a0, List.map_cons, Function.update_self]
      rw [b0, hT fun l => average (l.map Pass.lossPerRow), hT fun l => average (l.map Pass.errorPerRow),
        hV fun l => average (l.map Pass.lossPerRow), hV fun l => average (l.map Pass.errorPerRow)]
      simp only [List.append_assoc, List.cons_append, List.nil_append]
    · rw [b1, a1, List.flatMap_cons, Function.update_self, Function.update_self, List.append_assoc, List.append_assoc,
        List.append_assoc]
      congr 3
      apply List.flatMap_congr
      intro e' he'
      rw [Function.update_of_ne (ne e' he'), Function.update_of_ne (ne e' he')]
    · intro e' he'
      rcases List.mem_cons.mp he' with rfl | he'
      · rw [Function.update_self, Function.update_self]
        refine ⟨a2, a3, ?_, a5⟩
        intro p hp
        simpa using a4 p hp
      · rw [Function.update_of_ne (ne e' he'), Function.update_of_ne (ne e' he')]
        obtain ⟨c1, c2, c3, c4⟩ := b2 e' he'
        refine ⟨c1, c2, ?_, c4⟩
        intro p hp
        obtain ⟨d1, d2, d3, d4⟩ := c3 p hp
        refine ⟨d1, d2, ?_, d4⟩
        rw [d3, a6]
        have : ¬ (e = e') := fun h => ne e' he' h.symm
        simp [this]
    · rw [b3, a7, List.flatMap_cons, Function.update_self, Function.update_self, List.append_assoc]
      congr 2
      apply List.flatMap_congr
      intro e' he'
      rw [Function.update_of_ne (ne e' he'), Function.update_of_ne (ne e' he')]
    · rw [List.flatMap_cons, Function.update_self, Function.update_self]
      refine Evolves.append a8 ?_
      have : es.flatMap (fun e' => Function.update T e T1 e' ++ Function.update V e V1 e') =
          es.flatMap fun e' => T e' ++ V e' := by
        apply List.flatMap_congr
        intro e' he'
        rw [Function.update_of_ne (ne e' he'), Function.update_of_ne (ne e' he')]
      rw [this]; exact b4
    · intro hs
      obtain ⟨c1, c2⟩ := b5 a6
      exact ⟨by rw [c1, a9 hs], c2⟩
    · intro _
      exact (b5 a6).2

theorem trainEpochs_empty (env : NcfaEnv G O) (hp : Hyper) (ps : List ParamId) (tl vl : List (List (Row M)))
    (h0 : tl = [] ∨ vl = []) (e : Nat) (es : List Nat) (s : TrainState M w G O) (h : Histories) :
    (trainEpochs env hp ps tl vl (e :: es) s h).2 = .error .zeroDivision := by
  rcases h0 with rfl | rfl
  · simp [trainEpochs, trainEpoch]
  · simp only [trainEpochs, trainEpoch, validVae, List.foldl_nil]
    split
    · rename_i h1
      split at h1
      · cases h1; rfl
      · simp at h1; obtain ⟨_, rfl⟩ := h1; rfl
    · rename_i h1
      split at h1
      · cases h1
      · simp at h1

/-! ### batches -/

theorem batchesAux_flatten {α : Type} (n : Nat) (hn : n ≠ 0) (fuel : Nat) (l : List α) (h : l.length ≤ fuel) :
    (batchesAux n fuel l).flatten = l := by
  induction fuel generalizing l with
  | zero => have : l = [] := List.length_eq_zero_iff.mp (by omega); subst this; rfl
  | succ fuel ih =>
    cases l with
    | nil => rfl
    | cons a l =>
      rw [batchesAux, List.flatten_cons, ih]
      · exact List.take_append_drop n _
      · rw [List.length_drop]; simp only [List.length_cons] at h ⊢; omega
      · simp

theorem batches_flatten {α : Type} (n : Nat) (hn : n ≠ 0) (l : List α) : (batches n l).flatten = l :=
  batchesAux_flatten n hn _ l (Nat.le_refl _)

theorem batchesAux_get {α : Type} (n : Nat) (hn : n ≠ 0) (fuel : Nat) (l : List α) (h : l.length ≤ fuel) (i : Nat)
    (hi : i * n < l.length) : (batchesAux n fuel l)[i]? = some ((l.drop (i * n)).take n) := by
  induction fuel generalizing l i with
  | zero => omega
  | succ fuel ih =>
    cases l with
    | nil => simp at hi
    | cons a l =>
      rw [batchesAux]
      · cases i with
        | zero => simp
        | succ i =>
          rw [List.getElem?_cons_succ, ih]
          · rw [List.drop_drop]; congr 3; rw [Nat.add_mul]; omega
          · rw [List.length_drop]; simp only [List.length_cons] at h ⊢; omega
          · rw [List.length_drop]
            rw [Nat.add_mul] at hi; omega
      · simp

theorem batchesAux_length {α : Type} (n : Nat) (hn : n ≠ 0) (fuel : Nat) (l : List α) (h : l.length ≤ fuel) :
    (batchesAux n fuel l).length = (l.length + n - 1) / n := by
  induction fuel generalizing l with
  | zero =>
    have : l = [] := List.length_eq_zero_iff.mp (by omega)
    subst this
    simp only [batchesAux, List.length_nil]
    rw [Nat.div_eq_of_lt (by omega)]
  | succ fuel ih =>
    cases l with
    | nil =>
      simp only [batchesAux, List.length_nil]
      rw [Nat.div_eq_of_lt (by omega)]
    | cons a l =>
      rw [batchesAux, List.length_cons, ih]
      · rw [List.length_drop]
        by_cases hln : (a :: l).length ≤ n
        · have h1 : (a :: l).length - n = 0 := by omega
          have h2 : (a :: l).length + n - 1 = ((a :: l).length - 1) + n := by simp only [List.length_cons]; omega
          rw [h1, h2, Nat.add_div_right _ (by omega), Nat.div_eq_of_lt (by omega), Nat.div_eq_of_lt (by simp only [List.length_cons] at hln ⊢; omega)]
        · have h2 : (a :: l).length + n - 1 = ((a :: l).length - n + n - 1) + n := by omega
          rw [h2, Nat.add_div_right _ (by omega)]
      · rw [List.length_drop]; simp only [List.length_cons] at h ⊢; omega
      · simp

theorem batches_eq_nil {α : Type} (n : Nat) (l : List α) : batches n l = [] ↔ l = [] := by
  cases l with
  | nil => simp [batches, batchesAux]
  | cons a l => simp [batches, batchesAux]

end Medil

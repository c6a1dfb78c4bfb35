import Verif.Proofs.AdamW
import Verif.Props.Ncfa
import Verif.Props.NcfaData
import Verif.Props.VaeNet
/-
  C150-C154: the optimizer and the initial values of `NeuroCausalFactorAnalysis`.
-/
namespace Medil
open Finset
variable {M w : Nat} {G O : Type}

/-! ### C151: how far training can move a weight -/

/-- **C151**.  Whatever the data, the gradients and the number of epochs: in every pass and in the stored network, an
entry of a weight or bias differs in size from its random initial value by at most 7.3 times the sum of the learning
rates of the optimizer steps. -/
theorem C151_bounded_by_rates (env : NcfaEnv G O) (lr : ℝ) (hlr : 0 ≤ lr) (hlr' : lr ≤ 100000) (grad : Autograd)
    (d : Dataset M) (split : Option (List Int × List Int)) (st : NState M) (wd : NWorld G)
    (h : (ncfaFit (withAdamW env lr grad) d split st wd).2.2.2 = .ok ()) :
    ∃ W : Weights M M st.hp.width,
      (ncfaFit (withAdamW env lr grad) d split st wd).1.vae =
        some ⟨st.hp.width, st.hp.numHidden, W, decide (st.hp.numEpochs = 0)⟩ ∧
      ∀ V, (V = W ∨ ∃ p ∈ (ncfaFit (withAdamW env lr grad) d split st wd).2.2.1, V = p.weights) → ∀ l,
        (∀ o i, |(V l).weight o i| ≤ |((env.gen.init M M st.hp.numHidden st.hp.width wd.torch).1 l).weight o i| +
          73 / 10 * rateSum lr (ncfaFit (withAdamW env lr grad) d split st wd).2.2.1) ∧
        ∀ o, |(V l).bias o| ≤ |((env.gen.init M M st.hp.numHidden st.hp.width wd.torch).1 l).bias o| +
          73 / 10 * rateSum lr (ncfaFit (withAdamW env lr grad) d split st wd).2.2.1 := by
  rcases ncfaFit_cases (withAdamW env lr grad) d split st wd with ⟨e, _, h2⟩ | ⟨t, v, _, _, h3⟩ |
    ⟨t, v, _, _, _, _, r, h5⟩ | ⟨t, v, h1, h2, h3, r, hist, h4, ok, h5⟩
  · rw [h2] at h; cases h
  · rw [h3] at h; cases h
  · rw [h5] at h; cases h
  · have inv := adamInv_final env lr hlr hlr' grad st.hp _ _ wd.torch r hist h4
    rw [h5]
    refine ⟨r.weights, by rw [ok.mode], fun V hV l => ?_⟩
    have key : ∀ c o i, |tensorEntry V c o i| ≤
        |tensorEntry (env.gen.init M M st.hp.numHidden st.hp.width wd.torch).1 c o i| + 73 / 10 * rateSum lr r.passes := by
      rcases hV with rfl | ⟨p, hp, rfl⟩
      · exact inv.cur
      · exact inv.past p hp
    refine ⟨fun o i => ?_, fun o => ?_⟩
    · have := key (.weight l) o i
      simpa only [tensorEntry, o.isLt, i.isLt, and_self, dite_true] using this
    · have := key (.bias l) o 0
      simpa only [tensorEntry, o.isLt, dite_true] using this

/-- **C151, distance**: every entry stays within `(7.3 + |initial value| / 100000) ·` (sum of the learning rates) of its
initial value. -/
theorem C151_distance (env : NcfaEnv G O) (lr : ℝ) (hlr : 0 ≤ lr) (hlr' : lr ≤ 100000) (grad : Autograd)
    (d : Dataset M) (split : Option (List Int × List Int)) (st : NState M) (wd : NWorld G)
    (h : (ncfaFit (withAdamW env lr grad) d split st wd).2.2.2 = .ok ()) :
    ∃ W : Weights M M st.hp.width,
      (ncfaFit (withAdamW env lr grad) d split st wd).1.vae =
        some ⟨st.hp.width, st.hp.numHidden, W, decide (st.hp.numEpochs = 0)⟩ ∧
      ∀ V, (V = W ∨ ∃ p ∈ (ncfaFit (withAdamW env lr grad) d split st wd).2.2.1, V = p.weights) → ∀ l,
        let W₀ := (env.gen.init M M st.hp.numHidden st.hp.width wd.torch).1
        (∀ o i, |(V l).weight o i - (W₀ l).weight o i| ≤ (73 / 10 + |(W₀ l).weight o i| / 100000) *
          rateSum lr (ncfaFit (withAdamW env lr grad) d split st wd).2.2.1) ∧
        ∀ o, |(V l).bias o - (W₀ l).bias o| ≤ (73 / 10 + |(W₀ l).bias o| / 100000) *
          rateSum lr (ncfaFit (withAdamW env lr grad) d split st wd).2.2.1 := by
  rcases ncfaFit_cases (withAdamW env lr grad) d split st wd with ⟨e, _, h2⟩ | ⟨t, v, _, _, h3⟩ |
    ⟨t, v, _, _, _, _, r, h5⟩ | ⟨t, v, h1, h2, h3, r, hist, h4, ok, h5⟩
  · rw [h2] at h; cases h
  · rw [h3] at h; cases h
  · rw [h5] at h; cases h
  · have inv := adamInv_final env lr hlr hlr' grad st.hp _ _ wd.torch r hist h4
    rw [h5]
    refine ⟨r.weights, by rw [ok.mode], fun V hV l => ⟨fun o i => ?_, fun o => ?_⟩⟩
    · have := inv.dist V hV (.weight l) o i
      simpa only [tensorEntry, o.isLt, i.isLt, and_self, dite_true] using this
    · have := inv.dist V hV (.bias l) o 0
      simpa only [tensorEntry, o.isLt, dite_true] using this

theorem rateSum_eq (lr : ℝ) (n : Nat) (tl vl : List (List (Row M))) (ps : List (Pass M w))
    (h : ps.map (fun p => (p.epoch, p.isTrain, p.batch)) =
      (List.range n).flatMap fun e => tl.map (fun b => (e, true, b)) ++ vl.map (fun b => (e, false, b))) :
    rateSum lr ps = tl.length * lr * ∑ e ∈ range n, (9 / 10 : ℝ) ^ (e / 50) := by
  have h1 : rateSum lr ps = (((ps.map fun p => (p.epoch, p.isTrain, p.batch)).filter fun q => q.2.1).map
      fun q => lr * (9 / 10) ^ (q.1 / 50)).sum := by
    rw [List.filter_map, List.map_map]; rfl
  rw [h1, h]
  clear h h1
  induction n with
  | zero => simp
  | succ n ih =>
    rw [List.range_succ, List.flatMap_append, List.filter_append, List.map_append, List.sum_append, ih, sum_range_succ]
    simp [List.filter_map, Function.comp_def]
    ring

/-- **C151, for any number of epochs**: the bound is 3650 times the learning rate times the number of batches per
epoch (with the default learning rate 0.005 and one batch: 18.25). -/
theorem C151_any_number_of_epochs (env : NcfaEnv G O) (lr : ℝ) (hlr : 0 ≤ lr) (hlr' : lr ≤ 100000) (grad : Autograd)
    (d : Dataset M) (split : Option (List Int × List Int)) (st : NState M) (wd : NWorld G)
    (h : (ncfaFit (withAdamW env lr grad) d split st wd).2.2.2 = .ok ()) :
    ∃ W : Weights M M st.hp.width,
      (ncfaFit (withAdamW env lr grad) d split st wd).1.vae =
        some ⟨st.hp.width, st.hp.numHidden, W, decide (st.hp.numEpochs = 0)⟩ ∧
      ∀ V, (V = W ∨ ∃ p ∈ (ncfaFit (withAdamW env lr grad) d split st wd).2.2.1, V = p.weights) → ∀ l,
        (∀ o i, |(V l).weight o i| ≤ |((env.gen.init M M st.hp.numHidden st.hp.width wd.torch).1 l).weight o i| +
          3650 * lr * (passesOf (ncfaFit (withAdamW env lr grad) d split st wd).2.2.1 0 true).length) ∧
        ∀ o, |(V l).bias o| ≤ |((env.gen.init M M st.hp.numHidden st.hp.width wd.torch).1 l).bias o| +
          3650 * lr * (passesOf (ncfaFit (withAdamW env lr grad) d split st wd).2.2.1 0 true).length := by
  obtain ⟨W, hW, hB⟩ := C151_bounded_by_rates env lr hlr hlr' grad d split st wd h
  refine ⟨W, hW, fun V hV l => ?_⟩
  have hle : 73 / 10 * rateSum lr (ncfaFit (withAdamW env lr grad) d split st wd).2.2.1 ≤
      3650 * lr * (passesOf (ncfaFit (withAdamW env lr grad) d split st wd).2.2.1 0 true).length := by
    rcases ncfaFit_cases (withAdamW env lr grad) d split st wd with ⟨e, _, h2⟩ | ⟨t, v, _, _, h3⟩ |
      ⟨t, v, _, _, _, _, r, h5⟩ | ⟨t, v, h1, h2, h3, r, hist, h4, ok, h5⟩
    · rw [h2] at h; cases h
    · rw [h3] at h; cases h
    · rw [h5] at h; cases h
    · rw [h5]
      dsimp only
      rw [rateSum_eq lr _ _ _ _ ok.shape]
      by_cases hn : st.hp.numEpochs = 0
      · rw [hn, range_zero, sum_empty, mul_zero, mul_zero]; positivity
      · rw [← (ok.batchesOf 0 (by omega)).1, List.length_map]
        have := sum_rates_le st.hp.numEpochs
        have hc : 0 ≤ ((passesOf r.passes 0 true).length : ℝ) * lr := by positivity
        nlinarith [mul_le_mul_of_nonneg_left this hc]
  obtain ⟨h1, h2⟩ := hB V hV l
  exact ⟨fun o i => (h1 o i).trans (by linarith), fun o => (h2 o).trans (by linarith)⟩

/-! ### C150: weights outside the mask -/

/-- the loss of a batch does not depend on the masked entries of the output layers -/
theorem batchLoss_unused (gen : TorchGen G) (hp : Hyper) (t : Bool) (b : List (Row M)) (g : G) (l : LayerId)
    (hl : l = .meanOutput ∨ l = .covOutput) (o : Fin (l.out M M w)) (i : Fin (l.inn M M w)) (hoi : o.val ≠ i.val / w) :
    UnusedWeight (fun W : Weights M M w => elboGaussian hp b.get (vaeForward gen hp.numHidden W t b.get g).1
      (some (W .covFulcon).weight)) l o i := by
  intro W W' h1 h2 h3
  have e1 : ∀ x, encode W x = encode W' x := by
    intro x
    simp only [encode]
    rw [h1 .enc1 (by rcases hl with rfl | rfl <;> simp), h1 .enc2 (by rcases hl with rfl | rfl <;> simp),
      h1 .fcMu (by rcases hl with rfl | rfl <;> simp), h1 .fcLogvar (by rcases hl with rfl | rfl <;> simp)]
  have hid1 : (fun k => W (.meanHidden k)) = fun k => W' (.meanHidden k) := by
    funext k; exact h1 _ (by rcases hl with rfl | rfl <;> simp)
  have hid2 : (fun k => W (.covHidden k)) = fun k => W' (.covHidden k) := by
    funext k; exact h1 _ (by rcases hl with rfl | rfl <;> simp)
  have f1 := h1 .meanFulcon (by rcases hl with rfl | rfl <;> simp)
  have f2 := h1 .covFulcon (by rcases hl with rfl | rfl <;> simp)
  have out : ∀ (A B : Layer (M * w) M) (o : Fin M) (i : Fin (M * w)), o.val ≠ i.val / w → A.bias = B.bias →
      (∀ o' i', ¬ (o' = o ∧ i' = i) → A.weight o' i' = B.weight o' i') →
      ∀ x, A.sparse (outputMask M w) x = B.sparse (outputMask M w) x := by
    intro A B o i hoi hb hw x
    simp only [Layer.sparse, hb]
    congr 1
    funext o' i'
    by_cases hh : o' = o ∧ i' = i
    · simp only [outputMask, hh.1, hh.2, if_neg hoi, mul_zero]
    · rw [hw o' i' hh]
  have e2 : ∀ z, decode hp.numHidden W z = decode hp.numHidden W' z := by
    intro z
    simp only [decode, decodeHead, f1, f2, hid1, hid2]
    rcases hl with rfl | rfl
    · rw [h1 .covOutput (by simp), out (W .meanOutput) (W' .meanOutput) o i hoi h2 h3]
    · rw [h1 .meanOutput (by simp), out (W .covOutput) (W' .covOutput) o i hoi h2 h3]
  have e3 : (vaeForward gen hp.numHidden W t b.get g).1 = (vaeForward gen hp.numHidden W' t b.get g).1 := by
    simp only [vaeForward, e1, e2]
  simp only [e3, f2]

theorem param_output (H : Nat) (l : LayerId) (hl : l = .meanOutput ∨ l = .covOutput) :
    .weight l ∈ (vaeObj H).parameters := by
  rw [parameters_vae]
  rcases hl with rfl | rfl <;> simp

/-- **C150**.  If the gradient of a function is 0 at weights that the function does not depend on, then training only
multiplies the weights of the output layers outside the mask (unit `i` belongs to another measurement than output `o`)
by the decay factors `1 - 0.00001 · learning rate` of the optimizer steps. -/
theorem C150_masked_weights (env : NcfaEnv G O) (lr : ℝ) (grad : Autograd) (hg : ZeroOnUnused grad)
    (d : Dataset M) (split : Option (List Int × List Int)) (st : NState M) (wd : NWorld G)
    (h : (ncfaFit (withAdamW env lr grad) d split st wd).2.2.2 = .ok ()) :
    ∃ W : Weights M M st.hp.width,
      (ncfaFit (withAdamW env lr grad) d split st wd).1.vae =
        some ⟨st.hp.width, st.hp.numHidden, W, decide (st.hp.numEpochs = 0)⟩ ∧
      ∀ l, l = .meanOutput ∨ l = .covOutput → ∀ o i, o.val ≠ i.val / st.hp.width →
        (W l).weight o i = ((env.gen.init M M st.hp.numHidden st.hp.width wd.torch).1 l).weight o i *
          ((trainingPasses (ncfaFit (withAdamW env lr grad) d split st wd).2.2.1).map
            fun p => 1 - 1 / 100000 * (lr * (9 / 10) ^ (p.epoch / 50))).prod := by
  rcases ncfaFit_cases (withAdamW env lr grad) d split st wd with ⟨e, _, h2⟩ | ⟨t, v, _, _, h3⟩ |
    ⟨t, v, _, _, _, _, r, h5⟩ | ⟨t, v, h1, h2, h3, r, hist, h4, ok, h5⟩
  · rw [h2] at h; cases h
  · rw [h3] at h; cases h
  · rw [h5] at h; cases h
  · rw [h5]
    refine ⟨r.weights, by rw [ok.mode], fun l hl o i hoi => ?_⟩
    let P : Nat → TrainState M st.hp.width G AdamState → Prop := fun e s =>
      s.opt.sched = e ∧ s.opt.m (.weight l) o i = 0 ∧
      (s.weights l).weight o i = ((env.gen.init M M st.hp.numHidden st.hp.width wd.torch).1 l).weight o i *
          ((trainingPasses s.passes).map fun p => 1 - 1 / 100000 * (lr * (9 / 10) ^ (p.epoch / 50))).prod
    have key : P st.hp.numEpochs r := by
      refine trainVae_invariant (withAdamW env lr grad) st.hp _ _ wd.torch P ?_ ?_ ?_ ?_ r hist h4
      · refine ⟨rfl, rfl, ?_⟩
        simp [trainStart, withAdamW, trainingPasses]
      · rintro e s a b ⟨i1, i2, i3⟩
        have hz := hg M st.hp.width _ s.weights l o i
          (batchLoss_unused (withAdamW env lr grad).gen st.hp s.training b s.gen l hl o i hoi)
        have hm : nextM (s.opt.m (.weight l) o i) (tensorEntry (grad M st.hp.width (fun W : Weights M M st.hp.width =>
            elboGaussian st.hp b.get (vaeForward (withAdamW env lr grad).gen st.hp.numHidden W s.training b.get s.gen).1
              (some (W .covFulcon).weight)) s.weights) (.weight l) o i) = 0 := by
          simp only [tensorEntry, o.isLt, i.isLt, and_self, dite_true]
          rw [i2, hz]; simp [nextM]
        refine ⟨i1, hm, ?_⟩
        have hw : ((trainBatch (withAdamW env lr grad) st.hp (vaeObj st.hp.numHidden).parameters e (s, a) b).1.weights l).weight o i =
            (s.weights l).weight o i * (1 - schedLr lr s.opt.sched * (1 / 100000)) := by
          have : ((trainBatch (withAdamW env lr grad) st.hp (vaeObj st.hp.numHidden).parameters e (s, a) b).1.weights l).weight o i =
              adamEntry (schedLr lr s.opt.sched) (s.opt.t + 1) (nextM (s.opt.m (.weight l) o i) (tensorEntry (grad M st.hp.width (fun W : Weights M M st.hp.width =>
            elboGaussian st.hp b.get (vaeForward (withAdamW env lr grad).gen st.hp.numHidden W s.training b.get s.gen).1
              (some (W .covFulcon).weight)) s.weights) (.weight l) o i)) (nextV (s.opt.v (.weight l) o i) (tensorEntry (grad M st.hp.width (fun W : Weights M M st.hp.width =>
            elboGaussian st.hp b.get (vaeForward (withAdamW env lr grad).gen st.hp.numHidden W s.training b.get s.gen).1
              (some (W .covFulcon).weight)) s.weights) (.weight l) o i)) ((s.weights l).weight o i) := by
            simp only [trainBatch, writeParams, param_output st.hp.numHidden l hl, if_true]
            rfl
          rw [this, hm]
          simp [adamEntry]
        rw [hw, i3, i1]
        simp only [trainBatch, trainingPasses, List.filter_append, List.map_append, List.prod_append, schedLr]
        simp
        ring
      · rintro e s s' ⟨i1, i2, i3⟩ hw ho hp'
        refine ⟨by rw [ho]; exact i1, by rw [ho]; exact i2, ?_⟩
        rw [hw, i3]
        rcases hp' with hp' | ⟨p, hp1, -, hp'⟩
        · rw [hp']
        · rw [hp']; simp [trainingPasses, hp1]
      · rintro e s ⟨i1, i2, i3⟩
        exact ⟨by simp [withAdamW, i1], i2, i3⟩
    exact key.2.2

/-- **C150, the factor**: with `B` training batches per epoch it is `(∏ₑ (1 - 0.00001 · lr · 0.9^⌊e/50⌋))^B`. -/
theorem C150_decay_factor (env : NcfaEnv G O) (lr : ℝ) (d : Dataset M) (split : Option (List Int × List Int)) (st : NState M)
    (wd : NWorld G) (h : (ncfaFit env d split st wd).2.2.2 = .ok ()) :
    ((trainingPasses (ncfaFit env d split st wd).2.2.1).map
      fun p => 1 - 1 / 100000 * (lr * (9 / 10) ^ (p.epoch / 50))).prod =
    (∏ e ∈ range st.hp.numEpochs, (1 - 1 / 100000 * (lr * (9 / 10 : ℝ) ^ (e / 50)))) ^
      (passesOf (ncfaFit env d split st wd).2.2.1 0 true).length := by
  have gen : ∀ (n : Nat) (tl vl : List (List (Row M))) (ps : List (Pass M st.hp.width)),
      ps.map (fun p => (p.epoch, p.isTrain, p.batch)) =
        (List.range n).flatMap (fun e => tl.map (fun b => (e, true, b)) ++ vl.map (fun b => (e, false, b))) →
      ((trainingPasses ps).map fun p => 1 - 1 / 100000 * (lr * (9 / 10) ^ (p.epoch / 50))).prod =
      (∏ e ∈ range n, (1 - 1 / 100000 * (lr * (9 / 10 : ℝ) ^ (e / 50)))) ^ tl.length := by
    intro n tl vl ps h
    have h1 : (trainingPasses ps).map (fun p => 1 - 1 / 100000 * (lr * (9 / 10) ^ (p.epoch / 50))) =
        ((ps.map fun p => (p.epoch, p.isTrain, p.batch)).filter fun q => q.2.1).map
          fun q => 1 - 1 / 100000 * (lr * (9 / 10 : ℝ) ^ (q.1 / 50)) := by
      rw [List.filter_map, List.map_map]; rfl
    rw [h1, h]
    clear h h1
    induction n with
    | zero => simp
    | succ n ih =>
      rw [List.range_succ, List.flatMap_append, List.filter_append, List.map_append, List.prod_append, ih,
        prod_range_succ, mul_pow]
      simp [List.filter_map, Function.comp_def]
  rcases ncfaFit_cases env d split st wd with ⟨e, _, h2⟩ | ⟨t, v, _, _, h3⟩ |
    ⟨t, v, _, _, _, _, r, h5⟩ | ⟨t, v, h1, h2, h3, r, hist, h4, ok, h5⟩
  · rw [h2] at h; cases h
  · rw [h3] at h; cases h
  · rw [h5] at h; cases h
  · rw [h5]
    dsimp only
    rw [gen _ _ _ _ ok.shape]
    by_cases hn : st.hp.numEpochs = 0
    · rw [hn]; simp
    · rw [← (ok.batchesOf 0 (by omega)).1, List.length_map]

/-- the gradient by partial derivatives -/
noncomputable def derivGrad : Autograd := fun _ _ f W l =>
  { weight := fun o i => deriv (fun t => f fun l' => if h : l' = l then
      { weight := Function.update (W l').weight (h ▸ o) (Function.update ((W l').weight (h ▸ o)) (h ▸ i) t)
        bias := (W l').bias } else W l') ((W l).weight o i)
    bias := fun o => deriv (fun t => f fun l' => if h : l' = l then
      { weight := (W l').weight, bias := Function.update (W l').bias (h ▸ o) t } else W l') ((W l).bias o) }

/-- the condition of C150 holds for partial derivatives -/
theorem derivGrad_zero : ZeroOnUnused derivGrad := by
  intro M w f W l o i h
  have : (fun t => f fun l' => if h : l' = l then
      { weight := Function.update (W l').weight (h ▸ o) (Function.update ((W l').weight (h ▸ o)) (h ▸ i) t)
        bias := (W l').bias } else W l') = fun _ => f W := by
    funext t
    apply h
    · intro l' hl'; simp [hl']
    · simp
    · intro o' i' hoi
      simp only [dite_true]
      by_cases ho : o' = o
      · subst ho
        rw [Function.update_self, Function.update_of_ne (fun hi => hoi ⟨rfl, hi⟩)]
      · rw [Function.update_of_ne ho]
  simp only [derivGrad]
  rw [this]
  exact deriv_const _ _

/-- **C150**, consequence: for learning rates below 100000 such a weight is zero in the stored network only if its
random initial value was zero; so the stored output layers are not sparse matrices. -/
theorem C150_not_sparse (env : NcfaEnv G O) (lr : ℝ) (hlr : 0 ≤ lr) (hlr' : lr < 100000) (grad : Autograd)
    (hg : ZeroOnUnused grad) (d : Dataset M) (split : Option (List Int × List Int)) (st : NState M) (wd : NWorld G)
    (h : (ncfaFit (withAdamW env lr grad) d split st wd).2.2.2 = .ok ()) :
    ∃ W : Weights M M st.hp.width,
      (ncfaFit (withAdamW env lr grad) d split st wd).1.vae =
        some ⟨st.hp.width, st.hp.numHidden, W, decide (st.hp.numEpochs = 0)⟩ ∧
      ∀ l, l = .meanOutput ∨ l = .covOutput → ∀ o i, o.val ≠ i.val / st.hp.width →
        ((W l).weight o i = 0 ↔ ((env.gen.init M M st.hp.numHidden st.hp.width wd.torch).1 l).weight o i = 0) := by
  obtain ⟨W, hW, hB⟩ := C150_masked_weights env lr grad hg d split st wd h
  refine ⟨W, hW, fun l hl o i hoi => ?_⟩
  rw [hB l hl o i hoi, mul_eq_zero]
  refine ⟨fun h' => h'.resolve_right ?_, Or.inl⟩
  intro hz
  rw [List.prod_eq_zero_iff, List.mem_map] at hz
  obtain ⟨p, -, hz⟩ := hz
  have : lr * (9 / 10) ^ (p.epoch / 50) ≤ lr := schedLr_le hlr p.epoch
  linarith

/-! ### C153: the initial values -/

theorem kaimingBound_eq (n : Nat) : kaimingBound n = 1 / Real.sqrt n := by
  unfold kaimingBound
  rw [Real.sq_sqrt (by norm_num), ← mul_div_assoc, ← Real.sqrt_mul (by norm_num)]
  norm_num

theorem biasBound_eq (n : Nat) : biasBound n = 1 / Real.sqrt n := by
  unfold biasBound
  split
  · rfl
  · rename_i h
    have : n = 0 := by omega
    rw [this]; simp

/-- **C153**.  In a new network, every weight and bias of a layer with `n` inputs lies in `[-1/√n, 1/√n)`: `n` is the
number of measurements for the encoder, the number of latents for the first layer of the decoder, and the number of
hidden units for the others. -/
theorem C153_initial_values (ug : UniformGen G) (L M H w : Nat) (g : G) (l : LayerId) (n : Nat)
    (hn : n = match l with
      | .enc1 | .enc2 | .fcMu | .fcLogvar => M
      | .meanFulcon | .covFulcon => L
      | _ => M * w) :
    (∀ o i, -(1 / Real.sqrt n) ≤ ((ug.torch.init L M H w g).1 l).weight o i ∧
      (0 < n → ((ug.torch.init L M H w g).1 l).weight o i < 1 / Real.sqrt n)) ∧
    ∀ o, -(1 / Real.sqrt n) ≤ ((ug.torch.init L M H w g).1 l).bias o ∧
      (0 < n → ((ug.torch.init L M H w g).1 l).bias o < 1 / Real.sqrt n) := by
  have hn' : l.inn L M w = n := by rw [hn]; cases l <;> rfl
  have key : ∀ u : ℝ, 0 ≤ u → u < 1 → -(1 / Real.sqrt n) ≤ uniformIn (-(1 / Real.sqrt n)) (1 / Real.sqrt n) u ∧
      (0 < n → uniformIn (-(1 / Real.sqrt n)) (1 / Real.sqrt n) u < 1 / Real.sqrt n) := by
    intro u h0 h1
    have hb : 0 ≤ 1 / Real.sqrt n := by positivity
    refine ⟨by unfold uniformIn; nlinarith, fun hpos => ?_⟩
    have hb : 0 < 1 / Real.sqrt n := by
      have : (0 : ℝ) < n := by exact_mod_cast hpos
      positivity
    unfold uniformIn; nlinarith
  refine ⟨fun o i => ?_, fun o => ?_⟩
  · have := key _ (ug.range g (.weight l) o i).1 (ug.range g (.weight l) o i).2
    simp only [UniformGen.torch, resetParameters, kaimingBound_eq, hn']
    exact this
  · have := key _ (ug.range g (.bias l) o 0).1 (ug.range g (.bias l) o 0).2
    simp only [UniformGen.torch, resetParameters, biasBound_eq, hn']
    exact this

theorem initial_abs (ug : UniformGen G) (L M H w : Nat) (g : G) (l : LayerId) :
    (∀ o i, |((ug.torch.init L M H w g).1 l).weight o i| ≤ 1 / Real.sqrt (l.inn L M w)) ∧
    ∀ o, |((ug.torch.init L M H w g).1 l).bias o| ≤ 1 / Real.sqrt (l.inn L M w) := by
  obtain ⟨h1, h2⟩ := C153_initial_values ug L M H w g l (l.inn L M w) (by cases l <;> rfl)
  have hz : ∀ x : ℝ, -(1 / Real.sqrt (l.inn L M w : ℕ)) ≤ x →
      (0 < l.inn L M w → x < 1 / Real.sqrt (l.inn L M w : ℕ)) → l.inn L M w ≠ 0 → |x| ≤ 1 / Real.sqrt (l.inn L M w : ℕ) :=
    fun x a b c => abs_le.mpr ⟨a, (b (by omega)).le⟩
  by_cases hc : l.inn L M w = 0
  · have hb0 : (1 : ℝ) / Real.sqrt ((0 : ℕ) : ℝ) = 0 := by simp
    refine ⟨fun o i => absurd i.isLt (by omega), fun o => ?_⟩
    simp only [UniformGen.torch, resetParameters, biasBound_eq, hc, hb0, uniformIn]
    simp
  · exact ⟨fun o i => hz _ (h1 o i).1 (h1 o i).2 hc, fun o => hz _ (h2 o).1 (h2 o).2 hc⟩

theorem weights_of_vae (env : NcfaEnv G O) (d : Dataset M) (split : Option (List Int × List Int)) (st : NState M)
    (wd : NWorld G) (h : (ncfaFit env d split st wd).2.2.2 = .ok ()) (W : Weights M M st.hp.width) (b : Bool)
    (hW : (ncfaFit env d split st wd).1.vae = some ⟨st.hp.width, st.hp.numHidden, W, b⟩) :
    (ncfaFit env d split st wd).1.weights = some ⟨st.hp.width, fun i o => (W .covFulcon).weight o i⟩ := by
  rcases ncfaFit_cases env d split st wd with ⟨e, _, h2⟩ | ⟨t, v, _, _, h3⟩ |
    ⟨t, v, _, _, _, _, r, h5⟩ | ⟨t, v, h1, h2, h3, r, hist, h4, ok, h5⟩
  · rw [h2] at h; cases h
  · rw [h3] at h; cases h
  · rw [h5] at h; cases h
  · rw [h5] at hW ⊢
    simp only [Option.some.injEq, VaeModel.mk.injEq, heq_eq_eq, true_and] at hW
    rw [hW.1]

/-! ### C154: what a trained network can reconstruct -/

/-- **C154**.  Whatever data NCFA was fitted to and for however many epochs: the entries of `parameters.weights` are at
most `1/√M + 3650·lr·B` in absolute value, and the stored network reconstructs, from any input and in either mode, only
values with absolute value at most `(w + 1)·(1/√(M·w) + 3650·lr·B)`, where `B` is the number of training batches of an
epoch. -/
theorem C154_range_of_the_fit (ug : UniformGen G) (env : NcfaEnv G O) (henv : env.gen = ug.torch) (lr : ℝ) (hlr : 0 ≤ lr)
    (hlr' : lr ≤ 100000) (grad : Autograd) (d : Dataset M) (split : Option (List Int × List Int)) (st : NState M)
    (wd : NWorld G) (h : (ncfaFit (withAdamW env lr grad) d split st wd).2.2.2 = .ok ()) :
    ∃ (W : Weights M M st.hp.width) (A : Fin M → Fin (M * st.hp.width) → ℝ) (B : ℕ),
      (ncfaFit (withAdamW env lr grad) d split st wd).1.vae =
        some ⟨st.hp.width, st.hp.numHidden, W, decide (st.hp.numEpochs = 0)⟩ ∧
      (ncfaFit (withAdamW env lr grad) d split st wd).1.weights = some ⟨st.hp.width, A⟩ ∧
      B = (passesOf (ncfaFit (withAdamW env lr grad) d split st wd).2.2.1 0 true).length ∧
      (∀ i o, |A i o| ≤ 1 / Real.sqrt M + 3650 * lr * B) ∧
      ∀ (N : Nat) (x : Fin N → Fin M → ℝ) (training : Bool) (g : G) (k : Fin N) (j : Fin M),
        |(vaeForward env.gen st.hp.numHidden W training x g).1.recon k j| ≤
          (st.hp.width + 1) * (1 / Real.sqrt (M * st.hp.width : ℕ) + 3650 * lr * B) := by
  obtain ⟨W, hW, hB⟩ := C151_any_number_of_epochs env lr hlr hlr' grad d split st wd h
  have hA := weights_of_vae _ d split st wd h W _ hW
  refine ⟨W, _, _, hW, hA, rfl, fun i o => ?_, fun N x training g k j => ?_⟩
  · refine ((hB W (.inl rfl) .covFulcon).1 o i).trans ?_
    rw [henv]
    exact add_le_add_left ((initial_abs ug M M st.hp.numHidden st.hp.width wd.torch .covFulcon).1 o i) _
  · have hr := (C98_decoder_range env.gen st.hp.numHidden W training x g k j).1
    set c := 1 / Real.sqrt (M * st.hp.width : ℕ) + 3650 * lr *
      ((passesOf (ncfaFit (withAdamW env lr grad) d split st wd).2.2.1 0 true).length : ℝ) with hc
    have hb : |(W .meanOutput).bias j| ≤ c := by
      refine ((hB W (.inl rfl) .meanOutput).2 j).trans ?_
      rw [henv]
      exact add_le_add_left ((initial_abs ug M M st.hp.numHidden st.hp.width wd.torch .meanOutput).2 j) _
    have hw : ∀ b, |(W .meanOutput).weight j b| ≤ c := by
      intro b
      refine ((hB W (.inl rfl) .meanOutput).1 j b).trans ?_
      rw [henv]
      exact add_le_add_left ((initial_abs ug M M st.hp.numHidden st.hp.width wd.torch .meanOutput).1 j b) _
    have hcard : ((univ.filter fun b : Fin (M * st.hp.width) =>
        j.val * st.hp.width ≤ b.val ∧ b.val < (j.val + 1) * st.hp.width).card : ℝ) ≤ st.hp.width := by
      have : (univ.filter fun b : Fin (M * st.hp.width) =>
          j.val * st.hp.width ≤ b.val ∧ b.val < (j.val + 1) * st.hp.width).card ≤ st.hp.width := by
        refine (Finset.card_le_card_of_injOn (t := Finset.Ico (j.val * st.hp.width) ((j.val + 1) * st.hp.width))
          (fun b => b.val) (fun b hb => by simpa using hb) (fun a _ b _ hab => Fin.ext hab)).trans ?_
        rw [Nat.card_Ico, Nat.add_mul]; omega
      exact_mod_cast this
    have hc0 : 0 ≤ c := (abs_nonneg _).trans hb
    have hsum : ∑ b : Fin (M * st.hp.width) with j.val * st.hp.width ≤ b.val ∧ b.val < (j.val + 1) * st.hp.width,
        |(W .meanOutput).weight j b| ≤ st.hp.width * c := by
      refine (Finset.sum_le_card_nsmul _ _ c (fun b _ => hw b)).trans ?_
      rw [nsmul_eq_mul]
      exact mul_le_mul_of_nonneg_right hcard hc0
    have := abs_sub_abs_le_abs_sub ((vaeForward env.gen st.hp.numHidden W training x g).1.recon k j) ((W .meanOutput).bias j)
    linarith

/-! ### C152: the structure is not used -/

/-- **C152**, the claim: after `fit` on an object whose biadjacency matrix has one latent per measurement (width 1), the
fitted weight between a latent and a measurement that the structure does not connect is 0 -/
def C152_statement : Prop :=
  ∀ (G O : Type) (env : NcfaEnv G O) (M : Nat) (d : Dataset M) (st : NState M) (wd : NWorld G)
    (A : Fin M → Fin (M * 1) → ℝ) (hb : st.biadj.length = M),
    (ncfaFit env d none st wd).2.2.2 = .ok () → (ncfaFit env d none st wd).1.weights = some ⟨1, A⟩ →
    ∀ i j : Fin M, (st.biadj.get (i.cast hb.symm)) j = false → A i (j.cast (Nat.mul_one M).symm) = 0

/-- **C152**, what is true instead: outcome, network, weights and losses of `fit` are the same for every structure -/
theorem C152_partial (env : NcfaEnv G O) (d : Dataset M) (split : Option (List Int × List Int)) (st : NState M)
    (wd : NWorld G) (b : List (BVec M)) (u : Option (BMat M)) :
    (ncfaFit env d split { st with biadj := b, udg := u } wd).2.2.2 = (ncfaFit env d split st wd).2.2.2 ∧
    ((ncfaFit env d split st wd).2.2.2 = .ok () →
      (ncfaFit env d split { st with biadj := b, udg := u } wd).1.vae = (ncfaFit env d split st wd).1.vae ∧
      (ncfaFit env d split { st with biadj := b, udg := u } wd).1.weights = (ncfaFit env d split st wd).1.weights ∧
      (ncfaFit env d split { st with biadj := b, udg := u } wd).1.loss = (ncfaFit env d split st wd).1.loss) := by
  obtain ⟨h1, -, h3⟩ := C81_partial env d split { st with biadj := b, udg := u } st wd wd rfl rfl rfl
  refine ⟨h1, fun h => ?_⟩
  obtain ⟨a, b, c, -⟩ := h3 (h1.trans h)
  exact ⟨a, b, c⟩

/-- the initial values of this generator are all 1 -/
def oneInitGen : TorchGen Nat where
  normal _ _ g := (fun _ _ => 1, g + 1)
  init _ _ _ _ g := (fun _ => ⟨fun _ _ => 1, fun _ => 1⟩, g + 1)

/-- `demoEnv` with this generator, AdamW with the default learning rate and partial derivatives -/
noncomputable def adamEnv : NcfaEnv Nat AdamState := withAdamW { demoEnv with gen := oneInitGen } (5 / 1000) derivGrad

/-- a new object with two epochs and a structure with one latent and no edge -/
noncomputable def adamNcfa : NState 1 := { demoNcfa with biadj := [BVec.of fun _ => false] }

theorem adam_ok : (ncfaFit adamEnv demoData none adamNcfa demoWorld).2.2.2 = .ok () := by
  rw [C67_outcome]; simp [demoNcfa, adamNcfa]

/-- the sum of the learning rates in this example: two epochs with one batch -/
theorem adam_rates : rateSum (5 / 1000)
    (ncfaFit adamEnv demoData none adamNcfa demoWorld).2.2.1 = 1 / 100 := by
  have h := adam_ok
  rcases ncfaFit_cases adamEnv demoData none adamNcfa demoWorld with
    ⟨e, _, h2⟩ | ⟨t, v, _, _, h3⟩ | ⟨t, v, _, _, _, _, r, h5⟩ | ⟨t, v, h1, h2, h3, r, hist, h4, ok, h5⟩
  · rw [h2] at h; cases h
  · rw [h3] at h; cases h
  · rw [h5] at h; cases h
  · rw [h5]
    dsimp only
    rw [rateSum_eq _ _ _ _ _ ok.shape]
    have ht : t.length = 2 := by
      simp only [ncfaSplit, randomSplit] at h1
      simp at h1
      rw [← h1.1]
      simp [demoData, adamEnv, withAdamW, demoEnv]
    have hl : (batches 128 t).length = 1 := by
      rw [batches, batchesAux_length _ (by norm_num) _ _ le_rfl, ht]
    simp only [adamNcfa, demoNcfa] at *
    rw [hl]
    norm_num [Finset.sum_range_succ]

/-- the claim is false: with the empty structure, AdamW at its default learning rate and true derivatives -/
theorem C152_false : ¬ C152_statement := by
  intro h
  have h1 := h Nat AdamState adamEnv 1 demoData adamNcfa demoWorld
  obtain ⟨W, hW, hB⟩ := C151_distance { demoEnv with gen := oneInitGen } (5 / 1000) (by norm_num) (by norm_num) derivGrad
    demoData none adamNcfa demoWorld adam_ok
  have hr := adam_rates
  have hpos : 0 < (W .covFulcon).weight ⟨0, by simp [adamNcfa, demoNcfa]⟩ ⟨0, by simp⟩ := by
    have hV := (hB W (.inl rfl) .covFulcon).1 ⟨0, by simp [adamNcfa, demoNcfa]⟩ ⟨0, by simp⟩
    change |_ - (1 : ℝ)| ≤ (73 / 10 + |(1 : ℝ)| / 100000) *
      rateSum (5 / 1000) (ncfaFit adamEnv demoData none adamNcfa demoWorld).2.2.1 at hV
    rw [hr, abs_one] at hV
    have := (abs_le.mp hV).1
    linarith
  have hA := weights_of_vae _ demoData none adamNcfa demoWorld adam_ok W _ hW
  have h2 := h1 (fun i o => (W .covFulcon).weight o i) rfl adam_ok hA 0 0 (by simp [adamNcfa])
  exact hpos.ne' h2

/-- three rows and two columns -/
noncomputable def adamData : Dataset 2 := ⟨3, by omega, fun k j => k.val + j.val * k.val ^ 2⟩

/-- two epochs for two measurements -/
noncomputable def adamNcfa2 : NState 2 := { hp := { numEpochs := 2 } }

/-- with two measurements, entry (0, 1) of the output layers is outside the mask; it has the value `(1 - 5e-8)^2` after
two steps -/
theorem C150_example : ∃ W : Weights 2 2 1,
    (ncfaFit adamEnv adamData none adamNcfa2 demoWorld).1.vae = some ⟨1, 1, W, false⟩ ∧
    (W .meanOutput).weight 0 1 = (1 - 1 / 100000 * (5 / 1000)) ^ 2 := by
  have ok : (ncfaFit adamEnv adamData none adamNcfa2 demoWorld).2.2.2 = .ok () := by
    rw [C67_outcome]; simp [adamNcfa2]
  obtain ⟨W, hW, hB⟩ := C150_masked_weights { demoEnv with gen := oneInitGen } (5 / 1000) derivGrad derivGrad_zero
    adamData none adamNcfa2 demoWorld ok
  refine ⟨W, hW, ?_⟩
  have hf := C150_decay_factor adamEnv (5 / 1000) adamData none adamNcfa2 demoWorld ok
  have hl : (passesOf (ncfaFit adamEnv adamData none adamNcfa2 demoWorld).2.2.1 0 true).length = 1 := by
    rcases ncfaFit_cases adamEnv adamData none adamNcfa2 demoWorld with
      ⟨e, _, h2⟩ | ⟨t, v, _, _, h3⟩ | ⟨t, v, _, _, _, _, r, h5⟩ | ⟨t, v, h1, h2, h3, r, hist, h4, tok, h5⟩
    · rw [h2] at ok; cases ok
    · rw [h3] at ok; cases ok
    · rw [h5] at ok; cases ok
    · rw [h5]
      dsimp only
      have ht : t.length = 2 := by
        simp only [ncfaSplit, randomSplit] at h1
        simp at h1
        rw [← h1.1]
        simp [adamData, adamEnv, withAdamW, demoEnv]
      have hb := (tok.batchesOf 0 (by simp [adamNcfa2])).1
      rw [← List.length_map (f := fun p : Pass 2 adamNcfa2.hp.width => p.batch), hb]
      change (batches 128 t).length = 1
      rw [batches, batchesAux_length _ (by norm_num) _ _ le_rfl, ht]
  rw [hl, pow_one] at hf
  have h01 := hB .meanOutput (.inl rfl) 0 (1 : Fin (2 * 1)) (by simp [adamNcfa2])
  refine h01.trans ?_
  change 1 * _ = _
  rw [one_mul]
  refine hf.trans ?_
  simp only [adamNcfa2, Finset.prod_range_succ, Finset.prod_range_zero]
  norm_num

/-- a generator that draws 3/4 everywhere -/
noncomputable def quarterGen : UniformGen Nat where
  normal _ _ g := (fun _ _ => 0, g)
  uniform g := (fun _ _ _ => 3 / 4, g + 1)
  range := by intros; norm_num

-- C153: with four measurements the first weights of the encoder are then 1/4, within [-1/2, 1/2)
example : ((quarterGen.torch.init 4 4 1 1 0).1 .enc1).weight 0 0 = 1 / 4 := by
  simp only [UniformGen.torch, resetParameters, kaimingBound_eq, uniformIn, quarterGen]
  rw [show ((4 : ℕ) : ℝ) = 2 ^ 2 by norm_num, Real.sqrt_sq (by norm_num)]
  norm_num

-- C151, C154: fits with this generator succeed; two epochs with one batch
example : (ncfaFit (withAdamW { demoEnv with gen := quarterGen.torch } (5 / 1000) derivGrad) adamData none adamNcfa2
    demoWorld).2.2.2 = .ok () := by
  rw [C67_outcome]; simp [adamNcfa2]

end Medil

import Verif.Spec.NcfaOpt
import Verif.Props.NcfaLoss
import Verif.Props.Ncfa
import Mathlib.Analysis.SpecialFunctions.Pow.Real
import Mathlib.Analysis.SpecialFunctions.ExpDeriv
import Mathlib.Analysis.Calculus.Deriv.Add
import Mathlib.Analysis.Calculus.Deriv.Mul
/-
  C213, C214: what the loss of `NeuroCausalFactorAnalysis` makes of the estimated error variances, and of the encoder's
  variance layer.
-/
namespace Medil
open Finset
variable {M w : Nat} {G O : Type} {N L : Nat}

/-! ### C213 -/

/-- **C213** (as stated; false): for given reconstructions (none of which is exact), the loss is minimal if the estimated error
variances are the mean squared residuals -/
def C213_statement : Prop :=
  ∀ (N L M : Nat) (hp : Hyper) (x : Fin N → Fin M → ℝ) (out : VaeOut N L M), 0 < N → (∀ j, 0 < msResidual x out.recon j) →
    (∀ j, batchVar out.logcov j = msResidual x out.recon j) →
    ∀ logcov, elboGaussian (a := 0) (b := 0) hp x out none ≤ elboGaussian (a := 0) (b := 0) hp x { out with logcov := logcov } none

theorem sub_one_sub_log {q : ℝ} (hq : 0 < q) : 0 ≤ q - 1 - Real.log q ∧ (q - 1 - Real.log q = 0 ↔ q = 1) := by
  constructor
  · linarith [Real.log_le_sub_one_of_pos hq]
  · constructor
    · intro h
      by_contra hne
      linarith [Real.log_lt_sub_one_of_pos hq hne]
    · rintro rfl; simp

theorem det_tradeoff (c s : Fin M → ℝ) (P : ℝ) (hc : ∀ j, 0 < c j) (hs : ∀ j, 0 < s j) (hP : 0 < P) (hP2 : P ^ (M + 1) = ∏ j, s j) :
    (M + 1) * P ≤ (∏ j, c j) + ∑ j, s j / c j ∧
    ((∏ j, c j) + ∑ j, s j / c j = (M + 1) * P ↔ ∀ j, c j = s j / P) := by
  have hcp : 0 < ∏ j, c j := prod_pos fun j _ => hc j
  have hq0 : 0 < (∏ j, c j) / P := div_pos hcp hP
  have hq : ∀ j, 0 < s j / c j / P := fun j => div_pos (div_pos (hs j) (hc j)) hP
  have hlog : Real.log ((∏ j, c j) / P) + ∑ j, Real.log (s j / c j / P) = 0 := by
    rw [← Real.log_prod (fun j _ => (hq j).ne'), ← Real.log_mul hq0.ne' (prod_ne_zero_iff.mpr fun j _ => (hq j).ne')]
    have : (∏ j, c j) / P * ∏ j, s j / c j / P = 1 := by
      rw [prod_div_distrib, prod_div_distrib, ← hP2, prod_const, card_univ, Fintype.card_fin]
      have := hcp.ne'
      field_simp
      ring
    rw [this, Real.log_one]
  have hsum : (∏ j, c j) + ∑ j, s j / c j - (M + 1) * P =
      P * (((∏ j, c j) / P - 1 - Real.log ((∏ j, c j) / P)) + ∑ j, (s j / c j / P - 1 - Real.log (s j / c j / P))) := by
    have h1 : ∑ j, (s j / c j / P - 1 - Real.log (s j / c j / P)) =
        (∑ j, s j / c j) / P - M - ∑ j, Real.log (s j / c j / P) := by
      rw [sum_sub_distrib, sum_sub_distrib, sum_div]; simp
    rw [h1]
    have h2 : Real.log ((∏ j, c j) / P) = - ∑ j, Real.log (s j / c j / P) := by linarith
    rw [h2]
    field_simp
    ring
  have h0 := sub_one_sub_log hq0
  have hj := fun j => sub_one_sub_log (hq j)
  have hnn : 0 ≤ ∑ j, (s j / c j / P - 1 - Real.log (s j / c j / P)) := sum_nonneg fun j _ => (hj j).1
  constructor
  · have : 0 ≤ P * (((∏ j, c j) / P - 1 - Real.log ((∏ j, c j) / P)) + ∑ j, (s j / c j / P - 1 - Real.log (s j / c j / P))) :=
      mul_nonneg hP.le (add_nonneg h0.1 hnn)
    linarith
  · have hiff : ∀ j, s j / c j / P = 1 ↔ c j = s j / P := by
      intro j
      have := (hc j).ne'
      constructor
      · intro h; field_simp at h ⊢; linarith
      · intro h; rw [h]; have := (hs j).ne'; field_simp
    constructor
    · intro h j
      have h1 : ((∏ j, c j) / P - 1 - Real.log ((∏ j, c j) / P)) + ∑ j, (s j / c j / P - 1 - Real.log (s j / c j / P)) = 0 := by
        have : P * (((∏ j, c j) / P - 1 - Real.log ((∏ j, c j) / P)) + ∑ j, (s j / c j / P - 1 - Real.log (s j / c j / P))) = 0 := by
          linarith
        exact (mul_eq_zero.mp this).resolve_left hP.ne'
      have h2 : ∑ j, (s j / c j / P - 1 - Real.log (s j / c j / P)) = 0 := by linarith [h0.1]
      have h3 := (sum_eq_zero_iff_of_nonneg fun j _ => (hj j).1).mp h2 j (mem_univ j)
      exact (hiff j).mp ((hj j).2.mp h3)
    · intro h
      have h1 : ∑ j, (s j / c j / P - 1 - Real.log (s j / c j / P)) = 0 :=
        sum_eq_zero fun j _ => (hj j).2.mpr ((hiff j).mpr (h j))
      have h2 : (∏ j, c j) / P = 1 := by
        rw [prod_congr rfl fun j _ => h j, prod_div_distrib, ← hP2, prod_const, card_univ, Fintype.card_fin]
        field_simp
        ring
      rw [h1, h2] at hsum
      simp at hsum
      linarith

theorem loss_var (hp : Hyper) (x : Fin N → Fin M → ℝ) (out : VaeOut N L M) (hN : 0 < N) :
    elboGaussian (a := 0) (b := 0) hp x out none = hp.beta * klFromStandard out.mu out.logvar +
      N / 2 * ((∏ j, batchVar out.logcov j) + ∑ j, msResidual x out.recon j / batchVar out.logcov j) := by
  rw [(C85_partial hp x out hN).1]
  have hw : weightedResiduals x out.recon out.logcov = N * ∑ j, msResidual x out.recon j / batchVar out.logcov j := by
    unfold weightedResiduals msResidual
    rw [sum_comm, mul_sum]
    refine sum_congr rfl fun j _ => ?_
    rw [← sum_div]
    unfold sampleMean
    have : (N : ℝ) ≠ 0 := by exact_mod_cast hN.ne'
    field_simp
  rw [hw]; ring

/-- **C213**, what is true instead.  With `s_j` the mean squared residuals, the loss is minimal exactly if the error variance of
measurement `j` is `s_j / P` with `P = (s_1 ⋯ s_M)^(1/(M+1))`; the minimum is `beta * KL + N (M+1) P / 2`.  So the estimated
variances are right up to a common factor, and right only if the product of the mean squared residuals is 1. -/
theorem C213_minimiser_partial (hp : Hyper) (x : Fin N → Fin M → ℝ) (out : VaeOut N L M) (hN : 0 < N)
    (hs : ∀ j, 0 < msResidual x out.recon j) :
    let P := (∏ j, msResidual x out.recon j) ^ (1 / ((M : ℝ) + 1))
    ((∀ logcov, elboGaussian (a := 0) (b := 0) hp x out none ≤
        elboGaussian (a := 0) (b := 0) hp x { out with logcov := logcov } none) ↔
      ∀ j, batchVar out.logcov j = msResidual x out.recon j / P) ∧
    ((∀ j, batchVar out.logcov j = msResidual x out.recon j / P) → elboGaussian (a := 0) (b := 0) hp x out none =
      hp.beta * klFromStandard out.mu out.logvar + N * (M + 1) * P / 2) ∧
    (0 < M → ((∀ j, msResidual x out.recon j / P = msResidual x out.recon j) ↔ ∏ j, msResidual x out.recon j = 1)) := by
  intro P
  set s := msResidual x out.recon with hsdef
  have hprod : 0 < ∏ j, s j := prod_pos fun j _ => hs j
  have hP : 0 < P := Real.rpow_pos_of_pos hprod _
  have hP2 : P ^ (M + 1) = ∏ j, s j := by
    show ((∏ j, s j) ^ (1 / ((M : ℝ) + 1))) ^ (M + 1) = _
    rw [← Real.rpow_natCast, ← Real.rpow_mul hprod.le]
    push_cast
    rw [one_div_mul_cancel (by positivity), Real.rpow_one]
  have hN' : (0 : ℝ) < N := by exact_mod_cast hN
  have key := fun logcov : Fin N → Fin M → ℝ => det_tradeoff (batchVar logcov) s P (batchVar_pos hN logcov) hs hP hP2
  have hval : (∀ j, batchVar out.logcov j = s j / P) → elboGaussian (a := 0) (b := 0) hp x out none =
      hp.beta * klFromStandard out.mu out.logvar + N * (M + 1) * P / 2 := by
    intro h
    rw [loss_var hp x out hN, (key out.logcov).2.mpr h]; ring
  refine ⟨⟨?_, ?_⟩, hval, ?_⟩
  · intro h
    have hstar : ∀ j, batchVar (fun (_ : Fin N) j => Real.log (s j / P)) j = s j / P := by
      intro j
      unfold batchVar sampleMean
      simp only [Real.exp_log (div_pos (hs j) hP), sum_const, card_univ, Fintype.card_fin, nsmul_eq_mul]
      field_simp
    have h1 := h (fun _ j => Real.log (s j / P))
    rw [loss_var hp x out hN, loss_var hp x _ hN] at h1
    dsimp only at h1
    rw [← hsdef, (key fun _ j => Real.log (s j / P)).2.mpr hstar] at h1
    have h2 := (key out.logcov).1
    apply (key out.logcov).2.mp
    refine le_antisymm ?_ h2
    have h3 : (N : ℝ) / 2 * ((∏ j, batchVar out.logcov j) + ∑ j, s j / batchVar out.logcov j) ≤ N / 2 * ((M + 1) * P) := by linarith
    exact le_of_mul_le_mul_left h3 (by positivity)
  · intro h logcov
    rw [loss_var hp x out hN, loss_var hp x _ hN]
    dsimp only
    rw [← hsdef, (key out.logcov).2.mpr h]
    have := (key logcov).1
    have : (N : ℝ) / 2 * ((M + 1) * P) ≤ N / 2 * ((∏ j, batchVar logcov j) + ∑ j, s j / batchVar logcov j) :=
      mul_le_mul_of_nonneg_left this (by positivity)
    linarith
  · intro hM
    constructor
    · intro h
      have h1 := h ⟨0, hM⟩
      have h2 : P = 1 := by
        have := (hs ⟨0, hM⟩).ne'
        rw [div_eq_iff hP.ne'] at h1
        have h3 : s ⟨0, hM⟩ * (P - 1) = 0 := by linarith
        have := (mul_eq_zero.mp h3).resolve_left this
        linarith
      rw [← hP2, h2, one_pow]
    · intro h j
      have : P = 1 := by show (∏ j, s j) ^ _ = (1 : ℝ); rw [h, Real.one_rpow]
      rw [this, div_one]

/-- one row and one measurement with residual 2, whose variance 4 the network estimates -/
noncomputable def resTwo : VaeOut 1 0 1 := ⟨fun _ _ => 0, fun _ _ => Real.log 4, fun _ _ => 0, fun _ _ => 0⟩

theorem C213_false : ¬ C213_statement := by
  intro h
  have hs : ∀ j, msResidual (fun _ _ => 2 : Fin 1 → Fin 1 → ℝ) resTwo.recon j = 4 := by
    intro j; simp [msResidual, sampleMean, resTwo]; norm_num
  have hv : ∀ j, batchVar resTwo.logcov j = 4 := by
    intro j; simp [batchVar, sampleMean, resTwo, Real.exp_log]
  have h1 := h 1 0 1 {} (fun _ _ => 2) resTwo one_pos (fun j => by rw [hs]; norm_num) (fun j => by rw [hs, hv])
  have h2 := (C213_minimiser_partial {} (fun _ _ => 2) resTwo one_pos (fun j => by rw [hs]; norm_num))
  have h3 := (h2.2.2 one_pos).mp fun j => by rw [← h2.1.mp h1 j, hs, hv]
  simp only [hs] at h3
  norm_num at h3

/-! ### C214 -/

theorem encode_hidden (W : Weights L M w) (x : Fin M → ℝ) :
    encode W x = ((W .fcMu).apply (encoderHidden W x), (W .fcLogvar).apply (encoderHidden W x)) := rfl

theorem with_fc (W : Weights L M w) (D : Layer M L) : withVarianceLayer W D .fcLogvar = D := by
  unfold withVarianceLayer; exact Function.update_self ..

theorem with_ne (W : Weights L M w) (D : Layer M L) (l : LayerId) (h : l ≠ .fcLogvar) : withVarianceLayer W D l = W l := by
  unfold withVarianceLayer; exact Function.update_of_ne h ..

theorem hidden_with (W : Weights L M w) (D : Layer M L) (x : Fin M → ℝ) :
    encoderHidden (withVarianceLayer W D) x = encoderHidden W x := by
  unfold encoderHidden
  rw [with_ne W D .enc1 (by decide), with_ne W D .enc2 (by decide)]

theorem decode_with (H : Nat) (W : Weights L M w) (D : Layer M L) (z : Fin L → ℝ) :
    decode H (withVarianceLayer W D) z = decode H W z := by
  unfold decode
  rw [with_ne W D .meanFulcon (by decide), with_ne W D .meanOutput (by decide), with_ne W D .covFulcon (by decide),
    with_ne W D .covOutput (by decide)]
  have h1 : ∀ i, withVarianceLayer W D (.meanHidden i) = W (.meanHidden i) := fun i => with_ne W D _ (by simp)
  have h2 : ∀ i, withVarianceLayer W D (.covHidden i) = W (.covHidden i) := fun i => with_ne W D _ (by simp)
  simp only [h1, h2]

/-- without noise the loss is a function of the other layers plus `beta` times the divergence -/
theorem batchLoss_with (hp : Hyper) (p : Pass M w) (hn : p.noise = none) (W : Weights M M w) (D : Layer M M) :
    batchLoss hp p (withVarianceLayer W D) = batchLoss hp p W + hp.beta *
      ∑ k, ∑ l, ((Real.exp (encoderLogvar (withVarianceLayer W D) p.batch.get k l) -
          encoderLogvar (withVarianceLayer W D) p.batch.get k l) -
        (Real.exp (encoderLogvar W p.batch.get k l) - encoderLogvar W p.batch.get k l)) / 2 := by
  unfold batchLoss
  have hmu : ∀ x : Fin M → ℝ, (encode (withVarianceLayer W D) x).1 = (encode W x).1 := by
    intro x
    rw [encode_hidden, encode_hidden, hidden_with, with_ne W D .fcMu (by decide)]
  have hres : networkResult hp.numHidden (withVarianceLayer W D) p.noise p.batch.get =
      { networkResult hp.numHidden W p.noise p.batch.get with logvar := encoderLogvar (withVarianceLayer W D) p.batch.get } := by
    rw [hn]
    unfold networkResult
    simp only [hmu, decode_with]
    rfl
  rw [hres, with_ne W D .covFulcon (by decide)]
  unfold elboGaussian
  dsimp only
  rw [klDiv_eq, klDiv_eq]
  have hl : (networkResult hp.numHidden W p.noise p.batch.get).logvar = encoderLogvar W p.batch.get := rfl
  rw [hl]
  have : klFromStandard (networkResult hp.numHidden W p.noise p.batch.get).mu (encoderLogvar (withVarianceLayer W D) p.batch.get) =
      klFromStandard (networkResult hp.numHidden W p.noise p.batch.get).mu (encoderLogvar W p.batch.get) +
      ∑ k, ∑ l, ((Real.exp (encoderLogvar (withVarianceLayer W D) p.batch.get k l) -
          encoderLogvar (withVarianceLayer W D) p.batch.get k l) -
        (Real.exp (encoderLogvar W p.batch.get k l) - encoderLogvar W p.batch.get k l)) / 2 := by
    unfold klFromStandard
    rw [← sum_add_distrib]
    refine sum_congr rfl fun k _ => ?_
    rw [← sum_add_distrib]
    refine sum_congr rfl fun l _ => ?_
    ring
  rw [this]
  ring

theorem logvar_with (W : Weights L M w) (D : Layer M L) (x : Fin N → Fin M → ℝ) (k : Fin N) (l : Fin L) :
    encoderLogvar (withVarianceLayer W D) x k l = (∑ i, encoderHidden W (x k) i * D.weight l i) + D.bias l := by
  unfold encoderLogvar
  rw [hidden_with, with_fc]

/-- **C214**.  In every training pass after the first epoch of a completed `fit`, for all weights `W` of the network (in
particular those of the pass, whose loss is the reported one):
the loss changes with the variance layer by `beta` times the change of the divergence, whatever the decoder is;
its derivative in every direction `D` is `beta * Σ (exp(logvar) - 1)/2 * (change of logvar)`;
and setting the variance layer to zero (variance 1 for every input) never increases the loss, and decreases it unless
all variances of the batch are 1 already. -/
theorem C214_variance_layer (env : NcfaEnv G O) (d : Dataset M) (split : Option (List Int × List Int)) (st : NState M)
    (wd : NWorld G) (h : (ncfaFit env d split st wd).2.2.2 = .ok ()) :
    ∀ p ∈ (ncfaFit env d split st wd).2.2.1, p.isTrain = true → 0 < p.epoch →
      p.loss = batchLoss st.hp p p.weights ∧
      ∀ W : Weights M M st.hp.width,
        (∀ D, batchLoss st.hp p (withVarianceLayer W D) - batchLoss st.hp p W = st.hp.beta *
          ∑ k, ∑ l, ((Real.exp (encoderLogvar (withVarianceLayer W D) p.batch.get k l) -
              encoderLogvar (withVarianceLayer W D) p.batch.get k l) -
            (Real.exp (encoderLogvar W p.batch.get k l) - encoderLogvar W p.batch.get k l)) / 2) ∧
        (∀ D : Layer M M, HasDerivAt (fun t : ℝ => batchLoss st.hp p (withVarianceLayer W
            ⟨fun o i => (W .fcLogvar).weight o i + t * D.weight o i, fun o => (W .fcLogvar).bias o + t * D.bias o⟩))
          (st.hp.beta * ∑ k, ∑ l, (Real.exp (encoderLogvar W p.batch.get k l) - 1) / 2 *
            ((∑ i, encoderHidden W (p.batch.get k) i * D.weight l i) + D.bias l)) 0) ∧
        (0 < st.hp.beta →
          batchLoss st.hp p (withVarianceLayer W ⟨fun _ _ => 0, fun _ => 0⟩) ≤ batchLoss st.hp p W ∧
          (batchLoss st.hp p (withVarianceLayer W ⟨fun _ _ => 0, fun _ => 0⟩) = batchLoss st.hp p W ↔
            ∀ k l, encoderLogvar W p.batch.get k l = 0)) := by
  intro p hp ht he
  have hn : p.noise = none := by
    by_contra hc
    have := ((C66_partial env d split st wd h).1 p hp).mp hc
    omega
  have hloss : p.loss = batchLoss st.hp p p.weights := by
    rcases ncfaFit_cases env d split st wd with ⟨e, _, h2⟩ | ⟨t, v, _, _, h3⟩ | ⟨t, v, _, _, _, _, r, h5⟩ |
      ⟨t, v, h1, h2, h3, r, hist, h4, ok, h5⟩
    · rw [h2] at h; cases h
    · rw [h3] at h; cases h
    · rw [h5] at h; cases h
    · rw [h5] at hp
      have := (ok.each p hp).1.1
      rw [ht, if_pos rfl] at this
      exact this
  refine ⟨hloss, fun W => ⟨?_, ?_, ?_⟩⟩
  · intro D
    rw [batchLoss_with st.hp p hn W D]; ring
  · intro D
    have hlin : ∀ (t : ℝ) k l, encoderLogvar (withVarianceLayer W
        ⟨fun o i => (W .fcLogvar).weight o i + t * D.weight o i, fun o => (W .fcLogvar).bias o + t * D.bias o⟩) p.batch.get k l =
        encoderLogvar W p.batch.get k l + t * ((∑ i, encoderHidden W (p.batch.get k) i * D.weight l i) + D.bias l) := by
      intro t k l
      rw [logvar_with]
      unfold encoderLogvar
      dsimp only
      rw [mul_add, mul_sum]
      have : ∑ i, encoderHidden W (p.batch.get k) i * ((W .fcLogvar).weight l i + t * D.weight l i) =
          (∑ i, encoderHidden W (p.batch.get k) i * (W .fcLogvar).weight l i) +
          ∑ i, t * (encoderHidden W (p.batch.get k) i * D.weight l i) := by
        rw [← sum_add_distrib]
        exact sum_congr rfl fun i _ => by ring
      rw [this]; ring
    have hf : (fun t : ℝ => batchLoss st.hp p (withVarianceLayer W
            ⟨fun o i => (W .fcLogvar).weight o i + t * D.weight o i, fun o => (W .fcLogvar).bias o + t * D.bias o⟩)) =
        fun t : ℝ => batchLoss st.hp p W + st.hp.beta * ∑ k, ∑ l,
          ((Real.exp (encoderLogvar W p.batch.get k l + t * ((∑ i, encoderHidden W (p.batch.get k) i * D.weight l i) + D.bias l)) -
            (encoderLogvar W p.batch.get k l + t * ((∑ i, encoderHidden W (p.batch.get k) i * D.weight l i) + D.bias l))) -
          (Real.exp (encoderLogvar W p.batch.get k l) - encoderLogvar W p.batch.get k l)) / 2 := by
      funext t
      rw [batchLoss_with st.hp p hn W]
      simp only [hlin]
    rw [hf]
    apply HasDerivAt.const_add
    apply HasDerivAt.const_mul
    apply HasDerivAt.fun_sum
    intro k _
    apply HasDerivAt.fun_sum
    intro l _
    generalize encoderLogvar W p.batch.get k l = a
    generalize (∑ i, encoderHidden W (p.batch.get k) i * D.weight l i) + D.bias l = b
    have h1 : HasDerivAt (fun t : ℝ => a + t * b) b 0 := by
      simpa using ((hasDerivAt_id (0 : ℝ)).mul_const b).const_add a
    have h2 := ((h1.exp.sub h1).sub_const (Real.exp a - a)).div_const 2
    rw [zero_mul, add_zero] at h2
    have h3 : (Real.exp a * b - b) / 2 = (Real.exp a - 1) / 2 * b := by ring
    rw [h3] at h2
    exact h2
  · intro hb
    rw [batchLoss_with st.hp p hn W]
    have hz : ∀ k l, encoderLogvar (withVarianceLayer W ⟨fun _ _ => 0, fun _ => 0⟩) p.batch.get k l = 0 := by
      intro k l; rw [logvar_with]; simp
    simp only [hz, Real.exp_zero, sub_zero]
    have hterm : ∀ a : ℝ, (1 - (Real.exp a - a)) / 2 ≤ 0 ∧ ((1 - (Real.exp a - a)) / 2 = 0 ↔ a = 0) := by
      intro a
      constructor
      · linarith [Real.add_one_le_exp a]
      · constructor
        · intro h
          by_contra hne
          linarith [Real.add_one_lt_exp hne]
        · rintro rfl; simp
    have hs : ∑ k, ∑ l, (1 - (Real.exp (encoderLogvar W p.batch.get k l) - encoderLogvar W p.batch.get k l)) / 2 ≤ 0 :=
      sum_nonpos fun k _ => sum_nonpos fun l _ => (hterm _).1
    constructor
    · have := mul_nonpos_of_nonneg_of_nonpos hb.le hs
      linarith
    · constructor
      · intro h0 k l
        have h1 : st.hp.beta * ∑ k, ∑ l, (1 - (Real.exp (encoderLogvar W p.batch.get k l) - encoderLogvar W p.batch.get k l)) / 2 = 0 := by
          linarith
        have h2 := (mul_eq_zero.mp h1).resolve_left hb.ne'
        have h3 := (sum_eq_zero_iff_of_nonpos fun k _ => sum_nonpos fun l _ => (hterm _).1).mp h2 k (mem_univ k)
        have h4 := (sum_eq_zero_iff_of_nonpos fun l _ => (hterm _).1).mp h3 l (mem_univ l)
        exact (hterm _).2.mp h4
      · intro h0
        rw [sum_eq_zero fun k _ => sum_eq_zero fun l _ => (hterm _).2.mpr (h0 k l)]
        ring

-- the demonstration run has such a pass
example : ∃ p ∈ (ncfaFit demoEnv demoData none demoNcfa demoWorld).2.2.1, p.isTrain = true ∧ 0 < p.epoch := by
  by_contra hc
  have h := C66_partial demoEnv demoData none demoNcfa demoWorld demo_ok
  have := h.2.mp fun p hp ht => by
    refine (h.1 p hp).mpr ⟨ht, ?_⟩
    by_contra h0
    exact hc ⟨p, hp, ht, Nat.pos_of_ne_zero h0⟩
  simp [demoNcfa] at this

end Medil

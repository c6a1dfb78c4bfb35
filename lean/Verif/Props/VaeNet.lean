import Verif.Props.Vae
/-
  The network layer by layer (C71, continued) and the range of the decoder (C98).
-/
namespace Medil
open Finset
variable {L M w : Nat}

/-- **C71, the encoder**: two layers with rectifier, all measurements connected, then one linear map each for `mu`
and `logvar`. -/
theorem C71_encoder_layers (W : Weights L M w) (x : Fin M → ℝ) :
    ∃ h₁ h₂ : Fin M → ℝ,
      (∀ k, h₁ k = max 0 ((W .enc1).bias k + ∑ i, (W .enc1).weight k i * x i)) ∧
      (∀ k, h₂ k = max 0 ((W .enc2).bias k + ∑ i, (W .enc2).weight k i * h₁ i)) ∧
      (∀ l, (encode W x).1 l = (W .fcMu).bias l + ∑ i, (W .fcMu).weight l i * h₂ i) ∧
      (∀ l, (encode W x).2 l = (W .fcLogvar).bias l + ∑ i, (W .fcLogvar).weight l i * h₂ i) := by
  refine ⟨fun k => relu ((W .enc1).apply x k), fun k => relu ((W .enc2).apply (fun k => relu ((W .enc1).apply x k)) k),
    fun k => ?_, fun k => ?_, fun l => ?_, fun l => ?_⟩
  all_goals simp only [encode, relu, Layer.apply, linear, mul_comm, add_comm, max_comm]

/-- the values of a decoder half: `h i` after `i` hidden layers, `out` at the end.  The first layer connects every
latent to every hidden unit; the others stay within the block of units of one measurement. -/
def DecoderHalf (first : Layer L (M * w)) (hidden : Nat → Layer (M * w) (M * w)) (last : Layer (M * w) M) (H : Nat)
    (z : Fin L → ℝ) (out : Fin M → ℝ) : Prop :=
  ∃ h : Nat → Fin (M * w) → ℝ,
    (∀ k, h 0 k = 1 / (1 + Real.exp (-(first.bias k + ∑ l, first.weight k l * z l)))) ∧
    (∀ i, i < H → ∀ (j : Nat) (k : Fin (M * w)), InBlock w j k →
      h (i + 1) k = 1 / (1 + Real.exp (-((hidden i).bias k +
        ∑ b : Fin (M * w) with j * w ≤ b.val ∧ b.val < (j + 1) * w, (hidden i).weight k b * h i b)))) ∧
    ∀ j : Fin M, out j = last.bias j +
      ∑ b : Fin (M * w) with j.val * w ≤ b.val ∧ b.val < (j.val + 1) * w, last.weight j b * h H b

theorem decodeHead_half (first : Layer L (M * w)) (hidden : Nat → Layer (M * w) (M * w)) (last : Layer (M * w) M)
    (H : Nat) (z : Fin L → ℝ) :
    DecoderHalf first hidden last H z (decodeHead first ((List.range H).map hidden) last z) := by
  refine ⟨fun i => ((List.range i).map hidden).foldl (fun h l => fun k => sigmoid (l.sparse (hiddenMask M w) h k))
    (fun k => sigmoid (first.sparse noMask z k)), fun k => ?_, fun i _ j k hk => ?_, fun j => ?_⟩
  · simp [sigmoid, Layer.sparse, linear, noMask, mul_comm, add_comm]
  · have hw := width_pos_of_fin k
    simp only [List.range_succ, List.map_append, List.map_cons, List.map_nil, List.foldl_append, List.foldl_cons,
      List.foldl_nil, sigmoid, Layer.sparse, linear]
    rw [add_comm (Finset.sum _ _), Finset.sum_filter]
    congr 6
    funext b
    have hb : k.val / w = b.val / w ↔ (j * w ≤ b.val ∧ b.val < (j + 1) * w) := by
      rw [div_eq_of_inBlock hk]
      exact ⟨fun h => inBlock_of_div_eq hw h.symm, fun h => (div_eq_of_inBlock h).symm⟩
    simp only [hiddenMask]
    by_cases h : (j * w ≤ b.val ∧ b.val < (j + 1) * w)
    · rw [if_pos h, if_pos (hb.mpr h)]; rw [mul_one]; exact mul_comm _ _
    · rw [if_neg h, if_neg (fun h' => h (hb.mp h'))]; simp
  · simp only [decodeHead, Layer.sparse, linear]
    rw [add_comm (Finset.sum _ _), Finset.sum_filter]
    congr 2
    funext b
    have hw := width_pos_of_fin b
    have hb : j.val = b.val / w ↔ (j.val * w ≤ b.val ∧ b.val < (j.val + 1) * w) :=
      ⟨fun h => inBlock_of_div_eq hw h.symm, fun h => (div_eq_of_inBlock h).symm⟩
    simp only [outputMask]
    by_cases h : (j.val * w ≤ b.val ∧ b.val < (j.val + 1) * w)
    · rw [if_pos h, if_pos (hb.mpr h)]; rw [mul_one]; exact mul_comm _ _
    · rw [if_neg h, if_neg (fun h' => h (hb.mp h'))]; simp

/-- **C71, the decoder**: the mean and the log variances are two such halves with layers of their own. -/
theorem C71_decoder_layers (H : Nat) (W : Weights L M w) (z : Fin L → ℝ) :
    DecoderHalf (W .meanFulcon) (fun i => W (.meanHidden i)) (W .meanOutput) H z (decode H W z).1 ∧
    DecoderHalf (W .covFulcon) (fun i => W (.covHidden i)) (W .covOutput) H z (decode H W z).2 :=
  ⟨decodeHead_half _ (fun i => W (.meanHidden i)) _ H z, decodeHead_half _ (fun i => W (.covHidden i)) _ H z⟩

/-! ### C98: the decoder's range -/

theorem sigmoid_mem (t : ℝ) : 0 < 1 / (1 + Real.exp t) ∧ 1 / (1 + Real.exp t) < 1 := by
  have := Real.exp_pos t
  refine ⟨by positivity, ?_⟩
  rw [div_lt_one (by positivity)]
  linarith

theorem DecoderHalf.bounded {first : Layer L (M * w)} {hidden : Nat → Layer (M * w) (M * w)} {last : Layer (M * w) M}
    {H : Nat} {z : Fin L → ℝ} {out : Fin M → ℝ} (h : DecoderHalf first hidden last H z out) (j : Fin M) :
    |out j - last.bias j| ≤ ∑ b : Fin (M * w) with j.val * w ≤ b.val ∧ b.val < (j.val + 1) * w, |last.weight j b| := by
  obtain ⟨v, h0, h1, h2⟩ := h
  have hv : ∀ k, 0 < v H k ∧ v H k < 1 := by
    intro k
    cases H with
    | zero => rw [h0]; exact sigmoid_mem _
    | succ i =>
      rw [h1 i (Nat.lt_succ_self i) (k.val / w) k (inBlock_of_div_eq (width_pos_of_fin k) rfl)]
      exact sigmoid_mem _
  rw [h2, add_sub_cancel_left]
  refine (Finset.abs_sum_le_sum_abs _ _).trans (Finset.sum_le_sum fun b _ => ?_)
  rw [abs_mul, abs_of_pos (hv b).1]
  exact mul_le_of_le_one_right (abs_nonneg _) (hv b).2.le

/-- **C98** whatever the data, the mode, the noise and the weights of the other layers: the reconstruction of
measurement `j` and its log variance stay within a band around the bias of its output unit, of half width the sum of
the absolute values of the `width_per_meas` output weights of `j`. -/
theorem C98_decoder_range {G : Type} (gen : TorchGen G) (H : Nat) (W : Weights L M w) (t : Bool) {N : Nat}
    (x : Fin N → Fin M → ℝ) (g : G) (k : Fin N) (j : Fin M) :
    |(vaeForward gen H W t x g).1.recon k j - (W .meanOutput).bias j| ≤
      ∑ b : Fin (M * w) with j.val * w ≤ b.val ∧ b.val < (j.val + 1) * w, |(W .meanOutput).weight j b| ∧
    |(vaeForward gen H W t x g).1.logcov k j - (W .covOutput).bias j| ≤
      ∑ b : Fin (M * w) with j.val * w ≤ b.val ∧ b.val < (j.val + 1) * w, |(W .covOutput).weight j b| := by
  have hz : ∃ z, (vaeForward gen H W t x g).1.recon k = (decode H W z).1 ∧
      (vaeForward gen H W t x g).1.logcov k = (decode H W z).2 := by
    obtain ⟨-, h2, h3, -⟩ := C71_forward gen H W x g
    cases t
    · exact ⟨_, h2 k⟩
    · exact ⟨_, h3 k⟩
  obtain ⟨z, e1, e2⟩ := hz
  rw [e1, e2]
  exact ⟨(C71_decoder_layers H W z).1.bounded j, (C71_decoder_layers H W z).2.bounded j⟩

/-- consequence: a standardized value beyond the band is never reconstructed, however long the training lasts; the
squared residual of such a row has a positive lower bound -/
theorem C98_residual {G : Type} (gen : TorchGen G) (H : Nat) (W : Weights L M w) (t : Bool) {N : Nat}
    (x : Fin N → Fin M → ℝ) (g : G) (k : Fin N) (j : Fin M) (d : ℝ) (hd : 0 ≤ d)
    (hx : (W .meanOutput).bias j + (∑ b : Fin (M * w) with j.val * w ≤ b.val ∧ b.val < (j.val + 1) * w,
      |(W .meanOutput).weight j b|) + d ≤ x k j) :
    d ^ 2 ≤ (x k j - (vaeForward gen H W t x g).1.recon k j) ^ 2 := by
  have h := (abs_le.mp (C98_decoder_range gen H W t x g k j).1).2
  exact pow_le_pow_left₀ hd (by linarith) 2

-- the band is not trivial: with all weights 0 except an output weight 3 and bias 1 the reconstruction is 1 + 3/2
example : (decode (L := 1) (M := 1) (w := 1) 0 (fun l => match l with
    | .meanOutput => ⟨fun _ _ => 3, fun _ => 1⟩
    | _ => ⟨fun _ _ => 0, fun _ => 0⟩) (fun _ => 7)).1 0 = 1 + 3 / 2 := by
  norm_num [decode, decodeHead, Layer.sparse, linear, noMask, outputMask, sigmoid]

end Medil

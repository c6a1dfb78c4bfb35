import Verif.Spec.Vae
import Mathlib.Tactic.Linarith
import Mathlib.Tactic.NormNum
import Mathlib.Tactic.Ring
/-
  Properties of the network of `NeuroCausalFactorAnalysis` (C69, C70, C71).
-/
namespace Medil
open Finset
variable {L M w : Nat}

/-! ### C70: the blocks of the decoder do not interact -/

theorem div_eq_of_inBlock {j k : Nat} (h : InBlock w j k) : k / w = j := by
  obtain ⟨h1, h2⟩ := h
  exact Nat.div_eq_of_lt_le h1 h2

theorem inBlock_of_div_eq (hw : 0 < w) {j k : Nat} (h : k / w = j) : InBlock w j k := by
  subst h
  exact ⟨Nat.div_mul_le_self k w, by
    have := Nat.lt_div_mul_add (a := k) hw
    rw [Nat.add_mul]; omega⟩

theorem width_pos_of_fin (k : Fin (M * w)) : 0 < w := by
  have := k.isLt
  rcases Nat.eq_zero_or_pos w with h | h
  · subst h; simp at this
  · exact h

/-- one hidden layer only passes block `j` on to block `j` -/
theorem hidden_local (l l' : Layer (M * w) (M * w)) (j : Nat)
    (hw : ∀ a b, InBlock w j a.val → InBlock w j b.val → l.weight a b = l'.weight a b)
    (hb : ∀ a, InBlock w j a.val → l.bias a = l'.bias a)
    (h h' : Fin (M * w) → ℝ) (hh : ∀ a, InBlock w j a.val → h a = h' a) :
    ∀ a, InBlock w j a.val →
      sigmoid (l.sparse (hiddenMask M w) h a) = sigmoid (l'.sparse (hiddenMask M w) h' a) := by
  intro a ha
  congr 1
  unfold Layer.sparse linear
  rw [hb a ha]
  congr 1
  apply Finset.sum_congr rfl
  intro b _
  unfold hiddenMask
  by_cases hab : a.val / w = b.val / w
  · have hbj : InBlock w j b.val := by
      apply inBlock_of_div_eq (width_pos_of_fin a)
      rw [← hab]; exact div_eq_of_inBlock ha
    simp only [hh b hbj, hw a b ha hbj]
  · simp [hab]

theorem foldl_local (ls ls' : List (Layer (M * w) (M * w))) (j : Nat)
    (hl : List.Forall₂ (fun l l' => (∀ a b, InBlock w j a.val → InBlock w j b.val → l.weight a b = l'.weight a b) ∧
      ∀ a, InBlock w j a.val → l.bias a = l'.bias a) ls ls')
    (h h' : Fin (M * w) → ℝ) (hh : ∀ a, InBlock w j a.val → h a = h' a) :
    ∀ a, InBlock w j a.val →
      ls.foldl (fun h l => fun k => sigmoid (l.sparse (hiddenMask M w) h k)) h a =
      ls'.foldl (fun h l => fun k => sigmoid (l.sparse (hiddenMask M w) h k)) h' a := by
  induction hl generalizing h h' with
  | nil => exact hh
  | cons hd _ ih =>
    simp only [List.foldl_cons]
    exact ih _ _ (hidden_local _ _ j hd.1 hd.2 h h' hh)

theorem head_local (f f' : Layer L (M * w)) (ls ls' : List (Layer (M * w) (M * w))) (o o' : Layer (M * w) M)
    (z z' : Fin L → ℝ) (j : Fin M)
    (hf : ∀ a, InBlock w j a.val → f.apply z a = f'.apply z' a)
    (hl : List.Forall₂ (fun l l' => (∀ a b, InBlock w j a.val → InBlock w j b.val → l.weight a b = l'.weight a b) ∧
      ∀ a, InBlock w j a.val → l.bias a = l'.bias a) ls ls')
    (ho : ∀ b, InBlock w j b.val → o.weight j b = o'.weight j b) (hob : o.bias j = o'.bias j) :
    decodeHead f ls o z j = decodeHead f' ls' o' z' j := by
  unfold decodeHead
  have h0 : ∀ (f : Layer L (M * w)) z a, f.sparse noMask z a = f.apply z a := by
    intro f z a
    simp [Layer.sparse, Layer.apply, noMask]
  have key := foldl_local ls ls' j hl (fun k => sigmoid (f.sparse noMask z k)) (fun k => sigmoid (f'.sparse noMask z' k))
    (by intro a ha; rw [h0, h0, hf a ha])
  unfold Layer.sparse linear
  rw [hob]
  congr 1
  apply Finset.sum_congr rfl
  intro b _
  unfold outputMask
  by_cases hjb : j.val = b.val / w
  · have hbj : InBlock w j b.val := inBlock_of_div_eq (width_pos_of_fin b) hjb.symm
    have := key b hbj
    unfold Layer.sparse linear at this
    simp only [this, ho b hbj]
  · simp [hjb]

theorem forall2_range {α β : Type} {R : α → β → Prop} (f : Nat → α) (g : Nat → β) (H : Nat) (h : ∀ i < H, R (f i) (g i)) :
    List.Forall₂ R ((List.range H).map f) ((List.range H).map g) := by
  rw [List.forall₂_map_left_iff, List.forall₂_map_right_iff]
  rw [List.forall₂_same]
  intro i hi
  exact h i (List.mem_range.mp hi)

/-- **C70**.  Take two decoders of any width and depth and any two inputs.  If the units of block `j` of the first
layer have the same values, and the hidden and output layers have the same weights inside block `j`, then output `j`
is the same: nothing outside the block has any influence on it.  The two halves (mean and log-covariance) use
separate layers. -/
theorem C70_blocks_do_not_interact (H : Nat) (W W' : Weights L M w) (z z' : Fin L → ℝ) (j : Fin M) :
    ((∀ a, InBlock w j a.val → (W .meanFulcon).apply z a = (W' .meanFulcon).apply z' a) →
     (∀ i < H, (∀ a b, InBlock w j a.val → InBlock w j b.val →
        (W (.meanHidden i)).weight a b = (W' (.meanHidden i)).weight a b) ∧
        ∀ a, InBlock w j a.val → (W (.meanHidden i)).bias a = (W' (.meanHidden i)).bias a) →
     (∀ b, InBlock w j b.val → (W .meanOutput).weight j b = (W' .meanOutput).weight j b) →
     (W .meanOutput).bias j = (W' .meanOutput).bias j →
     (decode H W z).1 j = (decode H W' z').1 j) ∧
    ((∀ a, InBlock w j a.val → (W .covFulcon).apply z a = (W' .covFulcon).apply z' a) →
     (∀ i < H, (∀ a b, InBlock w j a.val → InBlock w j b.val →
        (W (.covHidden i)).weight a b = (W' (.covHidden i)).weight a b) ∧
        ∀ a, InBlock w j a.val → (W (.covHidden i)).bias a = (W' (.covHidden i)).bias a) →
     (∀ b, InBlock w j b.val → (W .covOutput).weight j b = (W' .covOutput).weight j b) →
     (W .covOutput).bias j = (W' .covOutput).bias j →
     (decode H W z).2 j = (decode H W' z').2 j) := by
  constructor
  · intro h1 h2 h3 h4
    exact head_local _ _ _ _ _ _ z z' j h1 (forall2_range _ _ H h2) h3 h4
  · intro h1 h2 h3 h4
    exact head_local _ _ _ _ _ _ z z' j h1 (forall2_range _ _ H h2) h3 h4

/-- all weights 0 and all biases `c`, except that output weights are 1 and the first-layer bias of unit `k` is `b k` -/
def demoWeights (c : ℝ) (b : Nat → ℝ) : Weights 2 2 1 := fun l =>
  { weight := fun _ _ => match l with | .meanOutput | .covOutput => 1 | _ => 0
    bias := fun k => match l with | .meanFulcon | .covFulcon => b k.val | _ => c }

/-- not vacuous: two decoders that differ in block 1 have the same output 0, and a different output 1 -/
theorem C70_example :
    (decode 0 (demoWeights 0 fun _ => 0) 0).1 0 = (decode 0 (demoWeights 0 fun k => if k = 1 then 1 else 0) 0).1 0 ∧
    (decode 0 (demoWeights 0 fun _ => 0) 0).1 1 ≠ (decode 0 (demoWeights 0 fun k => if k = 1 then 1 else 0) 0).1 1 := by
  constructor
  · refine (C70_blocks_do_not_interact 0 _ _ 0 0 0).1 ?_ (by intro i hi; omega) (by intro b _; rfl) rfl
    intro a ha
    have : a.val = 0 := by have := ha.2; simpa using this
    simp [Layer.apply, linear, demoWeights, this]
  · have hs : sigmoid 0 ≠ sigmoid 1 := by
      unfold sigmoid
      intro h
      have h1 : (1 + Real.exp (-0)) = 1 + Real.exp (-1) := by
        have := congrArg (fun t => t⁻¹) h
        simpa using this
      have : Real.exp (-(1 : ℝ)) < Real.exp (-0) := Real.exp_lt_exp.mpr (by norm_num)
      linarith
    intro h
    apply hs
    simpa [decode, decodeHead, Layer.sparse, linear, demoWeights, outputMask, noMask, Fin.sum_univ_two] using h

/-! ### C71: evaluation mode is deterministic -/

/-- **C71**.  In evaluation mode nothing is drawn, the results are the same for any generators, and each row's
reconstruction is the decoded mean of its latent; in training mode it is the decoded `mu + exp(logvar/2)·noise` for
the noise drawn.  `mu` and `logvar` are the encoder's in both modes, and each row is processed on its own. -/
theorem C71_forward {G : Type} (gen : TorchGen G) (H : Nat) (W : Weights L M w) {N : Nat} (x : Fin N → Fin M → ℝ) (g : G) :
    (∀ (G' : Type) (gen' : TorchGen G') (g' : G'),
      (vaeForward gen H W false x g).1 = (vaeForward gen' H W false x g').1 ∧
      (vaeForward gen H W false x g).2.1 = g) ∧
    (∀ k, (vaeForward gen H W false x g).1.recon k = (decode H W (encode W (x k)).1).1 ∧
      (vaeForward gen H W false x g).1.logcov k = (decode H W (encode W (x k)).1).2) ∧
    (∀ k, (vaeForward gen H W true x g).1.recon k =
        (decode H W fun l => (encode W (x k)).1 l + Real.exp ((encode W (x k)).2 l / 2) * (gen.normal N L g).1 k l).1 ∧
      (vaeForward gen H W true x g).1.logcov k =
        (decode H W fun l => (encode W (x k)).1 l + Real.exp ((encode W (x k)).2 l / 2) * (gen.normal N L g).1 k l).2) ∧
    (vaeForward gen H W true x g).2.1 = (gen.normal N L g).2 ∧
    (∀ t k, (vaeForward gen H W t x g).1.mu k = (encode W (x k)).1 ∧
      (vaeForward gen H W t x g).1.logvar k = (encode W (x k)).2) := by
  have e : ∀ k, (fun l => (gen.normal N L g).1 k l * Real.exp ((encode W (x k)).2 l * (1 / 2)) + (encode W (x k)).1 l) =
      fun l => (encode W (x k)).1 l + Real.exp ((encode W (x k)).2 l / 2) * (gen.normal N L g).1 k l := by
    intro k; funext l
    rw [mul_one_div]; ring
  refine ⟨fun _ _ _ => ⟨rfl, rfl⟩, fun k => ⟨rfl, rfl⟩, fun k => ?_, rfl, ?_⟩
  · rw [← e k]; exact ⟨rfl, rfl⟩
  · intro t k
    cases t <;> exact ⟨rfl, rfl⟩

/-- a generator that always draws ones -/
def onesGen : TorchGen Nat where
  normal _ _ g := (fun _ _ => 1, g + 1)
  init _ _ _ _ g := (fun _ => ⟨fun _ _ => 0, fun _ => 0⟩, g + 1)

/-- the two modes do differ: with noise 1 and `mu = 0`, `logvar = 0` the latent is 1 instead of 0 -/
theorem C71_example :
    (latentSample onesGen (N := 1) (L := 1) true (fun _ _ => 0) (fun _ _ => 0) 5) =
      (fun _ _ => 1, 6, some fun _ _ => 1) ∧
    (latentSample onesGen (N := 1) (L := 1) false (fun _ _ => 0) (fun _ _ => 0) 5) = (fun _ _ => 0, 5, none) := by
  constructor
  · simp [latentSample, onesGen]
  · simp [latentSample]

/-! ### C69: which tensors are trained -/

/-- **C69** (as stated; false): every tensor of the network is among `parameters()` -/
def C69_statement : Prop := ∀ H p, Stored (vaeObj H) p → p ∈ (vaeObj H).parameters

theorem parameters_linear (l : LayerId) : (linearObj l).parameters = [.weight l, .bias l] := by
  simp [linearObj, PyObj.parameters, ownParams, childParams]

theorem parameters_vae (H : Nat) : (vaeObj H).parameters =
    [.weight .enc1, .bias .enc1, .weight .enc2, .bias .enc2, .weight .fcMu, .bias .fcMu, .weight .fcLogvar,
     .bias .fcLogvar, .weight .meanFulcon, .bias .meanFulcon, .weight .covFulcon, .bias .covFulcon,
     .weight .meanOutput, .bias .meanOutput, .weight .covOutput, .bias .covOutput] := by
  simp [vaeObj, encoderObj, decoderObj, PyObj.parameters, ownParams, childParams, linearObj]

theorem stored_linear (l : LayerId) (p : ParamId) : Stored (linearObj l) p ↔ p = .weight l ∨ p = .bias l := by
  constructor
  · intro h
    cases h with
    | attr ha hs =>
      simp only [List.mem_cons, List.not_mem_nil, or_false] at ha
      rcases ha with rfl | rfl | rfl | rfl | rfl
      · cases hs
      · cases hs
      · cases hs
      · cases hs; exact Or.inl rfl
      · cases hs; exact Or.inr rfl
  · rintro (rfl | rfl)
    · exact Stored.attr (a := ("weight", .param (.weight l))) (by simp) (.self _)
    · exact Stored.attr (a := ("bias", .param (.bias l))) (by simp) (.self _)

/-- the layers of a network with `H` hidden layers -/
def LayerId.exists (H : Nat) : LayerId → Prop
  | .meanHidden i | .covHidden i => i < H
  | _ => True

/-- the layer of a tensor -/
def ParamId.layer : ParamId → LayerId
  | .weight l | .bias l => l

theorem stored_vae (H : Nat) (p : ParamId) : Stored (vaeObj H) p ↔ p.layer.exists H := by
  have attr : ∀ {attrs : List (String × PyObj)} {p}, Stored (.module attrs) p ↔ ∃ a ∈ attrs, Stored a.2 p := by
    intro attrs p
    constructor
    · intro h; cases h with | attr ha hs => exact ⟨_, ha, hs⟩
    · rintro ⟨a, ha, hs⟩; exact .attr ha hs
  have item : ∀ {items : List (Nat × PyObj)} {p}, Stored (.dict items) p ↔ ∃ a ∈ items, Stored a.2 p := by
    intro attrs p
    constructor
    · intro h; cases h with | item ha hs => exact ⟨_, ha, hs⟩
    · rintro ⟨a, ha, hs⟩; exact .item ha hs
  have other : ∀ {p}, ¬ Stored .other p := by intro p h; cases h
  have ofLin : ∀ l, p.layer = l ↔ (p = .weight l ∨ p = .bias l) := by
    intro l; cases p <;> simp [ParamId.layer]
  simp only [vaeObj, encoderObj, decoderObj, attr, item, List.mem_cons, List.not_mem_nil, or_false, exists_eq_or_imp,
    exists_eq_left, other, stored_linear, List.mem_map, List.mem_range, false_or, exists_exists_and_eq_and,
    false_and, exists_false, or_false, ← ofLin]
  generalize p.layer = l
  cases l <;> simp [LayerId.exists]

/-- the claim is false as soon as there is a hidden layer (the default is one): its tensors are stored in a plain
dict, which `parameters()` does not look into -/
theorem C69_false : ¬ C69_statement := by
  intro h
  have := h 1 (.weight (.meanHidden 0)) ((stored_vae 1 _).mpr (by simp [ParamId.layer, LayerId.exists]))
  rw [parameters_vae] at this
  simp at this

/-- **C69**, what is true instead, for every depth: the parameters are exactly the stored tensors that do not belong
to a hidden layer, each once; so the claim holds exactly for networks without hidden layers.  The number of trained
values does not depend on the depth, although every hidden layer adds `2·((w·M)² + w·M)` values to the network. -/
theorem C69_partial (H : Nat) :
    (∀ p, p ∈ (vaeObj H).parameters ↔ Stored (vaeObj H) p ∧ p.hidden = false) ∧
    (vaeObj H).parameters.Nodup ∧
    ((∀ p, Stored (vaeObj H) p → p ∈ (vaeObj H).parameters) ↔ H = 0) ∧
    (∀ L M w : Nat, ((vaeObj H).parameters.map (ParamId.numel L M w)).sum =
      2 * (M * M + M) + 2 * (L * M + L) + 2 * (M * w * L + M * w) + 2 * (M * (M * w) + M)) := by
  have h1 : ∀ p, p ∈ (vaeObj H).parameters ↔ Stored (vaeObj H) p ∧ p.hidden = false := by
    intro p
    rw [parameters_vae, stored_vae]
    cases p with
    | weight l => cases l <;> simp [ParamId.layer, ParamId.hidden, LayerId.exists]
    | bias l => cases l <;> simp [ParamId.layer, ParamId.hidden, LayerId.exists]
  refine ⟨h1, by rw [parameters_vae]; decide, ⟨fun h => ?_, fun h p hp => ?_⟩, ?_⟩
  · by_contra hH
    have := ((h1 _).mp (h (.weight (.meanHidden 0)) ((stored_vae H _).mpr (by
      simp [ParamId.layer, LayerId.exists]; omega)))).2
    simp [ParamId.hidden] at this
  · subst h
    rw [h1]
    refine ⟨hp, ?_⟩
    rw [stored_vae] at hp
    cases p with
    | weight l => cases l <;> simp_all [ParamId.layer, ParamId.hidden, LayerId.exists]
    | bias l => cases l <;> simp_all [ParamId.layer, ParamId.hidden, LayerId.exists]
  · intro L M w
    rw [parameters_vae]
    simp [ParamId.numel, LayerId.out, LayerId.inn]
    ring

end Medil

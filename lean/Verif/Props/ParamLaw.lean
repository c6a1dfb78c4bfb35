import Verif.Props.Sample
import Verif.Spec.Gaussian
import Mathlib.Probability.Independence.Integration
import Mathlib.Probability.Distributions.Uniform
/-
  The distribution of the parameters drawn by `mcm` (C181).
-/
namespace Medil
open Finset MeasureTheory ProbabilityTheory
variable {G : Type} {n : Nat}

/-- the numbers and coins that lines 22-32 of `mcm` draw for a structure: for every edge a number and a coin, for every error mean a number and a
coin, for every error variance a number (with a dummy coin) -/
def paramDraws (gen : Gen G) (B : List (BVec n)) (g : G) : Fin (maskPositions B).length ⊕ Fin n ⊕ Fin n → ℚ × Bool :=
  let w := gen.randomVec (maskPositions B).length g
  let f := gen.choiceVec (maskPositions B).length w.2
  let m := gen.randomVec n f.2
  let mf := gen.choiceVec n m.2
  let v := gen.randomVec n mf.2
  Sum.elim (fun k => (w.1 k, f.1 k)) (Sum.elim (fun j => (m.1 j, mf.1 j)) fun j => (v.1 j, false))

/-- what is assumed of a generator in a random state with distribution `μ`: the draws are independent, all numbers have the law `ν`, and the coins of edges
and means are fair and independent of their numbers -/
structure IdealParamDraws [MeasurableSpace G] (μ : Measure G) (gen : Gen G) (B : List (BVec n)) (ν : Measure ℚ) : Prop where
  meas : ∀ i, Measurable fun g => paramDraws gen B g i
  indep : iIndepFun (fun i g => paramDraws gen B g i) μ
  number : ∀ i A, μ.real {g | (paramDraws gen B g i).1 ∈ A} = ν.real A
  coin : ∀ i, (∀ j, i ≠ .inr (.inr j)) → ∀ A b, μ.real {g | (paramDraws gen B g i).1 ∈ A ∧ (paramDraws gen B g i).2 = b} = ν.real A / 2

theorem edgeIdx_lt {B : List (BVec n)} {r : Fin B.length} {j : Fin n} (h : B[r] j = true) :
    (maskPositions B).idxOf (r, j) < (maskPositions B).length :=
  List.idxOf_lt_length_iff.mpr ((mem_maskPositions B r j).mpr h)

/-- the draw behind a parameter -/
def drawOf (B : List (BVec n)) :
    {e : Fin B.length × Fin n // B[e.1] e.2 = true} ⊕ Fin n ⊕ Fin n → Fin (maskPositions B).length ⊕ Fin n ⊕ Fin n :=
  Sum.map (fun e => ⟨_, edgeIdx_lt e.2⟩) id

theorem drawOf_injective (B : List (BVec n)) : Function.Injective (drawOf B) := by
  refine Function.Injective.sumMap ?_ Function.injective_id
  intro e e' h
  have h1 := Fin.mk.inj h
  have := (List.idxOf_inj ((mem_maskPositions B _ _).mpr e.2)).mp h1
  exact Subtype.ext this

/-- the parameter made of a draw -/
def paramOf (B : List (BVec n)) : {e : Fin B.length × Fin n // B[e.1] e.2 = true} ⊕ Fin n ⊕ Fin n → ℚ × Bool → ℚ :=
  Sum.elim (fun _ x => if x.2 then -(1 / 2 + 3 / 2 * x.1) else 1 / 2 + 3 / 2 * x.1)
    (Sum.elim (fun _ x => if x.2 then -(2 * x.1) else 2 * x.1) fun _ x => 1 / 2 + 3 / 2 * x.1)

/-- **C181** The parameters that `mcm` draws for a given structure with a generator in a random state: the weights of all edges, the error means and the error variances are
mutually independent; a weight is `1/2 + 3/2 u`, with a fair sign, for a draw `u` of the law of `rng.random`, an error mean is `2 u` with a fair sign, an error
variance is `1/2 + 3/2 u`; there are no other weights. -/
theorem C181_law [MeasurableSpace G] (μ : Measure G) [IsProbabilityMeasure μ] (ν : Measure ℚ) (gen : Gen G) (rts : (n : Nat) → Runtime n) (fuel : Nat) (a : McmArgs G)
    (w : World G) (B : List (BVec n)) (hB : a.biadj = .given n B) (ha : a.parameterization = "Gaussian") (hideal : IdealParamDraws μ gen B ν) :
    ∃ (W : G → Fin B.length → Fin n → ℚ) (m v : G → Fin n → ℚ),
      (∀ g, (sampleMcm gen rts fuel { a with rng := some g } w).res = .ok ⟨n, ⟨B, W g, m g, v g⟩⟩) ∧
      iIndepFun (fun (i : {e : Fin B.length × Fin n // B[e.1] e.2 = true} ⊕ Fin n ⊕ Fin n) g =>
        match i with
        | .inl e => W g e.1.1 e.1.2
        | .inr (.inl j) => m g j
        | .inr (.inr j) => v g j) μ ∧
      (∀ r j, B[r] j = false → ∀ g, W g r j = 0) ∧
      (∀ r j, B[r] j = true → ∀ A : Set ℚ, μ.real {g | W g r j ∈ A} =
        (ν.real {u | 1 / 2 + 3 / 2 * u ∈ A} + ν.real {u | -(1 / 2 + 3 / 2 * u) ∈ A}) / 2) ∧
      (∀ j, ∀ A : Set ℚ, μ.real {g | m g j ∈ A} = (ν.real {u | 2 * u ∈ A} + ν.real {u | -(2 * u) ∈ A}) / 2) ∧
      (∀ j, ∀ A : Set ℚ, μ.real {g | v g j ∈ A} = ν.real {u | 1 / 2 + 3 / 2 * u ∈ A}) ∧
      (∀ r j, Measurable fun g => W g r j) ∧ (∀ j, Measurable fun g => m g j) ∧ (∀ j, Measurable fun g => v g j) := by
  have hval : ∀ i g, paramOf B i (paramDraws gen B g (drawOf B i)) = match i with
      | .inl e => (gaussianParams gen B g).1.weights e.1.1 e.1.2
      | .inr (.inl j) => (gaussianParams gen B g).1.means j
      | .inr (.inr j) => (gaussianParams gen B g).1.variances j := by
    intro i g
    rcases i with ⟨e, he⟩ | j | j
    · show _ = dite _ _ _
      rw [dif_pos (edgeIdx_lt he)]
      unfold flipped
      simp only [paramOf, paramDraws, drawOf, Sum.elim_inl, Sum.map_inl]
      split <;> ring
    · show _ = flipped _ _
      unfold flipped
      simp only [paramOf, paramDraws, drawOf, Sum.elim_inl, Sum.elim_inr, Sum.map_inr, id]
      split <;> ring
    · show _ = _ * (3 / 2) + 1 / 2
      simp only [paramOf, paramDraws, drawOf, Sum.elim_inr, Sum.map_inr, id]
      ring
  have hmeas : ∀ i, Measurable fun g => paramOf B i (paramDraws gen B g (drawOf B i)) := fun i =>
    ((Measurable.of_discrete (f := paramOf B i)).comp (hideal.meas _))
  have hsigned : ∀ i (f : ℚ → ℚ), (∀ j, i ≠ .inr (.inr j)) → ∀ A : Set ℚ,
      μ.real {g | (if (paramDraws gen B g i).2 then -(f (paramDraws gen B g i).1) else f (paramDraws gen B g i).1) ∈ A} =
        (ν.real {u | f u ∈ A} + ν.real {u | -(f u) ∈ A}) / 2 := by
    intro i f hi A
    have e : {g | (if (paramDraws gen B g i).2 then -(f (paramDraws gen B g i).1) else f (paramDraws gen B g i).1) ∈ A} =
        {g | (paramDraws gen B g i).1 ∈ {u | f u ∈ A} ∧ (paramDraws gen B g i).2 = false} ∪
        {g | (paramDraws gen B g i).1 ∈ {u | -(f u) ∈ A} ∧ (paramDraws gen B g i).2 = true} := by
      ext g
      simp only [Set.mem_ofPred_eq, Set.mem_union]
      cases (paramDraws gen B g i).2 <;> simp
    rw [e, measureReal_union, hideal.coin i hi, hideal.coin i hi]
    · ring
    · rw [Set.disjoint_left]
      rintro g ⟨-, h1⟩ ⟨-, h2⟩
      rw [h1] at h2; cases h2
    · exact hideal.meas i (show MeasurableSet {x : ℚ × Bool | x.1 ∈ {u | -(f u) ∈ A} ∧ x.2 = true} from .of_discrete)
  refine ⟨fun g => (gaussianParams gen B g).1.weights, fun g => (gaussianParams gen B g).1.means, fun g => (gaussianParams gen B g).1.variances,
    fun g => ?_, ?_, ?_, ?_, ?_, ?_, ?_, ?_, ?_⟩
  · unfold sampleMcm mcmWith
    simp only [hB, ha, if_true]
    rfl
  · have h1 := (hideal.indep.precomp (drawOf_injective B)).comp (paramOf B) fun i => .of_discrete
    refine (iIndepFun_congr (f := _) (g := _) fun i => ?_).mp h1
    exact Filter.Eventually.of_forall fun g => hval i g
  · intro r j h g
    show dite _ _ _ = (0 : ℚ)
    rw [dif_neg]
    rw [List.idxOf_lt_length_iff, mem_maskPositions, h]
    exact Bool.false_ne_true
  · intro r j h A
    have := hsigned (.inl ⟨_, edgeIdx_lt h⟩) (fun u => 1 / 2 + 3 / 2 * u) (by simp) A
    rw [← this]
    congr 1
    ext g
    exact Iff.of_eq (congrArg (· ∈ A) (hval (.inl ⟨(r, j), h⟩) g).symm)
  · intro j A
    have := hsigned (.inr (.inl j)) (fun u => 2 * u) (by simp) A
    rw [← this]
    congr 1
    ext g
    exact Iff.of_eq (congrArg (· ∈ A) (hval (.inr (.inl j)) g).symm)
  · intro j A
    have := hideal.number (.inr (.inr j)) {u | 1 / 2 + 3 / 2 * u ∈ A}
    rw [← this]
    congr 1
    ext g
    exact Iff.of_eq (congrArg (· ∈ A) (hval (.inr (.inr j)) g).symm)
  · intro r j
    by_cases h : B[r] j = true
    · rw [show (fun g => (gaussianParams gen B g).1.weights r j) = _ from funext fun g => (hval (.inl ⟨(r, j), h⟩) g).symm]
      exact hmeas _
    · have : (fun g => (gaussianParams gen B g).1.weights r j) = fun _ => 0 := by
        funext g
        show dite _ _ _ = (0 : ℚ)
        rw [dif_neg]
        rw [List.idxOf_lt_length_iff, mem_maskPositions]
        exact h
      rw [this]; exact measurable_const
  · intro j
    rw [show (fun g => (gaussianParams gen B g).1.means j) = _ from funext fun g => (hval (.inr (.inl j)) g).symm]
    exact hmeas _
  · intro j
    rw [show (fun g => (gaussianParams gen B g).1.variances j) = _ from funext fun g => (hval (.inr (.inr j)) g).symm]
    exact hmeas _

/-- equal laws, equal integrals -/
theorem integral_eq_of_law {Ω Ω' : Type} [MeasurableSpace Ω] [MeasurableSpace Ω'] {μ : Measure Ω} {ν : Measure Ω'} [IsFiniteMeasure μ] [IsFiniteMeasure ν]
    {X : Ω → ℚ} {Y : Ω' → ℚ} (hX : Measurable X) (hY : Measurable Y) (h : ∀ A : Set ℚ, μ.real {ω | X ω ∈ A} = ν.real {ω | Y ω ∈ A}) :
    ∫ ω, (X ω : ℝ) ∂μ = ∫ ω, (Y ω : ℝ) ∂ν := by
  have e : μ.map X = ν.map Y := by
    ext A hA
    rw [Measure.map_apply hX hA, Measure.map_apply hY hA]
    have := h A
    rw [Measure.real, Measure.real, ENNReal.toReal_eq_toReal_iff' (measure_ne_top _ _) (measure_ne_top _ _)] at this
    exact this
  have h1 := integral_map (μ := μ) hX.aemeasurable (f := fun q : ℚ => (q : ℝ)) (Measurable.of_discrete.aestronglyMeasurable)
  have h2 := integral_map (μ := ν) hY.aemeasurable (f := fun q : ℚ => (q : ℝ)) (Measurable.of_discrete.aestronglyMeasurable)
  rw [← h1, ← h2, e]

theorem IdealParamDraws.prob [MeasurableSpace G] {μ : Measure G} [IsProbabilityMeasure μ] {gen : Gen G} {B : List (BVec n)} {ν : Measure ℚ} (h : IdealParamDraws μ gen B ν)
    (i : Fin (maskPositions B).length ⊕ Fin n ⊕ Fin n) : IsProbabilityMeasure ν := by
  have := h.number i Set.univ
  simp only [Set.mem_univ, Set.ofPred_true, probReal_univ] at this
  refine ⟨?_⟩
  rw [Measure.real] at this
  rw [← ENNReal.toReal_eq_one_iff]
  exact this.symm

/-- **C181** Weights and error means are zero on average. The average covariance of two measurements under the drawn model is zero, the average variance of a measurement with `p` parents
is `p E(1/2 + 3/2 u)² + E(1/2 + 3/2 u)`, where `u` has the law of `rng.random`. -/
theorem C181_moments [MeasurableSpace G] (μ : Measure G) [IsProbabilityMeasure μ] (ν : Measure ℚ) (gen : Gen G) (rts : (n : Nat) → Runtime n) (fuel : Nat) (a : McmArgs G)
    (w : World G) (B : List (BVec n)) (hB : a.biadj = .given n B) (ha : a.parameterization = "Gaussian") (hideal : IdealParamDraws μ gen B ν)
    (W : G → Fin B.length → Fin n → ℚ) (m v : G → Fin n → ℚ)
    (hW : ∀ g, (sampleMcm gen rts fuel { a with rng := some g } w).res = .ok ⟨n, ⟨B, W g, m g, v g⟩⟩) :
    (∀ r j, ∫ g, (W g r j : ℝ) ∂μ = 0) ∧ (∀ j, ∫ g, (m g j : ℝ) ∂μ = 0) ∧
    (∀ i j, i ≠ j → ∫ g, modelCov (fun r j => (W g r j : ℝ)) (fun j => (v g j : ℝ)) i j ∂μ = 0) ∧
    ∀ j, ∫ g, modelCov (fun r j => (W g r j : ℝ)) (fun j => (v g j : ℝ)) j j ∂μ =
      (univ.filter fun r : Fin B.length => B[r] j = true).card * ∫ u, (1 / 2 + 3 / 2 * (u : ℝ)) ^ 2 ∂ν + ∫ u, (1 / 2 + 3 / 2 * (u : ℝ)) ∂ν := by
  obtain ⟨W', m', v', hW', hind, h0, hw, hm, hv, mW, mm, mv⟩ := C181_law μ ν gen rts fuel a w B hB ha hideal
  have hall : ∀ g, W g = W' g ∧ m g = m' g ∧ v g = v' g := by
    intro g
    have := (hW g).symm.trans (hW' g)
    simp only [Except.ok.injEq, Sigma.mk.injEq, heq_eq_eq, true_and, McmParams.mk.injEq] at this
    exact this
  obtain rfl : W = W' := funext fun g => (hall g).1
  obtain rfl : m = m' := funext fun g => (hall g).2.1
  obtain rfl : v = v' := funext fun g => (hall g).2.2
  have hbound : ∀ g r j, |W g r j| < 2 := by
    intro g r j
    obtain ⟨a0, a1, -⟩ := C43_mcm_parameters gen rts fuel _ w n _ (hW g)
    by_cases h : B[r] j = true
    · exact (a1 r j h).2
    · rw [h0 r j (by simpa using h)]; simp
  have hvb : ∀ g j, |v g j| ≤ 2 := by
    intro g j
    obtain ⟨-, -, -, a3, -⟩ := C43_mcm_parameters gen rts fuel _ w n _ (hW g)
    have := a3 j
    dsimp only at this
    rw [abs_of_pos (by linarith)]
    linarith
  have castm : ∀ {X : G → ℚ}, Measurable X → Measurable fun g => (X g : ℝ) := fun h => (Measurable.of_discrete (f := fun q : ℚ => (q : ℝ))).comp h
  have iW : ∀ r j, Integrable (fun g => (W g r j : ℝ)) μ := fun r j =>
    Integrable.of_bound (castm (mW r j)).aestronglyMeasurable 2 (.of_forall fun g => by
      rw [Real.norm_eq_abs, ← Rat.cast_abs]; exact_mod_cast (hbound g r j).le)
  have iWW : ∀ r i j, Integrable (fun g => (W g r i : ℝ) * W g r j) μ := fun r i j =>
    Integrable.of_bound ((castm (mW r i)).mul (castm (mW r j))).aestronglyMeasurable 4 (.of_forall fun g => by
      rw [Real.norm_eq_abs, abs_mul, ← Rat.cast_abs, ← Rat.cast_abs]
      have h1 : ((|W g r i| : ℚ) : ℝ) ≤ 2 := by exact_mod_cast (hbound g r i).le
      have h2 : ((|W g r j| : ℚ) : ℝ) ≤ 2 := by exact_mod_cast (hbound g r j).le
      have h3 : (0 : ℝ) ≤ ((|W g r i| : ℚ) : ℝ) := by exact_mod_cast abs_nonneg _
      have h4 : (0 : ℝ) ≤ ((|W g r j| : ℚ) : ℝ) := by exact_mod_cast abs_nonneg _
      nlinarith)
  have iv : ∀ j, Integrable (fun g => (v g j : ℝ)) μ := fun j =>
    Integrable.of_bound (castm (mv j)).aestronglyMeasurable 2 (.of_forall fun g => by
      rw [Real.norm_eq_abs, ← Rat.cast_abs]; exact_mod_cast hvb g j)
  have hsym : ∀ X : G → ℚ, Measurable X → ∀ f : ℚ → ℚ, (∀ A : Set ℚ, μ.real {g | X g ∈ A} = (ν.real {u | f u ∈ A} + ν.real {u | -(f u) ∈ A}) / 2) →
      ∫ g, (X g : ℝ) ∂μ = 0 := by
    intro X hX f hf
    have h1 : ∫ g, (X g : ℝ) ∂μ = ∫ g, ((-X g : ℚ) : ℝ) ∂μ := by
      refine integral_eq_of_law hX ((Measurable.of_discrete (f := fun q : ℚ => -q)).comp hX) fun A => ?_
      have h2 := hf {q | -q ∈ A}
      simp only [Set.mem_ofPred_eq, neg_neg] at h2
      rw [h2, hf A, add_comm]
    simp only [Rat.cast_neg, integral_neg] at h1
    linarith
  have hW0 : ∀ r j, ∫ g, (W g r j : ℝ) ∂μ = 0 := by
    intro r j
    by_cases h : B[r] j = true
    · exact hsym _ (mW r j) _ (hw r j h)
    · simp only [h0 r j (by simpa using h)]
      simp
  refine ⟨hW0, fun j => hsym _ (mm j) _ (hm j), ?_, ?_⟩
  · intro i j hij
    unfold modelCov
    simp only [if_neg hij, add_zero]
    rw [integral_finsetSum _ fun r _ => iWW r i j]
    refine sum_eq_zero fun r _ => ?_
    by_cases hi : B[r] i = true
    · by_cases hj : B[r] j = true
      · have h1 := hind.indepFun (i := .inl ⟨(r, i), hi⟩) (j := .inl ⟨(r, j), hj⟩) (by
          intro h
          have := congrArg (fun e : {e : Fin B.length × Fin n // B[e.1] e.2 = true} => e.1.2) (Sum.inl.inj h)
          exact hij this)
        have h2 := h1.comp (φ := fun q : ℚ => (q : ℝ)) (ψ := fun q : ℚ => (q : ℝ)) .of_discrete .of_discrete
        have h3 := h2.integral_fun_mul_eq_mul_integral (castm (mW r i)).aestronglyMeasurable (castm (mW r j)).aestronglyMeasurable
        refine h3.trans ?_
        rw [show ∫ g, ((fun q : ℚ => (q : ℝ)) ∘ fun g => W g r i) g ∂μ = 0 from hW0 r i, zero_mul]
      · simp only [h0 r j (by simpa using hj)]
        simp
    · simp only [h0 r i (by simpa using hi)]
      simp
  · intro j
    have hp := hideal.prob (.inr (.inr j))
    unfold modelCov
    simp only [if_true]
    rw [integral_add (integrable_finsetSum _ fun r _ => iWW r j j) (iv j), integral_finsetSum _ fun r _ => iWW r j j]
    congr 1
    · rw [card_filter]
      push_cast
      rw [sum_mul]
      refine sum_congr rfl fun r _ => ?_
      by_cases h : B[r] j = true
      · rw [if_pos h, one_mul]
        have := integral_eq_of_law (μ := μ) (ν := ν) (X := fun g => W g r j * W g r j) (Y := fun u => (1 / 2 + 3 / 2 * u) ^ 2)
          ((mW r j).mul (mW r j)) .of_discrete (fun A => by
            have h1 := hw r j h {q | q * q ∈ A}
            simp only [Set.mem_ofPred_eq] at h1
            have h2 : ∀ u : ℚ, -(1 / 2 + 3 / 2 * u) * -(1 / 2 + 3 / 2 * u) = (1 / 2 + 3 / 2 * u) ^ 2 := fun u => by ring
            have h3 : ∀ u : ℚ, (1 / 2 + 3 / 2 * u) * (1 / 2 + 3 / 2 * u) = (1 / 2 + 3 / 2 * u) ^ 2 := fun u => by ring
            rw [h1]
            simp only [h2, h3]
            rw [← two_mul, mul_div_cancel_left₀ _ (two_ne_zero)])
        push_cast at this
        exact this
      · rw [if_neg h]
        simp only [h0 r j (by simpa using h)]
        simp
    · have := integral_eq_of_law (μ := μ) (ν := ν) (X := fun g => v g j) (Y := fun u => 1 / 2 + 3 / 2 * u) (mv j) .of_discrete (fun A => hv j A)
      push_cast at this
      exact this

/-! ### a generator with ideal draws -/

/-- a generator whose state holds the answers to the calls of `mcm` for the structure `B`, as pairs of coins, and the number of calls so far; its numbers are 0 or 1/2 -/
def coinGen (B : List (BVec n)) : Gen ((Fin (maskPositions B).length ⊕ Fin n ⊕ Fin n → Bool × Bool) × Nat) where
  integers lo hi s := (lo, s)
  integers_range := by intro lo hi s h; exact ⟨le_refl _, h⟩
  random s := (1 / 2, s)
  random_range := by intro g; norm_num
  permutation m s := (Equiv.refl _, s)
  permuted r c s := (fun _ => Equiv.refl _, s)
  randomVec k s := (fun i =>
    if (if h : s.2 = 0 ∧ k = (maskPositions B).length then (s.1 (.inl (Fin.cast h.2 i))).1
      else if h : s.2 = 2 ∧ k = n then (s.1 (.inr (.inl (Fin.cast h.2 i)))).1
      else if h : s.2 = 4 ∧ k = n then (s.1 (.inr (.inr (Fin.cast h.2 i)))).1 else false) then 1 / 2 else 0, (s.1, s.2 + 1))
  randomVec_range := by
    intro m g i
    dsimp only
    generalize (if h : g.2 = 0 ∧ m = (maskPositions B).length then (g.1 (.inl (Fin.cast h.2 i))).1
      else if h : g.2 = 2 ∧ m = n then (g.1 (.inr (.inl (Fin.cast h.2 i)))).1
      else if h : g.2 = 4 ∧ m = n then (g.1 (.inr (.inr (Fin.cast h.2 i)))).1 else false) = b
    cases b <;> norm_num
  choiceVec k s := (fun i =>
    (if h : s.2 = 1 ∧ k = (maskPositions B).length then (s.1 (.inl (Fin.cast h.2 i))).2
      else if h : s.2 = 3 ∧ k = n then (s.1 (.inr (.inl (Fin.cast h.2 i)))).2 else false), (s.1, s.2 + 1))

theorem paramDraws_coinGen (B : List (BVec n)) (ω : Fin (maskPositions B).length ⊕ Fin n ⊕ Fin n → Bool × Bool) (i) :
    paramDraws (coinGen B) B (ω, 0) i = (if (ω i).1 then 1 / 2 else 0, match i with | .inr (.inr _) => false | _ => (ω i).2) := by
  rcases i with k | j | j <;> simp [paramDraws, coinGen]

/-- four equally likely pairs of coins -/
noncomputable def twoCoins : Measure (Bool × Bool) := (PMF.uniformOfFintype (Bool × Bool)).toMeasure

noncomputable instance : IsProbabilityMeasure twoCoins := by unfold twoCoins; infer_instance

theorem twoCoins_real (A : Set (Bool × Bool)) [DecidablePred (· ∈ A)] : twoCoins.real A = ((univ.filter (· ∈ A)).card : ℝ) / 4 := by
  unfold twoCoins Measure.real
  rw [PMF.toMeasure_uniformOfFintype_apply _ .of_discrete]
  simp [Fintype.card_subtype]

/-- the law of the numbers of `coinGen` -/
noncomputable def halfLaw : Measure ℚ := twoCoins.map fun c => if c.1 then 1 / 2 else 0

/-- the hypothesis of C181 can be met for every structure -/
theorem coinGen_ideal (B : List (BVec n)) :
    IdealParamDraws ((Measure.pi fun _ => twoCoins).map fun ω => (ω, 0)) (coinGen B) B halfLaw := by
  have hpair : Measurable fun ω : Fin (maskPositions B).length ⊕ Fin n ⊕ Fin n → Bool × Bool => (ω, 0) := measurable_prodMk_right
  have hreal : ∀ (i : Fin (maskPositions B).length ⊕ Fin n ⊕ Fin n) (A : Set (Bool × Bool)),
      (Measure.pi fun _ : Fin (maskPositions B).length ⊕ Fin n ⊕ Fin n => twoCoins).real {ω | ω i ∈ A} = twoCoins.real A := by
    intro i A
    have h := (measurePreserving_eval (fun _ : Fin (maskPositions B).length ⊕ Fin n ⊕ Fin n => twoCoins) i).measure_preimage (s := A) (MeasurableSet.of_discrete).nullMeasurableSet
    rw [Measure.real, Measure.real, ← h]
    rfl
  have hmeas : ∀ i, Measurable fun g => paramDraws (coinGen B) B g i := fun i => .of_discrete
  have hback : ∀ A : Set ((Fin (maskPositions B).length ⊕ Fin n ⊕ Fin n → Bool × Bool) × ℕ),
      ((Measure.pi fun _ => twoCoins).map fun ω => (ω, 0)).real A = (Measure.pi fun _ => twoCoins).real {ω | (ω, 0) ∈ A} := by
    intro A
    rw [map_measureReal_apply hpair .of_discrete]
    rfl
  have hp : IsProbabilityMeasure ((Measure.pi fun _ : Fin (maskPositions B).length ⊕ Fin n ⊕ Fin n => twoCoins).map fun ω => (ω, 0)) :=
    Measure.isProbabilityMeasure_map hpair.aemeasurable
  refine ⟨hmeas, ?_, ?_, ?_⟩
  · have h1 := iIndepFun_pi (μ := fun _ : Fin (maskPositions B).length ⊕ Fin n ⊕ Fin n => twoCoins)
      (X := fun i c => ((if c.1 then 1 / 2 else 0 : ℚ), match i with | .inr (.inr _) => false | _ => c.2)) fun i => Measurable.of_discrete.aemeasurable
    rw [iIndepFun_iff_map_fun_eq_pi_map fun i => Measurable.of_discrete.aemeasurable] at h1
    rw [iIndepFun_iff_map_fun_eq_pi_map fun i => (hmeas i).aemeasurable, Measure.map_map .of_discrete hpair]
    have e : ∀ i, Measure.map (fun g => paramDraws (coinGen B) B g i) ((Measure.pi fun _ => twoCoins).map fun ω => (ω, 0)) =
        Measure.map (fun ω : Fin (maskPositions B).length ⊕ Fin n ⊕ Fin n → Bool × Bool =>
          ((if (ω i).1 then 1 / 2 else 0 : ℚ), match i with | .inr (.inr _) => false | _ => (ω i).2)) (Measure.pi fun _ => twoCoins) := by
      intro i
      rw [Measure.map_map (hmeas i) hpair]
      congr 1
      funext ω
      exact paramDraws_coinGen B ω i
    simp only [e]
    rw [← h1]
    congr 1
    funext ω i
    exact paramDraws_coinGen B ω i
  · intro i A
    rw [hback]
    simp only [Set.mem_ofPred_eq, paramDraws_coinGen]
    rw [halfLaw, map_measureReal_apply .of_discrete .of_discrete]
    exact hreal i {c | (if c.1 then 1 / 2 else 0 : ℚ) ∈ A}
  · intro i hi A b
    rw [hback]
    simp only [Set.mem_ofPred_eq, paramDraws_coinGen]
    rw [halfLaw, map_measureReal_apply .of_discrete .of_discrete]
    refine (hreal i {c : Bool × Bool | (if c.1 then 1 / 2 else 0 : ℚ) ∈ A ∧ c.2 = b}).trans ?_
    classical
    rw [twoCoins_real, twoCoins_real, card_filter, card_filter, Fintype.sum_prod_type, Fintype.sum_prod_type]
    simp only [Fintype.sum_bool, Set.mem_ofPred_eq, Set.mem_preimage]
    by_cases h1 : (1 / 2 : ℚ) ∈ A <;> by_cases h2 : (0 : ℚ) ∈ A <;> cases b <;> norm_num [h1, h2]

end Medil

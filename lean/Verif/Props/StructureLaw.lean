import Verif.Spec.StructureLaw
import Verif.Proofs.SampleCount
import Verif.Proofs.SampleUdg
import Verif.Props.Sample
import Mathlib.Probability.Distributions.Uniform
import Mathlib.Data.Nat.Choose.Basic
/-
  The distribution of the structures drawn by `sample.biadj` (C177-C179).
-/
namespace Medil
open Finset MeasureTheory
variable {G : Type}

/-- the rearrangements that the one-pure-child branch of `biadj` draws, in the order of the calls: of the edge vector, of the
non-pure columns, of all columns -/
def pureDraws (gen : Gen G) (l n : Nat) (g : G) :
    Equiv.Perm (Fin ((n - l) * (l - 1))) × (Fin (n - l) → Equiv.Perm (Fin l)) × Equiv.Perm (Fin n) :=
  let r1 := gen.permutation ((n - l) * (l - 1)) g
  let r2 := gen.permuted l (n - l) r1.2
  (r1.1, r2.1, (gen.permutation n r2.2).1)

section general
variable {Ω W : Type} [MeasurableSpace Ω] [Fintype W] [DecidableEq W]

omit [DecidableEq W] in
/-- the probability of an event is the share of the values in it -/
theorem UniformDraw.real_event {μ : Measure Ω} [IsFiniteMeasure μ] {X : Ω → W} (h : UniformDraw μ X) (P : W → Prop) [DecidablePred P] :
    μ.real {ω | P (X ω)} = ((univ.filter P).card : ℝ) / Fintype.card W := by
  classical
  have e : {ω | P (X ω)} = ⋃ w ∈ univ.filter P, {ω | X ω = w} := by
    ext ω; simp
  rw [e, measureReal_biUnion_finset]
  · rw [Finset.sum_congr rfl (fun w _ => h.prob w), Finset.sum_const, nsmul_eq_mul]
    ring
  · intro w _ w' _ hw
    rw [Function.onFun, Set.disjoint_left]
    intro ω h1 h2
    exact hw (h1.symm.trans h2)
  · intro w _; exact h.meas w

end general

theorem matRows_inj {l n : Nat} (f f' : Fin l → Fin n → Bool) : matRows f = matRows f' ↔ ∀ i j, f i j = f' i j := by
  unfold matRows
  constructor
  · intro h i j
    have := congrFun (List.ofFn_injective h) i
    have := congrArg (fun r : BVec n => r j) this
    simpa using this
  · intro h
    have : f = f' := funext fun i => funext fun j => h i j
    rw [this]

theorem sum_toNat_eq {l n : Nat} (f : Fin l → Fin n → Bool) : ∑ j, ∑ i, (f i j).toNat = numEdgesMat f := by
  unfold numEdgesMat
  rw [Finset.card_filter, Fintype.sum_prod_type, Finset.sum_comm]
  exact Finset.sum_congr rfl fun i _ => Finset.sum_congr rfl fun j _ => (ite_toNat _).symm

theorem numPure_eq {l n : Nat} (f : Fin l → Fin n → Bool) (i : Fin l) : (pureSet f i).card = numPure f i := by
  unfold pureSet numPure
  congr 1
  ext j
  simp only [mem_filter, mem_univ, true_and]
  refine forall_congr' fun i' => ?_
  cases f i' j <;> simp

/-- the result of a call with a given number of latents and a given density -/
theorem sampleBiadj_given (gen : Gen G) (rts : (n : Nat) → Runtime n) (fuel : Nat) (a : BiadjArgs) (h1 : a.onePureChild = true)
    (hl : 1 ≤ a.numLatent) (hle : a.numLatent ≤ a.numMeas) (d : ℚ) (hd : a.density = some d) (g : G) :
    (sampleBiadj gen rts fuel a g).1 = .ok (pureBiadj a.numLatent.toNat a.numMeas.toNat d
      (pureDraws gen a.numLatent.toNat a.numMeas.toNat g).1 (pureDraws gen a.numLatent.toNat a.numMeas.toNat g).2.1
      (pureDraws gen a.numLatent.toNat a.numMeas.toNat g).2.2) := by
  have hL : drawNumLatent gen a g = (a.numLatent, g) := by
    unfold drawNumLatent; rw [if_neg (by omega)]
  have hD : drawDensity gen a g = (d, g) := by
    unfold drawDensity; rw [hd]
  unfold sampleBiadj
  rw [if_pos h1, if_neg (by omega), hL]
  simp only
  rw [hD]
  simp only
  rw [if_neg (by omega)]
  rfl

theorem extraEdges_of_rounded {l n : Nat} (d : ℚ) (hd0 : 0 ≤ d) (hd1 : d ≤ 1) (E : Nat) (hE : IsRounded (d * ((n - l) * (l - 1) : Nat)) E) :
    extraEdges l n d = E := by
  unfold extraEdges
  have h := sliceLen_round (x := (((n - l) * (l - 1) : Nat) : ℚ) * d) (m := (n - l) * (l - 1)) (by positivity)
    (mul_le_of_le_one_right (by positivity) hd1)
  have h2 := roundHalfEven_spec ((((n - l) * (l - 1) : Nat) : ℚ) * d)
  rw [mul_comm] at hE
  have := h2.unique hE
  rw [this] at h ⊢
  exact_mod_cast h


/-- **C177** the exact probability of every structure: with `l` latents, `n` measurements and `E` edges beyond one per measurement,
a matrix with `n + E` ones has probability proportional to the product of the numbers of pure children of its latents and the
numbers of parents of its measurements -/
theorem C177_law [MeasurableSpace G] (μ : Measure G) [IsProbabilityMeasure μ] (gen : Gen G) (rts : (n : Nat) → Runtime n) (fuel : Nat)
    (a : BiadjArgs) (h1 : a.onePureChild = true) (hl : 1 ≤ a.numLatent) (hle : a.numLatent ≤ a.numMeas)
    (d : ℚ) (hd : a.density = some d) (hd0 : 0 ≤ d) (hd1 : d ≤ 1)
    (hU : UniformDraw μ (pureDraws gen a.numLatent.toNat a.numMeas.toNat))
    (E : Nat) (hE : IsRounded (d * ((a.numMeas.toNat - a.numLatent.toNat) * (a.numLatent.toNat - 1) : Nat)) E)
    (f : Fin a.numLatent.toNat → Fin a.numMeas.toNat → Bool) :
    μ.real {g | (sampleBiadj gen rts fuel a g).1 = .ok (matRows f)} =
      if numEdgesMat f = a.numMeas.toNat + E then
        ((∏ i, numPure f i : Nat) : ℝ) * (∏ j, numParents f j : Nat) * (a.numMeas.toNat - a.numLatent.toNat).factorial /
          (a.numMeas.toNat.factorial * a.numLatent.toNat ^ (a.numMeas.toNat - a.numLatent.toNat) *
            ((a.numMeas.toNat - a.numLatent.toNat) * (a.numLatent.toNat - 1)).choose E)
      else 0 := by
  simp only [sampleBiadj_given gen rts fuel a h1 hl hle d hd]
  have hl' : 1 ≤ a.numLatent.toNat := by omega
  have hln' : a.numLatent.toNat ≤ a.numMeas.toNat := by omega
  generalize a.numLatent.toNat = l at *
  generalize a.numMeas.toNat = n at *
  have hx := extraEdges_of_rounded (l := l) (n := n) d hd0 hd1 E hE
  have hEle : E ≤ (n - l) * (l - 1) := by rw [← hx]; exact sliceLen_le _ _
  have ev : {g | (Except.ok (pureBiadj l n d (pureDraws gen l n g).1 (pureDraws gen l n g).2.1 (pureDraws gen l n g).2.2) :
      Except PyErr (List (BVec n))) = .ok (matRows f)} =
      {g | ∀ i j, pureCols d (pureDraws gen l n g).1 (pureDraws gen l n g).2.1 i ((pureDraws gen l n g).2.2 j) = f i j} := by
    ext g
    simp only [Set.mem_ofPred_eq, Except.ok.injEq]
    rw [pureBiadj_eq]
    exact matRows_inj _ f
  rw [ev]
  rw [hU.real_event (fun w => ∀ i j, pureCols d w.1 w.2.1 i (w.2.2 j) = f i j)]
  by_cases hf : numEdgesMat f = n + E
  · rw [if_pos hf, card_hits hl' hln' d f (by rw [sum_toNat_eq, hf, hx]), hx]
    simp only [numPure_eq]
    rw [Fintype.card_prod, Fintype.card_prod, Fintype.card_perm, Fintype.card_perm, Fintype.card_fun, Fintype.card_perm]
    simp only [Fintype.card_fin]
    have hcol : ∀ j, (univ.filter fun i => f i j = true).card = numParents f j := fun j => rfl
    simp only [hcol]
    have hchoose := Nat.choose_mul_factorial_mul_factorial hEle
    rw [← hchoose]
    have hfac : l.factorial = l * (l - 1).factorial := (Nat.mul_factorial_pred (by omega)).symm
    rw [hfac, mul_pow]
    have p1 : ((l - 1).factorial : ℝ) ≠ 0 := by exact_mod_cast (Nat.factorial_pos _).ne'
    have p2 : (E.factorial : ℝ) ≠ 0 := by exact_mod_cast (Nat.factorial_pos _).ne'
    have p3 : ((((n - l) * (l - 1) - E).factorial : ℕ) : ℝ) ≠ 0 := by exact_mod_cast (Nat.factorial_pos _).ne'
    have p4 : (n.factorial : ℝ) ≠ 0 := by exact_mod_cast (Nat.factorial_pos _).ne'
    have p5 : (l : ℝ) ≠ 0 := by exact_mod_cast (by omega : l ≠ 0)
    have p6 : ((((n - l) * (l - 1)).choose E : ℕ) : ℝ) ≠ 0 := by exact_mod_cast (Nat.choose_pos hEle).ne'
    generalize ((n - l) * (l - 1)).choose E = C at *
    generalize ((n - l) * (l - 1) - E).factorial = F at *
    push_cast
    field_simp
  · rw [if_neg hf, Finset.filter_eq_empty_iff.mpr, Finset.card_empty]
    · simp
    · rintro ⟨π, cols, σ⟩ _ h
      have hn := numOnes_pureBiadj hl' hln' d π cols σ
      rw [pureBiadj_eq, numOnes_ofFn] at hn
      simp only [h] at hn
      rw [sum_toNat_eq] at hn
      unfold extraEdges at hx
      omega

theorem matRows_get {l n : Nat} (f : Fin l → Fin n → Bool) (i : Nat) (hi : i < (matRows f).length) (hi' : i < l) (j : Fin n) :
    (matRows f)[i] j = f ⟨i, hi'⟩ j := by
  simp [matRows]

theorem matRows_length {l n : Nat} (f : Fin l → Fin n → Bool) : (matRows f).length = l := by simp [matRows]

theorem onePure_matRows {l n : Nat} (f : Fin l → Fin n → Bool) :
    OnePureChild (matRows f) ↔ (∀ i, 0 < numPure f i) ∧ ∀ j, 0 < numParents f j := by
  unfold OnePureChild
  refine and_congr ?_ ?_
  · constructor
    · intro h i
      obtain ⟨p, hp⟩ := h i.val (by rw [matRows_length]; exact i.isLt)
      refine Finset.card_pos.mpr ⟨p, ?_⟩
      rw [mem_filter]
      refine ⟨mem_univ _, fun i' => ?_⟩
      have := hp i'.val (by rw [matRows_length]; exact i'.isLt)
      rw [matRows_get f _ _ i'.isLt] at this
      rw [Fin.ext_iff]; exact this
    · intro h i hi
      have hi' : i < l := by rwa [matRows_length] at hi
      obtain ⟨p, hp⟩ := Finset.card_pos.mp (h ⟨i, hi'⟩)
      rw [mem_filter] at hp
      refine ⟨p, fun i' h' => ?_⟩
      have h'' : i' < l := by rwa [matRows_length] at h'
      rw [matRows_get f _ _ h'']
      have := hp.2 ⟨i', h''⟩
      rwa [Fin.ext_iff] at this
  · refine forall_congr' fun j => ?_
    constructor
    · rintro ⟨r, hr, hj⟩
      obtain ⟨i, hi, rfl⟩ := List.getElem_of_mem hr
      have hi' : i < l := by rwa [matRows_length] at hi
      rw [matRows_get f _ _ hi'] at hj
      exact Finset.card_pos.mpr ⟨⟨i, hi'⟩, by rw [mem_filter]; exact ⟨mem_univ _, hj⟩⟩
    · intro h
      obtain ⟨i, hi⟩ := Finset.card_pos.mp h
      rw [mem_filter] at hi
      have hi' : i.val < (matRows f).length := by rw [matRows_length]; exact i.isLt
      exact ⟨(matRows f)[i.val], List.getElem_mem hi', by rw [matRows_get f _ _ i.isLt]; exact hi.2⟩

/-- **C177** exactly the one-pure-child structures with the right number of edges can occur -/
theorem C177_possible [MeasurableSpace G] (μ : Measure G) [IsProbabilityMeasure μ] (gen : Gen G) (rts : (n : Nat) → Runtime n) (fuel : Nat)
    (a : BiadjArgs) (h1 : a.onePureChild = true) (hl : 1 ≤ a.numLatent) (hle : a.numLatent ≤ a.numMeas)
    (d : ℚ) (hd : a.density = some d) (hd0 : 0 ≤ d) (hd1 : d ≤ 1)
    (hU : UniformDraw μ (pureDraws gen a.numLatent.toNat a.numMeas.toNat))
    (E : Nat) (hE : IsRounded (d * ((a.numMeas.toNat - a.numLatent.toNat) * (a.numLatent.toNat - 1) : Nat)) E)
    (f : Fin a.numLatent.toNat → Fin a.numMeas.toNat → Bool) :
    0 < μ.real {g | (sampleBiadj gen rts fuel a g).1 = .ok (matRows f)} ↔
      OnePureChild (matRows f) ∧ numEdgesMat f = a.numMeas.toNat + E := by
  rw [C177_law μ gen rts fuel a h1 hl hle d hd hd0 hd1 hU E hE f, onePure_matRows]
  have hl' : 1 ≤ a.numLatent.toNat := by omega
  generalize a.numLatent.toNat = l at *
  generalize a.numMeas.toNat = n at *
  have hEle : E ≤ (n - l) * (l - 1) := by
    rw [← extraEdges_of_rounded (l := l) (n := n) d hd0 hd1 E hE]; exact sliceLen_le _ _
  have hden : (0 : ℝ) < n.factorial * (l : ℝ) ^ (n - l) * (((n - l) * (l - 1)).choose E : ℕ) := by
    have p4 : (0 : ℝ) < n.factorial := by exact_mod_cast Nat.factorial_pos _
    have p5 : (0 : ℝ) < l := by exact_mod_cast hl'
    have p6 : (0 : ℝ) < (((n - l) * (l - 1)).choose E : ℕ) := by exact_mod_cast Nat.choose_pos hEle
    positivity
  have hfac : (0 : ℝ) < (n - l).factorial := by exact_mod_cast Nat.factorial_pos _
  by_cases hf : numEdgesMat f = n + E
  · rw [if_pos hf]
    constructor
    · intro h
      refine ⟨⟨fun i => ?_, fun j => ?_⟩, hf⟩
      · by_contra hc
        rw [Finset.prod_eq_zero (mem_univ i) (Nat.eq_zero_of_not_pos hc)] at h
        simp at h
      · by_contra hc
        rw [Finset.prod_eq_zero (s := univ) (f := fun j => numParents f j) (mem_univ j) (Nat.eq_zero_of_not_pos hc)] at h
        simp at h
    · rintro ⟨⟨ha, hb⟩, -⟩
      have q1 : (0 : ℝ) < (∏ i, numPure f i : ℕ) := by exact_mod_cast Finset.prod_pos fun i _ => ha i
      have q2 : (0 : ℝ) < (∏ j, numParents f j : ℕ) := by exact_mod_cast Finset.prod_pos fun j _ => hb j
      positivity
  · rw [if_neg hf]
    simp [hf]

/-- **C177** the probability does not depend on the names of the latents and measurements -/
theorem C177_renaming [MeasurableSpace G] (μ : Measure G) [IsProbabilityMeasure μ] (gen : Gen G) (rts : (n : Nat) → Runtime n) (fuel : Nat)
    (a : BiadjArgs) (h1 : a.onePureChild = true) (hl : 1 ≤ a.numLatent) (hle : a.numLatent ≤ a.numMeas)
    (d : ℚ) (hd : a.density = some d) (hd0 : 0 ≤ d) (hd1 : d ≤ 1)
    (hU : UniformDraw μ (pureDraws gen a.numLatent.toNat a.numMeas.toNat))
    (f : Fin a.numLatent.toNat → Fin a.numMeas.toNat → Bool)
    (ρ : Equiv.Perm (Fin a.numLatent.toNat)) (τ : Equiv.Perm (Fin a.numMeas.toNat)) :
    μ.real {g | (sampleBiadj gen rts fuel a g).1 = .ok (matRows fun i j => f (ρ i) (τ j))} =
      μ.real {g | (sampleBiadj gen rts fuel a g).1 = .ok (matRows f)} := by
  obtain ⟨E, hE⟩ : ∃ E : Nat, IsRounded (d * ((a.numMeas.toNat - a.numLatent.toNat) * (a.numLatent.toNat - 1) : Nat)) E := by
    refine ⟨extraEdges a.numLatent.toNat a.numMeas.toNat d, ?_⟩
    unfold extraEdges
    rw [sliceLen_round (by positivity) (mul_le_of_le_one_right (by positivity) hd1), mul_comm]
    exact roundHalfEven_spec _
  rw [C177_law μ gen rts fuel a h1 hl hle d hd hd0 hd1 hU E hE, C177_law μ gen rts fuel a h1 hl hle d hd hd0 hd1 hU E hE]
  have e1 : ∀ j, numParents (fun i j => f (ρ i) (τ j)) j = numParents f (τ j) := by
    intro j
    unfold numParents
    exact Finset.card_bij' (fun i _ => ρ i) (fun i _ => ρ.symm i) (by simp) (by simp) (by simp) (by simp)
  have e2 : ∀ i, numPure (fun i j => f (ρ i) (τ j)) i = numPure f (ρ i) := by
    intro i
    unfold numPure
    refine Finset.card_bij' (fun j _ => τ j) (fun j _ => τ.symm j) ?_ ?_ (by simp) (by simp)
    · intro j hj
      simp only [mem_filter, mem_univ, true_and] at hj ⊢
      intro i'
      have := hj (ρ.symm i')
      rw [Equiv.apply_symm_apply] at this
      rw [this, Equiv.symm_apply_eq]
    · intro j hj
      simp only [mem_filter, mem_univ, true_and] at hj ⊢
      intro i'
      rw [Equiv.apply_symm_apply, hj]
      exact ρ.injective.eq_iff
  have e3 : numEdgesMat (fun i j => f (ρ i) (τ j)) = numEdgesMat f := by
    unfold numEdgesMat
    exact Finset.card_bij' (fun e _ => (ρ e.1, τ e.2)) (fun e _ => (ρ.symm e.1, τ.symm e.2)) (by simp) (by simp) (by simp) (by simp)
  rw [e3]
  simp only [e1, e2]
  rw [Equiv.prod_comp ρ (fun i => numPure f i), Equiv.prod_comp τ (fun j => numParents f j)]

/-! ### a generator with uniform draws -/

/-- a generator whose state holds the answers to the calls of `biadj` for `l` latents and `n` measurements -/
def answerGen (l n : Nat) :
    Gen ((Equiv.Perm (Fin ((n - l) * (l - 1))) × (Fin (n - l) → Equiv.Perm (Fin l)) × Equiv.Perm (Fin n)) × Nat) where
  integers lo hi s := (lo, s)
  integers_range := by intro lo hi s h; exact ⟨le_refl _, h⟩
  random s := (1 / 2, s)
  random_range := by intro g; norm_num
  permutation m s :=
    (if s.2 = 0 then (if h : (n - l) * (l - 1) = m then h ▸ s.1.1 else Equiv.refl _)
      else (if h : n = m then h ▸ s.1.2.2 else Equiv.refl _), (s.1, s.2 + 1))
  permuted r c s := (fun t => if h : l = r ∧ n - l = c then h.1 ▸ s.1.2.1 (Fin.cast h.2.symm t) else Equiv.refl _, s)
  randomVec m s := (fun _ => 1 / 2, s)
  randomVec_range := by intro m g i; norm_num
  choiceVec m s := (fun _ => true, s)

theorem pureDraws_answerGen (l n : Nat) (w : Equiv.Perm (Fin ((n - l) * (l - 1))) × (Fin (n - l) → Equiv.Perm (Fin l)) × Equiv.Perm (Fin n)) :
    pureDraws (answerGen l n) l n (w, 0) = w := by
  obtain ⟨π, cols, σ⟩ := w
  simp [pureDraws, answerGen]

/-- every finite set of answers can be drawn uniformly -/
theorem exists_uniformDraw {G W : Type} [Fintype W] [Nonempty W] (X : G → W) (e : W → G) (h : ∀ w, X (e w) = w) :
    ∃ (_ : MeasurableSpace G) (μ : Measure G), IsProbabilityMeasure μ ∧ UniformDraw μ X := by
  classical
  let _ : MeasurableSpace G := ⊤
  let _ : MeasurableSpace W := ⊤
  let p : PMF G := (PMF.uniformOfFintype W).map e
  refine ⟨⊤, p.toMeasure, inferInstance, fun w => trivial, fun w => ?_⟩
  have hs : MeasurableSet {g : G | X g = w} := trivial
  unfold Measure.real
  rw [PMF.toMeasure_map_apply _ _ _ (by intro s _; exact trivial) hs]
  have : e ⁻¹' {g : G | X g = w} = {w} := by
    ext w'
    simp only [Set.mem_preimage, Set.mem_ofPred_eq, Set.mem_singleton_iff]
    rw [h]
  rw [this, PMF.toMeasure_apply_singleton _ _ (show MeasurableSet ({w} : Set W) from trivial), PMF.uniformOfFintype_apply]
  simp

/-- the hypothesis of C177 can be met for all sizes -/
theorem exists_uniform (l n : Nat) : ∃ (G : Type) (gen : Gen G) (_ : MeasurableSpace G) (μ : Measure G),
    IsProbabilityMeasure μ ∧ UniformDraw μ (pureDraws gen l n) := by
  obtain ⟨m, μ, h⟩ := exists_uniformDraw (pureDraws (answerGen l n) l n) (fun w => (w, 0)) (pureDraws_answerGen l n)
  exact ⟨_, answerGen l n, m, μ, h⟩

/-- not vacuous: for 3 measurements and 2 latents the structure with children {0, 1}, {1, 2} has probability 1/6 at density 1 -/
example : ∃ (G : Type) (gen : Gen G) (_ : MeasurableSpace G) (μ : Measure G), IsProbabilityMeasure μ ∧ ∀ (rts : (n : Nat) → Runtime n) (fuel : Nat),
    μ.real {g | (sampleBiadj gen rts fuel { numMeas := 3, numLatent := 2, density := some 1 } g).1 =
      .ok (matRows fun (i : Fin 2) (j : Fin 3) => decide (i.val ≤ j.val ∧ j.val ≤ i.val + 1))} = 1 / 6 := by
  obtain ⟨G, gen, m, μ, hp, hU⟩ := exists_uniform 2 3
  refine ⟨G, gen, m, μ, hp, fun rts fuel => ?_⟩
  have := C177_law μ gen rts fuel { numMeas := 3, numLatent := 2, density := some 1 } rfl (by norm_num) (by norm_num) 1 rfl (by norm_num)
    (by norm_num) hU 1 (show IsRounded (1 * (((3 - 2) * (2 - 1) : ℕ) : ℚ)) (1 : ℕ) from ⟨by norm_num, by norm_num⟩) fun (i : Fin 2) (j : Fin 3) => decide (i.val ≤ j.val ∧ j.val ≤ i.val + 1)
  rw [this]
  have e1 : numEdgesMat (fun (i : Fin 2) (j : Fin 3) => decide (i.val ≤ j.val ∧ j.val ≤ i.val + 1)) = 4 := by decide +kernel
  have e2 : ∏ i, numPure (fun (i : Fin 2) (j : Fin 3) => decide (i.val ≤ j.val ∧ j.val ≤ i.val + 1)) i = 1 := by decide +kernel
  have e3 : ∏ j, numParents (fun (i : Fin 2) (j : Fin 3) => decide (i.val ≤ j.val ∧ j.val ≤ i.val + 1)) j = 2 := by decide +kernel
  refine (if_pos e1).trans ?_
  refine (congrArg₂ (fun (x y : ℕ) => (x : ℝ) * y * (3 - 2 : ℕ).factorial / ((3 : ℕ).factorial * (2 : ℕ) ^ (3 - 2 : ℕ) *
    (((3 - 2) * (2 - 1) : ℕ).choose 1 : ℕ))) e2 e3).trans ?_
  norm_num [Nat.factorial]

/-! ### C178 -/

/-- **C178** partial: two structures that can occur are equally likely exactly if the products of the numbers of pure children and of
parents agree -/
theorem C178_partial [MeasurableSpace G] (μ : Measure G) [IsProbabilityMeasure μ] (gen : Gen G) (rts : (n : Nat) → Runtime n) (fuel : Nat)
    (a : BiadjArgs) (h1 : a.onePureChild = true) (hl : 1 ≤ a.numLatent) (hle : a.numLatent ≤ a.numMeas)
    (d : ℚ) (hd : a.density = some d) (hd0 : 0 ≤ d) (hd1 : d ≤ 1)
    (hU : UniformDraw μ (pureDraws gen a.numLatent.toNat a.numMeas.toNat))
    (E : Nat) (hE : IsRounded (d * ((a.numMeas.toNat - a.numLatent.toNat) * (a.numLatent.toNat - 1) : Nat)) E)
    (f f' : Fin a.numLatent.toNat → Fin a.numMeas.toNat → Bool)
    (hf : numEdgesMat f = a.numMeas.toNat + E) (hf' : numEdgesMat f' = a.numMeas.toNat + E) :
    μ.real {g | (sampleBiadj gen rts fuel a g).1 = .ok (matRows f)} = μ.real {g | (sampleBiadj gen rts fuel a g).1 = .ok (matRows f')} ↔
      (∏ i, numPure f i) * ∏ j, numParents f j = (∏ i, numPure f' i) * ∏ j, numParents f' j := by
  rw [C177_law μ gen rts fuel a h1 hl hle d hd hd0 hd1 hU E hE, C177_law μ gen rts fuel a h1 hl hle d hd hd0 hd1 hU E hE, if_pos hf, if_pos hf']
  have hl' : 1 ≤ a.numLatent.toNat := by omega
  generalize a.numLatent.toNat = l at *
  generalize a.numMeas.toNat = n at *
  have hEle : E ≤ (n - l) * (l - 1) := by
    rw [← extraEdges_of_rounded (l := l) (n := n) d hd0 hd1 E hE]; exact sliceLen_le _ _
  have hden : (n.factorial * (l : ℝ) ^ (n - l) * (((n - l) * (l - 1)).choose E : ℕ)) ≠ 0 := by
    have p4 : (0 : ℝ) < n.factorial := by exact_mod_cast Nat.factorial_pos _
    have p5 : (0 : ℝ) < l := by exact_mod_cast hl'
    have p6 : (0 : ℝ) < (((n - l) * (l - 1)).choose E : ℕ) := by exact_mod_cast Nat.choose_pos hEle
    positivity
  have hfac : ((n - l).factorial : ℝ) ≠ 0 := by exact_mod_cast (Nat.factorial_pos _).ne'
  rw [div_left_inj' hden, mul_left_inj' hfac]
  exact_mod_cast Iff.rfl

/-- **C178** is false: of the structures with two latents, four measurements and no measurement with two parents, those with classes of
sizes 2 and 2 are more likely than those with sizes 3 and 1, for every generator with uniform draws -/
theorem C178_false [MeasurableSpace G] (μ : Measure G) [IsProbabilityMeasure μ] (gen : Gen G) (hU : UniformDraw μ (pureDraws gen 2 4))
    (rts : (n : Nat) → Runtime n) (fuel : Nat) :
    ∃ f f' : Fin 2 → Fin 4 → Bool, OnePureChild (matRows f) ∧ OnePureChild (matRows f') ∧ numEdgesMat f = numEdgesMat f' ∧
      μ.real {g | (sampleBiadj gen rts fuel { numMeas := 4, numLatent := 2, density := some 0 } g).1 = .ok (matRows f)} = 1 / 12 ∧
      μ.real {g | (sampleBiadj gen rts fuel { numMeas := 4, numLatent := 2, density := some 0 } g).1 = .ok (matRows f')} = 1 / 16 := by
  refine ⟨fun i j => decide (j.val / 2 = i.val), fun i j => decide (j.val / 3 = i.val), ?_, ?_, by decide +kernel, ?_, ?_⟩
  · rw [onePure_matRows]; decide +kernel
  · rw [onePure_matRows]; decide +kernel
  · have := C177_law μ gen rts fuel { numMeas := 4, numLatent := 2, density := some 0 } rfl (by norm_num) (by norm_num) 0 rfl (by norm_num)
      (by norm_num) hU 0 ⟨by norm_num, by norm_num⟩ fun (i : Fin 2) (j : Fin 4) => decide (j.val / 2 = i.val)
    rw [this]
    have e1 : numEdgesMat (fun (i : Fin 2) (j : Fin 4) => decide (j.val / 2 = i.val)) = 4 := by decide +kernel
    have e2 : ∏ i, numPure (fun (i : Fin 2) (j : Fin 4) => decide (j.val / 2 = i.val)) i = 4 := by decide +kernel
    have e3 : ∏ j, numParents (fun (i : Fin 2) (j : Fin 4) => decide (j.val / 2 = i.val)) j = 1 := by decide +kernel
    refine (if_pos e1).trans ?_
    refine (congrArg₂ (fun (x y : ℕ) => (x : ℝ) * y * (4 - 2 : ℕ).factorial / ((4 : ℕ).factorial * (2 : ℕ) ^ (4 - 2 : ℕ) *
      (((4 - 2) * (2 - 1) : ℕ).choose 0 : ℕ))) e2 e3).trans ?_
    norm_num [Nat.factorial]
  · have := C177_law μ gen rts fuel { numMeas := 4, numLatent := 2, density := some 0 } rfl (by norm_num) (by norm_num) 0 rfl (by norm_num)
      (by norm_num) hU 0 ⟨by norm_num, by norm_num⟩ fun (i : Fin 2) (j : Fin 4) => decide (j.val / 3 = i.val)
    rw [this]
    have e1 : numEdgesMat (fun (i : Fin 2) (j : Fin 4) => decide (j.val / 3 = i.val)) = 4 := by decide +kernel
    have e2 : ∏ i, numPure (fun (i : Fin 2) (j : Fin 4) => decide (j.val / 3 = i.val)) i = 3 := by decide +kernel
    have e3 : ∏ j, numParents (fun (i : Fin 2) (j : Fin 4) => decide (j.val / 3 = i.val)) j = 1 := by decide +kernel
    refine (if_pos e1).trans ?_
    refine (congrArg₂ (fun (x y : ℕ) => (x : ℝ) * y * (4 - 2 : ℕ).factorial / ((4 : ℕ).factorial * (2 : ℕ) ^ (4 - 2 : ℕ) *
      (((4 - 2) * (2 - 1) : ℕ).choose 0 : ℕ))) e2 e3).trans ?_
    norm_num [Nat.factorial]

/-! ### C179 -/

/-- **C179** without `one_pure_child` the structure is the cover found for a random graph that is uniform among all graphs with the
requested number of edges; every pair of measurements is adjacent with the same probability -/
theorem C179_uniform_graph [MeasurableSpace G] (μ : Measure G) [IsProbabilityMeasure μ] (gen : Gen G) (rts : (n : Nat) → Runtime n) (fuel : Nat)
    (a : BiadjArgs) (h1 : a.onePureChild = false) (h2 : a.numLatent = 0) (h3 : 0 ≤ a.numMeas)
    (d : ℚ) (hd : a.density = some d) (hd0 : 0 ≤ d) (hd1 : d ≤ 1)
    (hU : UniformDraw μ fun g => (gen.permutation (a.numMeas.toNat * (a.numMeas.toNat - 1) / 2) g).1)
    (E : Nat) (hE : IsRounded (d * (a.numMeas.toNat * (a.numMeas.toNat - 1) / 2 : Nat)) E) :
    ∃ U : G → BMat a.numMeas.toNat,
      (∀ g, (sampleBiadj gen rts fuel a g).1 = findCliqueMinCover (rts _) fuel (U g)) ∧
      (∀ g, Symm (U g) ∧ UnitDiag (U g) ∧ numUEdges (U g) = E) ∧
      (∀ A : Fin a.numMeas.toNat → Fin a.numMeas.toNat → Bool, (∀ i j, A i j = A j i) → (∀ i, A i i = true) → numUEdges (BMat.of A) = E →
        μ.real {g | U g = BMat.of A} = 1 / ((a.numMeas.toNat * (a.numMeas.toNat - 1) / 2).choose E : ℕ)) ∧
      ∀ i j, i ≠ j → μ.real {g | U g i j = true} = E / (a.numMeas.toNat * (a.numMeas.toNat - 1) / 2 : ℕ) := by
  refine ⟨fun g => randomUdg a.numMeas.toNat d (gen.permutation _ g).1, ?_, ?_, ?_, ?_⟩
  · intro g
    unfold sampleBiadj
    rw [if_neg (by rw [h1]; exact Bool.false_ne_true), if_neg (by omega), if_neg (by omega), hd]
  all_goals
    generalize a.numMeas.toNat = n at *
    have hx : udgEdges n d = E := by
      unfold udgEdges
      have h := sliceLen_round (x := d * (n * (n - 1) / 2 : Nat)) (m := n * (n - 1) / 2) (by positivity)
        (mul_le_of_le_one_left (by positivity) hd1)
      have := (roundHalfEven_spec (d * (n * (n - 1) / 2 : Nat))).unique hE
      rw [this] at h ⊢
      exact_mod_cast h
    have hEle : E ≤ n * (n - 1) / 2 := by rw [← hx]; exact sliceLen_le _ _
  · intro g
    exact ⟨randomUdg_symm _ _, randomUdg_diag _ _, (randomUdg_edges _ _).trans hx⟩
  · intro A hs hdiag hA
    rw [hU.real_event (fun π => randomUdg n d π = BMat.of A), card_udg d A hs hdiag (by rw [hA, hx]), hx, Fintype.card_perm, Fintype.card_fin,
      ← Nat.choose_mul_factorial_mul_factorial hEle]
    have p2 : (E.factorial : ℝ) ≠ 0 := by exact_mod_cast (Nat.factorial_pos _).ne'
    have p3 : (((n * (n - 1) / 2 - E).factorial : ℕ) : ℝ) ≠ 0 := by exact_mod_cast (Nat.factorial_pos _).ne'
    have p6 : (((n * (n - 1) / 2).choose E : ℕ) : ℝ) ≠ 0 := by exact_mod_cast (Nat.choose_pos hEle).ne'
    generalize (n * (n - 1) / 2).choose E = C at *
    generalize (n * (n - 1) / 2 - E).factorial = F at *
    push_cast
    field_simp
  · have key : ∀ i j : Fin n, i < j → μ.real {g | randomUdg n d (gen.permutation (n * (n - 1) / 2) g).1 i j = true} = E / (n * (n - 1) / 2 : ℕ) := by
      intro i j hij
      rw [hU.real_event (fun π => randomUdg n d π i j = true), card_udg_pair d i j hij, hx, Fintype.card_perm, Fintype.card_fin]
      obtain ⟨k, -⟩ := pairAt_surj hij
      have hN : 0 < n * (n - 1) / 2 := lt_of_le_of_lt (Nat.zero_le _) k.isLt
      generalize n * (n - 1) / 2 = N at *
      rw [← Nat.mul_factorial_pred hN.ne']
      have p2 : (((N - 1).factorial : ℕ) : ℝ) ≠ 0 := by exact_mod_cast (Nat.factorial_pos _).ne'
      have p3 : (N : ℝ) ≠ 0 := by exact_mod_cast hN.ne'
      push_cast
      field_simp
    intro i j hij
    rcases lt_or_gt_of_ne hij with h | h
    · exact key i j h
    · rw [← key j i h]
      congr 1
      ext g
      simp only [Set.mem_ofPred_eq]
      rw [randomUdg_symm _ _ i j]

/-- not vacuous: generators with uniform draws exist for all sizes -/
example (n : Nat) : ∃ (G : Type) (gen : Gen G) (_ : MeasurableSpace G) (μ : Measure G),
    IsProbabilityMeasure μ ∧ UniformDraw μ fun g => (gen.permutation (n * (n - 1) / 2) g).1 := by
  let gen : Gen (Equiv.Perm (Fin (n * (n - 1) / 2))) :=
    { integers := fun lo hi s => (lo, s)
      integers_range := by intro lo hi s h; exact ⟨le_refl _, h⟩
      random := fun s => (1 / 2, s)
      random_range := by intro g; norm_num
      permutation := fun m s => (if h : n * (n - 1) / 2 = m then h ▸ s else Equiv.refl _, s)
      permuted := fun r c s => (fun _ => Equiv.refl _, s)
      randomVec := fun m s => (fun _ => 1 / 2, s)
      randomVec_range := by intro m g i; norm_num
      choiceVec := fun m s => (fun _ => true, s) }
  obtain ⟨m, μ, h⟩ := exists_uniformDraw (fun g => (gen.permutation (n * (n - 1) / 2) g).1) id (fun w => by simp [gen])
  exact ⟨_, gen, m, μ, h⟩

/-- … and the requested number of edges is met by some graph: 2 of the 3 pairs of 3 measurements -/
example : IsRounded ((2 / 3 : ℚ) * (3 * (3 - 1) / 2 : Nat)) (2 : Nat) ∧
    numUEdges (BMat.of fun i j : Fin 3 => decide (i = j ∨ i.val + j.val ≠ 2)) = 2 := by
  refine ⟨⟨by norm_num, by norm_num⟩, by decide +kernel⟩

end Medil

import Verif.Props.NcfaStructure
import Verif.Props.DcovNull
import Verif.Props.SampleLaw
/-
  C173: from samples of a model to its structure, with the tests of `dcov_fast`.
-/
namespace Medil
open MeasureTheory ProbabilityTheory Finset
variable {M : Nat}

/-- the object after `fit` on the rows `s` -/
def NState.withData (st : NState M) {n : Nat} (hn : 2 ≤ n) (s : Fin n → Fin M → ℝ) : NState M :=
  { st with dataset := some { size := n, two_le := hn, val := s } }

/-- `_compute_biadj` with the set order `o` stores the structure `B`, up to the order of the latents -/
def FindsStructure (lib : ∀ N, TestLib ℝ N) (tc : TestChoice) (o : Sched M) (st : NState M) (B : List (BVec M)) : Prop :=
  ∃ st', ncfaComputeBiadj lib tc o st = (st', .ok ()) ∧ SameRows st'.biadj B

open Classical in
/-- **C173** Rows are independent with a common law with finite second moments, in which exactly the pairs of measurements without common parent are
independent, for a structure with one pure child for each latent.  From some number of rows on the probability that `_compute_biadj` (with the
test `dcov_fast`) does not find this structure is at most `α` for each pair of independent measurements (plus any `ε > 0`), for
every `α > 1 / (1 + 2c²)`, whatever the set orders. -/
theorem C173_structure (lib : ∀ N, TestLib ℝ N) (tc : TestChoice) (ht : tc.method = "dcov_fast") (c : ℝ) (hc : 0 < c)
    (hcrit : ∀ N, (lib N).critVal tc.alpha = c) (hM : 0 < M) (B : List (BVec M)) (hB : OnePureChild B)
    (ν : Measure (Fin M → ℝ)) [IsProbabilityMeasure ν] (h2 : ∀ i, MemLp (fun x : Fin M → ℝ => x i) 2 ν)
    (hdep : ∀ i j, i ≠ j → (IndepFun (fun x : Fin M → ℝ => x i) (fun x => x j) ν ↔ ¬ ∃ r ∈ B, r i = true ∧ r j = true))
    (α : ℝ) (hα : 1 / (1 + 2 * c ^ 2) < α) (ε : ENNReal) (hε : 0 < ε) :
    ∃ n0, ∀ n (hn : 2 ≤ n), n0 ≤ n → ∀ (Ω : Type) [MeasurableSpace Ω] (μ : Measure Ω) [IsProbabilityMeasure μ] (s : Ω → Fin n → Fin M → ℝ),
      IIDRows μ s ν → ∀ (o : Ω → Sched M) (st : NState M), st.udg = none →
      μ {ω | ¬ FindsStructure lib tc (o ω) (st.withData hn (s ω)) B} ≤
        (univ.filter fun q : Fin M × Fin M => q.1 < q.2 ∧ ¬ ∃ r ∈ B, r q.1 = true ∧ r q.2 = true).card * ENNReal.ofReal α + ε := by
  obtain ⟨n0, h⟩ := C169_graph ν h2 tc.alpha c hc α hα ε hε
  refine ⟨n0, fun n hn hn0 Ω _ μ _ s hs o st hU => ?_⟩
  have e : (univ.filter fun q : Fin M × Fin M => q.1 < q.2 ∧ ¬ ∃ r ∈ B, r q.1 = true ∧ r q.2 = true) =
      univ.filter fun q : Fin M × Fin M => q.1 < q.2 ∧ IndepFun (fun x : Fin M → ℝ => x q.1) (fun x => x q.2) ν := by
    refine filter_congr fun q _ => ?_
    constructor
    · rintro ⟨h1, h3⟩; exact ⟨h1, (hdep _ _ h1.ne).mpr h3⟩
    · rintro ⟨h1, h3⟩; exact ⟨h1, (hdep _ _ h1.ne).mp h3⟩
  rw [e]
  refine (measure_mono fun ω hω => ?_).trans (h n hn0 Ω μ s hs (lib n) (hcrit n))
  rw [Set.mem_ofPred_eq] at hω ⊢
  refine fun hg => hω ?_
  obtain ⟨u, hu, hue⟩ := hg
  have hUB : IsUDGOf (BMat.of u) B := by
    intro i j hij
    rw [show (BMat.of u) i j = u i j by simp, hue i j, hdep i j hij]
    simp [hij]
  obtain ⟨V, C, h3, -, h4⟩ := C125_recovers lib tc (o ω) (st.withData hn (s ω)) hM (BMat.of u)
    (Or.inr ⟨hU, _, u, none, rfl, by rw [ht]; exact hu, fun i j => by simp⟩) B hB hUB
  exact ⟨_, h3, h4⟩

/-! ### normal rows have a common law -/

/-- a row of a normal array: mean and variance of a linear form, and normality -/
theorem NormalRows.row_normal {Ω : Type} [MeasurableSpace Ω] {μ : Measure Ω} {size : Nat} {X : Ω → Fin size → Fin M → ℝ} {mean : Fin M → ℝ}
    {C : Fin M → Fin M → ℝ} (h : NormalRows μ X mean C) (a : Fin size) : HasGaussianLaw (fun ω => X ω a) μ := by
  let L : (Fin size × Fin M → ℝ) →ₗ[ℝ] (Fin M → ℝ) :=
    { toFun := fun x i => x (a, i)
      map_add' := fun _ _ => rfl
      map_smul' := fun _ _ => rfl }
  exact h.normal.map_fun L.toContinuousLinearMap

theorem NormalRows.row_charFun {Ω : Type} [MeasurableSpace Ω] {μ : Measure Ω} {size : Nat} {X : Ω → Fin size → Fin M → ℝ} {mean : Fin M → ℝ}
    {C : Fin M → Fin M → ℝ} (h : NormalRows μ X mean C) (a : Fin size) (L : StrongDual ℝ (Fin M → ℝ)) :
    charFunDual (μ.map fun ω => X ω a) L = Complex.exp (((∑ i, mean i * L (Pi.single i 1) : ℝ) : ℂ) * Complex.I -
      ((∑ i, ∑ j, C i j * L (Pi.single i 1) * L (Pi.single j 1) : ℝ) : ℂ) / 2) := by
  have hp := h.normal.isProbabilityMeasure
  rw [(h.row_normal a).charFunDual_map_eq L]
  have hL : (L ∘ fun ω => X ω a) = fun ω => ∑ i, X ω a i * L (Pi.single i 1) := by
    funext ω
    have := LinearMap.pi_apply_eq_sum_univ L.toLinearMap (X ω a)
    simp only [smul_eq_mul] at this
    rw [Function.comp_apply]
    refine this.trans (sum_congr rfl fun i _ => ?_)
    have e : (fun j => if i = j then (1 : ℝ) else 0) = Pi.single i 1 := by
      funext j
      by_cases hij : i = j
      · subst hij; simp
      · simp [hij, Ne.symm hij]
    rw [e]; rfl
  rw [hL]
  have hm : ∀ i, MemLp (fun ω => X ω a i * L (Pi.single i 1)) 2 μ := fun i => (h.memLp a i).mul_const _
  have h1 : ∫ ω, ∑ i, X ω a i * L (Pi.single i 1) ∂μ = ∑ i, mean i * L (Pi.single i 1) := by
    rw [integral_finsetSum _ fun i _ => (hm i).integrable (by norm_num)]
    simp [integral_mul_const, h.mean_eq]
  have h3 : Var[fun ω => ∑ i, X ω a i * L (Pi.single i 1); μ] = ∑ i, ∑ j, C i j * L (Pi.single i 1) * L (Pi.single j 1) := by
    rw [← covariance_self (memLp_finsetSum _ fun i _ => hm i).aemeasurable, covariance_fun_sum_fun_sum hm hm]
    simp only [covariance_mul_const_left, covariance_mul_const_right, h.cov_eq, if_true]
  rw [h1, h3]

/-- any two rows of normal arrays with the same mean and covariance have the same law -/
theorem NormalRows.same_law {Ω Ω' : Type} [MeasurableSpace Ω] [MeasurableSpace Ω'] {μ : Measure Ω} {μ' : Measure Ω'} {size size' : Nat}
    {X : Ω → Fin size → Fin M → ℝ} {X' : Ω' → Fin size' → Fin M → ℝ} {mean : Fin M → ℝ} {C : Fin M → Fin M → ℝ}
    (h : NormalRows μ X mean C) (h' : NormalRows μ' X' mean C) (a : Fin size) (a' : Fin size') :
    (μ.map fun ω => X ω a) = μ'.map fun ω => X' ω a' := by
  have hp := h.normal.isProbabilityMeasure
  have hp' := h'.normal.isProbabilityMeasure
  refine Measure.ext_of_charFunDual ?_
  ext L
  rw [h.row_charFun a L, h'.row_charFun a' L]

/-- the rows of a normal array are independent with a common law -/
theorem NormalRows.iidRows {Ω Ω' : Type} [MeasurableSpace Ω] [MeasurableSpace Ω'] {μ : Measure Ω} {μ' : Measure Ω'} {size size' : Nat}
    {X : Ω → Fin size → Fin M → ℝ} {X' : Ω' → Fin size' → Fin M → ℝ} {mean : Fin M → ℝ} {C : Fin M → Fin M → ℝ}
    (h : NormalRows μ X mean C) (h' : NormalRows μ' X' mean C) (a' : Fin size') : IIDRows μ X (μ'.map fun ω => X' ω a') :=
  ⟨h.rows_indep, fun a => (h.row_normal a).aemeasurable, fun a => h.same_law h' a a'⟩

/-- independence under the law of a row -/
theorem indepFun_law {Ω : Type} [MeasurableSpace Ω] {μ : Measure Ω} [IsProbabilityMeasure μ] {X : Ω → Fin M → ℝ} (hX : AEMeasurable X μ) (i j : Fin M) :
    IndepFun (fun x : Fin M → ℝ => x i) (fun x => x j) (μ.map X) ↔ IndepFun (fun ω => X ω i) (fun ω => X ω j) μ := by
  have hp : IsProbabilityMeasure (μ.map X) := Measure.isProbabilityMeasure_map hX
  have mi := measurable_pi_apply (X := fun _ : Fin M => ℝ) i
  have mj := measurable_pi_apply (X := fun _ : Fin M => ℝ) j
  rw [indepFun_iff_map_prod_eq_prod_map_map mi.aemeasurable mj.aemeasurable,
    indepFun_iff_map_prod_eq_prod_map_map (f := fun ω => X ω i) (g := fun ω => X ω j) (mi.comp_aemeasurable hX) (mj.comp_aemeasurable hX),
    AEMeasurable.map_map_of_aemeasurable (mi.prodMk mj).aemeasurable hX, AEMeasurable.map_map_of_aemeasurable mi.aemeasurable hX,
    AEMeasurable.map_map_of_aemeasurable mj.aemeasurable hX]
  rfl

theorem NormalRows.indep_iff {Ω : Type} [MeasurableSpace Ω] {μ : Measure Ω} {size : Nat} {X : Ω → Fin size → Fin M → ℝ} {mean : Fin M → ℝ}
    {C : Fin M → Fin M → ℝ} (h : NormalRows μ X mean C) (a : Fin size) (i j : Fin M) :
    IndepFun (fun ω => X ω a i) (fun ω => X ω a j) μ ↔ C i j = 0 := by
  constructor
  · intro hi
    by_contra hc
    exact h.not_indep a i j hc hi
  · intro hc
    have := h.indep {i} {j} (by simpa using hc)
    exact this.comp (measurable_pi_apply (X := fun _ : Fin size × ({i} : Finset (Fin M)) => ℝ) (a, ⟨i, by simp⟩))
      (measurable_pi_apply (X := fun _ : Fin size × ({j} : Finset (Fin M)) => ℝ) (a, ⟨j, by simp⟩))

open Classical in
/-- **C173** Samples that follow a linear normal model on a structure with one pure child for each latent, with weights such that measurements with a
common parent are correlated: from some number of rows on the probability that `_compute_biadj` does not find this structure is at most
`α` for each pair of measurements without common parent, plus any `ε > 0`. -/
theorem C173_normal (lib : ∀ N, TestLib ℝ N) (tc : TestChoice) (ht : tc.method = "dcov_fast") (c : ℝ) (hc : 0 < c)
    (hcrit : ∀ N, (lib N).critVal tc.alpha = c) (hM : 0 < M) (B : List (BVec M)) (hB : OnePureChild B)
    (W : Fin B.length → Fin M → ℝ) (hW : OnStructure B W) (mean v : Fin M → ℝ)
    (hcov : ∀ i j, i ≠ j → (∃ r ∈ B, r i = true ∧ r j = true) → ∑ r, W r i * W r j ≠ 0)
    (α : ℝ) (hα : 1 / (1 + 2 * c ^ 2) < α) (ε : ENNReal) (hε : 0 < ε) :
    ∃ n0, ∀ n (hn : 2 ≤ n), n0 ≤ n → ∀ (Ω : Type) [MeasurableSpace Ω] (μ : Measure Ω) (s : Ω → Fin n → Fin M → ℝ),
      FollowsModel μ s B W mean v → ∀ (o : Ω → Sched M) (st : NState M), st.udg = none →
      μ {ω | ¬ FindsStructure lib tc (o ω) (st.withData hn (s ω)) B} ≤
        (univ.filter fun q : Fin M × Fin M => q.1 < q.2 ∧ ¬ ∃ r ∈ B, r q.1 = true ∧ r q.2 = true).card * ENNReal.ofReal α + ε := by
  by_cases hex : ∃ (n : ℕ) (_ : 2 ≤ n) (Ω : Type) (_ : MeasurableSpace Ω) (μ : Measure Ω) (s : Ω → Fin n → Fin M → ℝ), FollowsModel μ s B W mean v
  · obtain ⟨m, hm, Ω', _, μ', s', hs'⟩ := hex
    have hp' := hs'.normal.normal.isProbabilityMeasure
    have hrow := hs'.normal.row_normal ⟨0, by omega⟩
    have hpν : IsProbabilityMeasure (μ'.map fun ω => s' ω ⟨0, by omega⟩) := Measure.isProbabilityMeasure_map hrow.aemeasurable
    have hdep : ∀ i j, i ≠ j → (IndepFun (fun x : Fin M → ℝ => x i) (fun x => x j) (μ'.map fun ω => s' ω ⟨0, by omega⟩) ↔
        ¬ ∃ r ∈ B, r i = true ∧ r j = true) := by
      intro i j hij
      rw [indepFun_law hrow.aemeasurable, hs'.normal.indep_iff]
      have hmc : modelCov W v i j = ∑ r, W r i * W r j := by unfold modelCov; rw [if_neg hij, add_zero]
      rw [hmc]
      constructor
      · intro h0 hr
        exact hcov i j hij hr h0
      · intro hr
        refine sum_eq_zero fun r _ => ?_
        by_cases h1 : B[r] i = true
        · rw [hW r j (by simpa using fun h2 => hr ⟨_, List.getElem_mem r.isLt, h1, h2⟩), mul_zero]
        · rw [hW r i (by simpa using h1), zero_mul]
    have hL2 : ∀ i, MemLp (fun x : Fin M → ℝ => x i) 2 (μ'.map fun ω => s' ω ⟨0, by omega⟩) := fun i =>
      (memLp_map_measure_iff (measurable_pi_apply i).aestronglyMeasurable hrow.aemeasurable).mpr (hs'.normal.memLp _ i)
    obtain ⟨n0, h⟩ := C173_structure lib tc ht c hc hcrit hM B hB _ hL2 hdep α hα ε hε
    refine ⟨n0, fun n hn hn0 Ω _ μ s hs o st hU => ?_⟩
    have hp := hs.normal.normal.isProbabilityMeasure
    exact h n hn hn0 Ω μ s (hs.normal.iidRows hs'.normal _) o st hU
  · refine ⟨0, fun n hn _ Ω _ μ s hs o st hU => ?_⟩
    exact absurd ⟨n, hn, Ω, _, μ, s, hs⟩ hex

open Classical in
/-- **C173** The same from the API: an object with fitted or assigned parameters on its structure makes the samples with an ideal generator, and the
samples are the dataset of another object. -/
theorem C173_roundtrip (lib : ∀ N, TestLib ℝ N) (tc : TestChoice) (ht : tc.method = "dcov_fast") (c : ℝ) (hc : 0 < c)
    (hcrit : ∀ N, (lib N).critVal tc.alpha = c) (src : GState M) (p : GParams M) (hp : src.params = some p) (means : Fin M → ℝ)
    (hm : src.means = some means) (hl : p.weightsOn = src.biadj) (hW : OnStructure p.weightsOn p.weights) (hne : src.biadj.length * M ≠ 0)
    (hB : OnePureChild src.biadj)
    (hcov : ∀ i j, i ≠ j → (∃ r ∈ src.biadj, r i = true ∧ r j = true) → ∑ r, p.weights r i * p.weights r j ≠ 0)
    (α : ℝ) (hα : 1 / (1 + 2 * c ^ 2) < α) (ε : ENNReal) (hε : 0 < ε) :
    ∃ n0, ∀ n (hn : 2 ≤ n), n0 ≤ n → ∀ (G : Type) [MeasurableSpace G] (μ : Measure G) (gen : MvnGen G),
      IdealDraws gen μ src.biadj.length n means p.variances → ∀ (o : G → Sched M) (st : NState M), st.udg = none →
      μ {g | ¬ ∃ s, (src.sample gen n g).1 = .ok s ∧ FindsStructure lib tc (o g) (st.withData hn s) src.biadj} ≤
        (univ.filter fun q : Fin M × Fin M => q.1 < q.2 ∧ ¬ ∃ r ∈ src.biadj, r q.1 = true ∧ r q.2 = true).card * ENNReal.ofReal α + ε := by
  have hM : 0 < M := Nat.pos_of_ne_zero (mul_ne_zero_iff.mp hne).2
  rw [← hl] at hB hcov
  obtain ⟨n0, h⟩ := C173_normal lib tc ht c hc hcrit hM p.weightsOn hB p.weights hW means p.variances hcov α hα ε hε
  refine ⟨n0, fun n hn hn0 G _ μ gen hgen o st hU => ?_⟩
  obtain ⟨s, hs, hf⟩ := sample_follows gen src p hp means hm hl hW hne n hgen
  have := h n hn hn0 G μ s hf o st hU
  rw [hl] at this
  refine le_trans (measure_mono fun g hg => ?_) this
  rw [Set.mem_ofPred_eq] at hg ⊢
  exact fun hc => hg ⟨s g, hs g, hc⟩

/-- two latents with two children each, unit weights and variances -/
noncomputable def twoPairs : GState 4 :=
  { biadj := [BVec.of fun j => decide (j.val < 2), BVec.of fun j => decide (2 ≤ j.val)]
    means := some fun _ => 0
    params := some ⟨fun _ => 1, [BVec.of fun j => decide (j.val < 2), BVec.of fun j => decide (2 ≤ j.val)],
      fun r j => if (r.val = 0 ↔ j.val < 2) then 1 else 0⟩ }

/-- they meet the hypotheses of `C173_roundtrip`, with an ideal generator -/
example : ∃ p, twoPairs.params = some p ∧ p.weightsOn = twoPairs.biadj ∧ OnStructure p.weightsOn p.weights ∧ twoPairs.biadj.length * 4 ≠ 0 ∧
    OnePureChild twoPairs.biadj ∧
    (∀ i j, i ≠ j → (∃ r ∈ twoPairs.biadj, r i = true ∧ r j = true) → ∑ r, p.weights r i * p.weights r j ≠ 0) ∧
    ∀ n, IdealDraws tapeGen tape twoPairs.biadj.length n (fun _ : Fin 4 => (0 : ℝ)) p.variances := by
  refine ⟨_, rfl, rfl, ?_, by simp [twoPairs], ⟨?_, ?_⟩, ?_, fun n => tapeGen_ideal _ _ _ _ fun _ => zero_le_one⟩
  · intro r j h
    match r with
    | ⟨0, _⟩ => simpa using h
    | ⟨1, _⟩ => simpa using h
  · intro i hi
    have h2 : i < 2 := hi
    interval_cases i
    · refine ⟨0, fun k hk => ?_⟩
      have h2 : k < 2 := hk
      interval_cases k <;> simp [twoPairs]
    · refine ⟨2, fun k hk => ?_⟩
      have h2 : k < 2 := hk
      interval_cases k <;> simp [twoPairs]
  · intro j
    by_cases h : j.val < 2
    · exact ⟨_, List.mem_cons_self, by simpa using h⟩
    · exact ⟨_, List.mem_cons_of_mem _ List.mem_cons_self, by simp; omega⟩
  · intro i j _ hr
    show ∑ r : Fin 2, (if (r.val = 0 ↔ i.val < 2) then (1 : ℝ) else 0) * (if (r.val = 0 ↔ j.val < 2) then 1 else 0) ≠ 0
    have : i.val < 2 ↔ j.val < 2 := by
      obtain ⟨r, hr, h1, h2⟩ := hr
      simp only [twoPairs, List.mem_cons, List.not_mem_nil, or_false] at hr
      rcases hr with rfl | rfl
      · simp at h1 h2; simp [h1, h2]
      · simp at h1 h2; omega
    rw [Fin.sum_univ_two]
    simp only [this]
    by_cases h : j.val < 2 <;> simp [h]

end Medil

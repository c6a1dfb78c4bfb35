import Verif.Props.XiConsist
/-
  C175: from samples of a model to its structure, with the tests of `xicor`.
-/
namespace Medil
open MeasureTheory ProbabilityTheory Finset Filter Topology
variable {M : Nat}

/-- the library runs the test `xicor` of the module, with some sort and the distribution function `Φ` of the standard normal law -/
def UsesXicor (lib : ∀ N, TestLib ℝ N) (Φ : ℝ → ℝ) : Prop := ∀ N, ∃ srt : ArgSort ℝ, (lib N).xicorTest = xicorTest srt Φ

open Classical in
/-- the theorem `C175_structure` below, for any bound on the edges between independent columns -/
theorem xicor_structure (lib : ∀ N, TestLib ℝ N) (Φ : ℝ → ℝ) (hlib : UsesXicor lib Φ) (hΦ : Tendsto Φ atTop (𝓝 1))
    (tc : TestChoice) (ht : tc.method = "xicor") (hl : 0 < tc.alpha) (a : ENNReal) (hfe : FalseEdges M Φ tc.alpha a) (hM : 0 < M)
    (B : List (BVec M)) (hB : OnePureChild B) (ν : Measure (Fin M → ℝ)) [IsProbabilityMeasure ν] (hat : ∀ j c, ν {x | x j = c} = 0)
    (hdep : ∀ i j, i ≠ j → (IndepFun (fun x : Fin M → ℝ => x i) (fun x => x j) ν ↔ ¬ ∃ r ∈ B, r i = true ∧ r j = true))
    (ε : ENNReal) (hε : 0 < ε) :
    ∃ n0, ∀ n (hn : 2 ≤ n), n0 ≤ n → ∀ (Ω : Type) [MeasurableSpace Ω] (μ : Measure Ω) [IsProbabilityMeasure μ] (s : Ω → Fin n → Fin M → ℝ),
      IIDRows μ s ν → ∀ (o : Ω → Sched M) (st : NState M), st.udg = none →
      μ {ω | ¬ FindsStructure lib tc (o ω) (st.withData hn (s ω)) B} ≤
        (univ.filter fun q : Fin M × Fin M => q.1 < q.2 ∧ ¬ ∃ r ∈ B, r q.1 = true ∧ r q.2 = true).card * a + ε := by
  obtain ⟨n0, h⟩ := xicor_graph Φ hΦ tc.alpha hl a hfe ν hat ε hε
  refine ⟨n0, fun n hn hn0 Ω _ μ _ s hs o st hU => ?_⟩
  have e : (univ.filter fun q : Fin M × Fin M => q.1 < q.2 ∧ ¬ ∃ r ∈ B, r q.1 = true ∧ r q.2 = true) =
      univ.filter fun q : Fin M × Fin M => q.1 < q.2 ∧ IndepFun (fun x : Fin M → ℝ => x q.1) (fun x => x q.2) ν := by
    refine filter_congr fun q _ => ?_
    constructor
    · rintro ⟨h1, h3⟩; exact ⟨h1, (hdep _ _ h1.ne).mpr h3⟩
    · rintro ⟨h1, h3⟩; exact ⟨h1, (hdep _ _ h1.ne).mp h3⟩
  rw [e]
  obtain ⟨srt, hx⟩ := hlib n
  refine (measure_mono fun ω hω => ?_).trans (h n hn0 Ω μ s hs srt (lib n) hx)
  rw [Set.mem_ofPred_eq] at hω ⊢
  refine fun hg => hω ?_
  obtain ⟨u, pv, hu, hue⟩ := hg
  have hUB : IsUDGOf (BMat.of u) B := by
    intro i j hij
    rw [show (BMat.of u) i j = u i j by simp, hue i j, hdep i j hij]
    simp [hij]
  obtain ⟨V, C, h3, -, h4⟩ := C125_recovers lib tc (o ω) (st.withData hn (s ω)) hM (BMat.of u)
    (Or.inr ⟨hU, _, u, pv, rfl, by rw [ht]; exact hu, fun i j => by simp⟩) B hB hUB
  exact ⟨_, h3, h4⟩

/-- a measurement with positive variance has no atoms -/
theorem NormalRows.atomless {Ω : Type} [MeasurableSpace Ω] {μ : Measure Ω} {size : Nat} {X : Ω → Fin size → Fin M → ℝ} {mean : Fin M → ℝ}
    {C : Fin M → Fin M → ℝ} (h : NormalRows μ X mean C) (a : Fin size) (i : Fin M) (hC : 0 < C i i) (c : ℝ) :
    (μ.map fun ω => X ω a) {x | x i = c} = 0 := by
  have hp := h.normal.isProbabilityMeasure
  have hrow := h.row_normal a
  let L : (Fin M → ℝ) →ₗ[ℝ] ℝ := LinearMap.proj i
  have hg : HasGaussianLaw (fun ω => X ω a i) μ := hrow.map_fun L.toContinuousLinearMap
  have e : (μ.map fun ω => X ω a) {x | x i = c} = (μ.map fun ω => X ω a i) {c} := by
    have h1 : ((μ.map fun ω => X ω a).map fun x : Fin M → ℝ => x i) {c} = (μ.map fun ω => X ω a) {x | x i = c} :=
      Measure.map_apply (f := fun x : Fin M → ℝ => x i) (measurable_pi_apply i) (measurableSet_singleton c)
    rw [← h1, AEMeasurable.map_map_of_aemeasurable (measurable_pi_apply i).aemeasurable hrow.aemeasurable]
    rfl
  have hv : Var[fun ω => X ω a i; μ] = C i i := by
    rw [← covariance_self hg.aemeasurable, h.cov_eq]
    simp
  rw [e, hg.map_eq_gaussianReal, hv]
  have := nullSingletonClass_gaussianReal (μ := ∫ ω, X ω a i ∂μ) (v := (C i i).toNNReal) (by simpa using hC)
  exact measure_singleton c

open Classical in
/-- the theorem `C175_normal` below, for any bound on the edges between independent columns -/
theorem xicor_normal (lib : ∀ N, TestLib ℝ N) (Φ : ℝ → ℝ) (hlib : UsesXicor lib Φ) (hΦ : Tendsto Φ atTop (𝓝 1))
    (tc : TestChoice) (ht : tc.method = "xicor") (hl : 0 < tc.alpha) (a : ENNReal) (hfe : FalseEdges M Φ tc.alpha a) (hM : 0 < M)
    (B : List (BVec M)) (hB : OnePureChild B) (W : Fin B.length → Fin M → ℝ) (hW : OnStructure B W) (mean v : Fin M → ℝ)
    (hvar : ∀ i, 0 < (∑ r, W r i ^ 2) + v i)
    (hcov : ∀ i j, i ≠ j → (∃ r ∈ B, r i = true ∧ r j = true) → ∑ r, W r i * W r j ≠ 0) (ε : ENNReal) (hε : 0 < ε) :
    ∃ n0, ∀ n (hn : 2 ≤ n), n0 ≤ n → ∀ (Ω : Type) [MeasurableSpace Ω] (μ : Measure Ω) (s : Ω → Fin n → Fin M → ℝ),
      FollowsModel μ s B W mean v → ∀ (o : Ω → Sched M) (st : NState M), st.udg = none →
      μ {ω | ¬ FindsStructure lib tc (o ω) (st.withData hn (s ω)) B} ≤
        (univ.filter fun q : Fin M × Fin M => q.1 < q.2 ∧ ¬ ∃ r ∈ B, r q.1 = true ∧ r q.2 = true).card * a + ε := by
  by_cases hex : ∃ (n : ℕ) (_ : 2 ≤ n) (Ω : Type) (_ : MeasurableSpace Ω) (μ : Measure Ω) (s : Ω → Fin n → Fin M → ℝ), FollowsModel μ s B W mean v
  · obtain ⟨m, hm, Ω', _, μ', s', hs'⟩ := hex
    have hp' := hs'.normal.normal.isProbabilityMeasure
    have hrow := hs'.normal.row_normal ⟨0, by omega⟩
    have hpν : IsProbabilityMeasure (μ'.map fun ω => s' ω ⟨0, by omega⟩) := Measure.isProbabilityMeasure_map hrow.aemeasurable
    have hdep : ∀ i j, i ≠ j → (IndepFun (fun x : Fin M → ℝ => x i) (fun x => x j) (μ'.map fun ω => s' ω ⟨0, by omega⟩) ↔
        ¬ ∃ r ∈ B, r i = true ∧ r j = true) := by
      intro i j hij
      rw [indepFun_law hrow.aemeasurable, hs'.normal.indep_iff]
      have hmc : modelCov W v i j = ∑ r, W r i * W r j := by unfold modelCov; rw [if_neg hij, add_zero]
      rw [hmc]
      constructor
      · intro h0 hr
        exact hcov i j hij hr h0
      · intro hr
        refine sum_eq_zero fun r _ => ?_
        by_cases h1 : B[r] i = true
        · rw [hW r j (by simpa using fun h2 => hr ⟨_, List.getElem_mem r.isLt, h1, h2⟩), mul_zero]
        · rw [hW r i (by simpa using h1), zero_mul]
    have hat : ∀ j c, (μ'.map fun ω => s' ω ⟨0, by omega⟩) {x | x j = c} = 0 := fun j c => by
      refine hs'.normal.atomless _ j ?_ c
      unfold modelCov
      rw [if_pos rfl]
      simpa only [pow_two] using hvar j
    obtain ⟨n0, h⟩ := xicor_structure lib Φ hlib hΦ tc ht hl a hfe hM B hB _ hat hdep ε hε
    refine ⟨n0, fun n hn hn0 Ω _ μ s hs o st hU => ?_⟩
    have hp := hs.normal.normal.isProbabilityMeasure
    exact h n hn hn0 Ω μ s (hs.normal.iidRows hs'.normal _) o st hU
  · refine ⟨0, fun n hn _ Ω _ μ s hs o st hU => ?_⟩
    exact absurd ⟨n, hn, Ω, _, μ, s, hs⟩ hex

open Classical in
/-- the theorem `C175_roundtrip` below, for any bound on the edges between independent columns -/
theorem xicor_roundtrip (lib : ∀ N, TestLib ℝ N) (Φ : ℝ → ℝ) (hlib : UsesXicor lib Φ) (hΦ : Tendsto Φ atTop (𝓝 1))
    (tc : TestChoice) (ht : tc.method = "xicor") (hlev : 0 < tc.alpha) (a : ENNReal) (hfe : FalseEdges M Φ tc.alpha a)
    (src : GState M) (p : GParams M) (hp : src.params = some p) (means : Fin M → ℝ)
    (hm : src.means = some means) (hl : p.weightsOn = src.biadj) (hW : OnStructure p.weightsOn p.weights) (hne : src.biadj.length * M ≠ 0)
    (hB : OnePureChild src.biadj) (hvar : ∀ i, 0 < (∑ r, p.weights r i ^ 2) + p.variances i)
    (hcov : ∀ i j, i ≠ j → (∃ r ∈ src.biadj, r i = true ∧ r j = true) → ∑ r, p.weights r i * p.weights r j ≠ 0) (ε : ENNReal) (hε : 0 < ε) :
    ∃ n0, ∀ n (hn : 2 ≤ n), n0 ≤ n → ∀ (G : Type) [MeasurableSpace G] (μ : Measure G) (gen : MvnGen G),
      IdealDraws gen μ src.biadj.length n means p.variances → ∀ (o : G → Sched M) (st : NState M), st.udg = none →
      μ {g | ¬ ∃ s, (src.sample gen n g).1 = .ok s ∧ FindsStructure lib tc (o g) (st.withData hn s) src.biadj} ≤
        (univ.filter fun q : Fin M × Fin M => q.1 < q.2 ∧ ¬ ∃ r ∈ src.biadj, r q.1 = true ∧ r q.2 = true).card * a + ε := by
  have hM : 0 < M := Nat.pos_of_ne_zero (mul_ne_zero_iff.mp hne).2
  rw [← hl] at hB hcov
  obtain ⟨n0, h⟩ := xicor_normal lib Φ hlib hΦ tc ht hlev a hfe hM p.weightsOn hB p.weights hW means p.variances hvar hcov ε hε
  refine ⟨n0, fun n hn hn0 G _ μ gen hgen o st hU => ?_⟩
  obtain ⟨s, hs, hf⟩ := sample_follows gen src p hp means hm hl hW hne n hgen
  have := h n hn hn0 G μ s hf o st hU
  rw [hl] at this
  refine le_trans (measure_mono fun g hg => ?_) this
  rw [Set.mem_ofPred_eq] at hg ⊢
  exact fun hc => hg ⟨s g, hs g, hc⟩

open Classical in
/-- **C175** Rows are independent with a common law whose columns have continuous distribution functions, in which exactly the pairs of measurements
without common parent are independent, for a structure with one pure child for each latent.  From some number of rows on the probability that
`_compute_biadj` (with the test `xicor`) does not find this structure is at most `1 / (1 + z²)` for each pair of independent measurements, plus any
`ε > 0`, where `z` is the critical value of the normal law, whatever the set orders.  No moments are needed. -/
theorem C175_structure (lib : ∀ N, TestLib ℝ N) (Φ : ℝ → ℝ) (hlib : UsesXicor lib Φ) (hΦ : Tendsto Φ atTop (𝓝 1)) (hΦm : Monotone Φ)
    (tc : TestChoice) (ht : tc.method = "xicor") (hl : 0 < tc.alpha) (z : ℝ) (hz : 0 < z) (hzl : Φ z ≤ 1 - tc.alpha) (hM : 0 < M)
    (B : List (BVec M)) (hB : OnePureChild B) (ν : Measure (Fin M → ℝ)) [IsProbabilityMeasure ν] (hat : ∀ j c, ν {x | x j = c} = 0)
    (hdep : ∀ i j, i ≠ j → (IndepFun (fun x : Fin M → ℝ => x i) (fun x => x j) ν ↔ ¬ ∃ r ∈ B, r i = true ∧ r j = true))
    (ε : ENNReal) (hε : 0 < ε) :
    ∃ n0, ∀ n (hn : 2 ≤ n), n0 ≤ n → ∀ (Ω : Type) [MeasurableSpace Ω] (μ : Measure Ω) [IsProbabilityMeasure μ] (s : Ω → Fin n → Fin M → ℝ),
      IIDRows μ s ν → ∀ (o : Ω → Sched M) (st : NState M), st.udg = none →
      μ {ω | ¬ FindsStructure lib tc (o ω) (st.withData hn (s ω)) B} ≤
        (univ.filter fun q : Fin M × Fin M => q.1 < q.2 ∧ ¬ ∃ r ∈ B, r q.1 = true ∧ r q.2 = true).card * ENNReal.ofReal (1 / (1 + z ^ 2)) + ε :=
  xicor_structure lib Φ hlib hΦ tc ht hl _ (falseEdges_cantelli Φ hΦm tc.alpha z hz hzl) hM B hB ν hat hdep ε hε

open Classical in
/-- **C175** Samples that follow a linear normal model on a structure with one pure child for each latent, with weights such that measurements with a
common parent are correlated and no measurement is constant: from some number of rows on the probability that `_compute_biadj` does not find this
structure is at most `1 / (1 + z²)` for each pair of measurements without common parent, plus any `ε > 0`. -/
theorem C175_normal (lib : ∀ N, TestLib ℝ N) (Φ : ℝ → ℝ) (hlib : UsesXicor lib Φ) (hΦ : Tendsto Φ atTop (𝓝 1)) (hΦm : Monotone Φ)
    (tc : TestChoice) (ht : tc.method = "xicor") (hl : 0 < tc.alpha) (z : ℝ) (hz : 0 < z) (hzl : Φ z ≤ 1 - tc.alpha) (hM : 0 < M)
    (B : List (BVec M)) (hB : OnePureChild B) (W : Fin B.length → Fin M → ℝ) (hW : OnStructure B W) (mean v : Fin M → ℝ)
    (hvar : ∀ i, 0 < (∑ r, W r i ^ 2) + v i)
    (hcov : ∀ i j, i ≠ j → (∃ r ∈ B, r i = true ∧ r j = true) → ∑ r, W r i * W r j ≠ 0) (ε : ENNReal) (hε : 0 < ε) :
    ∃ n0, ∀ n (hn : 2 ≤ n), n0 ≤ n → ∀ (Ω : Type) [MeasurableSpace Ω] (μ : Measure Ω) (s : Ω → Fin n → Fin M → ℝ),
      FollowsModel μ s B W mean v → ∀ (o : Ω → Sched M) (st : NState M), st.udg = none →
      μ {ω | ¬ FindsStructure lib tc (o ω) (st.withData hn (s ω)) B} ≤
        (univ.filter fun q : Fin M × Fin M => q.1 < q.2 ∧ ¬ ∃ r ∈ B, r q.1 = true ∧ r q.2 = true).card * ENNReal.ofReal (1 / (1 + z ^ 2)) + ε :=
  xicor_normal lib Φ hlib hΦ tc ht hl _ (falseEdges_cantelli Φ hΦm tc.alpha z hz hzl) hM B hB W hW mean v hvar hcov ε hε

open Classical in
/-- **C175** The same from the API: an object with fitted or assigned parameters on its structure makes the samples with an ideal generator, and the
samples are the dataset of another object. -/
theorem C175_roundtrip (lib : ∀ N, TestLib ℝ N) (Φ : ℝ → ℝ) (hlib : UsesXicor lib Φ) (hΦ : Tendsto Φ atTop (𝓝 1)) (hΦm : Monotone Φ)
    (tc : TestChoice) (ht : tc.method = "xicor") (hlev : 0 < tc.alpha) (z : ℝ) (hz : 0 < z) (hzl : Φ z ≤ 1 - tc.alpha)
    (src : GState M) (p : GParams M) (hp : src.params = some p) (means : Fin M → ℝ)
    (hm : src.means = some means) (hl : p.weightsOn = src.biadj) (hW : OnStructure p.weightsOn p.weights) (hne : src.biadj.length * M ≠ 0)
    (hB : OnePureChild src.biadj) (hvar : ∀ i, 0 < (∑ r, p.weights r i ^ 2) + p.variances i)
    (hcov : ∀ i j, i ≠ j → (∃ r ∈ src.biadj, r i = true ∧ r j = true) → ∑ r, p.weights r i * p.weights r j ≠ 0) (ε : ENNReal) (hε : 0 < ε) :
    ∃ n0, ∀ n (hn : 2 ≤ n), n0 ≤ n → ∀ (G : Type) [MeasurableSpace G] (μ : Measure G) (gen : MvnGen G),
      IdealDraws gen μ src.biadj.length n means p.variances → ∀ (o : G → Sched M) (st : NState M), st.udg = none →
      μ {g | ¬ ∃ s, (src.sample gen n g).1 = .ok s ∧ FindsStructure lib tc (o g) (st.withData hn s) src.biadj} ≤
        (univ.filter fun q : Fin M × Fin M => q.1 < q.2 ∧ ¬ ∃ r ∈ src.biadj, r q.1 = true ∧ r q.2 = true).card * ENNReal.ofReal (1 / (1 + z ^ 2)) + ε :=
  xicor_roundtrip lib Φ hlib hΦ tc ht hlev _ (falseEdges_cantelli Φ hΦm tc.alpha z hz hzl) src p hp means hm hl hW hne hB hvar hcov ε hε

/-- a library, a level and a critical value that meet the hypotheses; the model `twoPairs` (Props/NcfaPower.lean) meets the others, with variances at least 1 -/
example : UsesXicor (fun N => (⟨id, xicorTest (exSort ℝ) (cdf (gaussianReal 0 1)), xicorTest (exSort ℝ) (cdf (gaussianReal 0 1))⟩ : TestLib ℝ N))
      (cdf (gaussianReal 0 1)) ∧ Tendsto (cdf (gaussianReal 0 1)) atTop (𝓝 1) ∧ Monotone (cdf (gaussianReal 0 1)) ∧
    (∃ z, 0 < z ∧ cdf (gaussianReal 0 1) z ≤ 1 - 1 / 10000) ∧
    ∃ p, twoPairs.params = some p ∧ ∀ i, 0 < (∑ r, p.weights r i ^ 2) + p.variances i :=
  ⟨fun _ => ⟨exSort ℝ, rfl⟩, tendsto_cdf_atTop _, monotone_cdf _, ⟨3, by norm_num, normal_critical⟩, _, rfl,
    fun i => add_pos_of_nonneg_of_pos (sum_nonneg fun r _ => sq_nonneg _) one_pos⟩

end Medil

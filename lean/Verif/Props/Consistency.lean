import Verif.Proofs.Chebyshev
import Verif.Props.SampleLaw
import Verif.Props.Session
/-
  Property theorems C126, C127, C128: consistency of the structure learned by `GaussianMCM.fit`.
-/
namespace Medil
open MeasureTheory ProbabilityTheory Finset Filter Topology
variable {M : Nat}

/-- **C126** The estimated dependence graph is consistent: for more than one variable and a covariance matrix `C` with positive
variances, with probability as close to 1 as wanted, from some number of rows on, the graph estimated from an array with
independent rows with covariance `C` and bounded fourth moments joins exactly the variables with non-zero covariance. -/
theorem C126_graph_consistent (hM : M ≠ 1) (mean : Fin M → ℝ) (C : Fin M → Fin M → ℝ) (K : ℝ) (hpos : ∀ i, 0 < C i i)
    (ε : ENNReal) (hε : 0 < ε) :
    ∃ n0, ∀ (n : ℕ) (hn : 2 ≤ n), n0 ≤ n → ∀ (Ω : Type) [MeasurableSpace Ω] (μ : Measure Ω) [IsProbabilityMeasure μ]
      (s : Ω → Fin n → Fin M → ℝ), IndepRows μ s mean C K →
      μ {ω | ¬ ∃ U, estimateUdgCov (⟨n, hn, s ω⟩ : Dataset M) = .ok U ∧ ∀ i j, U i j = true ↔ i ≠ j ∧ C i j ≠ 0} ≤ ε := by
  by_cases hsym : ∀ i j, C i j = C j i
  · obtain ⟨c, hc, hev⟩ := near_graph hM mean C hsym hpos
    have hp := (near_prob K c hc M).eventually (gt_mem_nhds hε)
    obtain ⟨n0, h0⟩ := eventually_atTop.mp (hev.and hp)
    refine ⟨n0, fun n hn hnn Ω _ μ _ s hs => ?_⟩
    obtain ⟨h1, h2⟩ := h0 n hnn
    have htol : 0 < tol c n := Real.sqrt_pos.mpr (by
      have : (1 : ℝ) < n := by exact_mod_cast (by omega : 1 < n)
      have := Real.log_pos this
      positivity)
    refine (measure_mono fun ω hω => ?_).trans ((hs.near (by omega) htol).trans h2.le)
    exact fun hnear => hω (h1 hn (s ω) hnear)
  · refine ⟨0, fun n hn _ Ω _ μ _ s hs => ?_⟩
    exfalso
    apply hsym
    intro i j
    rw [← hs.cov_eq ⟨0, by omega⟩ i j, ← hs.cov_eq ⟨0, by omega⟩ j i, covariance_comm]

/-- **C127** Consistency of `fit`: if the pairs of variables with non-zero covariance are those with a common parent in a
one-pure-child structure `B`, then from some number of rows on, with probability as close to 1 as wanted, `fit` of a new object
on an array with independent rows returns for every optimizer and set order, and the rows of the stored structure are those
of `B` up to order. -/
theorem C127_fit_consistent (hM : 2 ≤ M) (B : List (BVec M)) (hB : OnePureChild B) (mean : Fin M → ℝ) (C : Fin M → Fin M → ℝ) (K : ℝ)
    (hpos : ∀ i, 0 < C i i) (hC : ∀ i j, i ≠ j → (C i j ≠ 0 ↔ ∃ r ∈ B, r i = true ∧ r j = true)) (ε : ENNReal) (hε : 0 < ε) :
    ∃ n0, ∀ (n : ℕ) (hn : 2 ≤ n), n0 ≤ n → ∀ (Ω : Type) [MeasurableSpace Ω] (μ : Measure Ω) [IsProbabilityMeasure μ]
      (s : Ω → Fin n → Fin M → ℝ), IndepRows μ s mean C K →
      μ {ω | ¬ ∀ (opt : Optimizer) (o : Sched M), (∃ warned, (gaussianFit opt o ⟨n, hn, s ω⟩ {}).2 = .ok warned) ∧
        SameRows (gaussianFit opt o ⟨n, hn, s ω⟩ {}).1.biadj B} ≤ ε := by
  obtain ⟨n0, h0⟩ := C126_graph_consistent (by omega) mean C K hpos ε hε
  refine ⟨n0, fun n hn hnn Ω _ μ _ s hs => (measure_mono fun ω hω => ?_).trans (h0 n hn hnn Ω μ s hs)⟩
  rintro ⟨U, hU, hUC⟩
  refine hω fun opt o => ?_
  have := C77_fit_recovers hM opt o (⟨n, hn, s ω⟩ : Dataset M) {} rfl U (Or.inr ⟨rfl, hU⟩) B hB
    (fun i j hij => by rw [hUC i j, ← hC i j hij]; simp [hij])
  exact ⟨this.1, this.2.1⟩

/-- normal rows have bounded fourth moments -/
theorem NormalRows.indepRows (mean : Fin M → ℝ) (C : Fin M → Fin M → ℝ) : ∃ K, ∀ (n : ℕ) (Ω : Type) [MeasurableSpace Ω] (μ : Measure Ω)
    [IsProbabilityMeasure μ] (s : Ω → Fin n → Fin M → ℝ), NormalRows μ s mean C → IndepRows μ s mean C K := by
  have hg : ∀ i, 0 ≤ ∫ x, (x - mean i) ^ 4 ∂(gaussianReal (mean i) (C i i).toNNReal) := fun i =>
    integral_nonneg fun x => Even.pow_nonneg (by decide) _
  refine ⟨∑ i, ∫ x, (x - mean i) ^ 4 ∂(gaussianReal (mean i) (C i i).toNNReal), fun n Ω _ μ _ s h => ?_⟩
  have hga : ∀ a i, HasGaussianLaw (fun ω => s ω a i) μ := fun a i =>
    h.normal.eval (X := fun p : Fin n × Fin M => fun ω => s ω p.1 p.2) (a, i)
  refine ⟨h.rows_indep, fun a i => (hga a i).memLp (by simp), h.mean_eq, fun a i j => by rw [h.cov_eq, if_pos rfl], fun a i => ?_⟩
  have hlaw := (hga a i).map_eq_gaussianReal
  have hv : Var[fun ω => s ω a i; μ] = C i i := by
    rw [← covariance_self (hga a i).aemeasurable, h.cov_eq, if_pos rfl]
  rw [h.mean_eq, hv] at hlaw
  have : ∫ ω, (s ω a i - mean i) ^ 4 ∂μ = ∫ x, (x - mean i) ^ 4 ∂(gaussianReal (mean i) (C i i).toNNReal) := by
    rw [← hlaw, integral_map (hga a i).aemeasurable (by fun_prop)]
  rw [this]
  exact Finset.single_le_sum (f := fun i => ∫ x, (x - mean i) ^ 4 ∂(gaussianReal (mean i) (C i i).toNNReal)) (fun i _ => hg i) (mem_univ i)

/-- **C128** Round trip: a `GaussianMCM` object whose structure `B` has the one-pure-child property, with positive error variances,
weights on the structure and non-zero covariance of any two variables with a common parent.  From some sample size on, with probability as
close to 1 as wanted, `fit` of a new object to the array returned by `sample`, with an ideal generator, recovers the
structure, for every optimizer and set order. -/
theorem C128_sample_fit (hM : 2 ≤ M) (st : GState M) (p : GParams M) (hp : st.params = some p) (means : Fin M → ℝ)
    (hm : st.means = some means) (hl : p.weightsOn = st.biadj) (hW : OnStructure p.weightsOn p.weights) (hB : OnePureChild st.biadj)
    (hv : ∀ j, 0 < p.variances j)
    (hf : ∀ i j, i ≠ j → (∃ r ∈ st.biadj, r i = true ∧ r j = true) → modelCov p.weights p.variances i j ≠ 0)
    (ε : ENNReal) (hε : 0 < ε) :
    ∃ n0, ∀ (n : ℕ) (hn : 2 ≤ n), n0 ≤ n → ∀ (G : Type) [MeasurableSpace G] (μ : Measure G) [IsProbabilityMeasure μ] (gen : MvnGen G),
      IdealDraws gen μ st.biadj.length n means p.variances →
      μ {g | ¬ ∃ s, (st.sample gen n g).1 = .ok s ∧ ∀ (opt : Optimizer) (o : Sched M),
        (∃ warned, (gaussianFit opt o ⟨n, hn, s⟩ {}).2 = .ok warned) ∧
        SameRows (gaussianFit opt o ⟨n, hn, s⟩ {}).1.biadj st.biadj} ≤ ε := by
  obtain ⟨K, hK⟩ := NormalRows.indepRows means (modelCov p.weights p.variances)
  have hpos : ∀ i, 0 < modelCov p.weights p.variances i i := fun i => by
    unfold modelCov
    rw [if_pos rfl]
    have := hv i
    have : 0 ≤ ∑ r, p.weights r i * p.weights r i := sum_nonneg fun r _ => mul_self_nonneg _
    linarith
  have hC : ∀ i j, i ≠ j → (modelCov p.weights p.variances i j ≠ 0 ↔ ∃ r ∈ st.biadj, r i = true ∧ r j = true) := by
    intro i j hij
    refine ⟨fun h => ?_, hf i j hij⟩
    by_contra hno
    apply h
    unfold modelCov
    rw [if_neg hij, add_zero]
    refine sum_eq_zero fun r _ => ?_
    by_cases h1 : p.weightsOn[r] i = true
    · have h2 : p.weightsOn[r] j = false := by
        by_contra h2
        exact hno ⟨p.weightsOn[r], by rw [← hl]; exact List.getElem_mem _, h1, by simpa using h2⟩
      rw [hW r j h2, mul_zero]
    · rw [hW r i (by simpa using h1), zero_mul]
  obtain ⟨n0, h0⟩ := C127_fit_consistent hM st.biadj hB means _ K hpos hC ε hε
  refine ⟨n0, fun n hn hnn G _ μ _ gen hgen => ?_⟩
  have hne : st.biadj.length * M ≠ 0 := by
    obtain ⟨r, hr, -⟩ := hB.2 ⟨0, by omega⟩
    exact Nat.mul_ne_zero (by simpa using List.ne_nil_of_mem hr) (by omega)
  obtain ⟨s, hs, hfol⟩ := sample_follows gen st p hp means hm hl hW hne n hgen
  refine (measure_mono fun g hg => ?_).trans (h0 n hn hnn G μ s (hK n G μ s hfol.normal))
  exact fun hall => hg ⟨s g, hs g, hall⟩

/-- the same for the objects returned by `sample.mcm`: if the structure has the one-pure-child property and no two variables
have two common parents, nothing more is needed -/
theorem C128_mcm_sample_fit (hM : 2 ≤ M) {G : Type} (gen : Gen G) (rts : (n : Nat) → Runtime n) (fuel : Nat) (a : McmArgs G) (w : World G)
    (p : McmParams M) (h : (sampleMcm gen rts fuel a w).res = .ok ⟨M, p⟩) (hB : OnePureChild p.biadj)
    (h1 : ∀ i j (r r' : Fin p.biadj.length), i ≠ j → p.biadj[r] i = true → p.biadj[r] j = true → p.biadj[r'] i = true →
      p.biadj[r'] j = true → r = r')
    (ε : ENNReal) (hε : 0 < ε) :
    ∃ n0, ∀ (n : ℕ) (hn : 2 ≤ n), n0 ≤ n → ∀ (H : Type) [MeasurableSpace H] (μ : Measure H) [IsProbabilityMeasure μ] (mvn : MvnGen H),
      IdealDraws mvn μ p.biadj.length n (fun j => (p.means j : ℝ)) (fun j => (p.variances j : ℝ)) →
      μ {g | ¬ ∃ s, (p.toState.sample mvn n g).1 = .ok s ∧ ∀ (opt : Optimizer) (o : Sched M),
        (∃ warned, (gaussianFit opt o ⟨n, hn, s⟩ {}).2 = .ok warned) ∧
        SameRows (gaussianFit opt o ⟨n, hn, s⟩ {}).1.biadj p.biadj} ≤ ε := by
  obtain ⟨hw0, -, -, hvar, -, -⟩ := C43_mcm_parameters gen rts fuel a w M p h
  have hc := (C104_mcm_samples (0 : Measure (ULift.{0} Unit)) ⟨fun _ _ _ g => (fun _ _ => 0, g)⟩ gen rts fuel a w p h).2.2.1
  refine C128_sample_fit hM p.toState _ rfl _ rfl rfl (fun r j hr => ?_) hB (fun j => ?_) (fun i j hij hr => ?_) ε hε
  · have := hw0 r j hr
    show ((p.weights r j : ℚ) : ℝ) = 0
    rw [this, Rat.cast_zero]
  · have h4 : (0 : ℚ) < p.variances j := lt_of_lt_of_le (by norm_num) (hvar j).1
    show (0 : ℝ) < (p.variances j : ℝ)
    exact_mod_cast h4
  · obtain ⟨r, hr, hri, hrj⟩ := hr
    obtain ⟨k, hk, rfl⟩ := List.getElem_of_mem hr
    have := hc i j ⟨k, hk⟩ hij fun r' => ⟨fun h => h1 i j r' ⟨k, hk⟩ hij h.1 h.2 hri hrj, fun h => by subst h; exact ⟨hri, hrj⟩⟩
    intro h0
    rw [show modelCov (fun r j => ((p.weights r j : ℚ) : ℝ)) (fun j => ((p.variances j : ℚ) : ℝ)) i j = 0 from h0] at this
    norm_num at this

/-! ### the hypotheses are met -/

/-- one latent with two children, unit weights and unit error variances -/
noncomputable def unitObj : GState 2 :=
  { biadj := [BVec.full], means := some fun _ => 0, params := some ⟨fun _ => 1, [BVec.full], fun _ _ => 1⟩ }

theorem onePure_full : OnePureChild [BVec.full (n := 2)] :=
  ⟨fun i hi => by
    have : i = 0 := by simpa using hi
    subst this
    exact ⟨0, by unfold PureChild; simp only [List.length]; decide +kernel⟩, by unfold CoversVertices; decide +kernel⟩

/-- the hypotheses of C128 for this object and the tape generator -/
example : OnStructure [BVec.full (n := 2)] (fun _ _ => 1) ∧ OnePureChild unitObj.biadj ∧
    (∀ i j : Fin 2, modelCov (fun (_ : Fin [BVec.full (n := 2)].length) (_ : Fin 2) => (1 : ℝ)) (fun _ => 1) i j ≠ 0) ∧
    ∀ n, IdealDraws tapeGen tape unitObj.biadj.length n (fun _ : Fin 2 => (0 : ℝ)) (fun _ => 1) := by
  refine ⟨fun r j h => ?_, onePure_full, fun i j => ?_, fun n => tapeGen_ideal _ _ _ _ fun _ => zero_le_one⟩
  · have : r.val = 0 := by have := r.isLt; simp at this ⊢
    simp [this] at h
  · unfold modelCov
    simp only [List.length_cons, List.length_nil, zero_add, mul_one, sum_const, card_univ, Fintype.card_fin, one_smul]
    split <;> norm_num

/-- arrays with independent rows exist for this covariance and every number of rows (C126, C127) -/
example : ∃ K, ∀ n, ∃ s : (ℕ × ℕ × ℕ → ℝ) → Fin n → Fin 2 → ℝ,
    IndepRows tape s (fun _ => 0) (modelCov (fun (_ : Fin [BVec.full (n := 2)].length) (_ : Fin 2) => (1 : ℝ)) fun _ => 1) K := by
  obtain ⟨K, hK⟩ := NormalRows.indepRows (fun _ : Fin 2 => (0 : ℝ))
    (modelCov (fun (_ : Fin [BVec.full (n := 2)].length) (_ : Fin 2) => (1 : ℝ)) fun _ => 1)
  refine ⟨K, fun n => ?_⟩
  obtain ⟨s, -, hs⟩ := sample_follows tapeGen unitObj _ rfl _ rfl rfl (fun r j h => by
    have : r.val = 0 := by have := r.isLt; simp [unitObj] at this ⊢
    simp [this] at h) (by decide) n (tapeGen_ideal _ _ _ _ fun _ => zero_le_one)
  exact ⟨s, hK n _ _ s hs.normal⟩

/-- `mcm` with the given structure of one latent returns a model that meets the hypotheses of `C128_mcm_sample_fit` -/
example : ∃ p : McmParams 2, (sampleMcm countGen rt0 10 { rng := some 0, biadj := .given 2 [BVec.full] } ⟨0, 0⟩).res = .ok ⟨2, p⟩ ∧
    p.biadj = [BVec.full] := ⟨_, rfl, rfl⟩

end Medil

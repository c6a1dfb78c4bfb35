import Verif.Proofs.Stable
import Verif.Props.Consistency
/-
  Property theorems C129, C130: stability and consistency of the parameters fitted by `GaussianMCM.fit`.
-/
namespace Medil
open MeasureTheory ProbabilityTheory Finset Filter Topology
variable {M : Nat}

theorem sameRows_equiv {B B0 : List (BVec M)} (hsame : SameRows B B0) :
    ∃ σ : Fin B.length ≃ Fin B0.length, ∀ i j, B0[σ i] j = B[i] j := by
  obtain ⟨f, hf, hfe⟩ := perm_index hsame
  have hlen : B.length = B0.length := by simpa using hsame.length_eq
  let σ : Fin B.length → Fin B0.length := fun i => Fin.cast (by simp) (f (Fin.cast (by simp) i))
  have hσ : Function.Injective σ := by
    intro a b hab
    have h1 := congrArg Fin.val hab
    have h2 := hf (Fin.ext h1)
    exact Fin.ext (by simpa using congrArg Fin.val h2)
  have hbij : Function.Bijective σ := (Fintype.bijective_iff_injective_and_card σ).mpr ⟨hσ, by simp [hlen]⟩
  refine ⟨Equiv.ofBijective σ hbij, fun i j => ?_⟩
  have h1 := hfe (Fin.cast (by simp) i)
  simp only [Fin.getElem_fin, List.getElem_map] at h1
  have h2 := Finset.ext_iff.mp h1 j
  simp only [mem_children] at h2
  exact Bool.eq_iff_iff.mpr h2

/-- **C129** `fit` is stable: for a one-pure-child structure `B0` with weights `W0` and error variances `v0`, where every latent has
two pure children and a third child with non-zero weights, and every `ε` there is a `δ` such that on every dataset whose sample
covariances are within `δ` of those of the model and whose graph (given, or estimated) is the dependence graph of `B0`, `fit` of
an object without a structure, with an optimizer that finds global minima, returns error variances within `ε` of `v0` and weights with
`min_perm_squared_l2_dist_abs` to `W0` less than `ε`. -/
theorem C129_fit_stable (hM : 2 ≤ M) (B0 : List (BVec M)) (hB : OnePureChild B0) (W0 : Fin B0.length → Fin M → ℝ) (v0 : Fin M → ℝ)
    (hW0 : OnStructure B0 W0) (h3 : ThreeIndicators B0 W0) (ε : ℝ) (hε : 0 < ε) :
    ∃ δ > 0, ∀ (opt : Optimizer), opt.Ideal → ∀ (o : Sched M) (d : Dataset M) (st : GState M), st.biadj = [] →
      ∀ U : BMat M, GraphUsed d st.udg U → IsUDGOf U B0 →
      (∀ i j, |sampleCov (fun k => d.val k i) (fun k => d.val k j) - modelCov W0 v0 i j| < δ) →
      ∃ (warned : Bool) (p : GParams M) (q : List (Fin p.weightsOn.length)) (dist : ℝ), (gaussianFit opt o d st).2 = .ok warned ∧
        (gaussianFit opt o d st).1.params = some p ∧ p.weightsOn.length = B0.length ∧ (∀ j, |p.variances j - v0 j| < ε) ∧
        minPermSquaredL2DistAbs p.weights W0 = .ok (q, dist) ∧ dist < ε := by
  -- the accuracy of a single weight
  obtain ⟨e, he0, he1, he2⟩ : ∃ e : ℝ, 0 < e ∧ e ≤ ε ∧ (B0.length * M : ℝ) * e ^ 2 < ε := by
    have hk : (0 : ℝ) < B0.length * M + 1 := by positivity
    refine ⟨min 1 (ε / (B0.length * M + 1)), lt_min one_pos (by positivity), (min_le_right _ _).trans ?_, ?_⟩
    · rw [div_le_iff₀ hk]
      nlinarith [mul_nonneg (Nat.cast_nonneg (α := ℝ) B0.length) (Nat.cast_nonneg (α := ℝ) M)]
    · have h1 : min 1 (ε / (B0.length * M + 1 : ℝ)) ≤ 1 := min_le_left _ _
      have h2 : min 1 (ε / (B0.length * M + 1 : ℝ)) ≤ ε / (B0.length * M + 1) := min_le_right _ _
      have h0 : 0 < min 1 (ε / (B0.length * M + 1 : ℝ)) := lt_min one_pos (by positivity)
      have h4 : min 1 (ε / (B0.length * M + 1 : ℝ)) ^ 2 ≤ ε / (B0.length * M + 1) := by nlinarith
      refine lt_of_le_of_lt (mul_le_mul_of_nonneg_left h4 (by positivity)) ?_
      rw [← mul_div_assoc, div_lt_iff₀ hk]
      nlinarith
  obtain ⟨δ', hδ', hmin⟩ := minimum_near hW0 h3 v0 he0
  -- `sqDist` from entrywise distances
  have hM0 : (0 : ℝ) < M := by exact_mod_cast (by omega : 0 < M)
  refine ⟨√(δ' / (M * M)), Real.sqrt_pos.mpr (by positivity), fun opt hopt o d st hst U hU hUB hcov => ?_⟩
  have hS : sqDist (fun i j => sampleCov (fun k => d.val k i) fun k => d.val k j) (modelCov W0 v0) < δ' := by
    have h1 : ∀ i j, (sampleCov (fun k => d.val k i) (fun k => d.val k j) - modelCov W0 v0 i j) ^ 2 < δ' / (M * M) := fun i j => by
      have := Real.sq_sqrt (by positivity : (0 : ℝ) ≤ δ' / (M * M))
      rw [← this]
      exact sq_lt_sq' (by have := (abs_lt.mp (hcov i j)).1; linarith) (abs_lt.mp (hcov i j)).2
    have hne : (univ : Finset (Fin M)).Nonempty := ⟨⟨0, by omega⟩, mem_univ _⟩
    calc sqDist (fun i j => sampleCov (fun k => d.val k i) fun k => d.val k j) (modelCov W0 v0)
        < ∑ _i : Fin M, ∑ _j : Fin M, δ' / (M * M) :=
          sum_lt_sum_of_nonempty hne fun i _ => sum_lt_sum_of_nonempty hne fun j _ => h1 i j
      _ = δ' := by
        simp only [sum_const, card_univ, Fintype.card_fin, nsmul_eq_mul]
        field_simp
  obtain ⟨⟨warned, hw⟩, hsame, -⟩ := C77_fit_recovers hM opt o d st hst U hU B0 hB hUB
  obtain ⟨B, dim, f, p, hp, hBdef, hdim, hf, hpar, hws, hv, -, -⟩ := C57_fitted_parameters opt o d st warned hw
  rw [hBdef] at hsame
  obtain ⟨σ, hσ⟩ := sameRows_equiv hsame
  have hlen : B.length = B0.length := by simpa using Fintype.card_congr σ
  obtain ⟨⟨x1, hx1⟩, hall⟩ := hmin B σ hσ dim hdim _ hS
  have hglob := hopt dim f ⟨x1, fun y => by rw [hf, hf]; exact hx1 y⟩
  obtain ⟨s, hs, hwn, hvn⟩ := hall (opt dim f).1 (fun y => by rw [← hf, ← hf]; exact hglob y)
  have hpl : p.weightsOn.length = B0.length := by rw [hp, hlen]
  have hpos : 0 < p.weightsOn.length := by
    rw [hpl]
    obtain ⟨r, hr, -⟩ := hB.2 ⟨0, by omega⟩
    exact List.length_pos_of_mem hr
  obtain ⟨τ, hτ, hmn, -⟩ := minPermDist_spec abs id p.weights W0 (le_of_eq hpl.symm) hpos
  refine ⟨warned, p, List.ofFn τ, _, hw, hpar, hpl, fun j => by rw [hv]; exact lt_of_lt_of_le (hvn j) he1, hτ, ?_⟩
  let π : Equiv.Perm (Fin p.weightsOn.length) := (finCongr hpl).trans (σ.symm.trans (finCongr (by rw [hp])))
  refine lt_of_le_of_lt (hmn π) (lt_of_le_of_lt ?_ he2)
  have hterm : ∀ i j, (|p.weights (π i) j| - |padded id W0 i j|) ^ 2 ≤ e ^ 2 := by
    intro i j
    have hi : i.val < B0.length := by rw [← hpl]; exact i.isLt
    have h1 : p.weights (π i) j = weightsOf B (opt dim f).1 (σ.symm ⟨i, hi⟩) j := hws (σ.symm ⟨i, hi⟩) j
    have h2 := hwn (σ.symm ⟨i, hi⟩) j
    rw [σ.apply_symm_apply] at h2
    have h4 : padded id W0 i j = W0 ⟨i, hi⟩ j := by unfold padded; rw [dif_pos hi]; rfl
    rw [h1, h4]
    have h5 : |weightsOf B (opt dim f).1 (σ.symm ⟨i, hi⟩) j| = |s (σ.symm ⟨i, hi⟩) * weightsOf B (opt dim f).1 (σ.symm ⟨i, hi⟩) j| := by
      rcases hs (σ.symm ⟨i, hi⟩) with h | h <;> simp [h]
    rw [h5]
    refine sq_le_sq' ?_ ?_
    · have := abs_le.mp (abs_abs_sub_abs_le (s (σ.symm ⟨i, hi⟩) * weightsOf B (opt dim f).1 (σ.symm ⟨i, hi⟩) j) (W0 ⟨i, hi⟩ j))
      linarith [this.1]
    · have := abs_le.mp (abs_abs_sub_abs_le (s (σ.symm ⟨i, hi⟩) * weightsOf B (opt dim f).1 (σ.symm ⟨i, hi⟩) j) (W0 ⟨i, hi⟩ j))
      linarith [this.2]
  calc matchDist abs p.weights (padded id W0) π ≤ ∑ _i : Fin p.weightsOn.length, ∑ _j : Fin M, e ^ 2 :=
        sum_le_sum fun i _ => sum_le_sum fun j _ => hterm i j
    _ = B0.length * M * e ^ 2 := by
        simp only [sum_const, card_univ, Fintype.card_fin, nsmul_eq_mul, hpl]
        ring

/-- **C130** Consistency of the fitted parameters: rows are independent with mean `mean` and the covariance of a model with a one-pure-child structure
`B0`, weights `W0`, error variances `v0`, every latent with two pure children and a third child with non-zero weights, the
variances positive and the covariances of variables with a common parent non-zero.  From some number of rows on, with
probability as close to 1 as wanted, `fit` of a new object, with an optimizer that finds global minima and every set order, returns means and error
variances within `ε` of the true ones and weights with `min_perm_squared_l2_dist_abs` to `W0` less than `ε`. -/
theorem C130_parameters_consistent (hM : 2 ≤ M) (B0 : List (BVec M)) (hB : OnePureChild B0) (W0 : Fin B0.length → Fin M → ℝ) (v0 : Fin M → ℝ)
    (hW0 : OnStructure B0 W0) (h3 : ThreeIndicators B0 W0) (hpos : ∀ i, 0 < modelCov W0 v0 i i)
    (hfaith : ∀ i j, i ≠ j → (∃ r ∈ B0, r i = true ∧ r j = true) → modelCov W0 v0 i j ≠ 0)
    (mean : Fin M → ℝ) (K : ℝ) (ε : ℝ) (hε : 0 < ε) (η : ENNReal) (hη : 0 < η) :
    ∃ n0, ∀ (n : ℕ) (hn : 2 ≤ n), n0 ≤ n → ∀ (Ω : Type) [MeasurableSpace Ω] (μ : Measure Ω) [IsProbabilityMeasure μ]
      (s : Ω → Fin n → Fin M → ℝ), IndepRows μ s mean (modelCov W0 v0) K →
      μ {ω | ¬ ∀ (opt : Optimizer), opt.Ideal → ∀ o : Sched M, ∃ (warned : Bool) (p : GParams M) (means : Fin M → ℝ)
        (q : List (Fin p.weightsOn.length)) (dist : ℝ), (gaussianFit opt o ⟨n, hn, s ω⟩ {}).2 = .ok warned ∧
        (gaussianFit opt o ⟨n, hn, s ω⟩ {}).1.params = some p ∧ (gaussianFit opt o ⟨n, hn, s ω⟩ {}).1.means = some means ∧
        p.weightsOn.length = B0.length ∧ (∀ j, |means j - mean j| < ε) ∧ (∀ j, |p.variances j - v0 j| < ε) ∧
        minPermSquaredL2DistAbs p.weights W0 = .ok (q, dist) ∧ dist < ε} ≤ η := by
  obtain ⟨δ, hδ, hst⟩ := C129_fit_stable hM B0 hB W0 v0 hW0 h3 ε hε
  have hsym : ∀ i j, modelCov W0 v0 i j = modelCov W0 v0 j i := fun i j => by
    unfold modelCov
    by_cases h : i = j
    · subst h; rfl
    · rw [if_neg h, if_neg (Ne.symm h)]
      congr 1
      exact sum_congr rfl fun r _ => mul_comm _ _
  have hC : ∀ i j, i ≠ j → (modelCov W0 v0 i j ≠ 0 ↔ ∃ r ∈ B0, r i = true ∧ r j = true) := by
    intro i j hij
    refine ⟨fun h => ?_, hfaith i j hij⟩
    by_contra hno
    apply h
    unfold modelCov
    rw [if_neg hij, add_zero]
    refine sum_eq_zero fun r _ => ?_
    by_cases h1 : B0[r] i = true
    · have h2 : B0[r] j = false := by
        by_contra h2
        exact hno ⟨B0[r], List.getElem_mem _, h1, by simpa using h2⟩
      rw [hW0 r j h2, mul_zero]
    · rw [hW0 r i (by simpa using h1), zero_mul]
  obtain ⟨c, hc, hev⟩ := near_graph (by omega : M ≠ 1) mean (modelCov W0 v0) hsym hpos
  have hp := (near_prob K c hc M).eventually (gt_mem_nhds hη)
  have t1 : ∀ e : ℝ, 0 < e → ∀ᶠ n : ℕ in atTop, tol c n ≤ e := fun e he =>
    ((tol_tendsto c).eventually (gt_mem_nhds he)).mono fun n hn => le_of_lt hn
  have t2 : ∀ᶠ n : ℕ in atTop, ∀ i j, |modelCov W0 v0 i j| / ((n : ℝ) - 1) < δ / 2 := eventually_all.mpr fun i => eventually_all.mpr fun j => by
    have h1 : Tendsto (fun n : ℕ => (n : ℝ) - 1) atTop atTop := tendsto_atTop_add_const_right _ _ tendsto_natCast_atTop_atTop
    have h2 : Tendsto (fun n : ℕ => |modelCov W0 v0 i j| / ((n : ℝ) - 1)) atTop (𝓝 0) := tendsto_const_nhds.div_atTop h1
    exact h2.eventually (gt_mem_nhds (by positivity))
  obtain ⟨n0, h0⟩ := eventually_atTop.mp (hev.and (hp.and ((t1 1 one_pos).and ((t1 (δ / 16) (by positivity)).and ((t1 ε hε).and t2)))))
  refine ⟨n0, fun n hn hnn Ω _ μ _ s hs => ?_⟩
  obtain ⟨h1, h2, h4, h5, h6, h7⟩ := h0 n hnn
  have hn1 : (1 : ℝ) < n := by exact_mod_cast (by omega : 1 < n)
  have htol : 0 < tol c n := Real.sqrt_pos.mpr (by
    have := Real.log_pos hn1
    positivity)
  refine (measure_mono fun ω hω => ?_).trans ((hs.near (by omega) htol).trans h2.le)
  intro hnear
  refine hω fun opt hopt o => ?_
  obtain ⟨U, hU, hUC⟩ := h1 hn (s ω) hnear
  obtain ⟨warned, p, q, dist, r1, r2, r3, r4, r5, r6⟩ := hst opt hopt o (⟨n, hn, s ω⟩ : Dataset M) {} rfl U (Or.inr ⟨rfl, hU⟩)
    (fun i j hij => by rw [hUC i j, ← hC i j hij]; simp [hij]) (fun i j => by
      have e1 := near_cov hn hnear h4 i j
      have e2 := h7 i j
      have e3 : (n : ℝ) / (n - 1) * modelCov W0 v0 i j - modelCov W0 v0 i j = modelCov W0 v0 i j / (n - 1) := by
        have : (n : ℝ) - 1 ≠ 0 := by linarith
        field_simp
        ring
      have e4 : |(n : ℝ) / (n - 1) * modelCov W0 v0 i j - modelCov W0 v0 i j| < δ / 2 := by
        rw [e3, abs_div, abs_of_pos (by linarith : (0 : ℝ) < (n : ℝ) - 1)]
        exact e2
      have e5 := abs_sub_le (sampleCov (fun k => s ω k i) fun k => s ω k j) ((n : ℝ) / (n - 1) * modelCov W0 v0 i j) (modelCov W0 v0 i j)
      show |sampleCov (fun k => s ω k i) (fun k => s ω k j) - _| < δ
      linarith)
  obtain ⟨B', dim, f, p', hp', -, -, -, -, -, -, hmeans, -⟩ := C57_fitted_parameters opt o (⟨n, hn, s ω⟩ : Dataset M) {} warned r1
  refine ⟨warned, p, _, q, dist, r1, r2, hmeans, r3, fun j => ?_, r4, r5, r6⟩
  have hj := hnear.1 j
  have e : sampleMean (fun k => s ω k j) - mean j = (∑ k, (s ω k j - mean j)) / n := by
    unfold sampleMean
    rw [sum_sub_distrib]
    have : (n : ℝ) ≠ 0 := by linarith
    simp
    field_simp
  show |sampleMean (fun k => s ω k j) - mean j| < ε
  rw [e]
  exact lt_of_lt_of_le hj h6

/-- the model of one latent with three children, unit weights and unit error variances meets the hypotheses, and arrays with such rows exist (see
C126) -/
example : OnePureChild [BVec.full (n := 3)] ∧ OnStructure [BVec.full (n := 3)] (fun _ _ => 1) ∧
    ThreeIndicators [BVec.full (n := 3)] (fun _ _ => 1) ∧
    (∀ i j, modelCov (fun (_ : Fin [BVec.full (n := 3)].length) (_ : Fin 3) => (1 : ℝ)) (fun _ => 1) i j ≠ 0) ∧
    ∃ opt : Optimizer, opt.Ideal := by
  have hpure : ∀ (r : Fin [BVec.full (n := 3)].length) j, PureChild [BVec.full (n := 3)] r j := by
    intro r j i hi
    have h1 : i = 0 := by simpa using hi
    have h2 : r.val = 0 := by have := r.isLt; simp at this ⊢
    subst h1
    rw [h2]
    simp
  refine ⟨⟨fun i hi => ⟨0, hpure ⟨i, hi⟩ 0⟩, fun j => ⟨BVec.full, by simp⟩⟩, fun r j h => ?_,
    fun r => ⟨0, 1, 2, by decide, by decide, by decide, hpure r 0, hpure r 1, one_ne_zero, one_ne_zero, one_ne_zero⟩, fun i j => ?_, exists_ideal⟩
  · have : r.val = 0 := by have := r.isLt; simp at this ⊢
    simp at h
  · unfold modelCov
    simp only [List.length_cons, List.length_nil, zero_add, mul_one, sum_const, card_univ, Fintype.card_fin, one_smul]
    split <;> norm_num

end Medil

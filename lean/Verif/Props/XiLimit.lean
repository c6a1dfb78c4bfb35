import Verif.Props.NcfaXicor
import Verif.Proofs.UnifLevel
/-
  C176: the p-values of `xicorr` for independent columns are in the limit uniformly distributed, so the edges of `"xicor"` have the level they are
  said to have.
-/
namespace Medil
open MeasureTheory ProbabilityTheory Finset Filter Topology
variable {n M : Nat}

/-- the p-value of `xicorr(x, y, ties)` is smaller than the level -/
def SmallP (srt : ArgSort ℝ) (Φ : ℝ → ℝ) (ties : Bool) (level : ℝ) (x y : Fin n → ℝ) : Prop := ∃ xi p, xicorrIs srt Φ x y ties xi p ∧ p < level

/-- what `xicorr` returns for `y` without ties -/
theorem xicorr_inj (srt : ArgSort ℝ) (Φ : ℝ → ℝ) (ties : Bool) (x y : Fin n → ℝ) (hn : 2 ≤ n) (hy : Function.Injective y) :
    xicorrIs srt Φ x y ties (xiVal srt x y) (1 - Φ (Real.sqrt n * xiVal srt x y / Real.sqrt (tieFreeVar ties n))) := by
  have hn2 : (2 : ℝ) ≤ n := by exact_mod_cast hn
  have hd : 0 < 5 * ((n : ℝ) ^ 2 - 1) := by nlinarith
  have hv : 0 < tieFreeVar ties n := by
    unfold tieFreeVar
    split_ifs
    · positivity
    · norm_num
  have e : (if ties then xiVar y else .fin (2 / 5)) = .fin (tieFreeVar ties n) := by
    unfold tieFreeVar
    split_ifs
    · exact xiVar_inj y hn hy
    · rfl
  unfold xicorrIs
  rw [xicorr_ok srt Φ x y (by omega), e, xiStat_val srt x y hn]
  simp [xiZ, not_lt.mpr hv.le, Fl.div, (Real.sqrt_pos.mpr hv).ne', upperTail]

theorem smallP_inj (srt : ArgSort ℝ) (Φ : ℝ → ℝ) (ties : Bool) (level : ℝ) (x y : Fin n → ℝ) (hn : 2 ≤ n) (hy : Function.Injective y) :
    SmallP srt Φ ties level x y ↔ 1 - Φ (Real.sqrt n * xiVal srt x y / Real.sqrt (tieFreeVar ties n)) < level := by
  have h := xicorr_inj srt Φ ties x y hn hy
  constructor
  · rintro ⟨xi, p, h', hp⟩
    unfold xicorrIs at h h'
    rw [h] at h'
    injection h' with h'
    obtain ⟨-, h2⟩ := Prod.ext_iff.mp h'
    injection h2 with h2
    rwa [h2]
  · intro hp
    exact ⟨_, _, h, hp⟩

theorem smallP_order (srt : ArgSort ℝ) (Φ : ℝ → ℝ) (ties : Bool) (level : ℝ) {x x' y y' : Fin n → ℝ} (hx : ∀ i j, x i < x j ↔ x' i < x' j)
    (hy : ∀ i j, y i < y j ↔ y' i < y' j) : SmallP srt Φ ties level x y ↔ SmallP srt Φ ties level x' y' := by
  unfold SmallP xicorrIs
  rw [xicorr_order srt Φ ties hx hy]

/-- the test `xicor` at the level -/
theorem xicorTest_smallP (srt : ArgSort ℝ) (Φ : ℝ → ℝ) (level : ℝ) (x y : Fin n → ℝ) (hn : 2 ≤ n) (hy : Function.Injective y) :
    (xicorTest srt Φ x y).lt level = true ↔ SmallP srt Φ true level x y := by
  rw [xicorTest_inj srt Φ x y hn hy, smallP_inj srt Φ true level x y hn hy]
  unfold tieFreeVar
  rw [if_pos rfl]

open Classical in
/-- the share of the permutations with a small p-value -/
theorem smallP_share (srt : ArgSort ℝ) (ties : Bool) (level : ℝ) (x y : Fin n → ℝ) (hn : 2 ≤ n) (hy : Function.Injective y) :
    ((univ.filter fun π : Equiv.Perm (Fin n) => SmallP srt normCdf ties level x fun k => y (π k)).card : ℝ) =
      (unifs n).real {z | 1 - normCdf (zWith (tieFreeVar ties) n (rankDist z)) < level} * n.factorial := by
  obtain ⟨E, hE⟩ : ∃ E, E = {d : ℝ | 1 - normCdf (zWith (tieFreeVar ties) n d) < level} := ⟨_, rfl⟩
  have hm : MeasurableSet E := by
    have h1 : Measurable fun d : ℝ => 1 - normCdf (zWith (tieFreeVar ties) n d) := by
      have := normCdf_continuous.measurable
      unfold zWith xiOf
      fun_prop
    rw [hE]
    exact measurableSet_lt h1 measurable_const
  obtain ⟨e, he⟩ := xiVal_orderDist srt x y hn hy
  have h := unifs_rankDist (n := n) E hm
  have hset : {z : Fin n → ℝ | rankDist z ∈ E} = {z | 1 - normCdf (zWith (tieFreeVar ties) n (rankDist z)) < level} := by rw [hE]; rfl
  rw [hset] at h
  rw [← h]
  congr 1
  refine card_bij' (fun π _ => e π) (fun π _ => e.symm π) ?_ ?_ ?_ ?_
  · intro π hπ
    have h1 := (smallP_inj srt normCdf ties level x _ hn (hy.comp π.injective)).mp (mem_filter.mp hπ).2
    refine mem_filter.mpr ⟨mem_univ _, ?_⟩
    rw [hE]
    rw [show (y ∘ π) = fun k => y (π k) from rfl, he π] at h1
    exact h1
  · intro π hπ
    have h1 := (mem_filter.mp hπ).2
    refine mem_filter.mpr ⟨mem_univ _, ?_⟩
    refine (smallP_inj srt normCdf ties level x _ hn (hy.comp (e.symm π).injective)).mpr ?_
    rw [show (y ∘ (e.symm π)) = fun k => y (e.symm π k) from rfl, he (e.symm π), e.apply_symm_apply]
    rw [hE] at h1
    exact h1
  · intro π _; simp
  · intro π _; simp

/-- **C176** Whatever the data without ties in `y`: the share of the `n!` orders of `y` for which the p-value of `xicorr(x, y, ties)` is smaller
than a level between 0 and 1 tends to this level, for both settings of `ties`, uniformly over all data. -/
theorem C176_permutations (level : ℝ) (h0 : 0 < level) (h1 : level < 1) (ε : ℝ) (hε : 0 < ε) :
    ∃ n0, ∀ n, n0 ≤ n → ∀ (srt : ArgSort ℝ) (ties : Bool) (x y : Fin n → ℝ), Function.Injective y →
      |(Nat.card {π : Equiv.Perm (Fin n) // ∃ xi p, xicorrIs srt (cdf (gaussianReal 0 1)) x (fun k => y (π k)) ties xi p ∧ p < level} : ℝ) -
        level * n.factorial| ≤ ε * n.factorial := by
  have hev := ((Metric.tendsto_nhds.mp (unifs_level true h0 h1) ε hε).and (Metric.tendsto_nhds.mp (unifs_level false h0 h1) ε hε)).and (eventually_ge_atTop 2)
  obtain ⟨n0, hn0⟩ := eventually_atTop.mp hev
  refine ⟨n0, fun n hn srt ties x y hy => ?_⟩
  classical
  obtain ⟨⟨ht, hf⟩, h2⟩ := hn0 n hn
  have e : (Nat.card {π : Equiv.Perm (Fin n) // ∃ xi p, xicorrIs srt (cdf (gaussianReal 0 1)) x (fun k => y (π k)) ties xi p ∧ p < level} : ℝ) = _ :=
    (by rw [Nat.card_eq_fintype_card, Fintype.card_subtype]; rfl :
      _ = ((univ.filter fun π : Equiv.Perm (Fin n) => SmallP srt normCdf ties level x fun k => y (π k)).card : ℝ)).trans
      (smallP_share srt ties level x y h2 hy)
  rw [e, ← sub_mul, abs_mul, Nat.abs_cast]
  refine mul_le_mul_of_nonneg_right ?_ (by positivity)
  cases ties
  · exact hf.le
  · exact ht.le

open Classical in
/-- the probability of a small p-value -/
theorem smallP_prob (level : ℝ) (h0 : 0 < level) (h1 : level < 1) (ε : ℝ) (hε : 0 < ε) :
    ∃ n0, ∀ n, n0 ≤ n → 2 ≤ n ∧ ∀ (M : ℕ) (ν : Measure (Fin M → ℝ)) [IsProbabilityMeasure ν] (i j : Fin M),
      IndepFun (fun x : Fin M → ℝ => x i) (fun x => x j) ν → (∀ c : ℝ, ν {x | x j = c} = 0) →
      ∀ (Ω : Type) [MeasurableSpace Ω] (μ : Measure Ω) [IsProbabilityMeasure μ] (s : Ω → Fin n → Fin M → ℝ), IIDRows μ s ν →
      ∀ (srt : ArgSort ℝ) (ties : Bool), |μ.real {ω | SmallP srt normCdf ties level (fun k => s ω k i) fun k => s ω k j} - level| ≤ ε := by
  have hev := ((Metric.tendsto_nhds.mp (unifs_level true h0 h1) ε hε).and (Metric.tendsto_nhds.mp (unifs_level false h0 h1) ε hε)).and (eventually_ge_atTop 2)
  obtain ⟨n0, hn0⟩ := eventually_atTop.mp hev
  refine ⟨n0, fun n hn => ⟨(hn0 n hn).2, fun M ν _ i j hind hat Ω _ μ _ s hs srt ties => ?_⟩⟩
  obtain ⟨⟨ht, hf⟩, h2⟩ := hn0 n hn
  obtain ⟨c, hc⟩ : ∃ c, c = (unifs n).real {z | 1 - normCdf (zWith (tieFreeVar ties) n (rankDist z)) < level} := ⟨_, rfl⟩
  have hcl : |c - level| ≤ ε := by
    rw [hc]
    cases ties
    · exact hf.le
    · exact ht.le
  have hc0 : 0 ≤ c := by rw [hc]; exact measureReal_nonneg
  have hc1 : c ≤ 1 := by rw [hc]; exact measureReal_le_one
  obtain ⟨E, hEd⟩ : ∃ E, E = {z : (Fin n → ℝ) × (Fin n → ℝ) | SmallP srt normCdf ties level z.1 z.2} := ⟨_, rfl⟩
  have hE : MeasurableSet E :=
    order_measurable _ fun z z' h1 h2 hz => by
      rw [hEd, Set.mem_ofPred_eq] at hz ⊢
      exact (smallP_order srt normCdf ties level h1 h2).mp hz
  have hnt : μ {ω | ((fun k => s ω k i), fun k => s ω k j) ∉ {z : (Fin n → ℝ) × (Fin n → ℝ) | Function.Injective z.2}} = 0 := hs.no_ties j hat
  have hfac : (0 : ℝ) < n.factorial := by exact_mod_cast n.factorial_pos
  have share : ∀ x y : Fin n → ℝ, Function.Injective y → ((univ.filter fun π : Equiv.Perm (Fin n) => (x, fun k => y (π k)) ∈ E).card : ℝ) = c * n.factorial := by
    intro x y hy
    rw [hc, ← smallP_share srt ties level x y h2 hy, hEd]
    rfl
  have k1 := hs.exchange i j hind E _ hE injective_measurable c hc0 fun x y hy => (share x y hy).le
  have k2 := hs.exchange i j hind Eᶜ _ hE.compl injective_measurable (1 - c) (by linarith) fun x y hy => by
    have h3 := card_filter_add_card_filter_not (s := (univ : Finset (Equiv.Perm (Fin n)))) fun π => (x, fun k => y (π k)) ∈ E
    rw [card_univ, Fintype.card_perm, Fintype.card_fin] at h3
    have h4 : ((univ.filter fun π : Equiv.Perm (Fin n) => (x, fun k => y (π k)) ∈ E).card : ℝ) +
        ((univ.filter fun π : Equiv.Perm (Fin n) => ¬ (x, fun k => y (π k)) ∈ E).card : ℝ) = n.factorial := by exact_mod_cast h3
    rw [share x y hy] at h4
    refine le_of_eq (Eq.trans ?_ (by linarith : ((univ.filter fun π : Equiv.Perm (Fin n) => ¬ (x, fun k => y (π k)) ∈ E).card : ℝ) = (1 - c) * n.factorial))
    simp only [Set.mem_compl_iff]
  rw [hnt, add_zero] at k1 k2
  have e1 : {ω | SmallP srt normCdf ties level (fun k => s ω k i) fun k => s ω k j} = {ω | ((fun k => s ω k i), fun k => s ω k j) ∈ E} := by rw [hEd]; rfl
  obtain ⟨A, hA⟩ : ∃ A, A = {ω | ((fun k => s ω k i), fun k => s ω k j) ∈ E} := ⟨_, rfl⟩
  have hAc : {ω | ((fun k => s ω k i), fun k => s ω k j) ∈ Eᶜ} = Aᶜ := by rw [hA]; rfl
  rw [e1, ← hA]
  rw [← hA] at k1
  rw [hAc] at k2
  have r1 : μ.real A ≤ c := by rw [measureReal_def]; exact ENNReal.toReal_le_of_le_ofReal hc0 k1
  have r2 : μ.real Aᶜ ≤ 1 - c := by rw [measureReal_def]; exact ENNReal.toReal_le_of_le_ofReal (by linarith) k2
  have r3 : 1 ≤ μ.real A + μ.real Aᶜ := by
    have := measureReal_union_le (μ := μ) A Aᶜ
    rwa [Set.union_compl_self, probReal_univ] at this
  have : μ.real A = c := by linarith
  rwa [this]

/-- **C176** Independent rows with a common law, in which two columns are independent and the second has a continuous distribution function: the
p-value of `xicorr` of the two columns (for both settings of `ties`) is smaller than a level between 0 and 1 with a probability that tends to this
level.  The number of rows from which on the probability is within `ε` of the level does not depend on the law. -/
theorem C176_pvalue (level : ℝ) (h0 : 0 < level) (h1 : level < 1) (ε : ℝ) (hε : 0 < ε) :
    ∃ n0, ∀ n, n0 ≤ n → ∀ (M : ℕ) (ν : Measure (Fin M → ℝ)) [IsProbabilityMeasure ν] (i j : Fin M),
      IndepFun (fun x : Fin M → ℝ => x i) (fun x => x j) ν → (∀ c : ℝ, ν {x | x j = c} = 0) →
      ∀ (Ω : Type) [MeasurableSpace Ω] (μ : Measure Ω) [IsProbabilityMeasure μ] (s : Ω → Fin n → Fin M → ℝ), IIDRows μ s ν →
      ∀ (srt : ArgSort ℝ) (ties : Bool),
        |μ.real {ω | ∃ xi p, xicorrIs srt (cdf (gaussianReal 0 1)) (fun k => s ω k i) (fun k => s ω k j) ties xi p ∧ p < level} - level| ≤ ε := by
  obtain ⟨n0, h⟩ := smallP_prob level h0 h1 ε hε
  exact ⟨n0, fun n hn => (h n hn).2⟩

/-- **C176** The edges of `estimate_UDG(sample, "xicor", level)` have this level: two independent columns, the later one with a continuous distribution
function, are joined with a probability that tends to the level. -/
theorem C176_level (level : ℝ) (h0 : 0 < level) (h1 : level < 1) (ε : ℝ) (hε : 0 < ε) :
    ∃ n0, ∀ n, n0 ≤ n → ∀ (M : ℕ) (ν : Measure (Fin M → ℝ)) [IsProbabilityMeasure ν] (i j : Fin M), i < j →
      IndepFun (fun x : Fin M → ℝ => x i) (fun x => x j) ν → (∀ c : ℝ, ν {x | x j = c} = 0) →
      ∀ (Ω : Type) [MeasurableSpace Ω] (μ : Measure Ω) [IsProbabilityMeasure μ] (s : Ω → Fin n → Fin M → ℝ), IIDRows μ s ν →
      ∀ (srt : ArgSort ℝ) (lib : TestLib ℝ n), lib.xicorTest = xicorTest srt (cdf (gaussianReal 0 1)) →
        |μ.real {ω | ∃ u p, estimateUDG lib (s ω) (.name "xicor") level = .ok (u, p) ∧ u i j = true} - level| ≤ ε := by
  obtain ⟨n0, h⟩ := smallP_prob level h0 h1 ε hε
  refine ⟨n0, fun n hn M ν _ i j hij hind hat Ω _ μ _ s hs srt lib hlib => ?_⟩
  obtain ⟨h2, h⟩ := h n hn
  have key := h M ν i j hind hat Ω μ s hs srt true
  have hae : μ.real {ω | ∃ u p, estimateUDG lib (s ω) (.name "xicor") level = .ok (u, p) ∧ u i j = true} =
      μ.real {ω | SmallP srt normCdf true level (fun k => s ω k i) fun k => s ω k j} := by
    refine measureReal_congr ?_
    have hnt : ∀ᵐ ω ∂μ, Function.Injective fun k => s ω k j := hs.no_ties j hat
    filter_upwards [hnt] with ω hω
    refine propext ?_
    show (∃ u p, estimateUDG lib (s ω) (.name "xicor") level = .ok (u, p) ∧ u i j = true) ↔ SmallP srt normCdf true level (fun k => s ω k i) fun k => s ω k j
    rw [xicor_edge_iff srt _ lib hlib (s ω) level i j hij]
    exact xicorTest_smallP srt normCdf level _ _ h2 hω
  rwa [hae]

/-- the bound for the edges between independent columns -/
theorem falseEdges_level (level : ℝ) (h0 : 0 < level) (h1 : level < 1) (ε : ℝ) (hε : 0 < ε) :
    FalseEdges M (cdf (gaussianReal 0 1)) level (ENNReal.ofReal (level + ε)) := by
  intro ν _ hat
  obtain ⟨n0, h⟩ := C176_level level h0 h1 ε hε
  refine ⟨n0, fun n hn Ω _ μ _ s hs srt lib hlib i j hij hind => ?_⟩
  have := h n hn M ν i j hij hind (hat j) Ω μ s hs srt lib hlib
  rw [← ofReal_measureReal (by finiteness)]
  exact ENNReal.ofReal_le_ofReal (by linarith [(abs_le.mp this).2])

/-- a tolerance split between the edges and the rest -/
theorem split_tolerance (k : ℕ) (level : ℝ) (h0 : 0 < level) (ε : ENNReal) (hε : 0 < ε) :
    ∃ (δ : ℝ) (ε' : ENNReal), 0 < δ ∧ 0 < ε' ∧ ∀ m : ℕ, m ≤ k → (m : ENNReal) * ENNReal.ofReal (level + δ) + ε' ≤ m * ENNReal.ofReal level + ε := by
  obtain ⟨r, hr0, hr⟩ : ∃ r : ℝ, 0 < r ∧ ENNReal.ofReal r ≤ ε := by
    rcases eq_or_ne ε ⊤ with h | h
    · exact ⟨1, one_pos, by rw [h]; exact le_top⟩
    · exact ⟨ε.toReal, ENNReal.toReal_pos hε.ne' h, (ENNReal.ofReal_toReal h).le⟩
  refine ⟨r / (2 * (k + 1)), ENNReal.ofReal (r / 2), by positivity, ENNReal.ofReal_pos.mpr (by positivity), fun m hm => ?_⟩
  have hk : (m : ℝ) * (r / (2 * (k + 1))) ≤ r / 2 := by
    have : (m : ℝ) ≤ k := by exact_mod_cast hm
    rw [← mul_div_assoc, div_le_div_iff₀ (by positivity) (by norm_num)]
    nlinarith
  calc (m : ENNReal) * ENNReal.ofReal (level + r / (2 * (k + 1))) + ENNReal.ofReal (r / 2)
      = ENNReal.ofReal (m * (level + r / (2 * (k + 1))) + r / 2) := by
        rw [ENNReal.ofReal_add (p := m * (level + r / (2 * (k + 1)))) (by positivity) (by positivity), ENNReal.ofReal_mul (by positivity), ENNReal.ofReal_natCast]
    _ ≤ ENNReal.ofReal (m * level + r) := ENNReal.ofReal_le_ofReal (by linarith)
    _ = m * ENNReal.ofReal level + ENNReal.ofReal r := by
        rw [ENNReal.ofReal_add (by positivity) hr0.le, ENNReal.ofReal_mul (by positivity), ENNReal.ofReal_natCast]
    _ ≤ _ := by gcongr

open Classical in
/-- **C176** The whole graph, for columns with continuous distribution functions: from some number of rows on, the probability that the edges are not
exactly the pairs of dependent columns is at most the level for every pair of independent columns, plus any `ε > 0`. -/
theorem C176_graph (level : ℝ) (h0 : 0 < level) (h1 : level < 1) (ν : Measure (Fin M → ℝ)) [IsProbabilityMeasure ν]
    (hat : ∀ j c, ν {x | x j = c} = 0) (ε : ENNReal) (hε : 0 < ε) :
    ∃ n0, ∀ n, n0 ≤ n → ∀ (Ω : Type) [MeasurableSpace Ω] (μ : Measure Ω) [IsProbabilityMeasure μ] (s : Ω → Fin n → Fin M → ℝ),
      IIDRows μ s ν → ∀ (srt : ArgSort ℝ) (lib : TestLib ℝ n), lib.xicorTest = xicorTest srt (cdf (gaussianReal 0 1)) →
      μ {ω | ¬ ∃ u p, estimateUDG lib (s ω) (.name "xicor") level = .ok (u, p) ∧
        ∀ i j, u i j = true ↔ i ≠ j ∧ ¬ IndepFun (fun x : Fin M → ℝ => x i) (fun x => x j) ν} ≤
      (univ.filter fun q : Fin M × Fin M => q.1 < q.2 ∧ IndepFun (fun x : Fin M → ℝ => x q.1) (fun x => x q.2) ν).card * ENNReal.ofReal level + ε := by
  obtain ⟨δ, ε', hδ, hε', hsum⟩ := split_tolerance _ level h0 ε hε
  obtain ⟨n0, h⟩ := xicor_graph (cdf (gaussianReal 0 1)) (tendsto_cdf_atTop _) level h0 _ (falseEdges_level level h0 h1 δ hδ) ν hat ε' hε'
  exact ⟨n0, fun n hn Ω _ μ _ s hs srt lib hlib => (h n hn Ω μ s hs srt lib hlib).trans (hsum _ le_rfl)⟩

open Classical in
/-- **C176** The structure: as `C175_structure`, with the level for each pair of independent measurements. -/
theorem C176_structure (lib : ∀ N, TestLib ℝ N) (hlib : UsesXicor lib (cdf (gaussianReal 0 1))) (tc : TestChoice) (ht : tc.method = "xicor")
    (h0 : 0 < tc.alpha) (h1 : tc.alpha < 1) (hM : 0 < M)
    (B : List (BVec M)) (hB : OnePureChild B) (ν : Measure (Fin M → ℝ)) [IsProbabilityMeasure ν] (hat : ∀ j c, ν {x | x j = c} = 0)
    (hdep : ∀ i j, i ≠ j → (IndepFun (fun x : Fin M → ℝ => x i) (fun x => x j) ν ↔ ¬ ∃ r ∈ B, r i = true ∧ r j = true))
    (ε : ENNReal) (hε : 0 < ε) :
    ∃ n0, ∀ n (hn : 2 ≤ n), n0 ≤ n → ∀ (Ω : Type) [MeasurableSpace Ω] (μ : Measure Ω) [IsProbabilityMeasure μ] (s : Ω → Fin n → Fin M → ℝ),
      IIDRows μ s ν → ∀ (o : Ω → Sched M) (st : NState M), st.udg = none →
      μ {ω | ¬ FindsStructure lib tc (o ω) (st.withData hn (s ω)) B} ≤
        (univ.filter fun q : Fin M × Fin M => q.1 < q.2 ∧ ¬ ∃ r ∈ B, r q.1 = true ∧ r q.2 = true).card * ENNReal.ofReal tc.alpha + ε := by
  obtain ⟨δ, ε', hδ, hε', hsum⟩ := split_tolerance _ tc.alpha h0 ε hε
  obtain ⟨n0, h⟩ := xicor_structure lib _ hlib (tendsto_cdf_atTop _) tc ht h0 _ (falseEdges_level tc.alpha h0 h1 δ hδ) hM B hB ν hat hdep ε' hε'
  exact ⟨n0, fun n hn hn0 Ω _ μ _ s hs o st hU => (h n hn hn0 Ω μ s hs o st hU).trans (hsum _ le_rfl)⟩

open Classical in
/-- **C176** The same from the API: an object with fitted or assigned parameters on its structure makes the samples with an ideal generator, and the
samples are the dataset of another object. -/
theorem C176_roundtrip (lib : ∀ N, TestLib ℝ N) (hlib : UsesXicor lib (cdf (gaussianReal 0 1))) (tc : TestChoice) (ht : tc.method = "xicor")
    (h0 : 0 < tc.alpha) (h1 : tc.alpha < 1) (src : GState M) (p : GParams M) (hp : src.params = some p) (means : Fin M → ℝ)
    (hm : src.means = some means) (hl : p.weightsOn = src.biadj) (hW : OnStructure p.weightsOn p.weights) (hne : src.biadj.length * M ≠ 0)
    (hB : OnePureChild src.biadj) (hvar : ∀ i, 0 < (∑ r, p.weights r i ^ 2) + p.variances i)
    (hcov : ∀ i j, i ≠ j → (∃ r ∈ src.biadj, r i = true ∧ r j = true) → ∑ r, p.weights r i * p.weights r j ≠ 0) (ε : ENNReal) (hε : 0 < ε) :
    ∃ n0, ∀ n (hn : 2 ≤ n), n0 ≤ n → ∀ (G : Type) [MeasurableSpace G] (μ : Measure G) (gen : MvnGen G),
      IdealDraws gen μ src.biadj.length n means p.variances → ∀ (o : G → Sched M) (st : NState M), st.udg = none →
      μ {g | ¬ ∃ s, (src.sample gen n g).1 = .ok s ∧ FindsStructure lib tc (o g) (st.withData hn s) src.biadj} ≤
        (univ.filter fun q : Fin M × Fin M => q.1 < q.2 ∧ ¬ ∃ r ∈ src.biadj, r q.1 = true ∧ r q.2 = true).card * ENNReal.ofReal tc.alpha + ε := by
  obtain ⟨δ, ε', hδ, hε', hsum⟩ := split_tolerance _ tc.alpha h0 ε hε
  obtain ⟨n0, h⟩ := xicor_roundtrip lib _ hlib (tendsto_cdf_atTop _) tc ht h0 _ (falseEdges_level tc.alpha h0 h1 δ hδ) src p hp means hm hl hW hne hB hvar hcov ε' hε'
  exact ⟨n0, fun n hn hn0 G _ μ gen hgen o st hU => (h n hn hn0 G μ gen hgen o st hU).trans (hsum _ le_rfl)⟩

/-! ### concrete cases -/

/-- the first two columns of `copyLaw` are independent and normal: they are joined at level 5/100 with a probability close to 5/100 -/
example : ∃ n0, ∀ n, n0 ≤ n → ∀ (srt : ArgSort ℝ) (lib : TestLib ℝ n), lib.xicorTest = xicorTest srt (cdf (gaussianReal 0 1)) →
    |(Measure.pi fun _ : Fin n => copyLaw).real {ω | ∃ u p, estimateUDG lib ω (.name "xicor") 0.05 = .ok (u, p) ∧ u 0 1 = true} - 0.05| ≤ 1 / 1000 := by
  obtain ⟨n0, h⟩ := C176_level 0.05 (by norm_num) (by norm_num) (1 / 1000) (by norm_num)
  exact ⟨n0, fun n hn srt lib hl => h n hn 3 copyLaw 0 1 (by decide) copyLaw_indep.1 (copyLaw_atomless 1) _ _ _ (iidRows_exists copyLaw n) srt lib hl⟩

/-- a library and a level that meet the hypotheses; the model `twoPairs` (Props/NcfaPower.lean) meets the others -/
example : UsesXicor (fun N => (⟨id, xicorTest (exSort ℝ) (cdf (gaussianReal 0 1)), xicorTest (exSort ℝ) (cdf (gaussianReal 0 1))⟩ : TestLib ℝ N))
      (cdf (gaussianReal 0 1)) ∧ ∃ tc : TestChoice, tc.method = "xicor" ∧ 0 < tc.alpha ∧ tc.alpha < 1 :=
  ⟨fun _ => ⟨exSort ℝ, rfl⟩, ⟨"xicor", 0.05⟩, rfl, by norm_num, by norm_num⟩

end Medil

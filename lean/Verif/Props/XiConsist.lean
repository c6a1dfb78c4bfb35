import Verif.Props.XiPower
import Verif.Props.NcfaPower
import Verif.Proofs.RankDep
import Mathlib.Analysis.Complex.ExponentialBounds
import Mathlib.Analysis.Real.Pi.Bounds
/-
  C174: `xicor` finds every dependence in large samples.
-/
namespace Medil
open MeasureTheory ProbabilityTheory Finset Filter Topology
variable {n M : Nat}

/-- the sum of the differences of successive values, by successive indices -/
theorem absDiffSum_succ {m : ℕ} (f : Fin (m + 1) → ℝ) : absDiffSum f = ∑ k : Fin m, |f k.succ - f k.castSucc| := by
  unfold absDiffSum
  rw [Nat.add_sub_cancel, Finset.sum_range]
  refine sum_congr rfl fun k _ => ?_
  rw [dif_pos (Nat.succ_lt_succ k.isLt)]
  rfl

/-- the statistic is at least the excess of the distances of the ranks of all pairs over those of neighbours -/
theorem xiVal_excess (srt : ArgSort ℝ) (x y : Fin n → ℝ) (hn : 2 ≤ n) (c : ℝ) (hc : 0 ≤ c)
    (h : absDiffSum (fun k => (rankD y (srt.sort (rankAvg x) k) : ℝ)) + c * (n : ℝ) ^ 2 ≤
      (1 / n) * ∑ a, ∑ b, |(rankD y a : ℝ) - rankD y b|) : c ≤ xiVal srt x y := by
  have hn2 : (2 : ℝ) ≤ n := by exact_mod_cast hn
  have hn0 : (0 : ℝ) < n := by linarith
  have hv := xiVal_perm srt x y 1 (by omega)
  simp only [Equiv.Perm.coe_one, id_eq] at hv
  obtain ⟨A, hA⟩ : ∃ A, A = absDiffSum fun k => (rankD y (srt.sort (rankAvg x) k) : ℝ) := ⟨_, rfl⟩
  obtain ⟨S, hS⟩ : ∃ S, S = ∑ i, (rankD y i : ℝ) ^ 2 := ⟨_, rfl⟩
  rw [← hA] at hv h
  have hS0 : 0 ≤ S := by rw [hS]; exact sum_nonneg fun i _ => sq_nonneg _
  have hA0 : 0 ≤ A := by
    rw [hA]
    unfold absDiffSum
    refine sum_nonneg fun t _ => ?_
    split <;> positivity
  have hpairs : ∑ a, ∑ b, |(rankD y a : ℝ) - rankD y b| = 2 * S := by
    have := congrArg (Int.cast (R := ℝ)) (sum_abs_sub_rankD y)
    push_cast at this
    rw [this, hS]
  rw [hpairs] at h
  obtain ⟨Q, hQ⟩ : ∃ Q, Q = 4 * (n : ℝ) ^ 2 * xiCu y := ⟨_, rfl⟩
  have hQv : Q * n = n * ((n : ℝ) ^ 2 - 1) - S := by
    rw [hQ, xiCu_rankD y (by omega), ← hS]
    field_simp
  have hQge : 2 * ((n : ℝ) ^ 2 - 1) / 3 ≤ Q := by
    have := xiCu_ge y hn
    rw [div_le_iff₀ (by positivity)] at this
    rw [hQ]
    linarith
  have hQp : 0 < Q := lt_of_lt_of_le (by nlinarith) hQge
  have hQn : Q ≤ (n : ℝ) ^ 2 := by
    have : Q * n ≤ (n : ℝ) ^ 2 * n := by rw [hQv]; nlinarith
    exact le_of_mul_le_mul_right this hn0
  have hBQ : 1 / n * (2 * S) ≤ Q := by
    rw [one_div_mul_eq_div, div_le_iff₀ hn0]
    have h1 := mul_le_mul_of_nonneg_right hQge hn0.le
    nlinarith
  have hv' : xiVal srt x y = 1 - 1 / Q * A := by rw [hQ]; exact hv
  rw [hv', one_div_mul_eq_div, le_sub_iff_add_le, ← le_sub_iff_add_le', div_le_iff₀ hQp]
  have : c * Q ≤ c * (n : ℝ) ^ 2 := mul_le_mul_of_nonneg_left hQn hc
  linarith

/-- the order chosen by the sort is a measurable function of the data -/
theorem sort_measurable (srt : ArgSort ℝ) (τ : Equiv.Perm (Fin n)) : MeasurableSet {x : Fin n → ℝ | srt.sort (rankAvg x) = τ} := by
  have h : MeasurableSet {z : (Fin n → ℝ) × (Fin n → ℝ) | srt.sort (rankAvg z.1) = τ} := by
    refine order_measurable _ fun z z' h1 _ hz => ?_
    rw [Set.mem_ofPred_eq] at hz ⊢
    have hr : rankAvg z'.1 = rankAvg z.1 := by
      funext i
      have h2 : ∀ j, z.1 j = z.1 i ↔ z'.1 j = z'.1 i := fun j => by
        rw [eq_iff_le_not_lt, eq_iff_le_not_lt, ← not_lt, ← not_lt, h1, h1]
      unfold rankAvg
      simp only [h1, h2]
    rw [hr]
    exact hz
  exact (by fun_prop : Measurable fun x : Fin n → ℝ => (x, x)) h

theorem sort_monotone (srt : ArgSort ℝ) (x : Fin n → ℝ) : Monotone fun t => x (srt.sort (rankAvg x) t) := by
  intro a b hab
  have := srt.sorted (rankAvg x) hab
  by_contra hcon
  exact absurd (rankAvg_lt (not_le.mp hcon)) (not_lt.mpr this)

/-- the law of two columns of independent rows -/
theorem IIDRows.pairs {Ω : Type} [MeasurableSpace Ω] {μ : Measure Ω} [IsProbabilityMeasure μ] {s : Ω → Fin n → Fin M → ℝ}
    {ν : Measure (Fin M → ℝ)} [IsProbabilityMeasure ν] (h : IIDRows μ s ν) (i j : Fin M) :
    AEMeasurable (fun ω k => (s ω k i, s ω k j)) μ ∧
    μ.map (fun ω k => (s ω k i, s ω k j)) = Measure.pi fun _ : Fin n => ν.map fun x => (x i, x j) := by
  have hm : Measurable fun x : Fin M → ℝ => (x i, x j) := (measurable_pi_apply i).prodMk (measurable_pi_apply j)
  have hrow : ∀ k, μ.map (fun ω => (s ω k i, s ω k j)) = ν.map fun x => (x i, x j) := by
    intro k
    rw [← h.law k, AEMeasurable.map_map_of_aemeasurable hm.aemeasurable (h.meas k)]
    rfl
  have hind : iIndepFun (fun k ω => (s ω k i, s ω k j)) μ := h.rows.comp (fun _ x => (x i, x j)) fun _ => hm
  have hmk : ∀ k, AEMeasurable (fun ω => (s ω k i, s ω k j)) μ := fun k => hm.comp_aemeasurable (h.meas k)
  have hpi := (iIndepFun_iff_map_fun_eq_pi_map hmk).mp hind
  simp only [hrow] at hpi
  exact ⟨aemeasurable_pi_lambda _ hmk, hpi⟩

/-- the statistic of two dependent columns -/
theorem xi_dependent (ν : Measure (ℝ × ℝ)) [IsProbabilityMeasure ν] (h : ¬ IndepFun (fun w : ℝ × ℝ => w.1) (fun w => w.2) ν) :
    ∃ c, 0 < c ∧ ∀ ε, 0 < ε → ∃ n0, ∀ n, n0 ≤ n → ∀ srt : ArgSort ℝ,
      ∃ G : Set (Fin n → ℝ × ℝ), NullMeasurableSet G (Measure.pi fun _ => ν) ∧ (Measure.pi fun _ : Fin n => ν) G ≤ ENNReal.ofReal ε ∧
        ∀ z, z ∉ G → c ≤ xiVal srt (fun k => (z k).1) fun k => (z k).2 := by
  obtain ⟨s, c, hc, L0, hL0⟩ := covLevel_average ν h
  refine ⟨c, hc, fun ε hε => ?_⟩
  obtain ⟨L1, hL1⟩ := exists_nat_ge (2 / c)
  obtain ⟨L, hLd⟩ : ∃ L, L = max (max L0 L1) 1 := ⟨_, rfl⟩
  have hLp : 0 < L := by rw [hLd]; exact lt_of_lt_of_le one_pos (le_max_right _ _)
  have hLp' : (0 : ℝ) < L := by exact_mod_cast hLp
  have hav := hL0 L (by rw [hLd]; exact (le_max_left _ _).trans (le_max_left _ _)) hLp
  have hLc : 1 / (L : ℝ) ≤ c / 2 := by
    have h1 : 2 / c ≤ L := hL1.trans (by rw [hLd]; exact_mod_cast (le_max_right _ _).trans (le_max_left _ _))
    rw [div_le_iff₀ hc] at h1
    rw [div_le_iff₀ hLp']
    linarith
  obtain ⟨n0, hn0⟩ := rank_excess ν s L hLp (show 0 < c * ε by positivity)
  refine ⟨max n0 2, fun n hn srt => ?_⟩
  obtain ⟨m, rfl⟩ : ∃ m, n = m + 1 := ⟨n - 1, by have := (le_max_right _ _).trans hn; omega⟩
  have hn2 : 2 ≤ m + 1 := (le_max_right _ _).trans hn
  obtain ⟨Err, hI, hpos, hE, hz⟩ := hn0 m ((le_max_left _ _).trans hn) (fun x => srt.sort (rankAvg x)) (sort_measurable srt) (sort_monotone srt)
  have hN0 : (0 : ℝ) < ((m + 1 : ℕ) : ℝ) := by positivity
  refine ⟨{z | c * ((m + 1 : ℕ) : ℝ) ^ 2 ≤ Err z}, ?_, ?_, fun z hzG => ?_⟩
  · exact nullMeasurableSet_le aemeasurable_const hI.aemeasurable
  · have h1 := mul_meas_ge_le_integral_of_nonneg (Eventually.of_forall hpos) hI (c * ((m + 1 : ℕ) : ℝ) ^ 2)
    have h2 : (Measure.pi fun _ : Fin (m + 1) => ν).real {z | c * ((m + 1 : ℕ) : ℝ) ^ 2 ≤ Err z} ≤ ε := by
      have h3 := h1.trans hE
      have hp : 0 < c * ((m + 1 : ℕ) : ℝ) ^ 2 := by positivity
      refine le_of_mul_le_mul_left ?_ hp
      calc _ ≤ c * ε * ((m + 1 : ℕ) : ℝ) ^ 2 := h3
        _ = _ := by ring
    rw [← ENNReal.ofReal_toReal (measure_ne_top (Measure.pi fun _ : Fin (m + 1) => ν) {z | c * ((m + 1 : ℕ) : ℝ) ^ 2 ≤ Err z})]
    exact ENNReal.ofReal_le_ofReal h2
  · have h1 := hz z
    rw [Set.mem_ofPred_eq, not_le] at hzG
    refine xiVal_excess srt _ _ hn2 c hc.le ?_
    rw [absDiffSum_succ]
    have h2 : c / 2 ≤ (1 / L) * (∑ l ∈ range L, covLevel ν s (((l : ℝ) + 1) / L) ^ 2) - 1 / L := by linarith
    have h3 := mul_le_mul_of_nonneg_left h2 (show 0 ≤ 4 * ((m + 1 : ℕ) : ℝ) ^ 2 by positivity)
    linarith

/-- independence of two columns, by their joint law -/
theorem indepFun_pair (ν : Measure (Fin M → ℝ)) [IsProbabilityMeasure ν] (i j : Fin M) :
    IndepFun (fun w : ℝ × ℝ => w.1) (fun w => w.2) (ν.map fun x => (x i, x j)) ↔ IndepFun (fun x : Fin M → ℝ => x i) (fun x => x j) ν := by
  have mi := measurable_pi_apply (X := fun _ : Fin M => ℝ) i
  have mj := measurable_pi_apply (X := fun _ : Fin M => ℝ) j
  have hp : IsProbabilityMeasure (ν.map fun x => (x i, x j)) := Measure.isProbabilityMeasure_map (mi.prodMk mj).aemeasurable
  have e0 : (ν.map fun x => (x i, x j)).map (fun w : ℝ × ℝ => (w.1, w.2)) = ν.map fun x => (x i, x j) := Measure.map_id
  have e1 : (ν.map fun x => (x i, x j)).map (fun w : ℝ × ℝ => w.1) = ν.map fun x => x i :=
    Measure.map_map (g := fun w : ℝ × ℝ => w.1) measurable_fst (mi.prodMk mj)
  have e2 : (ν.map fun x => (x i, x j)).map (fun w : ℝ × ℝ => w.2) = ν.map fun x => x j :=
    Measure.map_map (g := fun w : ℝ × ℝ => w.2) measurable_snd (mi.prodMk mj)
  rw [indepFun_iff_map_prod_eq_prod_map_map (f := fun w : ℝ × ℝ => w.1) (g := fun w : ℝ × ℝ => w.2) measurable_fst.aemeasurable
    measurable_snd.aemeasurable, indepFun_iff_map_prod_eq_prod_map_map mi.aemeasurable mj.aemeasurable, e0, e1, e2]

/-- the statistic of two dependent columns of a sample -/
theorem xi_dependent_columns (ν : Measure (Fin M → ℝ)) [IsProbabilityMeasure ν] (i j : Fin M)
    (hdep : ¬ IndepFun (fun x : Fin M → ℝ => x i) (fun x => x j) ν) :
    ∃ c, 0 < c ∧ ∀ ε, 0 < ε → ∃ n0, ∀ n, n0 ≤ n → ∀ (Ω : Type) [MeasurableSpace Ω] (μ : Measure Ω) [IsProbabilityMeasure μ]
      (s : Ω → Fin n → Fin M → ℝ), IIDRows μ s ν → ∀ srt : ArgSort ℝ,
      μ {ω | ¬ c ≤ xiVal srt (fun k => s ω k i) fun k => s ω k j} ≤ ENNReal.ofReal ε := by
  have hp : IsProbabilityMeasure (ν.map fun x : Fin M → ℝ => (x i, x j)) :=
    Measure.isProbabilityMeasure_map ((measurable_pi_apply i).prodMk (measurable_pi_apply j)).aemeasurable
  have hd' : ¬ IndepFun (fun w : ℝ × ℝ => w.1) (fun w => w.2) (ν.map fun x : Fin M → ℝ => (x i, x j)) := by
    rw [indepFun_pair ν i j]; exact hdep
  obtain ⟨c, hc, hall⟩ := xi_dependent _ hd'
  refine ⟨c, hc, fun ε hε => ?_⟩
  obtain ⟨n0, hn0⟩ := hall ε hε
  refine ⟨n0, fun n hn Ω _ μ _ s hs srt => ?_⟩
  obtain ⟨G, hGm, hG, hz⟩ := hn0 n hn srt
  obtain ⟨hme, hlaw⟩ := hs.pairs i j
  rw [← hlaw] at hG hGm
  rw [Measure.map_apply₀ hme hGm] at hG
  refine (measure_mono fun ω hω => ?_).trans hG
  by_contra hcon
  have h1 := hz _ hcon
  exact hω h1

/-- **C174** The statistic of two dependent columns stays away from 0: there is a `c > 0` that depends only on the law such that, from some number of
rows on, `xicorr` of the two columns returns a value of at least `c`, with probability as close to 1 as wanted. -/
theorem C174_xi_dependent (ν : Measure (Fin M → ℝ)) [IsProbabilityMeasure ν] (i j : Fin M)
    (hdep : ¬ IndepFun (fun x : Fin M → ℝ => x i) (fun x => x j) ν) :
    ∃ c, 0 < c ∧ ∀ ε, 0 < ε → ∃ n0, ∀ n, n0 ≤ n → ∀ (Ω : Type) [MeasurableSpace Ω] (μ : Measure Ω) [IsProbabilityMeasure μ]
      (s : Ω → Fin n → Fin M → ℝ), IIDRows μ s ν → ∀ (srt : ArgSort ℝ) (Φ : ℝ → ℝ), (∀ t, 0 ≤ Φ t ∧ Φ t ≤ 1) → ∀ ties : Bool,
      μ {ω | ¬ ∃ xi p, xicorrIs srt Φ (fun k => s ω k i) (fun k => s ω k j) ties xi p ∧ c ≤ xi} ≤ ENNReal.ofReal ε := by
  obtain ⟨c, hc, hall⟩ := xi_dependent_columns ν i j hdep
  refine ⟨c, hc, fun ε hε => ?_⟩
  obtain ⟨n0, hn0⟩ := hall ε hε
  refine ⟨max n0 2, fun n hn Ω _ μ _ s hs srt Φ hΦ ties => ?_⟩
  have hn2 : 2 ≤ n := (le_max_right _ _).trans hn
  refine le_trans (measure_mono ?_) (hn0 n ((le_max_left _ _).trans hn) Ω μ s hs srt)
  intro ω hω h1
  rw [Set.mem_ofPred_eq] at hω
  refine hω ?_
  obtain ⟨xi, p, h, -⟩ := C110_xicorr_pvalue srt Φ hΦ (fun k => s ω k i) (fun k => s ω k j) hn2 ties
  refine ⟨xi, p, h, ?_⟩
  unfold xicorrIs at h
  rw [xicorr_ok srt Φ _ _ (by omega), xiStat_val srt _ _ hn2] at h
  injection h with h
  have := (Prod.ext_iff.mp h).1
  dsimp only at this
  injection this with this
  rw [← this]
  exact h1

/-- one pair of columns -/
theorem xicor_power_pair (Φ : ℝ → ℝ) (hΦ : Tendsto Φ atTop (𝓝 1)) (level : ℝ) (hl : 0 < level) (ν : Measure (Fin M → ℝ)) [IsProbabilityMeasure ν]
    (i j : Fin M) (hdep : ¬ IndepFun (fun x : Fin M → ℝ => x i) (fun x => x j) ν) (ε : ENNReal) (hε : 0 < ε) :
    ∃ n0, ∀ n, n0 ≤ n → ∀ (Ω : Type) [MeasurableSpace Ω] (μ : Measure Ω) [IsProbabilityMeasure μ] (s : Ω → Fin n → Fin M → ℝ),
      IIDRows μ s ν → ∀ srt : ArgSort ℝ, μ {ω | ¬ (xicorTest srt Φ (fun k => s ω k i) fun k => s ω k j).lt level = true} ≤ ε := by
  obtain ⟨c, hc, hall⟩ := xi_dependent_columns ν i j hdep
  obtain ⟨ε', hε', hle⟩ : ∃ ε' : ℝ, 0 < ε' ∧ ENNReal.ofReal ε' ≤ ε := by
    rcases eq_or_ne ε ⊤ with h | h
    · exact ⟨1, one_pos, by rw [h]; exact le_top⟩
    · exact ⟨ε.toReal, ENNReal.toReal_pos hε.ne' h, by rw [ENNReal.ofReal_toReal h]⟩
  obtain ⟨n0, hn0⟩ := hall ε' hε'
  obtain ⟨n1, hn1⟩ := xi_large Φ hΦ level c hl hc
  refine ⟨max n0 n1, fun n hn Ω _ μ _ s hs srt => ?_⟩
  have h0 := hn0 n ((le_max_left _ _).trans hn) Ω μ s hs srt
  refine le_trans (measure_mono ?_) (h0.trans hle)
  intro ω hω hcon
  have h1 := hn1 n ((le_max_right _ _).trans hn) srt (fun k => s ω k i) (fun k => s ω k j) hcon
  exact hω h1

/-- the edges of `"xicor"`, all at once -/
theorem xicor_edges (srt : ArgSort ℝ) (Φ : ℝ → ℝ) (lib : TestLib ℝ n) (hlib : lib.xicorTest = xicorTest srt Φ) (s : Fin n → Fin M → ℝ) (level : ℝ) :
    ∃ u p, estimateUDG lib s (.name "xicor") level = .ok (u, p) ∧ (∀ i, u i i = false) ∧
      ∀ i j, i < j → (u i j = true ↔ (xicorTest srt Φ (fun k => s k i) fun k => s k j).lt level = true) ∧ u j i = u i j := by
  have e : estimateUDG lib s (.name "xicor") level = .ok (clearDiag fun i j => (pairPvals lib.xicorTest s i j).lt level, some (pairPvals lib.xicorTest s)) := by
    unfold estimateUDG
    simp
  refine ⟨_, _, e, fun i => by unfold clearDiag; simp, fun i j hij => ?_⟩
  obtain ⟨u, p, h, hu, hs⟩ := xicor_edge srt Φ lib hlib s level i j hij
  rw [e] at h
  injection h with h
  have := (Prod.ext_iff.mp h).1
  dsimp only at this
  rw [this, ← hu]
  exact ⟨Iff.rfl, hs⟩

/-- a tolerance for each pair of columns -/
theorem share_tolerance (M : ℕ) (ε : ENNReal) (hε : 0 < ε) : ∃ ε' : ENNReal, 0 < ε' ∧ (M * M : ℕ) * ε' ≤ ε := by
  refine ⟨ε / ((M * M : ℕ) + 1), ENNReal.div_pos hε.ne' (by finiteness), ?_⟩
  rw [← mul_div_assoc]
  refine ENNReal.div_le_of_le_mul ?_
  rw [mul_comm]
  gcongr
  exact le_self_add

/-- the probability that one of the dependent pairs is missed -/
theorem xicor_power_all (Φ : ℝ → ℝ) (hΦ : Tendsto Φ atTop (𝓝 1)) (level : ℝ) (hl : 0 < level) (ν : Measure (Fin M → ℝ)) [IsProbabilityMeasure ν]
    (ε : ENNReal) (hε : 0 < ε) :
    ∃ n0, ∀ n, n0 ≤ n → ∀ (Ω : Type) [MeasurableSpace Ω] (μ : Measure Ω) [IsProbabilityMeasure μ] (s : Ω → Fin n → Fin M → ℝ),
      IIDRows μ s ν → ∀ srt : ArgSort ℝ, μ {ω | ∃ i j : Fin M, i < j ∧ ¬ IndepFun (fun x : Fin M → ℝ => x i) (fun x => x j) ν ∧
        ¬ (xicorTest srt Φ (fun k => s ω k i) fun k => s ω k j).lt level = true} ≤ ε := by
  obtain ⟨ε', hε', hsum⟩ := share_tolerance M ε hε
  have key : ∀ i j : Fin M, ∃ n0, ∀ n, n0 ≤ n → ∀ (Ω : Type) [MeasurableSpace Ω] (μ : Measure Ω) [IsProbabilityMeasure μ]
      (s : Ω → Fin n → Fin M → ℝ), IIDRows μ s ν → ∀ srt : ArgSort ℝ,
      μ {ω | i < j ∧ ¬ IndepFun (fun x : Fin M → ℝ => x i) (fun x => x j) ν ∧
        ¬ (xicorTest srt Φ (fun k => s ω k i) fun k => s ω k j).lt level = true} ≤ ε' := by
    intro i j
    by_cases hd : IndepFun (fun x : Fin M → ℝ => x i) (fun x => x j) ν
    · exact ⟨0, fun n _ Ω _ μ _ s _ srt => by simp [hd]⟩
    · obtain ⟨n0, h0⟩ := xicor_power_pair Φ hΦ level hl ν i j hd ε' hε'
      exact ⟨n0, fun n hn Ω _ μ _ s hs srt => (measure_mono fun ω hω => hω.2.2).trans (h0 n hn Ω μ s hs srt)⟩
  choose R hR using key
  refine ⟨univ.sup fun i => univ.sup fun j => R i j, fun n hn Ω _ μ _ s hs srt => ?_⟩
  have hRn : ∀ i j, R i j ≤ n := fun i j =>
    le_trans (le_trans (le_sup (f := fun j => R i j) (mem_univ j)) (le_sup (f := fun i => univ.sup fun j => R i j) (mem_univ i))) hn
  refine (measure_mono (t := ⋃ i, ⋃ j, {ω | i < j ∧ ¬ IndepFun (fun x : Fin M → ℝ => x i) (fun x => x j) ν ∧
        ¬ (xicorTest srt Φ (fun k => s ω k i) fun k => s ω k j).lt level = true}) ?_).trans (le_trans ?_ hsum)
  · rintro ω ⟨i, j, h⟩
    exact Set.mem_iUnion.mpr ⟨i, Set.mem_iUnion.mpr ⟨j, h⟩⟩
  refine (measure_iUnion_fintype_le _ _).trans ((sum_le_sum fun i _ => (measure_iUnion_fintype_le _ _).trans
    (sum_le_sum fun j _ => hR i j n (hRn i j) Ω μ s hs srt)).trans ?_)
  simp only [sum_const, card_univ, Fintype.card_fin, nsmul_eq_mul]
  push_cast
  rw [mul_assoc]

/-- **C174** `estimate_UDG(sample, "xicor")` finds every dependence: for independent rows with any common law, at any positive level, from some number of
rows on, with probability as close to 1 as wanted, every two columns that are not independent are joined. -/
theorem C174_xicor_power (Φ : ℝ → ℝ) (hΦ : Tendsto Φ atTop (𝓝 1)) (level : ℝ) (hl : 0 < level) (ν : Measure (Fin M → ℝ)) [IsProbabilityMeasure ν]
    (ε : ENNReal) (hε : 0 < ε) :
    ∃ n0, ∀ n, n0 ≤ n → ∀ (Ω : Type) [MeasurableSpace Ω] (μ : Measure Ω) [IsProbabilityMeasure μ] (s : Ω → Fin n → Fin M → ℝ),
      IIDRows μ s ν → ∀ (srt : ArgSort ℝ) (lib : TestLib ℝ n), lib.xicorTest = xicorTest srt Φ →
      μ {ω | ¬ ∃ u p, estimateUDG lib (s ω) (.name "xicor") level = .ok (u, p) ∧
        ∀ i j, i ≠ j → ¬ IndepFun (fun x : Fin M → ℝ => x i) (fun x => x j) ν → u i j = true} ≤ ε := by
  obtain ⟨n0, h0⟩ := xicor_power_all Φ hΦ level hl ν ε hε
  refine ⟨n0, fun n hn Ω _ μ _ s hs srt lib hlib => (measure_mono fun ω hω => ?_).trans (h0 n hn Ω μ s hs srt)⟩
  by_contra hcon
  rw [Set.mem_ofPred_eq] at hcon hω
  push Not at hcon
  obtain ⟨u, p, h, -, hu⟩ := xicor_edges srt Φ lib hlib (s ω) level
  refine hω ⟨u, p, h, fun i j hij hd => ?_⟩
  rcases lt_or_gt_of_ne hij with hlt | hlt
  · exact (hu i j hlt).1.mpr (hcon i j hlt hd)
  · rw [(hu j i hlt).2]
    exact (hu j i hlt).1.mpr (hcon j i hlt fun h => hd h.symm)

/-- from some number of rows on, at most the probability `a` for an edge between two independent columns with continuous distribution functions -/
def FalseEdges (M : ℕ) (Φ : ℝ → ℝ) (level : ℝ) (a : ENNReal) : Prop :=
  ∀ (ν : Measure (Fin M → ℝ)) [IsProbabilityMeasure ν], (∀ j c, ν {x | x j = c} = 0) →
    ∃ n1, ∀ n, n1 ≤ n → ∀ (Ω : Type) [MeasurableSpace Ω] (μ : Measure Ω) [IsProbabilityMeasure μ] (s : Ω → Fin n → Fin M → ℝ),
      IIDRows μ s ν → ∀ (srt : ArgSort ℝ) (lib : TestLib ℝ n), lib.xicorTest = xicorTest srt Φ → ∀ i j : Fin M, i < j →
      IndepFun (fun x : Fin M → ℝ => x i) (fun x => x j) ν →
      μ {ω | ∃ u p, estimateUDG lib (s ω) (.name "xicor") level = .ok (u, p) ∧ u i j = true} ≤ a

theorem falseEdges_cantelli (Φ : ℝ → ℝ) (hΦm : Monotone Φ) (level z : ℝ) (hz : 0 < z) (hzl : Φ z ≤ 1 - level) :
    FalseEdges M Φ level (ENNReal.ofReal (1 / (1 + z ^ 2))) := fun ν _ hat =>
  ⟨4, fun n hn4 Ω _ μ _ s hs srt lib hlib i j hij hind => C171_level_partial hn4 Φ hΦm level z hz hzl ν i j hij hind (hat j) μ s hs srt lib hlib⟩

open Classical in
/-- the whole graph, given a bound for the edges between independent columns -/
theorem xicor_graph (Φ : ℝ → ℝ) (hΦ : Tendsto Φ atTop (𝓝 1)) (level : ℝ) (hl : 0 < level) (a : ENNReal) (hfe : FalseEdges M Φ level a)
    (ν : Measure (Fin M → ℝ)) [IsProbabilityMeasure ν] (hat : ∀ j c, ν {x | x j = c} = 0) (ε : ENNReal) (hε : 0 < ε) :
    ∃ n0, ∀ n, n0 ≤ n → ∀ (Ω : Type) [MeasurableSpace Ω] (μ : Measure Ω) [IsProbabilityMeasure μ] (s : Ω → Fin n → Fin M → ℝ),
      IIDRows μ s ν → ∀ (srt : ArgSort ℝ) (lib : TestLib ℝ n), lib.xicorTest = xicorTest srt Φ →
      μ {ω | ¬ ∃ u p, estimateUDG lib (s ω) (.name "xicor") level = .ok (u, p) ∧
        ∀ i j, u i j = true ↔ i ≠ j ∧ ¬ IndepFun (fun x : Fin M → ℝ => x i) (fun x => x j) ν} ≤
      (univ.filter fun q : Fin M × Fin M => q.1 < q.2 ∧ IndepFun (fun x : Fin M → ℝ => x q.1) (fun x => x q.2) ν).card * a + ε := by
  obtain ⟨n1, h1⟩ := xicor_power_all Φ hΦ level hl ν ε hε
  obtain ⟨n2, h2⟩ := hfe ν hat
  refine ⟨max n1 n2, fun n hn Ω _ μ _ s hs srt lib hlib => ?_⟩
  have h1 := h1 n ((le_max_left _ _).trans hn) Ω μ s hs srt
  refine (measure_mono (t := (⋃ q ∈ univ.filter fun q : Fin M × Fin M => q.1 < q.2 ∧
      IndepFun (fun x : Fin M → ℝ => x q.1) (fun x => x q.2) ν,
      {ω | ∃ u p, estimateUDG lib (s ω) (.name "xicor") level = .ok (u, p) ∧ u q.1 q.2 = true}) ∪ _) ?_).trans
    ((measure_union_le _ _).trans (add_le_add ((measure_biUnion_finset_le _ _).trans ?_) h1))
  · intro ω hω
    by_contra hcon
    simp only [Set.mem_union, Set.mem_iUnion, mem_filter, mem_univ, true_and, not_or, Set.mem_ofPred_eq] at hcon
    obtain ⟨hno, hpow⟩ := hcon
    push Not at hpow
    obtain ⟨u, p, h, hd, hu⟩ := xicor_edges srt Φ lib hlib (s ω) level
    refine hω ⟨u, p, h, fun i j => ⟨fun hij => ?_, fun hij => ?_⟩⟩
    · have hne : i ≠ j := fun e => by rw [e, hd] at hij; exact absurd hij (by simp)
      refine ⟨hne, fun hind => hno ?_⟩
      rcases lt_or_gt_of_ne hne with hlt | hlt
      · exact ⟨(i, j), ⟨hlt, hind⟩, u, p, h, hij⟩
      · exact ⟨(j, i), ⟨hlt, hind.symm⟩, u, p, h, by rw [← (hu j i hlt).2]; exact hij⟩
    · rcases lt_or_gt_of_ne hij.1 with hlt | hlt
      · exact (hu i j hlt).1.mpr (hpow i j hlt hij.2)
      · rw [(hu j i hlt).2]
        exact (hu j i hlt).1.mpr (hpow j i hlt fun h => hij.2 h.symm)
  · refine (sum_le_sum fun q hq => h2 n ((le_max_right _ _).trans hn) Ω μ s hs srt lib hlib q.1 q.2 (mem_filter.mp hq).2.1 (mem_filter.mp hq).2.2).trans ?_
    simp

open Classical in
/-- **C174** The whole graph, for columns with continuous distribution functions: from some number of rows on, the probability that the edges are not
exactly the pairs of dependent columns is at most `1 / (1 + z²)` for every pair of independent columns (plus any `ε > 0`), where `z` is
the critical value of the normal law for the level. -/
theorem C174_graph (Φ : ℝ → ℝ) (hΦ : Tendsto Φ atTop (𝓝 1)) (hΦm : Monotone Φ) (level z : ℝ) (hl : 0 < level) (hz : 0 < z) (hzl : Φ z ≤ 1 - level)
    (ν : Measure (Fin M → ℝ)) [IsProbabilityMeasure ν] (hat : ∀ j c, ν {x | x j = c} = 0) (ε : ENNReal) (hε : 0 < ε) :
    ∃ n0, ∀ n, n0 ≤ n → ∀ (Ω : Type) [MeasurableSpace Ω] (μ : Measure Ω) [IsProbabilityMeasure μ] (s : Ω → Fin n → Fin M → ℝ),
      IIDRows μ s ν → ∀ (srt : ArgSort ℝ) (lib : TestLib ℝ n), lib.xicorTest = xicorTest srt Φ →
      μ {ω | ¬ ∃ u p, estimateUDG lib (s ω) (.name "xicor") level = .ok (u, p) ∧
        ∀ i j, u i j = true ↔ i ≠ j ∧ ¬ IndepFun (fun x : Fin M → ℝ => x i) (fun x => x j) ν} ≤
      (univ.filter fun q : Fin M × Fin M => q.1 < q.2 ∧ IndepFun (fun x : Fin M → ℝ => x q.1) (fun x => x q.2) ν).card *
        ENNReal.ofReal (1 / (1 + z ^ 2)) + ε :=
  xicor_graph Φ hΦ level hl _ (falseEdges_cantelli Φ hΦm level z hz hzl) ν hat ε hε

/-! ### concrete cases -/

/-- uncorrelated columns: a value and its square -/
example : ∃ n0, ∀ n, n0 ≤ n → ∀ (srt : ArgSort ℝ) (lib : TestLib ℝ n), lib.xicorTest = xicorTest srt (cdf (gaussianReal 0 1)) →
    (Measure.pi fun _ : Fin n => squaresLaw) {ω | ¬ ∃ u p, estimateUDG lib ω (.name "xicor") 0.05 = .ok (u, p) ∧ u 0 1 = true} ≤ 1 / 100 := by
  obtain ⟨n0, h0⟩ := C174_xicor_power (cdf (gaussianReal 0 1)) (tendsto_cdf_atTop _) 0.05 (by norm_num) squaresLaw (1 / 100) (by simp)
  refine ⟨n0, fun n hn srt lib hl => (measure_mono fun ω hω => ?_).trans (h0 n hn _ _ _ (iidRows_exists squaresLaw n) srt lib hl)⟩
  rintro ⟨u, p, h, hu⟩
  exact hω ⟨u, p, h, hu 0 1 (by decide) squaresLaw_dep⟩

/-- 3 is at most the critical value of the standard normal law at level 1/10000 -/
theorem normal_critical : cdf (gaussianReal 0 1) 3 ≤ 1 - 1 / 10000 := by
  have h1 : (1 : ℝ) / 10000 ≤ (gaussianReal 0 1).real (Set.Ioc 3 4) := by
    have hv : (1 : NNReal) ≠ 0 := one_ne_zero
    rw [measureReal_def, gaussianReal_apply_eq_integral 0 hv, ENNReal.toReal_ofReal (integral_nonneg fun x => gaussianPDFReal_nonneg 0 1 x)]
    have h2 : ∫ _ in Set.Ioc (3 : ℝ) 4, (1 : ℝ) / 10000 ≤ ∫ x in Set.Ioc (3 : ℝ) 4, gaussianPDFReal 0 1 x := by
      refine setIntegral_mono_on (integrableOn_const (by simp)) (integrable_gaussianPDFReal 0 1).integrableOn measurableSet_Ioc fun x hx => ?_
      unfold gaussianPDFReal
      have hx2 : x ^ 2 ≤ 16 := by nlinarith [hx.1, hx.2]
      have h3 : Real.exp (-8) ≤ Real.exp (-(x - 0) ^ 2 / (2 * ((1 : NNReal) : ℝ))) := by
        refine Real.exp_le_exp.mpr ?_
        push_cast
        rw [sub_zero, mul_one]
        linarith
      have h4 : Real.exp 8 ≤ 2982 := by
        have : Real.exp 8 = Real.exp 1 ^ 8 := by rw [← Real.exp_nat_mul]; norm_num
        rw [this]
        calc Real.exp 1 ^ 8 ≤ 2.7182818286 ^ 8 := by
              gcongr
              exact Real.exp_one_lt_d9.le
          _ ≤ 2982 := by norm_num
      have h5 : √(2 * Real.pi * ((1 : NNReal) : ℝ)) ≤ 2.6 := by
        refine Real.sqrt_le_iff.mpr ⟨by norm_num, ?_⟩
        push_cast
        have := Real.pi_lt_d2
        linarith
      have h6 : 0 < √(2 * Real.pi * ((1 : NNReal) : ℝ)) := Real.sqrt_pos.mpr (by push_cast; have := Real.pi_pos; positivity)
      calc (1 : ℝ) / 10000 ≤ (2.6)⁻¹ * (2982 : ℝ)⁻¹ := by norm_num
        _ ≤ (√(2 * Real.pi * ((1 : NNReal) : ℝ)))⁻¹ * Real.exp (-8) := by
            rw [Real.exp_neg]
            gcongr
        _ ≤ _ := by gcongr
    rw [setIntegral_const, measureReal_def, Real.volume_Ioc, show (4 : ℝ) - 3 = 1 by norm_num, ENNReal.ofReal_one, ENNReal.toReal_one, one_smul] at h2
    exact h2
  rw [cdf_eq_real]
  have h2 : (gaussianReal 0 1).real (Set.Iic 3) + (gaussianReal 0 1).real (Set.Ioc 3 4) ≤ 1 := by
    rw [← measureReal_union (s₁ := Set.Iic (3 : ℝ)) (Set.disjoint_left.mpr fun x h1 h2 => absurd h2.1 (not_lt.mpr h1)) measurableSet_Ioc]
    exact measureReal_le_one
  linarith

/-- two independent normal columns and a copy of the first one -/
noncomputable def copyLaw : Measure (Fin 3 → ℝ) := (Measure.pi fun _ : Fin 2 => gaussianReal 0 1).map fun w => ![w 0, w 1, w 0]

theorem copy_measurable : Measurable fun w : Fin 2 → ℝ => (![w 0, w 1, w 0] : Fin 3 → ℝ) :=
  measurable_pi_iff.mpr fun i => by fin_cases i <;> simp <;> fun_prop

instance : IsProbabilityMeasure copyLaw := Measure.isProbabilityMeasure_map copy_measurable.aemeasurable

theorem copyLaw_col (i : Fin 3) : copyLaw.map (fun x => x i) = gaussianReal 0 1 := by
  unfold copyLaw
  rw [Measure.map_map (measurable_pi_apply i) copy_measurable]
  have h0 := (measurePreserving_eval (fun _ : Fin 2 => gaussianReal 0 1) 0).map_eq
  have h1 := (measurePreserving_eval (fun _ : Fin 2 => gaussianReal 0 1) 1).map_eq
  fin_cases i
  · exact h0
  · exact h1
  · exact h0

theorem copyLaw_atomless (j : Fin 3) (c : ℝ) : copyLaw {x | x j = c} = 0 := by
  have h : copyLaw {x | x j = c} = (copyLaw.map fun x => x j) {c} :=
    (Measure.map_apply (f := fun x : Fin 3 → ℝ => x j) (measurable_pi_apply j) (measurableSet_singleton c)).symm
  have := nullSingletonClass_gaussianReal (μ := 0) (v := 1) one_ne_zero
  rw [h, copyLaw_col, measure_singleton]

theorem copyLaw_dep : ¬ IndepFun (fun x : Fin 3 → ℝ => x 0) (fun x => x 2) copyLaw := by
  intro h
  have h1 : IndepFun (fun w : Fin 2 → ℝ => w 0) (fun w => w 0) (Measure.pi fun _ : Fin 2 => gaussianReal 0 1) :=
    (indepFun_law copy_measurable.aemeasurable 0 2).mp h
  have hm := measurePreserving_eval (fun _ : Fin 2 => gaussianReal 0 1) 0
  have h2 : MemLp (fun w : Fin 2 → ℝ => w 0) 2 (Measure.pi fun _ : Fin 2 => gaussianReal 0 1) :=
    (memLp_id_gaussianReal (μ := 0) (v := 1) 2).comp_measurePreserving hm
  have h3 := h1.covariance_eq_zero h2 h2
  rw [covariance_self h2.aemeasurable] at h3
  have h4 := variance_id_gaussianReal (μ := 0) (v := 1)
  rw [← hm.map_eq, variance_id_map hm.measurable.aemeasurable] at h4
  rw [show Var[Function.eval 0; Measure.pi fun _ : Fin 2 => gaussianReal 0 1] = Var[fun w : Fin 2 → ℝ => w 0; Measure.pi fun _ : Fin 2 => gaussianReal 0 1]
    from rfl, h3] at h4
  simp at h4

theorem copyLaw_indep : IndepFun (fun x : Fin 3 → ℝ => x 0) (fun x => x 1) copyLaw ∧ IndepFun (fun x : Fin 3 → ℝ => x 1) (fun x => x 2) copyLaw := by
  have h : iIndepFun (fun (i : Fin 2) (w : Fin 2 → ℝ) => w i) (Measure.pi fun _ : Fin 2 => gaussianReal 0 1) :=
    iIndepFun_pi (X := fun _ : Fin 2 => id) fun _ => aemeasurable_id
  exact ⟨(indepFun_law copy_measurable.aemeasurable 0 1).mpr (h.indepFun (by decide)), (indepFun_law copy_measurable.aemeasurable 1 2).mpr (h.indepFun (by decide))⟩

/-- from some number of rows on `"xicor"` at level 1/10000 finds exactly the edge of this law, with probability at least 7/10 -/
example : ∃ n0, ∀ n, n0 ≤ n → ∀ (srt : ArgSort ℝ) (lib : TestLib ℝ n), lib.xicorTest = xicorTest srt (cdf (gaussianReal 0 1)) →
    (Measure.pi fun _ : Fin n => copyLaw) {ω | ¬ ∃ u p, estimateUDG lib ω (.name "xicor") (1 / 10000) = .ok (u, p) ∧
      ∀ i j, u i j = true ↔ (i = 0 ∧ j = 2) ∨ (i = 2 ∧ j = 0)} ≤ 3 / 10 := by
  classical
  obtain ⟨n0, h0⟩ := C174_graph (cdf (gaussianReal 0 1)) (tendsto_cdf_atTop _) (monotone_cdf _) (1 / 10000) 3 (by norm_num) (by norm_num) normal_critical
    copyLaw copyLaw_atomless (1 / 10) (by simp)
  refine ⟨n0, fun n hn srt lib hl => (measure_mono fun ω hω => ?_).trans ((h0 n hn _ _ _ (iidRows_exists copyLaw n) srt lib hl).trans ?_)⟩
  · rintro ⟨u, p, h, hu⟩
    refine hω ⟨u, p, h, fun i j => (hu i j).trans ?_⟩
    have a := copyLaw_indep.1
    have b := copyLaw_indep.2
    have c := copyLaw_dep
    have c' : ¬ IndepFun (fun x : Fin 3 → ℝ => x 2) (fun x => x 0) copyLaw := fun h => c h.symm
    fin_cases i <;> fin_cases j <;> simp [a, b, a.symm, b.symm, c, c']
  · have e : (univ.filter fun q : Fin 3 × Fin 3 => q.1 < q.2 ∧ IndepFun (fun x : Fin 3 → ℝ => x q.1) (fun x => x q.2) copyLaw) = {(0, 1), (1, 2)} := by
      ext ⟨i, j⟩
      have a := copyLaw_indep.1
      have b := copyLaw_indep.2
      have c := copyLaw_dep
      fin_cases i <;> fin_cases j <;> simp [a, b, c]
    rw [e]
    have : (({(0, 1), (1, 2)} : Finset (Fin 3 × Fin 3)).card : ENNReal) = 2 := by
      rw [card_pair (by decide)]; rfl
    rw [this, show (1 : ℝ) / (1 + 3 ^ 2) = 1 / 10 by norm_num, ENNReal.ofReal_div_of_pos (by norm_num)]
    simp only [ENNReal.ofReal_one, ENNReal.ofReal_ofNat]
    rw [← mul_div_assoc, mul_one, ← ENNReal.add_div]
    norm_num

end Medil

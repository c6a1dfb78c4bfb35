import Verif.Proofs.RankLimit
import Mathlib.Probability.Independence.Basic
import Mathlib.MeasureTheory.Constructions.BorelSpace.Order
/-
  Two dependent variables: some half-lines of the first and of the limit ranks of the second are correlated.
-/
namespace Medil
open MeasureTheory ProbabilityTheory Finset Filter Topology

/-- values below `y` with the same limit rank as `y` have probability 0 -/
theorem midrank_null (ν : Measure (ℝ × ℝ)) [IsProbabilityMeasure ν] (y : ℝ) : ν {w | w.2 < y ∧ midrank ν y ≤ midrank ν w.2} = 0 := by
  obtain ⟨S, hS⟩ : ∃ S : Set ℝ, S = {v | v < y ∧ midrank ν y ≤ midrank ν v} := ⟨_, rfl⟩
  have hnull : ∀ v ∈ S, ν {w | v ≤ w.2 ∧ w.2 < y} = 0 := by
    intro v hv
    rw [hS] at hv
    obtain ⟨hv1, hv2⟩ := hv
    unfold midrank at hv2
    have h1 : ν.real {w | y < w.2} ≤ ν.real {w | v < w.2} := measureReal_mono fun w hw => lt_trans hv1 hw
    have h2 : ν.real {w | w.2 < y} ≤ ν.real {w | w.2 < v} := by linarith
    have hd : {w : ℝ × ℝ | v ≤ w.2 ∧ w.2 < y} = {w | w.2 < y} \ {w | w.2 < v} := by
      ext w
      simp [and_comm]
    have hsub : {w : ℝ × ℝ | w.2 < v} ⊆ {w | w.2 < y} := fun w hw => lt_trans hw hv1
    have h3 : ν.real {w | v ≤ w.2 ∧ w.2 < y} = 0 := by
      rw [hd, measureReal_sdiff hsub (measurable_snd measurableSet_Iio)]
      have := measureReal_mono (μ := ν) hsub
      linarith
    exact (measureReal_eq_zero_iff (measure_ne_top _ _)).mp h3
  have hup : ∀ v ∈ S, ∀ v', v ≤ v' → v' < y → v' ∈ S := by
    intro v hv v' h1 h2
    rw [hS] at hv ⊢
    exact ⟨h2, hv.2.trans (midrank_mono ν h1)⟩
  have hcov : {w : ℝ × ℝ | w.2 ∈ S} ⊆ (⋃ q : ℚ, {w : ℝ × ℝ | (q : ℝ) ∈ S ∧ (q : ℝ) ≤ w.2 ∧ w.2 < y}) ∪
      {w : ℝ × ℝ | w.2 ∈ S ∧ ∀ v ∈ S, w.2 ≤ v} := by
    intro w hw
    by_cases hmin : ∀ v ∈ S, w.2 ≤ v
    · exact Or.inr ⟨hw, hmin⟩
    · push Not at hmin
      obtain ⟨v, hv, hvw⟩ := hmin
      obtain ⟨q, hq1, hq2⟩ := exists_rat_btwn hvw
      have hwy : w.2 < y := by
        have : w.2 ∈ S := hw
        rw [hS] at this
        exact this.1
      exact Or.inl (Set.mem_iUnion.mpr ⟨q, hup v hv q hq1.le (hq2.trans hwy), hq2.le, hwy⟩)
  have h1 : ν (⋃ q : ℚ, {w : ℝ × ℝ | (q : ℝ) ∈ S ∧ (q : ℝ) ≤ w.2 ∧ w.2 < y}) = 0 := by
    rw [measure_iUnion_null_iff]
    intro q
    by_cases hq : (q : ℝ) ∈ S
    · simpa [hq] using hnull q hq
    · simp [hq]
  have h2 : ν {w : ℝ × ℝ | w.2 ∈ S ∧ ∀ v ∈ S, w.2 ≤ v} = 0 := by
    by_cases hex : ∃ v0 ∈ S, ∀ v ∈ S, v0 ≤ v
    · obtain ⟨v0, hv0, hmin⟩ := hex
      refine measure_mono_null (fun w hw => ?_) (hnull v0 hv0)
      refine ⟨hmin _ hw.1, ?_⟩
      have := hw.1
      rw [hS] at this
      exact this.1
    · push Not at hex
      have : {w : ℝ × ℝ | w.2 ∈ S ∧ ∀ v ∈ S, w.2 ≤ v} = ∅ := by
        ext w
        simp only [Set.mem_ofPred_eq, Set.mem_empty_iff_false, iff_false]
        rintro ⟨hw, hm⟩
        obtain ⟨v, hv, hlt⟩ := hex w.2 hw
        exact absurd (hm v hv) (not_le.mpr hlt)
      rw [this, measure_empty]
  have : {w : ℝ × ℝ | w.2 < y ∧ midrank ν y ≤ midrank ν w.2} = {w | w.2 ∈ S} := by rw [hS]; rfl
  rw [this]
  exact measure_mono_null hcov (measure_union_null h1 h2)

/-- if all half-lines are uncorrelated, the components are independent -/
theorem indep_of_covLevel (ν : Measure (ℝ × ℝ)) [IsProbabilityMeasure ν] (h : ∀ s t, covLevel ν s t = 0) :
    IndepFun (fun w : ℝ × ℝ => w.1) (fun w => w.2) ν := by
  have key : ∀ s y : ℝ, ν.real {w | w.1 ≤ s ∧ y ≤ w.2} = ν.real {w | w.1 ≤ s} * ν.real {w | y ≤ w.2} := by
    intro s y
    have h0 := h s (midrank ν y)
    unfold covLevel at h0
    have hae : ∀ᵐ w ∂ν, ¬ (w.2 < y ∧ midrank ν y ≤ midrank ν w.2) := by
      rw [ae_iff]; simpa using midrank_null ν y
    have hiff : ∀ w : ℝ × ℝ, ¬ (w.2 < y ∧ midrank ν y ≤ midrank ν w.2) → (y ≤ w.2 ↔ midrank ν y ≤ midrank ν w.2) := fun w hw =>
      ⟨fun h1 => midrank_mono ν h1, fun h1 => by
        by_contra hc
        exact hw ⟨not_le.mp hc, h1⟩⟩
    have e1 : ν.real {w | y ≤ w.2} = ν.real {w | midrank ν y ≤ midrank ν w.2} := by
      refine measureReal_congr ?_
      filter_upwards [hae] with w hw
      exact propext (hiff w hw)
    have e2 : ν.real {w | w.1 ≤ s ∧ y ≤ w.2} = ν.real {w | w.1 ≤ s ∧ midrank ν y ≤ midrank ν w.2} := by
      refine measureReal_congr ?_
      filter_upwards [hae] with w hw
      exact propext (and_congr_right fun _ => hiff w hw)
    rw [e1, e2]
    linarith
  rw [IndepFun_iff_Indep]
  have g1 : MeasurableSpace.comap (fun w : ℝ × ℝ => w.1) inferInstance = MeasurableSpace.generateFrom ((Set.preimage fun w : ℝ × ℝ => w.1) '' Set.range Set.Iic) := by
    rw [← MeasurableSpace.comap_generateFrom, ← borel_eq_generateFrom_Iic, ← BorelSpace.measurable_eq (α := ℝ)]
  have g2 : MeasurableSpace.comap (fun w : ℝ × ℝ => w.2) inferInstance = MeasurableSpace.generateFrom ((Set.preimage fun w : ℝ × ℝ => w.2) '' Set.range Set.Ici) := by
    rw [← MeasurableSpace.comap_generateFrom, ← borel_eq_generateFrom_Ici, ← BorelSpace.measurable_eq (α := ℝ)]
  refine IndepSets.indep measurable_fst.comap_le measurable_snd.comap_le (isPiSystem_Iic.comap _) (isPiSystem_Ici.comap _) g1 g2 ?_
  rw [IndepSets_iff]
  rintro _ _ ⟨_, ⟨a, rfl⟩, rfl⟩ ⟨_, ⟨b, rfl⟩, rfl⟩
  have := key a b
  simp only [Measure.real] at this
  rw [← ENNReal.toReal_mul] at this
  exact (ENNReal.toReal_eq_toReal_iff' (measure_ne_top _ _) (by finiteness)).mp this

/-- decreasing sets: continuity from the left in the threshold -/
theorem left_cont (ν : Measure (ℝ × ℝ)) [IsProbabilityMeasure ν] (B : Set (ℝ × ℝ)) (hB : MeasurableSet B) (t : ℝ) {ε : ℝ} (hε : 0 < ε) :
    ∃ δ > 0, ∀ t', t - δ < t' → t' ≤ t → |ν.real (B ∩ {w | t' ≤ midrank ν w.2}) - ν.real (B ∩ {w | t ≤ midrank ν w.2})| < ε := by
  obtain ⟨F, hF⟩ : ∃ F : ℝ → Set (ℝ × ℝ), F = fun t' => B ∩ {w | t' ≤ midrank ν w.2} := ⟨_, rfl⟩
  have hFm : ∀ t', MeasurableSet (F t') := fun t' => by
    rw [hF]
    exact hB.inter (((midrank_mono ν).measurable.comp measurable_snd) measurableSet_Ici)
  have hFa : Antitone F := fun a b hab => by
    rw [hF]
    exact Set.inter_subset_inter_right _ fun w (hw : b ≤ _) => hab.trans hw
  have hseq : Tendsto (fun n : ℕ => ν (F (t - 1 / ((n : ℝ) + 1)))) atTop (𝓝 (ν (⋂ n : ℕ, F (t - 1 / ((n : ℝ) + 1))))) := by
    refine tendsto_measure_iInter_atTop (fun n => (hFm _).nullMeasurableSet) ?_ ⟨0, measure_ne_top _ _⟩
    intro a b hab
    exact hFa (by
      have : 1 / ((b : ℝ) + 1) ≤ 1 / ((a : ℝ) + 1) := one_div_le_one_div_of_le (by positivity) (by
        have : (a : ℝ) ≤ b := by exact_mod_cast hab
        linarith)
      linarith)
  have hint : ⋂ n : ℕ, F (t - 1 / ((n : ℝ) + 1)) = F t := by
    refine Set.Subset.antisymm (fun w hw => ?_) (Set.subset_iInter fun n => hFa (by
      have : (0 : ℝ) < 1 / ((n : ℝ) + 1) := by positivity
      linarith))
    have hw' := fun n : ℕ => Set.mem_iInter.mp hw n
    rw [hF] at hw' ⊢
    refine ⟨(hw' 0).1, ?_⟩
    have hlim : Tendsto (fun n : ℕ => t - 1 / ((n : ℝ) + 1)) atTop (𝓝 (t - 0)) := tendsto_const_nhds.sub tendsto_one_div_add_atTop_nhds_zero_nat
    rw [sub_zero] at hlim
    exact le_of_tendsto' hlim fun n => (hw' n).2
  rw [hint] at hseq
  have hreal : Tendsto (fun n : ℕ => ν.real (F (t - 1 / ((n : ℝ) + 1)))) atTop (𝓝 (ν.real (F t))) :=
    (ENNReal.tendsto_toReal (measure_ne_top _ _)).comp hseq
  obtain ⟨n, hn⟩ := (hreal.eventually (gt_mem_nhds (show ν.real (F t) < ν.real (F t) + ε by linarith))).exists
  refine ⟨1 / ((n : ℝ) + 1), by positivity, fun t' h1 h2 => ?_⟩
  have e1 : ν.real (F t) ≤ ν.real (F t') := measureReal_mono (hFa h2)
  have e2 : ν.real (F t') ≤ ν.real (F (t - 1 / ((n : ℝ) + 1))) := measureReal_mono (hFa h1.le)
  rw [hF] at e1 e2 hn
  rw [abs_lt]
  constructor <;> linarith

/-- dependent components: the squared covariances do not vanish on average -/
theorem covLevel_average (ν : Measure (ℝ × ℝ)) [IsProbabilityMeasure ν] (h : ¬ IndepFun (fun w : ℝ × ℝ => w.1) (fun w => w.2) ν) :
    ∃ s c, 0 < c ∧ ∃ L0 : ℕ, ∀ L : ℕ, L0 ≤ L → 0 < L → c ≤ (1 / L) * ∑ l ∈ range L, covLevel ν s (((l : ℝ) + 1) / L) ^ 2 := by
  obtain ⟨s, t, hst⟩ : ∃ s t, covLevel ν s t ≠ 0 := by
    by_contra hc
    push Not at hc
    exact h (indep_of_covLevel ν hc)
  have ht0 : 0 < t := by
    by_contra hc
    apply hst
    have : {w : ℝ × ℝ | t ≤ midrank ν w.2} = Set.univ := by
      ext w
      simp only [Set.mem_ofPred_eq, Set.mem_univ, iff_true]
      linarith [(midrank_mem ν w.2).1]
    have e2 : {w : ℝ × ℝ | w.1 ≤ s ∧ t ≤ midrank ν w.2} = {w | w.1 ≤ s} := by
      ext w
      simp only [Set.mem_ofPred_eq, and_iff_left_iff_imp]
      intro _
      linarith [(midrank_mem ν w.2).1]
    unfold covLevel
    rw [this, e2]
    simp
  have ht1 : t ≤ 1 := by
    by_contra hc
    apply hst
    have : {w : ℝ × ℝ | t ≤ midrank ν w.2} = ∅ := by
      ext w
      simp only [Set.mem_ofPred_eq, Set.mem_empty_iff_false, iff_false, not_le]
      linarith [(midrank_mem ν w.2).2]
    have e2 : {w : ℝ × ℝ | w.1 ≤ s ∧ t ≤ midrank ν w.2} = ∅ := by
      ext w
      simp only [Set.mem_ofPred_eq, Set.mem_empty_iff_false, iff_false, not_and, not_le]
      intro _
      linarith [(midrank_mem ν w.2).2]
    unfold covLevel
    rw [this, e2]
    simp
  obtain ⟨κ, hκ⟩ : ∃ κ, κ = |covLevel ν s t| := ⟨_, rfl⟩
  have hκ0 : 0 < κ := by rw [hκ]; exact abs_pos.mpr hst
  obtain ⟨δ1, hδ1, h1⟩ := left_cont ν {w | w.1 ≤ s} (measurable_fst measurableSet_Iic) t (show 0 < κ / 4 by linarith)
  obtain ⟨δ2, hδ2, h2⟩ := left_cont ν Set.univ MeasurableSet.univ t (show 0 < κ / 4 by linarith)
  obtain ⟨δ, hδ⟩ : ∃ δ, δ = min t (min δ1 δ2) := ⟨_, rfl⟩
  have hδ0 : 0 < δ := by rw [hδ]; exact lt_min ht0 (lt_min hδ1 hδ2)
  have hδt : δ ≤ t := by rw [hδ]; exact min_le_left _ _
  have hδ1' : δ ≤ δ1 := by rw [hδ]; exact (min_le_right _ _).trans (min_le_left _ _)
  have hδ2' : δ ≤ δ2 := by rw [hδ]; exact (min_le_right _ _).trans (min_le_right _ _)
  have hlow : ∀ t', t - δ < t' → t' ≤ t → (κ / 2) ^ 2 ≤ covLevel ν s t' ^ 2 := by
    intro t' ha hb
    have a1 := h1 t' (by linarith) hb
    have a2 := h2 t' (by linarith) hb
    simp only [Set.univ_inter] at a2
    have hq : |ν.real {w : ℝ × ℝ | w.1 ≤ s}| ≤ 1 := by
      rw [abs_of_nonneg measureReal_nonneg]; exact measureReal_le_one
    have e : covLevel ν s t' - covLevel ν s t =
        (ν.real ({w | w.1 ≤ s} ∩ {w | t' ≤ midrank ν w.2}) - ν.real ({w | w.1 ≤ s} ∩ {w | t ≤ midrank ν w.2})) -
        ν.real {w | w.1 ≤ s} * (ν.real {w | t' ≤ midrank ν w.2} - ν.real {w | t ≤ midrank ν w.2}) := by
      unfold covLevel
      rw [show ({w : ℝ × ℝ | w.1 ≤ s ∧ t' ≤ midrank ν w.2}) = {w | w.1 ≤ s} ∩ {w | t' ≤ midrank ν w.2} from rfl,
        show ({w : ℝ × ℝ | w.1 ≤ s ∧ t ≤ midrank ν w.2}) = {w | w.1 ≤ s} ∩ {w | t ≤ midrank ν w.2} from rfl]
      ring
    have hd : |covLevel ν s t' - covLevel ν s t| ≤ κ / 2 := by
      rw [e]
      refine (abs_sub _ _).trans ?_
      rw [abs_mul]
      have := mul_le_mul hq a2.le (abs_nonneg _) zero_le_one
      linarith
    have : κ / 2 ≤ |covLevel ν s t'| := by
      have h3 := abs_sub_abs_le_abs_sub (covLevel ν s t) (covLevel ν s t')
      rw [abs_sub_comm, ← hκ] at h3
      linarith
    rw [← sq_abs (covLevel ν s t')]
    exact pow_le_pow_left₀ (by linarith) this 2
  obtain ⟨L0, hL0⟩ := exists_nat_ge (2 / δ)
  refine ⟨s, (κ / 2) ^ 2 * (δ / 2), by positivity, L0, fun L hL hLp => ?_⟩
  have hLp' : (0 : ℝ) < L := by exact_mod_cast hLp
  have hLδ : 2 ≤ δ * L := by
    have : 2 / δ ≤ L := hL0.trans (by exact_mod_cast hL)
    rw [div_le_iff₀ hδ0] at this
    linarith
  obtain ⟨a, ha⟩ : ∃ a, a = ⌊(t - δ) * L⌋₊ := ⟨_, rfl⟩
  obtain ⟨b, hb⟩ : ∃ b, b = ⌊t * L⌋₊ := ⟨_, rfl⟩
  have hta : 0 ≤ (t - δ) * L := mul_nonneg (by linarith) hLp'.le
  have htb : 0 ≤ t * L := mul_nonneg ht0.le hLp'.le
  have a1 : (a : ℝ) ≤ (t - δ) * L := by rw [ha]; exact Nat.floor_le hta
  have a2 : (t - δ) * L < a + 1 := by rw [ha]; exact Nat.lt_floor_add_one _
  have b1 : (b : ℝ) ≤ t * L := by rw [hb]; exact Nat.floor_le htb
  have b2 : t * L < b + 1 := by rw [hb]; exact Nat.lt_floor_add_one _
  have hbL : b ≤ L := by
    have : (b : ℝ) ≤ L := by nlinarith
    exact_mod_cast this
  have hab : a ≤ b := by
    have : (a : ℝ) < b + 1 := by nlinarith
    have : a < b + 1 := by exact_mod_cast this
    omega
  have hcard : δ * L / 2 ≤ (b : ℝ) - a := by nlinarith
  have hsum : ((b : ℝ) - a) * (κ / 2) ^ 2 ≤ ∑ l ∈ range L, covLevel ν s (((l : ℝ) + 1) / L) ^ 2 := by
    calc ((b : ℝ) - a) * (κ / 2) ^ 2 = ∑ _l ∈ Ico a b, (κ / 2) ^ 2 := by
          rw [sum_const, Nat.card_Ico, nsmul_eq_mul, Nat.cast_sub hab]
      _ ≤ ∑ l ∈ Ico a b, covLevel ν s (((l : ℝ) + 1) / L) ^ 2 := by
          refine sum_le_sum fun l hl => hlow _ ?_ ?_
          · have : a ≤ l := (mem_Ico.mp hl).1
            have : (a : ℝ) ≤ l := by exact_mod_cast this
            rw [lt_div_iff₀ hLp']
            linarith
          · have : l + 1 ≤ b := (mem_Ico.mp hl).2
            have : (l : ℝ) + 1 ≤ b := by exact_mod_cast this
            rw [div_le_iff₀ hLp']
            linarith
      _ ≤ ∑ l ∈ range L, covLevel ν s (((l : ℝ) + 1) / L) ^ 2 := by
          refine sum_le_sum_of_subset_of_nonneg (fun l hl => ?_) fun _ _ _ => sq_nonneg _
          exact mem_range.mpr ((mem_Ico.mp hl).2.trans_le hbL)
  rw [one_div_mul_eq_div, le_div_iff₀ hLp']
  have := mul_le_mul_of_nonneg_right hcard (show 0 ≤ (κ / 2) ^ 2 by positivity)
  calc (κ / 2) ^ 2 * (δ / 2) * L = δ * L / 2 * (κ / 2) ^ 2 := by ring
    _ ≤ _ := this.trans hsum

end Medil

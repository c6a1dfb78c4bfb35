import Verif.Proofs.DcovNull
import Verif.Props.DcovPower
/-
  C168, C169: how often `estimate_UDG(sample, "dcov_fast")` joins independent columns.
-/
namespace Medil
open Finset MeasureTheory ProbabilityTheory Filter Topology
variable {N M : Nat}

/-- the sample with the entries of column `j` permuted -/
def permuteColumn (s : Fin N → Fin M → ℝ) (j : Fin M) (π : Equiv.Perm (Fin N)) : Fin N → Fin M → ℝ :=
  fun k m => if m = j then s (π k) j else s k m

/-- the condition for an edge, from the two columns -/
def Joins (c : ℝ) (x y : Fin N → ℝ) : Prop :=
  0 < meanDist x * meanDist y ∧ c * (meanDist x * meanDist y) ≤ (∑ k, ∑ l, offDist x k l * offDist y k l) / (2 * N)

theorem joins_of_edge (lib : TestLib ℝ N) (s : Fin N → Fin M → ℝ) (level : ℝ) (u p)
    (h : estimateUDG lib s (.name "dcov_fast") level = .ok (u, p)) (i j : Fin M) (hu : u i j = true) :
    Joins (lib.critVal level) (fun k => s k i) fun k => s k j := by
  obtain ⟨-, h1, h2⟩ := dcovFast_edge' lib s level u p h i j hu
  refine ⟨h1, h2.trans (le_of_eq ?_)⟩
  rw [dcov_off]
  rcases Nat.eq_zero_or_pos N with h0 | hN
  · subst h0; simp
  have hN0 : (N : ℝ) ≠ 0 := by exact_mod_cast hN.ne'
  field_simp

/-- the fraction of the permutations of `y` with an edge: Markov's inequality -/
theorem joins_markov (hN : 2 ≤ N) {c : ℝ} (hc : 0 < c) (x y : Fin N → ℝ) [DecidablePred fun π : Equiv.Perm (Fin N) => Joins c x fun k => y (π k)] :
    ((univ.filter fun π : Equiv.Perm (Fin N) => Joins c x fun k => y (π k)).card : ℝ) ≤ N / (2 * c * ((N : ℝ) - 1)) * N.factorial := by
  have h1 : (0 : ℝ) < (N : ℝ) - 1 := by
    have : (2 : ℝ) ≤ N := by exact_mod_cast hN
    linarith
  have hN0 : (0 : ℝ) < N := by linarith
  have hf : (0 : ℝ) < N.factorial := by exact_mod_cast N.factorial_pos
  by_cases hd : 0 < meanDist x * meanDist y
  · rw [← div_le_iff₀ hf]
    have e : ((univ.filter fun π : Equiv.Perm (Fin N) => Joins c x fun k => y (π k)).card : ℝ) / N.factorial =
        permAvg fun π => if Joins c x fun k => y (π k) then 1 else 0 := by
      unfold permAvg; rw [sum_boole]
    rw [e]
    have h2 : permAvg (fun π => if Joins c x fun k => y (π k) then (1 : ℝ) else 0) ≤
        permAvg fun π => 1 / (2 * c * (meanDist x * meanDist y)) * (N * sampleDcov x fun m => y (π m)) := by
      refine permAvg_mono fun π => ?_
      have hS := sampleDcov_nonneg x fun m => y (π m)
      split_ifs with hj
      · obtain ⟨-, hj⟩ := hj
        rw [meanDist_perm] at hj
        rw [div_mul_eq_mul_div, one_mul, le_div_iff₀ (by positivity)]
        have hle : (∑ k, ∑ l, offDist x k l * offDist (fun k => y (π k)) k l) ≤ N ^ 2 * sampleDcov x fun m => y (π m) := by
          unfold sampleDcov
          rw [mul_div_cancel₀ _ (by positivity)]
          refine sum_le_sum fun k _ => sum_le_sum fun l _ => ?_
          unfold offDist
          split_ifs with hkl
          · subst hkl
            rw [mul_zero]
            exact mul_nonneg_of_nonpos_of_nonpos (centredDist_diag _ _) (centredDist_diag _ _)
          · exact le_rfl
        rw [le_div_iff₀ (by positivity)] at hj
        have := hj.trans hle
        have h3 : N * (2 * c * (meanDist x * meanDist y)) ≤ N * (N * sampleDcov x fun m => y (π m)) := by nlinarith
        rw [one_mul]
        exact le_of_mul_le_mul_left h3 hN0
      · positivity
    refine h2.trans (le_of_eq ?_)
    rw [permAvg_mul, permAvg_dcov hN]
    have : ∀ g : ℝ, 0 < g → 1 / (2 * c * g) * (g * (N / ((N : ℝ) - 1))) = N / (2 * c * ((N : ℝ) - 1)) := fun g hg => by field_simp
    exact this _ hd
  · have : (univ.filter fun π : Equiv.Perm (Fin N) => Joins c x fun k => y (π k)) = ∅ := by
      refine filter_eq_empty_iff.mpr fun π _ hj => hd ?_
      have := hj.1
      rwa [meanDist_perm] at this
    rw [this]
    simp
    positivity

open Classical in
/-- **C168** of the `N!` ways to permute the entries of one column, at most the fraction `N / (2 c (N - 1))` gives an edge between
this column and another one, where `c` is the critical value -/
theorem C168_permutations (hN : 2 ≤ N) (lib : TestLib ℝ N) (s : Fin N → Fin M → ℝ) (level : ℝ) (hc : 0 < lib.critVal level)
    (i j : Fin M) (hij : i ≠ j) :
    ((univ.filter fun π : Equiv.Perm (Fin N) => ∃ u p, estimateUDG lib (permuteColumn s j π) (.name "dcov_fast") level = .ok (u, p) ∧
      u i j = true).card : ℝ) ≤ N / (2 * lib.critVal level * ((N : ℝ) - 1)) * N.factorial := by
  refine le_trans ?_ (joins_markov hN hc (fun k => s k i) fun k => s k j)
  refine Nat.cast_le.mpr (card_le_card fun π hπ => ?_)
  obtain ⟨u, p, h, hu⟩ := (mem_filter.mp hπ).2
  have := joins_of_edge lib _ level u p h i j hu
  unfold permuteColumn at this
  simp only [if_neg hij, if_true] at this
  exact mem_filter.mpr ⟨mem_univ _, this⟩

/-! ### independent columns -/

/-- the law of two independent columns of independent rows -/
theorem IIDRows.columns {Ω : Type} [MeasurableSpace Ω] {μ : Measure Ω} [IsProbabilityMeasure μ] {s : Ω → Fin N → Fin M → ℝ}
    {ν : Measure (Fin M → ℝ)} [IsProbabilityMeasure ν] (h : IIDRows μ s ν) (i j : Fin M)
    (hi : IndepFun (fun x : Fin M → ℝ => x i) (fun x => x j) ν) :
    μ.map (fun ω => ((fun k => s ω k i), fun k => s ω k j)) =
      (Measure.pi fun _ : Fin N => ν.map fun x => x i).prod (Measure.pi fun _ : Fin N => ν.map fun x => x j) := by
  have hm : Measurable fun x : Fin M → ℝ => (x i, x j) := (measurable_pi_apply i).prodMk (measurable_pi_apply j)
  have p1 : IsProbabilityMeasure (ν.map fun x => x i) := Measure.isProbabilityMeasure_map (measurable_pi_apply i).aemeasurable
  have p2 : IsProbabilityMeasure (ν.map fun x => x j) := Measure.isProbabilityMeasure_map (measurable_pi_apply j).aemeasurable
  have hrow : ∀ k, μ.map (fun ω => (s ω k i, s ω k j)) = (ν.map fun x => x i).prod (ν.map fun x => x j) := by
    intro k
    rw [← (indepFun_iff_map_prod_eq_prod_map_map (measurable_pi_apply i).aemeasurable (measurable_pi_apply j).aemeasurable).mp hi,
      ← h.law k, AEMeasurable.map_map_of_aemeasurable hm.aemeasurable (h.meas k)]
    rfl
  have hind : iIndepFun (fun k ω => (s ω k i, s ω k j)) μ := h.rows.comp (fun _ x => (x i, x j)) fun _ => hm
  have hmk : ∀ k, AEMeasurable (fun ω => (s ω k i, s ω k j)) μ := fun k => hm.comp_aemeasurable (h.meas k)
  have hpi := (iIndepFun_iff_map_fun_eq_pi_map hmk).mp hind
  simp only [hrow] at hpi
  have hmp := measurePreserving_arrowProdEquivProdArrow ℝ ℝ (Fin N) (fun _ => ν.map fun x => x i) (fun _ => ν.map fun x => x j)
  rw [← hmp.map_eq, ← hpi, AEMeasurable.map_map_of_aemeasurable hmp.measurable.aemeasurable (aemeasurable_pi_lambda _ hmk)]
  rfl

/-- permuting the second column does not change the law -/
theorem perm_law (ρ₁ ρ₂ : Measure ℝ) [IsProbabilityMeasure ρ₁] [IsProbabilityMeasure ρ₂] (π : Equiv.Perm (Fin N)) :
    MeasurePreserving (fun z : (Fin N → ℝ) × (Fin N → ℝ) => (z.1, fun k => z.2 (π k)))
      ((Measure.pi fun _ : Fin N => ρ₁).prod (Measure.pi fun _ : Fin N => ρ₂))
      ((Measure.pi fun _ : Fin N => ρ₁).prod (Measure.pi fun _ : Fin N => ρ₂)) := by
  have h := measurePreserving_piCongrLeft (α := fun _ : Fin N => ℝ) (fun _ => ρ₂) π.symm
  have e : (fun z : Fin N → ℝ => fun k => z (π k)) = MeasurableEquiv.piCongrLeft (fun _ : Fin N => ℝ) π.symm := by
    funext z k
    have := MeasurableEquiv.piCongrLeft_apply_apply (β := fun _ : Fin N => ℝ) π.symm z (π k)
    simpa using this.symm
  have h' : MeasurePreserving (fun z : Fin N → ℝ => fun k => z (π k)) (Measure.pi fun _ : Fin N => ρ₂) (Measure.pi fun _ : Fin N => ρ₂) := by
    rw [e]; exact h
  exact (MeasurePreserving.id _).prod h'

open Classical in
/-- if on the set `G` at most the fraction `β` of the permutations of the second column is in `E`, then the probability of `E` is at
most `β` plus the probability of the complement of `G` -/
theorem IIDRows.exchange {Ω : Type} [MeasurableSpace Ω] {μ : Measure Ω} [IsProbabilityMeasure μ] {s : Ω → Fin N → Fin M → ℝ}
    {ν : Measure (Fin M → ℝ)} [IsProbabilityMeasure ν] (h : IIDRows μ s ν) (i j : Fin M)
    (hi : IndepFun (fun x : Fin M → ℝ => x i) (fun x => x j) ν) (E G : Set ((Fin N → ℝ) × (Fin N → ℝ))) (hE : MeasurableSet E)
    (hG : MeasurableSet G) (β : ℝ) (hβ : 0 ≤ β)
    (hcount : ∀ x y, (x, y) ∈ G → ((univ.filter fun π : Equiv.Perm (Fin N) => (x, fun k => y (π k)) ∈ E).card : ℝ) ≤ β * N.factorial) :
    μ {ω | ((fun k => s ω k i), fun k => s ω k j) ∈ E} ≤ ENNReal.ofReal β + μ {ω | ((fun k => s ω k i), fun k => s ω k j) ∉ G} := by
  have hcol := h.columns i j hi
  have p1 : IsProbabilityMeasure (ν.map fun x => x i) := Measure.isProbabilityMeasure_map (measurable_pi_apply i).aemeasurable
  have p2 : IsProbabilityMeasure (ν.map fun x => x j) := Measure.isProbabilityMeasure_map (measurable_pi_apply j).aemeasurable
  obtain ⟨Q, hQ⟩ : ∃ Q, Q = (Measure.pi fun _ : Fin N => ν.map fun x => x i).prod (Measure.pi fun _ : Fin N => ν.map fun x => x j) := ⟨_, rfl⟩
  have hQp : IsProbabilityMeasure Q := by rw [hQ]; infer_instance
  rw [← hQ] at hcol
  have hae : AEMeasurable (fun ω => ((fun k => s ω k i), fun k => s ω k j)) μ :=
    (aemeasurable_pi_lambda _ fun k => (measurable_pi_apply i).comp_aemeasurable (h.meas k)).prodMk
      (aemeasurable_pi_lambda _ fun k => (measurable_pi_apply j).comp_aemeasurable (h.meas k))
  have t1 : ∀ S, MeasurableSet S → μ {ω | ((fun k => s ω k i), fun k => s ω k j) ∈ S} = Q S := fun S hS => by
    rw [← hcol, Measure.map_apply_of_aemeasurable hae hS]; rfl
  have t2 : μ {ω | ((fun k => s ω k i), fun k => s ω k j) ∉ G} = Q Gᶜ := t1 Gᶜ hG.compl
  rw [t1 E hE, t2]
  have hmp : ∀ π : Equiv.Perm (Fin N), MeasurePreserving (fun z : (Fin N → ℝ) × (Fin N → ℝ) => (z.1, fun k => z.2 (π k))) Q Q := fun π => by
    rw [hQ]; exact perm_law _ _ π
  have hinv : ∀ π : Equiv.Perm (Fin N), Q ((fun z : (Fin N → ℝ) × (Fin N → ℝ) => (z.1, fun k => z.2 (π k))) ⁻¹' E) = Q E := fun π =>
    (hmp π).measure_preimage hE.nullMeasurableSet
  have hf0 : (N.factorial : ENNReal) ≠ 0 := by exact_mod_cast N.factorial_ne_zero
  have key : (N.factorial : ENNReal) * Q E ≤ N.factorial * (ENNReal.ofReal β + Q Gᶜ) := by
    have e1 : (N.factorial : ENNReal) * Q E = ∫⁻ z, ∑ π : Equiv.Perm (Fin N),
        ((fun z : (Fin N → ℝ) × (Fin N → ℝ) => (z.1, fun k => z.2 (π k))) ⁻¹' E).indicator 1 z ∂Q := by
      rw [lintegral_finsetSum _ fun π _ => measurable_one.indicator ((hmp π).measurable hE)]
      simp only [lintegral_indicator_one ((hmp _).measurable hE), hinv]
      simp [Fintype.card_perm]
    rw [e1]
    calc ∫⁻ z, ∑ π : Equiv.Perm (Fin N), ((fun z : (Fin N → ℝ) × (Fin N → ℝ) => (z.1, fun k => z.2 (π k))) ⁻¹' E).indicator 1 z ∂Q
        ≤ ∫⁻ z, (N.factorial * ENNReal.ofReal β + N.factorial * Gᶜ.indicator 1 z) ∂Q := by
          refine lintegral_mono fun z => ?_
          have e2 : ∑ π : Equiv.Perm (Fin N), ((fun z : (Fin N → ℝ) × (Fin N → ℝ) => (z.1, fun k => z.2 (π k))) ⁻¹' E).indicator (1 : (Fin N → ℝ) × (Fin N → ℝ) → ENNReal) z =
              ((univ.filter fun π : Equiv.Perm (Fin N) => (z.1, fun k => z.2 (π k)) ∈ E).card : ENNReal) := by
            rw [← sum_boole]
            exact sum_congr rfl fun π _ => by simp [Set.indicator]
          rw [e2]
          by_cases hz : z ∈ G
          · have := hcount z.1 z.2 hz
            refine le_trans ?_ le_self_add
            rw [mul_comm, ← ENNReal.ofReal_natCast N.factorial, ← ENNReal.ofReal_mul hβ, ← ENNReal.ofReal_natCast]
            exact ENNReal.ofReal_le_ofReal this
          · refine le_trans ?_ le_add_self
            rw [Set.indicator_of_mem (show z ∈ Gᶜ from hz)]
            simp only [Pi.one_apply, mul_one]
            refine Nat.cast_le.mpr ((card_filter_le _ _).trans ?_)
            simp [Fintype.card_perm]
      _ = N.factorial * (ENNReal.ofReal β + Q Gᶜ) := by
          rw [lintegral_add_left measurable_const, lintegral_const, lintegral_const_mul _ (measurable_one.indicator hG.compl),
            lintegral_indicator_one hG.compl, measure_univ, mul_one, mul_add]
  exact (ENNReal.mul_le_mul_iff_right hf0 (by finiteness)).mp key

theorem meanDist_measurable : Measurable fun x : Fin N → ℝ => meanDist x := by
  unfold meanDist; fun_prop

theorem offDist_measurable (k l : Fin N) : Measurable fun x : Fin N → ℝ => offDist x k l := by
  unfold offDist centredDist
  split_ifs
  · exact measurable_const
  · fun_prop

theorem joins_measurable (c : ℝ) : MeasurableSet {z : (Fin N → ℝ) × (Fin N → ℝ) | Joins c z.1 z.2} := by
  have m1 : Measurable fun z : (Fin N → ℝ) × (Fin N → ℝ) => meanDist z.1 := meanDist_measurable.comp measurable_fst
  have m2 : Measurable fun z : (Fin N → ℝ) × (Fin N → ℝ) => meanDist z.2 := meanDist_measurable.comp measurable_snd
  have m3 : Measurable fun z : (Fin N → ℝ) × (Fin N → ℝ) => (∑ k, ∑ l, offDist z.1 k l * offDist z.2 k l) / (2 * (N : ℝ)) :=
    (Finset.measurable_sum _ fun k _ => Finset.measurable_sum _ fun l _ =>
      ((offDist_measurable k l).comp measurable_fst).mul ((offDist_measurable k l).comp measurable_snd)).div_const _
  exact (measurableSet_lt measurable_const (m1.mul m2)).inter (measurableSet_le ((m1.mul m2).const_mul c) m3)

/-- **C168** two independent columns of independent rows with a common law are joined with probability at most `N / (2 c (N - 1))`,
without any assumption on the law of the two variables -/
theorem C168_independent (hN : 2 ≤ N) {Ω : Type} [MeasurableSpace Ω] (μ : Measure Ω) [IsProbabilityMeasure μ]
    (ν : Measure (Fin M → ℝ)) [IsProbabilityMeasure ν] (s : Ω → Fin N → Fin M → ℝ) (h : IIDRows μ s ν) (i j : Fin M)
    (hi : IndepFun (fun x : Fin M → ℝ => x i) (fun x => x j) ν) (lib : TestLib ℝ N) (level : ℝ) (hc : 0 < lib.critVal level) :
    μ {ω | ∃ u p, estimateUDG lib (s ω) (.name "dcov_fast") level = .ok (u, p) ∧ u i j = true} ≤
      ENNReal.ofReal (N / (2 * lib.critVal level * ((N : ℝ) - 1))) := by
  have h1 : (0 : ℝ) < (N : ℝ) - 1 := by
    have : (2 : ℝ) ≤ N := by exact_mod_cast hN
    linarith
  classical
  have := h.exchange i j hi {z | Joins (lib.critVal level) z.1 z.2} Set.univ (joins_measurable _) MeasurableSet.univ
    (N / (2 * lib.critVal level * ((N : ℝ) - 1))) (by positivity) fun x y _ => by
      simpa using joins_markov hN hc x y
  refine (measure_mono fun ω hω => ?_).trans (this.trans (by simp))
  obtain ⟨u, p, he, hu⟩ := hω
  exact joins_of_edge lib (s ω) level u p he i j hu

/-- the fraction of the permutations of `y` with an edge: Cantelli's inequality -/
theorem joins_cantelli (hN : 4 ≤ N) {c a w g : ℝ} (hc : 0 < c) (ha : 0 < a) (hg : 0 < g) (x y : Fin N → ℝ)
    (hx : 3 * meanDist x ^ 2 + 64 * ((∑ k, x k ^ 2) / N) ≤ w) (hy : 3 * meanDist y ^ 2 + 64 * ((∑ k, y k ^ 2) / N) ≤ w)
    (hd : g ≤ meanDist x * meanDist y) [DecidablePred fun π : Equiv.Perm (Fin N) => Joins c x fun k => y (π k)] :
    ((univ.filter fun π : Equiv.Perm (Fin N) => Joins c x fun k => y (π k)).card : ℝ) ≤
      ((N / (2 * ((N : ℝ) - 1)) + a / ((N : ℝ) - 1) + a ^ 2 + 3 * w ^ 2 / (N * g ^ 2)) / (c + a) ^ 2) * N.factorial := by
  have h4 : (4 : ℝ) ≤ N := by exact_mod_cast hN
  have h1 : (0 : ℝ) < (N : ℝ) - 1 := by linarith
  have hN0 : (0 : ℝ) < N := by linarith
  have hf : (0 : ℝ) < N.factorial := by exact_mod_cast N.factorial_pos
  have e : ((univ.filter fun π : Equiv.Perm (Fin N) => Joins c x fun k => y (π k)).card : ℝ) / N.factorial =
      permAvg fun π => if Joins c x fun k => y (π k) then 1 else 0 := by
    unfold permAvg; rw [sum_boole]
  rw [← div_le_iff₀ hf, e]
  have hsq := permAvg_off_sq hN x y
  have hav := permAvg_off (by omega : 2 ≤ N) x y
  obtain ⟨G, hG⟩ : ∃ G, G = meanDist x * meanDist y := ⟨_, rfl⟩
  have hWW : (3 * meanDist x ^ 2 + 64 * ((∑ k, x k ^ 2) / N)) * (3 * meanDist y ^ 2 + 64 * ((∑ k, y k ^ 2) / N)) ≤ w ^ 2 := by
    rw [sq w]
    refine mul_le_mul hx hy (by positivity) (le_trans (by positivity) hx)
  rw [← hG] at hsq hd
  rw [mul_assoc, ← hG] at hav
  have hG0 : 0 < G := hg.trans_le hd
  have h2 : permAvg (fun π => if Joins c x fun k => y (π k) then (1 : ℝ) else 0) ≤
      permAvg fun π => 1 / ((c + a) * G) ^ 2 * ((1 / (4 * (N : ℝ) ^ 2)) * (∑ k, ∑ l, offDist x k l * offDist y (π k) (π l)) ^ 2 +
        ((a * G / N) * (∑ k, ∑ l, offDist x k l * offDist y (π k) (π l)) + (a * G) ^ 2)) := by
    refine permAvg_mono fun π => ?_
    have e2 : (1 / (4 * (N : ℝ) ^ 2)) * (∑ k, ∑ l, offDist x k l * offDist y (π k) (π l)) ^ 2 +
        ((a * G / N) * (∑ k, ∑ l, offDist x k l * offDist y (π k) (π l)) + (a * G) ^ 2) =
        ((∑ k, ∑ l, offDist x k l * offDist y (π k) (π l)) / (2 * N) + a * G) ^ 2 := by
      field_simp
      ring
    rw [e2]
    split_ifs with hj
    · obtain ⟨-, hj⟩ := hj
      rw [meanDist_perm, ← hG] at hj
      simp only [offDist_perm] at hj
      rw [div_mul_eq_mul_div, one_mul, le_div_iff₀ (by positivity), one_mul]
      refine pow_le_pow_left₀ (by positivity) ?_ 2
      linarith
    · positivity
  refine h2.trans ?_
  rw [permAvg_mul, permAvg_add, permAvg_add, permAvg_mul, permAvg_mul, permAvg_const, hav]
  have hb : 1 / (4 * (N : ℝ) ^ 2) * permAvg (fun π => (∑ k, ∑ l, offDist x k l * offDist y (π k) (π l)) ^ 2) ≤
      N * G ^ 2 / (2 * ((N : ℝ) - 1)) + 3 * w ^ 2 / N := by
    have := mul_le_mul_of_nonneg_left (hsq.trans (add_le_add_right (mul_le_mul_of_nonneg_left hWW (by positivity)) _))
      (by positivity : 0 ≤ 1 / (4 * (N : ℝ) ^ 2))
    refine this.trans (le_of_eq ?_)
    field_simp
    ring
  have hm : a * G / N * (N * G / ((N : ℝ) - 1)) = a * G ^ 2 / ((N : ℝ) - 1) := by field_simp
  have hlast : 3 * w ^ 2 / N ≤ G ^ 2 * (3 * w ^ 2 / (N * g ^ 2)) := by
    have : 3 * w ^ 2 / N = g ^ 2 * (3 * w ^ 2 / (N * g ^ 2)) := by field_simp
    rw [this]
    exact mul_le_mul_of_nonneg_right (pow_le_pow_left₀ hg.le hd 2) (by positivity)
  rw [hm, mul_pow, div_mul_eq_mul_div, one_mul]
  rw [div_le_div_iff₀ (by positivity) (by positivity)]
  have fin : 1 / (4 * (N : ℝ) ^ 2) * permAvg (fun π => (∑ k, ∑ l, offDist x k l * offDist y (π k) (π l)) ^ 2) +
      (a * G ^ 2 / ((N : ℝ) - 1) + (a * G) ^ 2) ≤
      G ^ 2 * (N / (2 * ((N : ℝ) - 1)) + a / ((N : ℝ) - 1) + a ^ 2 + 3 * w ^ 2 / (N * g ^ 2)) := by
    have e3 : G ^ 2 * (N / (2 * ((N : ℝ) - 1)) + a / ((N : ℝ) - 1) + a ^ 2 + 3 * w ^ 2 / (N * g ^ 2)) =
        N * G ^ 2 / (2 * ((N : ℝ) - 1)) + (a * G ^ 2 / ((N : ℝ) - 1) + (a * G) ^ 2) + G ^ 2 * (3 * w ^ 2 / (N * g ^ 2)) := by ring
    rw [e3]
    linarith
  have := mul_le_mul_of_nonneg_right fin (by positivity : 0 ≤ (c + a) ^ 2)
  refine this.trans (le_of_eq (by ring))

/-- the mean distance of a variable that is not constant stays away from 0 -/
theorem meanDist_bound (ν : Measure (Fin M → ℝ)) [IsProbabilityMeasure ν] (i : Fin M)
    (hdep : ¬ IndepFun (fun x : Fin M → ℝ => x i) (fun x => x i) ν) :
    ∃ η : ℝ, 0 < η ∧ ∀ ε : ENNReal, 0 < ε → ∃ n0, 0 < n0 ∧ ∀ n, n0 ≤ n → ∀ (Ω : Type) [MeasurableSpace Ω]
      (μ : Measure Ω) [IsProbabilityMeasure μ] (s : Ω → Fin n → Fin M → ℝ), IIDRows μ s ν →
      μ {ω | ¬ η ≤ meanDist fun k => s ω k i} ≤ ε := by
  obtain ⟨p, q, r, t, κ, hpq, hrt, hκ, h⟩ := ramp_cov ν i i hdep
  have hη : 0 < (q - p) * (t - r) := mul_pos (sub_pos.mpr hpq) (sub_pos.mpr hrt)
  refine ⟨Real.sqrt (4 * κ ^ 2 / ((q - p) * (t - r))), Real.sqrt_pos.mpr (by positivity), fun ε hε => ?_⟩
  obtain ⟨n0, hn0, h⟩ := h ε hε
  refine ⟨n0, hn0, fun n hn Ω _ μ _ s hs => (measure_mono fun ω hω => ?_).trans (h n hn Ω μ s hs)⟩
  intro hcov
  refine hω (Real.sqrt_le_iff.mpr ⟨meanDist_nonneg _, ?_⟩)
  rw [div_le_iff₀ hη]
  have g1 := sampleDcov_ge (fun k => s ω k i) (fun k => s ω k i) hpq hrt
  have g2 : sampleDcov (fun k => s ω k i) (fun k => s ω k i) ≤ meanDist (fun k => s ω k i) * meanDist (fun k => s ω k i) :=
    sampleDcov_le _ _ (by omega)
  have g3 := pow_le_pow_left₀ hκ.le hcov 2
  rw [sq_abs] at g3
  have g4 := mul_le_mul_of_nonneg_left g2 hη.le
  rw [sq (meanDist _)]
  linarith

/-- a constant variable is never joined -/
theorem const_no_join (ν : Measure (Fin M → ℝ)) [IsProbabilityMeasure ν] (i : Fin M) (h2 : MemLp (fun x : Fin M → ℝ => x i) 2 ν)
    (hself : IndepFun (fun x : Fin M → ℝ => x i) (fun x => x i) ν) {n : ℕ} {Ω : Type} [MeasurableSpace Ω]
    {μ : Measure Ω} [IsProbabilityMeasure μ] {s : Ω → Fin n → Fin M → ℝ} (hs : IIDRows μ s ν) :
    ∀ᵐ ω ∂μ, meanDist (fun k => s ω k i) = 0 := by
  have hv : Var[fun x : Fin M → ℝ => x i; ν] = 0 := by
    rw [← covariance_self (measurable_pi_apply i).aemeasurable]
    exact hself.covariance_eq_zero h2 h2
  have hae : ∀ᵐ x ∂ν, x i = ∫ x, x i ∂ν := by
    have := evariance_eq_zero_iff (measurable_pi_apply i).aemeasurable |>.mp (by
      rw [← h2.ofReal_variance_eq, hv, ENNReal.ofReal_zero])
    exact this
  have hall : ∀ᵐ ω ∂μ, ∀ k, s ω k i = ∫ x, x i ∂ν := by
    rw [ae_all_iff]
    intro k
    rw [← hs.law k] at hae
    have := ae_of_ae_map (hs.meas k) hae
    rw [hs.law k] at this
    exact this
  filter_upwards [hall] with ω hω
  unfold meanDist
  simp [hω]

/-- the limit of the bound -/
theorem cantelli_tendsto (c w g : ℝ) (hc : 0 < c) :
    Tendsto (fun n : ℕ => ((n / (2 * ((n : ℝ) - 1)) + 1 / (2 * c) / ((n : ℝ) - 1) + (1 / (2 * c)) ^ 2 + 3 * w ^ 2 / (n * g ^ 2)) / (c + 1 / (2 * c)) ^ 2))
      atTop (𝓝 (1 / (1 + 2 * c ^ 2))) := by
  have hn : Tendsto (fun n : ℕ => (n : ℝ) - 1) atTop atTop := tendsto_atTop_add_const_right _ _ tendsto_natCast_atTop_atTop
  have t1 : Tendsto (fun n : ℕ => (n : ℝ) / (2 * ((n : ℝ) - 1))) atTop (𝓝 (1 / 2)) := by
    have : Tendsto (fun n : ℕ => (1 : ℝ) / 2 + 1 / 2 * (1 / ((n : ℝ) - 1))) atTop (𝓝 (1 / 2 + 1 / 2 * 0)) :=
      tendsto_const_nhds.add ((tendsto_const_nhds.div_atTop hn).const_mul _)
    rw [mul_zero, add_zero] at this
    refine this.congr' ?_
    filter_upwards [eventually_gt_atTop 1] with n hn
    have : (1 : ℝ) < n := by exact_mod_cast hn
    have : (n : ℝ) - 1 ≠ 0 := by linarith
    field_simp
    ring
  have t2 : Tendsto (fun n : ℕ => 1 / (2 * c) / ((n : ℝ) - 1)) atTop (𝓝 0) := tendsto_const_nhds.div_atTop hn
  have t3 : Tendsto (fun n : ℕ => 3 * w ^ 2 / ((n : ℝ) * g ^ 2)) atTop (𝓝 0) := by
    have : Tendsto (fun n : ℕ => 3 * w ^ 2 / g ^ 2 / (n : ℝ)) atTop (𝓝 0) := tendsto_const_nhds.div_atTop tendsto_natCast_atTop_atTop
    exact this.congr fun n => by rw [div_div, mul_comm (g ^ 2)]
  have := (((t1.add t2).add (tendsto_const_nhds (x := (1 / (2 * c)) ^ 2))).add t3).div_const ((c + 1 / (2 * c)) ^ 2)
  refine (this.congr fun n => by rfl).trans (le_of_eq ?_)
  congr 1
  field_simp
  ring

/-- **C169** the probability of joining two independent columns: for independent rows with a common law with finite second moments,
it is from some number of rows on at most every number greater than `1 / (1 + 2c²)` (at the default level 0.05, with critical value
`c ≈ 3.84`, it is below 0.0328, so below the level) -/
theorem C169_level (ν : Measure (Fin M → ℝ)) [IsProbabilityMeasure ν] (i j : Fin M) (h2i : MemLp (fun x : Fin M → ℝ => x i) 2 ν)
    (h2j : MemLp (fun x : Fin M → ℝ => x j) 2 ν) (hind : IndepFun (fun x : Fin M → ℝ => x i) (fun x => x j) ν)
    (level c : ℝ) (hc : 0 < c) (α : ℝ) (hα : 1 / (1 + 2 * c ^ 2) < α) :
    ∃ n0, ∀ n, n0 ≤ n → ∀ (Ω : Type) [MeasurableSpace Ω] (μ : Measure Ω) [IsProbabilityMeasure μ] (s : Ω → Fin n → Fin M → ℝ),
      IIDRows μ s ν → ∀ lib : TestLib ℝ n, lib.critVal level = c →
      μ {ω | ∃ u p, estimateUDG lib (s ω) (.name "dcov_fast") level = .ok (u, p) ∧ u i j = true} ≤ ENNReal.ofReal α := by
  -- a constant column
  have hconst : ∀ n (Ω : Type) [MeasurableSpace Ω] (μ : Measure Ω) [IsProbabilityMeasure μ] (s : Ω → Fin n → Fin M → ℝ)
      (lib : TestLib ℝ n), (∀ᵐ ω ∂μ, meanDist (fun k => s ω k i) = 0 ∨ meanDist (fun k => s ω k j) = 0) →
      μ {ω | ∃ u p, estimateUDG lib (s ω) (.name "dcov_fast") level = .ok (u, p) ∧ u i j = true} ≤ ENNReal.ofReal α := by
    intro n Ω _ μ _ s lib hae
    suffices h0 : μ {ω | ∃ u p, estimateUDG lib (s ω) (.name "dcov_fast") level = .ok (u, p) ∧ u i j = true} = 0 by rw [h0]; simp
    refine measure_eq_zero_iff_ae_notMem.mpr ?_
    filter_upwards [hae] with ω hω hu
    obtain ⟨u, p, h, hu⟩ := hu
    have := (joins_of_edge lib (s ω) level u p h i j hu).1
    rcases hω with h | h <;> rw [h] at this <;> simp at this
  by_cases hsi : IndepFun (fun x : Fin M → ℝ => x i) (fun x => x i) ν
  · exact ⟨0, fun n _ Ω _ μ _ s hs lib _ => hconst n Ω μ s lib ((const_no_join ν i h2i hsi hs).mono fun ω h => Or.inl h)⟩
  by_cases hsj : IndepFun (fun x : Fin M → ℝ => x j) (fun x => x j) ν
  · exact ⟨0, fun n _ Ω _ μ _ s hs lib _ => hconst n Ω μ s lib ((const_no_join ν j h2j hsj hs).mono fun ω h => Or.inr h)⟩
  -- the general case
  obtain ⟨α', hα1, hα2⟩ := exists_between hα
  have hε : 0 < ENNReal.ofReal ((α - α') / 3) := ENNReal.ofReal_pos.mpr (by linarith)
  obtain ⟨η, hη, hmi⟩ := meanDist_bound ν i hsi
  obtain ⟨η', hη', hmj⟩ := meanDist_bound ν j hsj
  obtain ⟨n1, -, hmi⟩ := hmi _ hε
  obtain ⟨n2, -, hmj⟩ := hmj _ hε
  obtain ⟨T, hT, h2⟩ := second_bound ν i j h2i h2j _ hε
  obtain ⟨w, hw⟩ : ∃ w, w = 3 * (1 + T) ^ 2 + 64 * T := ⟨_, rfl⟩
  have hlim := (cantelli_tendsto c w (η * η') hc).eventually (gt_mem_nhds hα1)
  obtain ⟨n0, h0⟩ := eventually_atTop.mp ((hlim.and (eventually_ge_atTop 4)).and ((eventually_ge_atTop n1).and (eventually_ge_atTop n2)))
  refine ⟨n0, fun n hn Ω _ μ _ s hs lib hl => ?_⟩
  obtain ⟨⟨hlt, hn4⟩, hn1, hn2⟩ := h0 n hn
  have hn0' : (0 : ℝ) < n := by exact_mod_cast (by omega : 0 < n)
  have hα0 : 0 ≤ α' := le_trans (by positivity) hα1.le
  have hGm : MeasurableSet {z : (Fin n → ℝ) × (Fin n → ℝ) | (∑ k, (z.1 k ^ 2 + z.2 k ^ 2)) / (n : ℝ) ≤ T ∧ η ≤ meanDist z.1 ∧ η' ≤ meanDist z.2} := by
    have m1 : Measurable fun z : (Fin n → ℝ) × (Fin n → ℝ) => meanDist z.1 := meanDist_measurable.comp measurable_fst
    have m2 : Measurable fun z : (Fin n → ℝ) × (Fin n → ℝ) => meanDist z.2 := meanDist_measurable.comp measurable_snd
    have m3 : Measurable fun z : (Fin n → ℝ) × (Fin n → ℝ) => (∑ k, (z.1 k ^ 2 + z.2 k ^ 2)) / (n : ℝ) := by fun_prop
    exact (measurableSet_le m3 measurable_const).inter ((measurableSet_le measurable_const m1).inter (measurableSet_le measurable_const m2))
  classical
  have hex := hs.exchange i j hind {z | Joins c z.1 z.2} _ (joins_measurable c) hGm α' hα0 fun x y hG => by
    obtain ⟨g1, g2, g3⟩ := hG
    dsimp only at g1 g2 g3
    have hsum : (∑ k, x k ^ 2) / (n : ℝ) + (∑ k, y k ^ 2) / n ≤ T := by rw [← add_div, ← sum_add_distrib]; exact g1
    have hx0 : 0 ≤ (∑ k, x k ^ 2) / (n : ℝ) := by positivity
    have hy0 : 0 ≤ (∑ k, y k ^ 2) / (n : ℝ) := by positivity
    have hxw : 3 * meanDist x ^ 2 + 64 * ((∑ k, x k ^ 2) / (n : ℝ)) ≤ w := by
      rw [hw]
      have := pow_le_pow_left₀ (meanDist_nonneg x) ((meanDist_le x).trans (by linarith : _ ≤ 1 + T)) 2
      linarith
    have hyw : 3 * meanDist y ^ 2 + 64 * ((∑ k, y k ^ 2) / (n : ℝ)) ≤ w := by
      rw [hw]
      have := pow_le_pow_left₀ (meanDist_nonneg y) ((meanDist_le y).trans (by linarith : _ ≤ 1 + T)) 2
      linarith
    have hgg : η * η' ≤ meanDist x * meanDist y := mul_le_mul g2 g3 hη'.le (meanDist_nonneg x)
    have := joins_cantelli hn4 hc (by positivity : 0 < 1 / (2 * c)) (mul_pos hη hη') x y hxw hyw hgg
    refine le_trans ?_ (this.trans (mul_le_mul_of_nonneg_right hlt.le (by positivity)))
    simp
  refine (measure_mono fun ω hω => ?_).trans (hex.trans ?_)
  · obtain ⟨u, p, he, hu⟩ := hω
    have := joins_of_edge lib (s ω) level u p he i j hu
    rw [hl] at this
    exact this
  · have hbad : μ {ω | ((fun k => s ω k i), fun k => s ω k j) ∉ {z : (Fin n → ℝ) × (Fin n → ℝ) |
        (∑ k, (z.1 k ^ 2 + z.2 k ^ 2)) / (n : ℝ) ≤ T ∧ η ≤ meanDist z.1 ∧ η' ≤ meanDist z.2}} ≤ ENNReal.ofReal (α - α') := by
      have e : ENNReal.ofReal (α - α') = ENNReal.ofReal ((α - α') / 3) + (ENNReal.ofReal ((α - α') / 3) + ENNReal.ofReal ((α - α') / 3)) := by
        rw [← ENNReal.ofReal_add (by linarith) (by linarith), ← ENNReal.ofReal_add (by linarith) (by linarith)]
        congr 1; ring
      rw [e]
      refine (measure_mono fun ω hω => ?_).trans ((measure_union_le _ _).trans (add_le_add (h2 n (by omega) Ω μ s hs)
        ((measure_union_le _ _).trans (add_le_add (hmi n hn1 Ω μ s hs) (hmj n hn2 Ω μ s hs)))))
      by_contra hcon
      simp only [Set.mem_union, Set.mem_ofPred_eq, not_or, not_not] at hcon
      exact hω hcon
    refine (add_le_add_right hbad _).trans (le_of_eq ?_)
    rw [← ENNReal.ofReal_add hα0 (by linarith)]
    congr 1; ring

open Classical in
/-- **C169** the whole graph: from some number of rows on, the probability that the edges are not exactly the pairs of dependent columns
is at most `α` for every pair of independent columns (plus any `ε > 0`), for every `α > 1 / (1 + 2c²)` -/
theorem C169_graph (ν : Measure (Fin M → ℝ)) [IsProbabilityMeasure ν] (h2 : ∀ i, MemLp (fun x : Fin M → ℝ => x i) 2 ν)
    (level c : ℝ) (hc : 0 < c) (α : ℝ) (hα : 1 / (1 + 2 * c ^ 2) < α) (ε : ENNReal) (hε : 0 < ε) :
    ∃ n0, ∀ n, n0 ≤ n → ∀ (Ω : Type) [MeasurableSpace Ω] (μ : Measure Ω) [IsProbabilityMeasure μ] (s : Ω → Fin n → Fin M → ℝ),
      IIDRows μ s ν → ∀ lib : TestLib ℝ n, lib.critVal level = c →
      μ {ω | ¬ ∃ u, estimateUDG lib (s ω) (.name "dcov_fast") level = .ok (u, none) ∧
        ∀ i j, u i j = true ↔ i ≠ j ∧ ¬ IndepFun (fun x : Fin M → ℝ => x i) (fun x => x j) ν} ≤
      (univ.filter fun q : Fin M × Fin M => q.1 < q.2 ∧ IndepFun (fun x : Fin M → ℝ => x q.1) (fun x => x q.2) ν).card *
        ENNReal.ofReal α + ε := by
  obtain ⟨n1, h1⟩ := C167_dcov_power ν h2 level c hc ε hε
  have key : ∀ q : Fin M × Fin M, ∃ n0, ∀ n, n0 ≤ n → IndepFun (fun x : Fin M → ℝ => x q.1) (fun x => x q.2) ν →
      ∀ (Ω : Type) [MeasurableSpace Ω] (μ : Measure Ω) [IsProbabilityMeasure μ] (s : Ω → Fin n → Fin M → ℝ),
      IIDRows μ s ν → ∀ lib : TestLib ℝ n, lib.critVal level = c →
      μ {ω | ∃ u p, estimateUDG lib (s ω) (.name "dcov_fast") level = .ok (u, p) ∧ u q.1 q.2 = true} ≤ ENNReal.ofReal α := by
    intro q
    by_cases hq : IndepFun (fun x : Fin M → ℝ => x q.1) (fun x => x q.2) ν
    · obtain ⟨n0, h0⟩ := C169_level ν q.1 q.2 (h2 _) (h2 _) hq level c hc α hα
      exact ⟨n0, fun n hn _ => h0 n hn⟩
    · exact ⟨0, fun n _ h => absurd h hq⟩
  choose R hR using key
  refine ⟨max n1 (univ.sup R), fun n hn Ω _ μ _ s hs lib hl => ?_⟩
  have hRn : ∀ q, R q ≤ n := fun q => (le_sup (mem_univ q)).trans ((le_max_right _ _).trans hn)
  have h1 := h1 n ((le_max_left _ _).trans hn) Ω μ s hs lib hl
  refine (measure_mono (t := (⋃ q ∈ univ.filter fun q : Fin M × Fin M => q.1 < q.2 ∧
      IndepFun (fun x : Fin M → ℝ => x q.1) (fun x => x q.2) ν,
      {ω | ∃ u p, estimateUDG lib (s ω) (.name "dcov_fast") level = .ok (u, p) ∧ u q.1 q.2 = true}) ∪ _) ?_).trans
    ((measure_union_le _ _).trans (add_le_add ((measure_biUnion_finset_le _ _).trans ?_) h1))
  · intro ω hω
    by_contra hcon
    simp only [Set.mem_union, Set.mem_iUnion, mem_filter, mem_univ, true_and, not_or, Set.mem_ofPred_eq, not_not] at hcon
    obtain ⟨hno, u, h, hu⟩ := hcon
    refine hω ⟨u, h, fun i j => ⟨fun hij => ?_, fun hd => hu i j hd.1 hd.2⟩⟩
    have hne := (dcovFast_edge' lib (s ω) level u none h i j hij).1
    refine ⟨hne, fun hind => hno ?_⟩
    rcases lt_or_gt_of_ne hne with hlt | hlt
    · exact ⟨(i, j), ⟨hlt, hind⟩, u, none, h, hij⟩
    · refine ⟨(j, i), ⟨hlt, hind.symm⟩, u, none, h, ?_⟩
      have e := (rfl : estimateUDG lib (s ω) (.name "dcov_fast") level = .ok (_, none)).symm.trans h
      injection e with e
      have e' := (Prod.ext_iff.mp e).1
      dsimp only at e'
      rw [← e'] at hij ⊢
      unfold clearDiag at hij ⊢
      rw [if_neg hne] at hij
      rw [if_neg (Ne.symm hne)]
      dsimp only
      rw [dcov_symm, mul_comm ((dcov (s ω)).2 j)]
      exact hij
  · refine (sum_le_sum fun q hq => hR q n (hRn q) (mem_filter.mp hq).2.2 Ω μ s hs lib hl).trans ?_
    simp

-- the hypotheses are met: independent columns of every number of rows of this kind, at the default level
example : ∃ n0, ∀ n, n0 ≤ n → ∀ lib : TestLib ℝ n, lib.critVal 0.05 = 3.84 →
    (Measure.pi fun _ : Fin n => Measure.pi fun _ : Fin 2 => squaresLaw.map fun x => x 0)
      {ω | ∃ u p, estimateUDG lib ω (.name "dcov_fast") 0.05 = .ok (u, p) ∧ u 0 1 = true} ≤ ENNReal.ofReal 0.033 := by
  have p1 : IsProbabilityMeasure (squaresLaw.map fun x => x 0) := Measure.isProbabilityMeasure_map (measurable_pi_apply 0).aemeasurable
  have hm : ∀ i : Fin 2, MemLp (fun x : Fin 2 → ℝ => x i) 2 (Measure.pi fun _ : Fin 2 => squaresLaw.map fun x => x 0) := by
    intro i
    have h0 : MemLp (fun y : ℝ => y) 2 (squaresLaw.map fun x => x 0) :=
      (memLp_map_measure_iff measurable_id.aestronglyMeasurable (measurable_pi_apply 0).aemeasurable).mpr (squaresLaw_moments 0)
    exact h0.comp_measurePreserving (measurePreserving_eval (fun _ : Fin 2 => squaresLaw.map fun x => x 0) i)
  have hi : IndepFun (fun x : Fin 2 → ℝ => x 0) (fun x => x 1) (Measure.pi fun _ : Fin 2 => squaresLaw.map fun x => x 0) :=
    (iIndepFun_pi (X := fun _ x => x) fun _ => aemeasurable_id).indepFun (by decide)
  obtain ⟨n0, h0⟩ := C169_level _ 0 1 (hm 0) (hm 1) hi 0.05 3.84 (by norm_num) 0.033 (by norm_num)
  exact ⟨n0, fun n hn lib hl => h0 n hn _ _ _ (iidRows_exists _ n) lib hl⟩

-- 100 rows, at the default level: at most 14 % of the permutations, and the probability for independent columns is at most 14 %
example (lib : TestLib ℝ 100) (h : lib.critVal 0.05 = 3.84) (s : Fin 100 → Fin 2 → ℝ) [DecidablePred fun π : Equiv.Perm (Fin 100) =>
      ∃ u p, estimateUDG lib (permuteColumn s 1 π) (.name "dcov_fast") 0.05 = .ok (u, p) ∧ u 0 1 = true] :
    ((univ.filter fun π : Equiv.Perm (Fin 100) => ∃ u p, estimateUDG lib (permuteColumn s 1 π) (.name "dcov_fast") 0.05 = .ok (u, p) ∧
      u 0 1 = true).card : ℝ) ≤ 0.14 * Nat.factorial 100 := by
  have := C168_permutations (by norm_num) lib s 0.05 (by rw [h]; norm_num) 0 1 (by decide)
  rw [h] at this
  refine le_trans ?_ (this.trans (mul_le_mul_of_nonneg_right (by norm_num) (by positivity)))
  exact le_of_eq (by congr)

end Medil

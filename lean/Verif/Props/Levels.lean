import Verif.Model.Levels
import Verif.Props.DcovNull
import Mathlib.Probability.CDF
import Mathlib.Probability.Distributions.Gaussian.Real
/-
  C225: the graph of `dcov_fast` in terms of the chi-square distribution; C226: larger levels give larger graphs.
-/
namespace Medil
open Finset MeasureTheory ProbabilityTheory Filter Topology
variable {N M : Nat}

/-- what `scipy.stats.chi2(1).ppf` returns: nan outside `[0, 1]`, infinity at 1, otherwise the least `x ≥ 0` such that the square of a
standard normal variable is at most `x` with probability at least `q` -/
structure IsChi2Ppf (ppf : ℝ → Fl ℝ) : Prop where
  outside : ∀ q, q < 0 ∨ 1 < q → ppf q = .nan
  one : ppf 1 = .pinf
  inside : ∀ q, 0 ≤ q → q < 1 → ∃ x, ppf q = .fin x ∧ ∀ c, x ≤ c ↔ 0 ≤ c ∧ ENNReal.ofReal q ≤ gaussianReal 0 1 {z | z ^ 2 ≤ c}

/-- the statistic of `dcov_fast` for two columns: the sum of the products of the centred distances between different rows, over twice the
number of rows, divided by the mean distances -/
noncomputable def dcovStat (x y : Fin N → ℝ) : ℝ :=
  (∑ k, ∑ l, if k = l then 0 else centredDist x k l * centredDist y k l) / (2 * N) / (meanDist x * meanDist y)

theorem chi2_cdf (c : ℝ) : gaussianReal 0 1 {z : ℝ | z ^ 2 ≤ c} = ENNReal.ofReal (cdf ((gaussianReal 0 1).map fun z : ℝ => z ^ 2) c) := by
  have hm : Measurable fun z : ℝ => z ^ 2 := by fun_prop
  have := Measure.isProbabilityMeasure_map (μ := gaussianReal 0 1) hm.aemeasurable
  rw [ofReal_cdf, Measure.map_apply hm measurableSet_Iic]
  rfl

/-- such a function exists -/
theorem chi2Ppf_exists : ∃ ppf, IsChi2Ppf ppf := by
  have hm : Measurable fun z : ℝ => z ^ 2 := by fun_prop
  have := Measure.isProbabilityMeasure_map (μ := gaussianReal 0 1) hm.aemeasurable
  set F := cdf ((gaussianReal 0 1).map fun z : ℝ => z ^ 2) with hF
  have key : ∀ q : ℝ, 0 ≤ q → q < 1 → ∃ x, ∀ c, x ≤ c ↔ 0 ≤ c ∧ q ≤ F c := by
    intro q h0 h1
    let S := {c : ℝ | 0 ≤ c ∧ q ≤ F c}
    have hbdd : BddBelow S := ⟨0, fun c hc => hc.1⟩
    have hne : S.Nonempty := by
      have ht := (tendsto_order.mp (tendsto_cdf_atTop ((gaussianReal 0 1).map fun z : ℝ => z ^ 2))).1 q h1
      obtain ⟨c, hc0, hc⟩ := ((eventually_ge_atTop (0 : ℝ)).and ht).exists
      exact ⟨c, hc0, hc.le⟩
    have hx0 : 0 ≤ sInf S := le_csInf hne fun c hc => hc.1
    have hmem : q ≤ F (sInf S) := by
      have hr : Tendsto F (𝓝[>] (sInf S)) (𝓝 (F (sInf S))) := (F.right_continuous _).tendsto.mono_left (nhdsWithin_mono _ fun _ h => Set.mem_Ici.mpr (le_of_lt h))
      refine ge_of_tendsto hr ?_
      filter_upwards [self_mem_nhdsWithin] with c hc
      obtain ⟨b, hb, hbc⟩ := exists_lt_of_csInf_lt hne hc
      exact hb.2.trans (F.mono hbc.le)
    refine ⟨sInf S, fun c => ⟨fun h => ⟨hx0.trans h, hmem.trans (F.mono h)⟩, fun h => csInf_le hbdd h⟩⟩
  choose! x hx using key
  refine ⟨fun q => if q < 0 ∨ 1 < q then .nan else if q = 1 then .pinf else .fin (x q), ?_, ?_, ?_⟩
  · intro q h; rw [if_pos h]
  · norm_num
  · intro q h0 h1
    refine ⟨x q, ?_, fun c => ?_⟩
    · rw [if_neg (by rintro (h | h) <;> linarith), if_neg h1.ne]
    · rw [hx q h0 h1, chi2_cdf, ENNReal.ofReal_le_ofReal_iff (cdf_nonneg _ _)]

theorem dcovStat_eq (s : Fin N → Fin M → ℝ) (i j : Fin M) :
    N * (dcov s).1 i j / (meanDist (fun k => s k i) * meanDist (fun k => s k j)) = dcovStat (fun k => s k i) fun k => s k j := by
  unfold dcovStat
  rw [dcov_off]
  congr 1
  have e : ∀ k l, offDist (fun k => s k i) k l * offDist (fun k => s k j) k l =
      if k = l then 0 else centredDist (fun k => s k i) k l * centredDist (fun k => s k j) k l := by
    intro k l; unfold offDist; split <;> simp
  simp only [e]
  rcases Nat.eq_zero_or_pos N with h0 | hN
  · subst h0; simp
  have hN0 : (N : ℝ) ≠ 0 := by exact_mod_cast hN.ne'
  field_simp

/-- the value compared with the critical value: nan if a column is constant -/
theorem dcov_value (s : Fin N → Fin M → ℝ) (i j : Fin M) :
    Fl.div (N * (dcov s).1 i j) ((dcov s).2 i * (dcov s).2 j) =
      if 0 < meanDist (fun k => s k i) * meanDist (fun k => s k j) then .fin (dcovStat (fun k => s k i) fun k => s k j) else .nan := by
  rw [dbar_eq, dbar_eq]
  have hn := mul_nonneg (meanDist_nonneg fun k => s k i) (meanDist_nonneg fun k => s k j)
  by_cases h0 : meanDist (fun k => s k i) * meanDist (fun k => s k j) = 0
  · have hz : (dcov s).1 i j = 0 := by
      rcases mul_eq_zero.mp h0 with h2 | h2
      · exact (dcov_const s i j fun k l => meanDist_zero _ h2 k l).1
      · rw [dcov_symm]
        exact (dcov_const s j i fun k l => meanDist_zero _ h2 k l).1
    rw [if_neg (by rw [h0]; exact lt_irrefl _)]
    unfold Fl.div
    rw [if_pos h0, if_pos (by rw [hz, mul_zero])]
  · rw [if_pos (lt_of_le_of_ne hn (Ne.symm h0)), ← dcovStat_eq]
    unfold Fl.div
    rw [if_neg h0]

/-- a column that is not constant -/
def Varies (x : Fin N → ℝ) : Prop := ∃ k l, x k ≠ x l

theorem meanDist_pos_iff (x : Fin N → ℝ) : 0 < meanDist x ↔ Varies x := by
  constructor
  · intro h
    by_contra hv
    unfold Varies at hv
    push Not at hv
    have : meanDist x = 0 := by
      unfold meanDist
      rw [sum_eq_zero fun k _ => sum_eq_zero fun l _ => by rw [hv k l, sub_self, abs_zero], zero_div]
    exact absurd h (by rw [this]; exact lt_irrefl _)
  · rintro ⟨k, l, h⟩
    exact lt_of_le_of_ne (meanDist_nonneg x) fun h0 => h (meanDist_zero x h0.symm k l)

theorem value_pos_iff (x y : Fin N → ℝ) : 0 < meanDist x * meanDist y ↔ Varies x ∧ Varies y := by
  rw [← meanDist_pos_iff, ← meanDist_pos_iff]
  constructor
  · intro h
    have hx := meanDist_nonneg x
    have hy := meanDist_nonneg y
    refine ⟨lt_of_le_of_ne hx fun h0 => ?_, lt_of_le_of_ne hy fun h0 => ?_⟩
    · rw [← h0, zero_mul] at h; exact lt_irrefl _ h
    · rw [← h0, mul_zero] at h; exact lt_irrefl _ h
  · intro h; exact mul_pos h.1 h.2

theorem dcovFastAt_iff (ppf : ℝ → Fl ℝ) (s : Fin N → Fin M → ℝ) (level : ℝ) (i j : Fin M) :
    dcovFastAt ppf s level i j = true ↔ i ≠ j ∧ Varies (fun k => s k i) ∧ Varies (fun k => s k j) ∧
      (Fl.fin (dcovStat (fun k => s k i) fun k => s k j)).geFl (ppf (1 - level)) = true := by
  unfold dcovFastAt clearDiag
  by_cases hij : i = j
  · simp [hij]
  · rw [if_neg hij]
    beta_reduce
    rw [dcov_value]
    by_cases hp : 0 < meanDist (fun k => s k i) * meanDist (fun k => s k j)
    · rw [if_pos hp]
      rw [value_pos_iff] at hp
      simp [hij, hp.1, hp.2]
    · rw [if_neg hp]
      rw [value_pos_iff] at hp
      constructor
      · intro h; cases h
      · rintro ⟨_, h1, h2, _⟩; exact absurd ⟨h1, h2⟩ hp

theorem tail_iff (c level : ℝ) (h0 : 0 ≤ level) :
    ENNReal.ofReal (1 - level) ≤ gaussianReal 0 1 {z : ℝ | z ^ 2 ≤ c} ↔ gaussianReal 0 1 {z : ℝ | c < z ^ 2} ≤ ENNReal.ofReal level := by
  have hm : MeasurableSet {z : ℝ | z ^ 2 ≤ c} := measurableSet_le (by fun_prop) measurable_const
  have hc : {z : ℝ | c < z ^ 2} = {z : ℝ | z ^ 2 ≤ c}ᶜ := by ext z; simp
  rw [hc, prob_compl_eq_one_sub hm]
  set a := gaussianReal 0 1 {z : ℝ | z ^ 2 ≤ c}
  have e : ENNReal.ofReal (1 - level) = 1 - ENNReal.ofReal level := by
    rw [ENNReal.ofReal_sub _ h0, ENNReal.ofReal_one]
  rw [e, tsub_le_iff_right, tsub_le_iff_right, add_comm]

/-- **C225** With method `dcov_fast` and a level between 0 and 1, two measurements are joined exactly if both vary, the statistic is not
negative, and the square of a standard normal variable exceeds it with probability at most the level; no p-values are returned. -/
theorem C225_chi_square_test (ppf : ℝ → Fl ℝ) (hppf : IsChi2Ppf ppf) (lib : TestLib ℝ N) (s : Fin N → Fin M → ℝ) (level : ℝ)
    (h0 : 0 < level) (h1 : level ≤ 1) :
    ∃ u : Fin M → Fin M → Bool, estimateUDGAt ppf lib s (.name "dcov_fast") level = .ok (u, none) ∧
      ∀ i j, u i j = true ↔ i ≠ j ∧ Varies (fun k => s k i) ∧ Varies (fun k => s k j) ∧
        0 ≤ dcovStat (fun k => s k i) (fun k => s k j) ∧
        gaussianReal 0 1 {z : ℝ | dcovStat (fun k => s k i) (fun k => s k j) < z ^ 2} ≤ ENNReal.ofReal level := by
  refine ⟨_, rfl, fun i j => ?_⟩
  rw [dcovFastAt_iff]
  obtain ⟨x, hx, hxc⟩ := hppf.inside (1 - level) (by linarith) (by linarith)
  rw [hx]
  have hge : ∀ c : ℝ, (Fl.fin c).geFl (.fin x) = true ↔ x ≤ c := fun c => by simp [Fl.geFl]
  rw [hge, hxc, tail_iff _ _ h0.le]

/-- **C225** With a level of 0 or less, or above 1, the graph of `dcov_fast` has no edges. -/
theorem C225_other_levels (ppf : ℝ → Fl ℝ) (hppf : IsChi2Ppf ppf) (lib : TestLib ℝ N) (s : Fin N → Fin M → ℝ) (level : ℝ)
    (h : level ≤ 0 ∨ 1 < level) :
    ∃ u : Fin M → Fin M → Bool, estimateUDGAt ppf lib s (.name "dcov_fast") level = .ok (u, none) ∧ ∀ i j, u i j = false := by
  refine ⟨_, rfl, fun i j => ?_⟩
  rw [Bool.eq_false_iff]
  intro hu
  obtain ⟨_, _, _, hge⟩ := (dcovFastAt_iff ppf s level i j).mp hu
  by_cases h0 : level = 0
  · rw [h0, sub_zero, hppf.one] at hge
    simp [Fl.geFl] at hge
  · rw [hppf.outside (1 - level) (by
      rcases h with h | h
      · right; have := lt_of_le_of_ne h h0; linarith
      · left; linarith)] at hge
    simp [Fl.geFl] at hge

/-- **C225** For levels above 0 and up to 1 this is the model used for all other properties: the critical value is finite and not
negative. -/
theorem C225_agrees (ppf : ℝ → Fl ℝ) (hppf : IsChi2Ppf ppf) (level : ℝ) (h0 : 0 < level) (h1 : level ≤ 1) :
    ∃ c : ℝ, 0 ≤ c ∧ (level < 1 → 0 < c) ∧ ∀ (N M : Nat) (lib : TestLib ℝ N), lib.critVal level = c → ∀ (s : Fin N → Fin M → ℝ) (method : Method ℝ M),
      estimateUDGAt ppf lib s method level = estimateUDG lib s method level := by
  obtain ⟨x, hx, hxc⟩ := hppf.inside (1 - level) (by linarith) (by linarith)
  refine ⟨x, ((hxc x).mp le_rfl).1, fun h => ?_, fun N M lib hc s method => ?_⟩
  · refine lt_of_le_of_ne ((hxc x).mp le_rfl).1 fun h0 => ?_
    have h2 := ((hxc 0).mp (by rw [h0])).2
    have : {z : ℝ | z ^ 2 ≤ 0} = {0} := by
      ext z
      simp only [Set.mem_ofPred_eq, Set.mem_singleton_iff]
      exact ⟨fun h => pow_eq_zero_iff (two_ne_zero) |>.mp (le_antisymm h (sq_nonneg z)), fun h => by rw [h]; norm_num⟩
    have hna : NullSingletonClass (gaussianReal 0 1) := nullSingletonClass_gaussianReal one_ne_zero
    rw [this, measure_singleton] at h2
    have := ENNReal.ofReal_eq_zero.mp (le_antisymm h2 zero_le)
    linarith
  · cases method with
    | pvals P => rfl
    | name m =>
      unfold estimateUDGAt
      dsimp only
      split
      · rename_i hm
        unfold estimateUDG dcovFastAt
        dsimp only
        rw [if_pos hm]
        congr 2
        congr 1
        funext i j
        rw [hx, hc]
        generalize Fl.div (N * (dcov s).1 i j) ((dcov s).2 i * (dcov s).2 j) = v
        cases v <;> rfl
      · rfl

/-- **C226** (as stated; false): raising the level only adds edges -/
def C226_statement : Prop :=
  ∀ (N M : Nat) (ppf : ℝ → Fl ℝ), IsChi2Ppf ppf → ∀ (lib : TestLib ℝ N) (s : Fin N → Fin M → ℝ) (method : Method ℝ M) (a b : ℝ) (u v p q),
    0 < a → a ≤ b → estimateUDGAt ppf lib s method a = .ok (u, p) → estimateUDGAt ppf lib s method b = .ok (v, q) →
    ∀ i j, u i j = true → v i j = true

/-- **C226** What is true: with supplied p-values, `xicor` and `dcov_big` raising the level only adds edges; with `dcov_fast` it does up
to level 1.

Missing from the full claim: `dcov_fast` with levels above 1 (`C226_false`). -/
theorem C226_monotone_partial (ppf : ℝ → Fl ℝ) (hppf : IsChi2Ppf ppf) (lib : TestLib ℝ N) (s : Fin N → Fin M → ℝ) (method : Method ℝ M)
    (a b : ℝ) (u v p q) (hab : a ≤ b) (hb : method = .name "dcov_fast" → b ≤ 1)
    (hu : estimateUDGAt ppf lib s method a = .ok (u, p)) (hv : estimateUDGAt ppf lib s method b = .ok (v, q)) :
    ∀ i j, u i j = true → v i j = true := by
  have lt_mono : ∀ x : Fl ℝ, x.lt a = true → x.lt b = true := by
    intro x hx
    cases x with
    | fin y => simp only [Fl.lt, decide_eq_true_eq] at hx ⊢; exact lt_of_lt_of_le hx hab
    | nan => exact hx
    | ninf => rfl
    | pinf => exact hx
  have clear : ∀ f : Fin M → Fin M → Fl ℝ, ∀ i j, clearDiag (fun i j => (f i j).lt a) i j = true → clearDiag (fun i j => (f i j).lt b) i j = true := by
    intro f i j h
    unfold clearDiag at h ⊢
    split
    · rename_i e; rw [if_pos e] at h; exact h
    · rename_i e; rw [if_neg e] at h; exact lt_mono _ h
  cases method with
  | pvals P =>
    cases hu; cases hv
    exact clear P
  | name m =>
    unfold estimateUDGAt at hu hv
    dsimp only at hu hv
    by_cases hm : m = "dcov_fast"
    · rw [if_pos hm] at hu hv
      cases hu; cases hv
      have hb1 := hb (by rw [hm])
      intro i j h
      by_cases ha : a ≤ 0
      · obtain ⟨w, hw, hn⟩ := C225_other_levels ppf hppf lib s a (Or.inl ha)
        cases hw
        rw [hn i j] at h; cases h
      · push Not at ha
        obtain ⟨w, hw, hn⟩ := C225_chi_square_test ppf hppf lib s a ha (hab.trans hb1)
        cases hw
        obtain ⟨w, hw, hn'⟩ := C225_chi_square_test ppf hppf lib s b (ha.trans_le hab) hb1
        cases hw
        rw [hn] at h
        rw [hn']
        exact ⟨h.1, h.2.1, h.2.2.1, h.2.2.2.1, h.2.2.2.2.trans (ENNReal.ofReal_le_ofReal hab)⟩
    · rw [if_neg hm] at hu hv
      unfold estimateUDG at hu hv
      dsimp only at hu hv
      rw [if_neg hm] at hu hv
      by_cases hg : m = "g-test"
      · rw [if_pos hg] at hu; cases hu
      rw [if_neg hg] at hu hv
      by_cases hd : m = "dcov_big"
      · rw [if_pos hd] at hu hv; cases hu; cases hv; exact clear _
      rw [if_neg hd] at hu hv
      by_cases hx : m = "xicor"
      · rw [if_pos hx] at hu hv; cases hu; cases hv; exact clear _
      rw [if_neg hx] at hu; cases hu

/-- two observations of two equal columns -/
def twoEqual : Fin 2 → Fin 2 → ℝ := fun k _ => k.val

theorem twoEqual_stat : Varies (fun k => twoEqual k 0) ∧ Varies (fun k => twoEqual k 1) ∧
    dcovStat (fun k => twoEqual k 0) (fun k => twoEqual k 1) = 1 / 2 := by
  refine ⟨⟨0, 1, by simp [twoEqual]⟩, ⟨0, 1, by simp [twoEqual]⟩, ?_⟩
  simp [dcovStat, meanDist, centredDist, twoEqual, Fin.sum_univ_two]
  norm_num

/-- at level 1 the two columns are joined, at level 2 they are not -/
theorem C226_false : ¬ C226_statement := by
  intro h
  obtain ⟨ppf, hppf⟩ := chi2Ppf_exists
  let lib : TestLib ℝ 2 := ⟨fun _ => 0, fun _ _ => .nan, fun _ _ => .nan⟩
  obtain ⟨u, hu, hu'⟩ := C225_chi_square_test ppf hppf lib twoEqual 1 one_pos le_rfl
  obtain ⟨v, hv, hv'⟩ := C225_other_levels ppf hppf lib twoEqual 2 (Or.inr one_lt_two)
  have h1 := h 2 2 ppf hppf lib twoEqual _ 1 2 u v none none one_pos one_le_two hu hv 0 1
  rw [hv'] at h1
  refine absurd (h1 ((hu' 0 1).mpr ⟨by decide, twoEqual_stat.1, twoEqual_stat.2.1, ?_, ?_⟩)) (by decide)
  · rw [twoEqual_stat.2.2]; norm_num
  · rw [ENNReal.ofReal_one]; exact prob_le_one

end Medil

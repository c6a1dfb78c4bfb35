import Verif.Props.NcfaXicor
import Verif.Props.XiLimit
import Verif.Proofs.Chi2
import Verif.Props.NcfaStructure
/-
  C237: what NCFA's default test `xicor` can find in few rows.
-/
namespace Medil
open MeasureTheory ProbabilityTheory Finset
variable {n M : Nat}

theorem rankAvg_step {y : Fin n → ℝ} (hy : Function.Injective y) {a b : Fin n} (h : y a < y b) : rankAvg y a + 1 ≤ rankAvg y b := by
  have e : ∀ i, (univ.filter fun j => y j = y i) = {i} := by
    intro i; ext j; simp [hy.eq_iff]
  have hc : (univ.filter fun j => y j < y a).card + 1 ≤ (univ.filter fun j => y j < y b).card := by
    refine Finset.card_lt_card ?_
    rw [Finset.ssubset_iff_of_subset (fun j hj => by
      simp only [mem_filter, mem_univ, true_and] at hj ⊢; exact hj.trans h)]
    exact ⟨a, by simpa using h, by simp⟩
  unfold rankAvg
  rw [e, e, card_singleton, card_singleton]
  have : ((univ.filter fun j => y j < y a).card : ℝ) + 1 ≤ (univ.filter fun j => y j < y b).card := by exact_mod_cast hc
  linarith

theorem rankAvg_gap {y : Fin n → ℝ} (hy : Function.Injective y) {a b : Fin n} (h : a ≠ b) : 1 ≤ |rankAvg y a - rankAvg y b| := by
  rcases lt_or_gt_of_ne (fun e => h (hy e)) with h | h
  · have := rankAvg_step hy h
    rw [abs_sub_comm]
    exact le_trans (by linarith) (le_abs_self _)
  · have := rankAvg_step hy h
    exact le_trans (by linarith) (le_abs_self _)

/-- without ties in `y` the statistic is at most `(n-2)/(n+1)`, its value for a monotone relation -/
theorem xiVal_le (srt : ArgSort ℝ) (x y : Fin n → ℝ) (hn : 2 ≤ n) (hy : Function.Injective y) : xiVal srt x y ≤ ((n : ℝ) - 2) / (n + 1) := by
  obtain ⟨m, rfl⟩ : ∃ m, n = m + 1 := ⟨n - 1, by omega⟩
  have hm : (1 : ℝ) ≤ m := by exact_mod_cast (show 1 ≤ m by omega)
  have hcu : xiCu y = _ := xiCu_strict y (by omega) (Tuple.sort y)
    (Or.inl ((Tuple.monotone_sort y).strictMono_of_injective (hy.comp (Tuple.sort y).injective)))
  have hA : (m : ℝ) / (2 * ((m + 1 : ℕ) : ℝ) ^ 2) ≤ xiA1 srt x y := by
    unfold xiA1
    rw [absDiffSum_succ]
    have h1 : (m : ℝ) * (1 / ((m + 1 : ℕ) : ℝ)) ≤ ∑ k : Fin m, |xiFr y (srt.sort (rankAvg x) k.succ) - xiFr y (srt.sort (rankAvg x) k.castSucc)| := by
      have : ∑ k : Fin m, (1 / ((m + 1 : ℕ) : ℝ)) = (m : ℝ) * (1 / ((m + 1 : ℕ) : ℝ)) := by simp
      rw [← this]
      refine sum_le_sum fun k _ => ?_
      unfold xiFr
      rw [← sub_div, abs_div, abs_of_pos (show (0 : ℝ) < ((m + 1 : ℕ) : ℝ) by positivity)]
      refine div_le_div_of_nonneg_right (rankAvg_gap hy fun e => ?_) (by positivity)
      exact absurd ((srt.sort (rankAvg x)).injective e) (Fin.castSucc_lt_succ).ne'
    rw [le_div_iff₀ (by positivity)]
    refine le_trans (le_of_eq ?_) h1
    field_simp
  unfold xiVal
  rw [hcu]
  push_cast at hA ⊢
  have hm0 : (0 : ℝ) < m := by linarith
  rw [show (m : ℝ) + 1 - 1 = m by ring, show (m : ℝ) + 1 - 2 = m - 1 by ring]
  have e : ((m : ℝ) - 1) / (m + 1 + 1) = 1 - (m / (2 * ((m : ℝ) + 1) ^ 2)) / (((m : ℝ) + 1 + 1) * m / (6 * (m + 1) ^ 2)) := by
    field_simp
    ring
  rw [e]
  gcongr

/-- the standard normal distribution function by the probability of a symmetric interval -/
theorem normal_cdf_sym (a : ℝ) (ha : 0 ≤ a) : cdf (gaussianReal 0 1) a = (1 + (gaussianReal 0 1).real {z : ℝ | z ^ 2 ≤ a ^ 2}) / 2 := by
  have e1 : {z : ℝ | z ^ 2 ≤ a ^ 2} = Set.Icc (-a) a := by
    ext z
    rw [Set.mem_ofPred_eq, sq_le_sq, abs_of_nonneg ha, abs_le, Set.mem_Icc]
  have e2 : (gaussianReal 0 1).real (Set.Iio (-a)) = (gaussianReal 0 1).real (Set.Ioi a) := by
    have h : (gaussianReal 0 1).map (fun x => -x) = gaussianReal 0 1 := by
      rw [gaussianReal_map_neg, neg_zero]
    conv_lhs => rw [← h]
    rw [map_measureReal_apply measurable_neg measurableSet_Iio]
    congr 1
    ext z
    simp
  have e3 : (gaussianReal 0 1).real (Set.Ioi a) = 1 - (gaussianReal 0 1).real (Set.Iic a) := by
    rw [← Set.compl_Iic, probReal_compl_eq_one_sub measurableSet_Iic]
  have e4 : Set.Iic a = Set.Iio (-a) ∪ Set.Icc (-a) a := by
    ext z
    simp only [Set.mem_Iic, Set.mem_union, Set.mem_Iio, Set.mem_Icc]
    constructor
    · intro h
      rcases lt_or_ge z (-a) with h' | h'
      · exact Or.inl h'
      · exact Or.inr ⟨h', h⟩
    · rintro (h | h)
      · linarith
      · exact h.2
  have e5 : (gaussianReal 0 1).real (Set.Iic a) = (gaussianReal 0 1).real (Set.Iio (-a)) + (gaussianReal 0 1).real (Set.Icc (-a) a) := by
    conv_lhs => rw [e4]
    exact measureReal_union (Set.disjoint_left.mpr fun x h1 h2 => absurd h2.1 (not_le.mpr h1)) measurableSet_Icc
  rw [cdf_eq_real, e1]
  linarith

/-- 1.63 is below the 95% point of the standard normal law -/
theorem normal_163 : cdf (gaussianReal 0 1) (163 / 100) < 95 / 100 := by
  have h : gaussianReal 0 1 {z : ℝ | z ^ 2 ≤ (163 / 100) ^ 2} < ENNReal.ofReal (90 / 100) := by
    refine lt_of_le_of_lt (gauss_upper (163 / 100) (by norm_num) 12 (by decide)) ?_
    rw [ENNReal.ofReal_lt_ofReal_iff (by norm_num)]
    have hp := Real.pi_pos
    rw [inv_mul_eq_div, div_lt_iff₀ (by positivity)]
    have : gaussTaylor 12 (163 / 100) / (90 / 100) < √(2 * Real.pi) := by
      refine Real.lt_sqrt_of_sq_lt ?_
      have hpi := Real.pi_gt_d6
      have : (gaussTaylor 12 (163 / 100) / (90 / 100)) ^ 2 < (2 * 3.141592 : ℝ) := by
        simp only [gaussTaylor, sum_range_succ, sum_range_zero, Nat.factorial]; norm_num
      linarith
    rw [div_lt_iff₀ (by norm_num)] at this
    linarith
  rw [normal_cdf_sym _ (by norm_num)]
  have h2 : (gaussianReal 0 1).real {z : ℝ | z ^ 2 ≤ (163 / 100) ^ 2} < 90 / 100 := by
    rw [measureReal_def]
    have := (ENNReal.toReal_lt_toReal (measure_ne_top _ _) ENNReal.ofReal_ne_top).mpr h
    rwa [ENNReal.toReal_ofReal (by norm_num)] at this
  linarith

/-- 2 is above it -/
theorem normal_2 : 95 / 100 < cdf (gaussianReal 0 1) 2 := by
  rw [normal_cdf_sym _ (by norm_num)]
  have h : 95 / 100 ≤ (gaussianReal 0 1).real {z : ℝ | z ^ 2 ≤ (196 / 100) ^ 2} := by
    rw [measureReal_def]
    have := ENNReal.toReal_mono (measure_ne_top _ _) gauss_196
    rwa [ENNReal.toReal_ofReal (by norm_num)] at this
  have h2 : (gaussianReal 0 1).real {z : ℝ | z ^ 2 ≤ (196 / 100) ^ 2} ≤ (gaussianReal 0 1).real {z : ℝ | z ^ 2 ≤ 2 ^ 2} :=
    measureReal_mono fun z hz => by
      rw [Set.mem_ofPred_eq] at hz ⊢
      norm_num at hz ⊢
      linarith
  linarith

/-- the argument of the distribution function for a monotone relation, squared -/
theorem xi_z_sq (n : ℕ) (hn : 2 ≤ n) : (Real.sqrt n * (((n : ℝ) - 2) / (n + 1)) / Real.sqrt ((2 * n ^ 2 + 7) / (5 * (n ^ 2 - 1)))) ^ 2 =
    5 * n * (n - 2) ^ 2 * (n - 1) / ((n + 1) * (2 * n ^ 2 + 7)) := by
  have hn2 : (2 : ℝ) ≤ n := by exact_mod_cast hn
  have hd : (0 : ℝ) < n - 1 := by linarith
  have hd2 : (0 : ℝ) < (n : ℝ) ^ 2 - 1 := by nlinarith
  rw [div_pow, mul_pow, Real.sq_sqrt (by positivity), Real.sq_sqrt (by positivity)]
  rw [show (n : ℝ) ^ 2 - 1 = (n - 1) * (n + 1) by ring]
  field_simp

/-- **C237** With the test `"xicor"` at the level 0.05, the defaults of `NeuroCausalFactorAnalysis`, and at most five observations without ties in
any measurement, `estimate_UDG` returns a graph without edges, whatever the values are. -/
theorem C237_five_observations (srt : ArgSort ℝ) (lib : TestLib ℝ n) (hlib : lib.xicorTest = xicorTest srt (cdf (gaussianReal 0 1)))
    (h2 : 2 ≤ n) (h5 : n ≤ 5) (s : Fin n → Fin M → ℝ) (hs : ∀ j, Function.Injective fun k => s k j) :
    ∃ u p, estimateUDG lib s (.name "xicor") (5 / 100) = .ok (u, p) ∧ ∀ i j, u i j = false := by
  obtain ⟨u, p, h, hd, hu⟩ := xicor_edges srt _ lib hlib s (5 / 100)
  have main : ∀ i j, i < j → u i j = false := by
    intro i j hij
    rw [Bool.eq_false_iff, ne_eq, (hu i j hij).1, xicorTest_inj srt _ _ _ h2 (hs j), not_lt]
    have hz : Real.sqrt n * xiVal srt (fun k => s k i) (fun k => s k j) / Real.sqrt ((2 * n ^ 2 + 7) / (5 * (n ^ 2 - 1))) ≤ 163 / 100 := by
      refine le_trans (div_le_div_of_nonneg_right (mul_le_mul_of_nonneg_left (xiVal_le srt _ _ h2 (hs j)) (Real.sqrt_nonneg _)) (Real.sqrt_nonneg _)) ?_
      refine abs_le_of_sq_le_sq' ?_ (by norm_num) |>.2
      rw [xi_z_sq n h2]
      interval_cases n <;> norm_num
    have := monotone_cdf (gaussianReal 0 1) hz
    linarith [normal_163]
  refine ⟨u, p, h, fun i j => ?_⟩
  rcases lt_trichotomy i j with hij | rfl | hij
  · exact main i j hij
  · exact hd i
  · rw [(hu j i hij).2]; exact main j i hij

/-- **C237** Five is the exact limit: from six observations on, two measurements one of which is a strictly monotone function of the other are
joined. -/
theorem C237_six_observations (srt : ArgSort ℝ) (lib : TestLib ℝ n) (hlib : lib.xicorTest = xicorTest srt (cdf (gaussianReal 0 1)))
    (h6 : 6 ≤ n) (s : Fin n → Fin M → ℝ) (i j : Fin M) (hij : i ≠ j) (hi : Function.Injective fun k => s k i)
    (h : (∀ a b, s a i < s b i → s a j < s b j) ∨ ∀ a b, s a i < s b i → s b j < s a j) :
    ∃ u p, estimateUDG lib s (.name "xicor") (5 / 100) = .ok (u, p) ∧ u i j = true := by
  obtain ⟨u, p, he, hd, hu⟩ := xicor_edges srt _ lib hlib s (5 / 100)
  have main : ∀ x y : Fin n → ℝ, Function.Injective x → Function.Injective y → ((∀ a b, x a < x b → y a < y b) ∨ ∀ a b, x a < x b → y b < y a) →
      (xicorTest srt (cdf (gaussianReal 0 1)) x y).lt (5 / 100) = true := by
    intro x y hx hy hxy
    rw [xicorTest_inj srt _ _ _ (by omega) hy]
    have hv : xiVal srt x y = ((n : ℝ) - 2) / (n + 1) := by
      have h1 := xiStat_val srt x y (by omega)
      rw [C53_xi_monotone srt x y (by omega) hx hxy] at h1
      injection h1 with h1
      exact h1.symm
    have hn : (6 : ℝ) ≤ n := by exact_mod_cast h6
    have hz : 2 ≤ Real.sqrt n * xiVal srt x y / Real.sqrt ((2 * n ^ 2 + 7) / (5 * (n ^ 2 - 1))) := by
      rw [hv]
      have h0 : (0 : ℝ) ≤ (n : ℝ) - 2 := by linarith
      refine abs_le_of_sq_le_sq' ?_ (by positivity) |>.2
      rw [xi_z_sq n (by omega), le_div_iff₀ (by positivity)]
      obtain ⟨t, ht⟩ : ∃ t : ℝ, (n : ℝ) = t + 6 := ⟨n - 6, by ring⟩
      have ht0 : 0 ≤ t := by linarith
      rw [ht]
      nlinarith [mul_nonneg ht0 ht0, mul_nonneg (mul_nonneg ht0 ht0) ht0, mul_nonneg (mul_nonneg ht0 ht0) (mul_nonneg ht0 ht0)]
    have := monotone_cdf (gaussianReal 0 1) hz
    linarith [normal_2]
  have hne : ∀ a b, s a i ≠ s b i → s a j ≠ s b j := by
    intro a b hab
    rcases lt_or_gt_of_ne hab with h' | h' <;> rcases h with h | h
    · exact (h _ _ h').ne
    · exact (h _ _ h').ne'
    · exact (h _ _ h').ne'
    · exact (h _ _ h').ne
  have hj : Function.Injective fun k => s k j := fun a b e => hi (by by_contra hc; exact hne a b hc e)
  have hback : (∀ a b, s a j < s b j → s a i < s b i) ∨ ∀ a b, s a j < s b j → s b i < s a i := by
    refine h.imp (fun h a b hab => ?_) fun h a b hab => ?_
    · rcases lt_trichotomy (s a i) (s b i) with h' | h' | h'
      · exact h'
      · rw [hi h'] at hab; exact absurd hab (lt_irrefl _)
      · exact absurd (h _ _ h') (not_lt.mpr hab.le)
    · rcases lt_trichotomy (s b i) (s a i) with h' | h' | h'
      · exact h'
      · rw [hi h'] at hab; exact absurd hab (lt_irrefl _)
      · exact absurd (h _ _ h') (not_lt.mpr hab.le)
  refine ⟨u, p, he, ?_⟩
  rcases lt_or_gt_of_ne hij with hl | hl
  · exact ((hu i j hl).1).mpr (main _ _ hi hj h)
  · rw [(hu j i hl).2]
    exact ((hu j i hl).1).mpr (main _ _ hj hi hback)

/-- one latent for each measurement -/
def oneEach (M : Nat) : List (BVec M) := (List.finRange M).map fun i => BVec.of fun j => decide (j = i)

/-- **C237** So with the default hyperparameters a fit of `NeuroCausalFactorAnalysis` without a graph to at most five observations without ties
finds the structure with one latent for each measurement, whatever the data are. -/
theorem C237_structure (lib : ∀ N, TestLib ℝ N) (hlib : UsesXicor lib (cdf (gaussianReal 0 1))) (o : Sched M) (st : NState M) (hM : 0 < M)
    (hU : st.udg = none) (h2 : 2 ≤ n) (h5 : n ≤ 5) (s : Fin n → Fin M → ℝ) (hs : ∀ j, Function.Injective fun k => s k j) :
    FindsStructure lib {} o (st.withData h2 s) (oneEach M) := by
  obtain ⟨srt, hx⟩ := hlib n
  obtain ⟨u, p, hu, hf⟩ := C237_five_observations srt (lib n) hx h2 h5 s hs
  have hget : ∀ r ∈ oneEach M, ∃ a, ∀ j, r j = decide (j = a) := by
    intro r hr
    obtain ⟨a, -, rfl⟩ := List.mem_map.mp hr
    exact ⟨a, fun j => by simp⟩
  have hU : IsUDGOf (BMat.of u) (oneEach M) := by
    intro i j hij
    rw [show (BMat.of u) i j = u i j by simp, hf]
    simp only [Bool.false_eq_true, false_iff]
    rintro ⟨r, hr, h1, h2⟩
    obtain ⟨a, ha⟩ := hget r hr
    rw [ha, decide_eq_true_eq] at h1 h2
    exact hij (h1.trans h2.symm)
  have hB : OnePureChild (oneEach M) := by
    constructor
    · intro i hi
      have hi' : i < M := by simpa [oneEach] using hi
      refine ⟨⟨i, hi'⟩, fun j hj => ?_⟩
      simp [oneEach, Fin.ext_iff, eq_comm]
    · intro j
      exact ⟨BVec.of fun k => decide (k = j), List.mem_map.mpr ⟨j, List.mem_finRange j, rfl⟩, by simp⟩
  obtain ⟨V, C, h3, -, h4⟩ := C125_recovers lib {} o (st.withData h2 s) hM (BMat.of u)
    (Or.inr ⟨by assumption, _, u, p, rfl, hu, fun i j => by simp⟩) _ hB hU
  exact ⟨_, h3, h4⟩

/-- the hypotheses are met: three equal measurements; five observations give no edge, six give them all -/
theorem C237_example (lib : ∀ N, TestLib ℝ N) (hlib : UsesXicor lib (cdf (gaussianReal 0 1))) :
    (∃ u p, estimateUDG (lib 5) (fun (k : Fin 5) (_ : Fin 3) => (k.val : ℝ)) (.name "xicor") (5 / 100) = .ok (u, p) ∧ ∀ i j, u i j = false) ∧
    ∀ i j : Fin 3, i ≠ j →
      ∃ u p, estimateUDG (lib 6) (fun (k : Fin 6) (_ : Fin 3) => (k.val : ℝ)) (.name "xicor") (5 / 100) = .ok (u, p) ∧ u i j = true := by
  obtain ⟨s5, h5⟩ := hlib 5
  obtain ⟨s6, h6⟩ := hlib 6
  refine ⟨C237_five_observations s5 _ h5 (by norm_num) (by norm_num) _ fun _ a b h => Fin.ext (Nat.cast_injective h), fun i j hij => ?_⟩
  exact C237_six_observations s6 _ h6 (by norm_num) _ i j hij (fun a b h => Fin.ext (Nat.cast_injective h)) (Or.inl fun a b h => h)

end Medil

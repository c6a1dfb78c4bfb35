import Verif.Proofs.UnifRow
import Verif.Proofs.XiTieFree
/-
  The ranks of independent uniform variables: every order has the same probability.
-/
namespace Medil
open MeasureTheory Finset Equiv
variable {n : ℕ}

theorem rankDist_absDiffSum (z : Fin n → ℝ) : rankDist z = absDiffSum fun k => (rankD z k : ℝ) := by
  unfold rankDist absDiffSum
  refine sum_congr rfl fun k _ => ?_
  split_ifs with h
  swap
  · rfl
  obtain ⟨a, ha⟩ : ∃ a : Fin n, a = ⟨k, by omega⟩ := ⟨_, rfl⟩
  obtain ⟨b, hb⟩ : ∃ b : Fin n, b = ⟨k + 1, h⟩ := ⟨_, rfl⟩
  rw [← ha, ← hb]
  have e : ∀ i, (rankD z i : ℝ) = ∑ j, sgn3 (z j) (z i) := fun i => by
    unfold rankD sgn3
    push_cast
    rfl
  have hmono : ∀ (c : ℝ) {u v : ℝ}, u ≤ v → sgn3 c u ≤ sgn3 c v := by
    intro c u v huv
    unfold sgn3
    by_cases h1 : c < u
    · rw [if_pos h1, if_pos (h1.trans_le huv)]
    · rw [if_neg h1]
      by_cases h2 : u < c
      · rw [if_pos h2]
        split_ifs <;> norm_num
      · have h3 : u = c := le_antisymm (not_lt.mp h1) (not_lt.mp h2)
        rw [if_neg h2, ← h3]
        rcases lt_or_eq_of_le huv with h4 | h4
        · rw [if_pos h4]; norm_num
        · simp [h4]
  dsimp only
  rw [e, e]
  unfold betw
  rcases le_total (z a) (z b) with hab | hab
  · rw [← sum_sub_distrib, abs_of_nonneg (sum_nonneg fun j _ => sub_nonneg.mpr (hmono _ hab))]
    refine sum_congr rfl fun j _ => ?_
    rw [abs_sub_comm, abs_of_nonneg (sub_nonneg.mpr (hmono _ hab))]
  · rw [abs_sub_comm, ← sum_sub_distrib, abs_of_nonneg (sum_nonneg fun j _ => sub_nonneg.mpr (hmono _ hab))]
    refine sum_congr rfl fun j _ => ?_
    rw [abs_of_nonneg (sub_nonneg.mpr (hmono _ hab))]

/-- the sum of the distances of neighbours in a permutation of `1, …, n` (twice) -/
noncomputable def orderDist (π : Perm (Fin n)) : ℝ := absDiffSum fun k => 2 * ((π k).val : ℝ) - ((n : ℝ) - 1)

/-- values without ties, in all orders -/
theorem rankDist_perms (y : Fin n → ℝ) (hy : Function.Injective y) (σ : Perm (Fin n)) :
    ∃ e : Perm (Fin n) ≃ Perm (Fin n), ∀ π, rankDist (fun k => y (π (σ k))) = orderDist (e π) := by
  obtain ⟨e, he⟩ := rankD_inj y hy
  refine ⟨(Equiv.mulLeft e⁻¹).trans (Equiv.mulRight σ), fun π => ?_⟩
  rw [rankDist_absDiffSum]
  unfold orderDist
  congr 1
  funext k
  have h1 := rankD_permuted y (π * σ) k
  have h2 := he (e⁻¹ (π (σ k)))
  rw [← Perm.mul_apply, mul_inv_cancel, Perm.one_apply] at h2
  have h3 : rankD (fun k => y (π (σ k))) k = rankD y (π (σ k)) := h1
  rw [h3, h2]
  rfl

theorem sum_rankDist_perms (y : Fin n → ℝ) (hy : Function.Injective y) (σ : Perm (Fin n)) (G : ℝ → ℝ) :
    ∑ π : Perm (Fin n), G (rankDist fun k => y (π (σ k))) = ∑ π : Perm (Fin n), G (orderDist π) := by
  obtain ⟨e, he⟩ := rankDist_perms y hy σ
  simp only [he]
  exact Equiv.sum_comp e fun π => G (orderDist π)

theorem rankDist_measurable : Measurable fun z : Fin n → ℝ => rankDist z := by
  unfold rankDist
  refine Finset.measurable_fun_sum _ fun k _ => ?_
  split_ifs with h
  · exact Finset.measurable_fun_sum _ fun j _ => term_measurable _ _ _
  · exact measurable_const

theorem rankDist_bound (z : Fin n → ℝ) : |rankDist z| ≤ 2 * n * n := by
  unfold rankDist
  refine (abs_sum_le_sum_abs _ _).trans ((sum_le_sum (g := fun _ => 2 * (n : ℝ)) fun k _ => ?_).trans ?_)
  · split_ifs with h
    · refine (abs_sum_le_sum_abs _ _).trans ((sum_le_sum fun j _ => betw_bound _ _ _).trans ?_)
      simp [mul_comm]
    · simp
  · rw [sum_const, card_range, nsmul_eq_mul]
    have : ((n - 1 : ℕ) : ℝ) ≤ n := by exact_mod_cast Nat.sub_le _ _
    nlinarith [(Nat.cast_nonneg n : (0 : ℝ) ≤ n)]

/-- almost surely there are no ties -/
theorem unifs_injective : ∀ᵐ z ∂unifs n, Function.Injective z := by
  have h : ∀ a b : Fin n, a ≠ b → ∀ᵐ z ∂unifs n, z a ≠ z b := by
    intro a b hab
    have hm : MeasurableSet {p : ℝ × ℝ | p.1 = p.2} := measurableSet_eq_fun measurable_fst measurable_snd
    have hmz : MeasurableSet {z : Fin n → ℝ | z a = z b} := measurableSet_eq_fun (measurable_pi_apply a) (measurable_pi_apply b)
    have h1 := integral_two (n := n) a b hab (F := {p : ℝ × ℝ | p.1 = p.2}.indicator fun _ => (1 : ℝ)) (measurable_const.indicator hm) (c := 1)
      fun p => by unfold Set.indicator; split_ifs <;> simp
    have h2 : ∀ u : ℝ, ∫ v, ({p : ℝ × ℝ | p.1 = p.2}.indicator (fun _ => (1 : ℝ)) (u, v)) ∂unif = 0 := by
      intro u
      have : (fun v : ℝ => {p : ℝ × ℝ | p.1 = p.2}.indicator (fun _ => (1 : ℝ)) (u, v)) =ᵐ[unif] fun _ => 0 := by
        have hn : ∀ᵐ c ∂unif, c ≠ u := by
          unfold unif
          exact ae_restrict_of_ae (Measure.ae_ne volume u)
        filter_upwards [hn] with v hv
        exact Set.indicator_of_notMem (s := {p : ℝ × ℝ | p.1 = p.2}) (a := (u, v)) (fun h => hv (Eq.symm h)) (fun _ => (1 : ℝ))
      rw [integral_congr_ae this]
      simp
    simp only [h2, integral_zero] at h1
    have h3 : ∫ z, {z : Fin n → ℝ | z a = z b}.indicator (fun _ => (1 : ℝ)) z ∂unifs n = 0 := h1
    rw [integral_indicator hmz, setIntegral_const, smul_eq_mul, mul_one, measureReal_eq_zero_iff] at h3
    rw [ae_iff]
    simpa using h3
  have h' : ∀ᵐ z ∂unifs n, ∀ a b : Fin n, a ≠ b → z a ≠ z b := by
    rw [ae_all_iff]; intro a
    rw [ae_all_iff]; intro b
    by_cases hab : a = b
    · exact Filter.Eventually.of_forall fun z h => absurd hab h
    · filter_upwards [h a b hab] with z hz _
      exact hz
  filter_upwards [h'] with z hz a b hab
  by_contra hne
  exact hz a b hne hab

theorem unifs_perm (π : Perm (Fin n)) : MeasurePreserving (fun z : Fin n → ℝ => fun k => z (π k)) (unifs n) (unifs n) := by
  have h := measurePreserving_piCongrLeft (α := fun _ : Fin n => ℝ) (fun _ => unif) π.symm
  have e : (fun z : Fin n → ℝ => fun k => z (π k)) = MeasurableEquiv.piCongrLeft (fun _ : Fin n => ℝ) π.symm := by
    funext z k
    have := MeasurableEquiv.piCongrLeft_apply_apply (β := fun _ : Fin n => ℝ) π.symm z (π k)
    simpa using this.symm
  unfold unifs
  rw [e]; exact h

/-- functions of the distances of the ranks: the mean over the permutations -/
theorem integral_rankDist (G : ℝ → ℝ) (hG : Measurable G) {c : ℝ} (hc : ∀ t : ℝ, |t| ≤ 2 * n * n → |G t| ≤ c) :
    ∫ z, G (rankDist z) ∂unifs n = permAvg fun π : Perm (Fin n) => G (orderDist π) := by
  have hf : (n.factorial : ℝ) ≠ 0 := by exact_mod_cast n.factorial_ne_zero
  have hm : Measurable fun z : Fin n → ℝ => G (rankDist z) := hG.comp rankDist_measurable
  have hb : ∀ z : Fin n → ℝ, |G (rankDist z)| ≤ c := fun z => hc _ (rankDist_bound z)
  have h1 : ∀ π : Perm (Fin n), ∫ z, G (rankDist fun k => z (π k)) ∂unifs n = ∫ z, G (rankDist z) ∂unifs n := by
    intro π
    have := unifs_perm (n := n) π
    conv_rhs => rw [← this.map_eq]
    rw [integral_map this.measurable.aemeasurable hm.aestronglyMeasurable]
  have h2 : ∑ π : Perm (Fin n), ∫ z, G (rankDist fun k => z (π k)) ∂unifs n = n.factorial * ∫ z, G (rankDist z) ∂unifs n := by
    simp only [h1]
    rw [sum_const, card_univ, Fintype.card_perm, Fintype.card_fin, nsmul_eq_mul]
  have hi : ∀ π : Perm (Fin n), Integrable (fun z : Fin n → ℝ => G (rankDist fun k => z (π k))) (unifs n) := fun π =>
    bounded_integrable (hm.comp (unifs_perm π).measurable) fun z => hb _
  rw [← integral_finsetSum _ fun π _ => hi π] at h2
  have h3 : (fun z : Fin n → ℝ => ∑ π : Perm (Fin n), G (rankDist fun k => z (π k))) =ᵐ[unifs n] fun _ => ∑ π : Perm (Fin n), G (orderDist π) := by
    filter_upwards [unifs_injective] with z hz
    exact sum_rankDist_perms z hz 1 G
  rw [integral_congr_ae h3, integral_const, probReal_univ, one_smul] at h2
  unfold permAvg
  rw [h2]
  field_simp

/-- the statistic of values without ties -/
noncomputable def xiOf (n : ℕ) (d : ℝ) : ℝ := 1 - 3 / (2 * ((n : ℝ) ^ 2 - 1)) * d

theorem xiVal_orderDist (srt : ArgSort ℝ) (x y : Fin n → ℝ) (hn : 2 ≤ n) (hy : Function.Injective y) :
    ∃ e : Perm (Fin n) ≃ Perm (Fin n), ∀ π, xiVal srt x (fun k => y (π k)) = xiOf n (orderDist (e π)) := by
  obtain ⟨e, he⟩ := rankDist_perms y hy (srt.sort (rankAvg x))
  refine ⟨e, fun π => ?_⟩
  have hn2 : (2 : ℝ) ≤ n := by exact_mod_cast hn
  have hcu : 4 * (n : ℝ) ^ 2 * xiCu y = 2 * ((n : ℝ) ^ 2 - 1) / 3 := by
    have h2 := sum_sq_rankD_tie y
    rw [(tieSum_zero y).mpr hy, sub_zero] at h2
    rw [xiCu_rankD y (by omega), show ∑ i, (rankD y i : ℝ) ^ 2 = (n : ℝ) * ((n : ℝ) ^ 2 - 1) / 3 by linarith]
    have : (n : ℝ) ≠ 0 := by linarith
    field_simp
    ring
  rw [xiVal_perm srt x y π (by omega), hcu, one_div_div, ← he π, rankDist_absDiffSum]
  have : ∀ k, rankD (fun k => y (π (srt.sort (rankAvg x) k))) k = rankD y (π (srt.sort (rankAvg x) k)) := fun k =>
    rankD_permuted y (π * srt.sort (rankAvg x)) k
  simp only [this]
  rfl

/-- mean square of the statistic -/
theorem integral_xiOf_sq (hn : 4 ≤ n) : ∫ z, xiOf n (rankDist z) ^ 2 ∂unifs n = ((n : ℝ) - 2) * (4 * n - 7) / (10 * ((n : ℝ) + 1) * ((n : ℝ) - 1) ^ 2) := by
  have hm : Measurable fun d : ℝ => xiOf n d ^ 2 := by unfold xiOf; fun_prop
  have hn4 : (4 : ℝ) ≤ n := by exact_mod_cast hn
  have hc : 0 ≤ 3 / (2 * ((n : ℝ) ^ 2 - 1)) := div_nonneg (by norm_num) (by nlinarith)
  rw [integral_rankDist (n := n) _ hm (c := (1 + 3 / (2 * ((n : ℝ) ^ 2 - 1)) * (2 * n * n)) ^ 2) fun t ht => by
    unfold xiOf
    rw [abs_pow]
    refine pow_le_pow_left₀ (abs_nonneg _) ?_ 2
    refine (abs_sub _ _).trans ?_
    rw [abs_one, abs_mul, abs_of_nonneg hc]
    gcongr]
  obtain ⟨srt⟩ : Nonempty (ArgSort ℝ) := ⟨⟨fun f => Tuple.sort f, fun f => Tuple.monotone_sort f⟩⟩
  have hinj : Function.Injective fun k : Fin n => (k.val : ℝ) := fun a b h => Fin.ext (Nat.cast_injective (R := ℝ) h)
  rw [← (permVar_xiVal_inj srt (fun k : Fin n => (k.val : ℝ)) (fun k : Fin n => (k.val : ℝ)) hn hinj).2]
  obtain ⟨e, he⟩ := xiVal_orderDist srt (fun k : Fin n => (k.val : ℝ)) (fun k : Fin n => (k.val : ℝ)) (by omega) hinj
  unfold permAvg
  simp only [he]
  rw [Equiv.sum_comp e fun π => xiOf n (orderDist π) ^ 2]

/-- the probability of an event is the share of the permutations -/
theorem unifs_rankDist (E : Set ℝ) (hE : MeasurableSet E) [DecidablePred fun π : Perm (Fin n) => orderDist π ∈ E] :
    ((univ.filter fun π : Perm (Fin n) => orderDist π ∈ E).card : ℝ) = (unifs n).real {z | rankDist z ∈ E} * n.factorial := by
  classical
  have hf : (n.factorial : ℝ) ≠ 0 := by exact_mod_cast n.factorial_ne_zero
  have h := integral_rankDist (n := n) (E.indicator fun _ => 1) (measurable_const.indicator hE) (c := 1) fun t _ => by
    unfold Set.indicator; split_ifs <;> simp
  have hm : MeasurableSet {z : Fin n → ℝ | rankDist z ∈ E} := rankDist_measurable hE
  have h1 : ∫ z, E.indicator (fun _ => (1 : ℝ)) (rankDist z) ∂unifs n = (unifs n).real {z | rankDist z ∈ E} := by
    have : ∀ z : Fin n → ℝ, E.indicator (fun _ => (1 : ℝ)) (rankDist z) = {z : Fin n → ℝ | rankDist z ∈ E}.indicator (fun _ => 1) z := fun z => rfl
    simp only [this]
    rw [integral_indicator hm, setIntegral_const, smul_eq_mul, mul_one]
  rw [← h1, h]
  unfold permAvg
  rw [div_mul_cancel₀ _ hf, ← sum_boole]
  exact sum_congr rfl fun π _ => by simp [Set.indicator]

end Medil

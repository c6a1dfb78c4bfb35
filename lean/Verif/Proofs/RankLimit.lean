import Verif.Proofs.AdjExcess
import Verif.Proofs.XiRange
/-
  Ranks in large samples, and thresholds of the ranks.
-/
namespace Medil
open MeasureTheory Finset
variable {n m : ℕ}

/-- the probability below `y`, plus half of that of `y` itself -/
noncomputable def midrank (ν : Measure (ℝ × ℝ)) (y : ℝ) : ℝ := (1 + (ν.real {w | w.2 < y} - ν.real {w | y < w.2})) / 2

theorem midrank_mono (ν : Measure (ℝ × ℝ)) [IsProbabilityMeasure ν] : Monotone (midrank ν) := by
  intro a b h
  unfold midrank
  have h1 : ν.real {w | w.2 < a} ≤ ν.real {w | w.2 < b} := measureReal_mono (fun w hw => lt_of_lt_of_le hw h)
  have h2 : ν.real {w | b < w.2} ≤ ν.real {w | a < w.2} := measureReal_mono (fun w hw => lt_of_le_of_lt h hw)
  linarith

theorem midrank_mem (ν : Measure (ℝ × ℝ)) [IsProbabilityMeasure ν] (y : ℝ) : 0 ≤ midrank ν y ∧ midrank ν y ≤ 1 := by
  unfold midrank
  have h1 : ν.real {w | w.2 < y} ≤ 1 := measureReal_le_one
  have h2 : ν.real {w | y < w.2} ≤ 1 := measureReal_le_one
  have h3 : 0 ≤ ν.real {w | w.2 < y} := measureReal_nonneg
  have h4 : 0 ≤ ν.real {w | y < w.2} := measureReal_nonneg
  constructor <;> linarith

/-- the sign of the difference -/
noncomputable def ordSign (v y : ℝ) : ℝ := if v < y then 1 else if y < v then -1 else 0

theorem ordSign_abs (v y : ℝ) : |ordSign v y| ≤ 1 := by
  unfold ordSign; split_ifs <;> simp

theorem ordSign_measurable : Measurable fun p : ℝ × ℝ => ordSign p.1 p.2 :=
  Measurable.ite (measurableSet_lt measurable_fst measurable_snd) measurable_const
    (Measurable.ite (measurableSet_lt measurable_snd measurable_fst) measurable_const measurable_const)

theorem rankD_ordSign (y : Fin n → ℝ) (a : Fin n) : (rankD y a : ℝ) = ∑ j, ordSign (y j) (y a) := by
  unfold rankD ordSign
  push_cast
  rfl

theorem integral_ordSign (ν : Measure (ℝ × ℝ)) [IsProbabilityMeasure ν] (y : ℝ) : ∫ w, ordSign w.2 y ∂ν = 2 * midrank ν y - 1 := by
  have hm1 : MeasurableSet {w : ℝ × ℝ | w.2 < y} := measurable_snd measurableSet_Iio
  have hm2 : MeasurableSet {w : ℝ × ℝ | y < w.2} := measurable_snd measurableSet_Ioi
  have e : ∀ w : ℝ × ℝ, ordSign w.2 y = ({w : ℝ × ℝ | w.2 < y}.indicator 1 w : ℝ) - {w : ℝ × ℝ | y < w.2}.indicator 1 w := by
    intro w
    unfold ordSign
    rcases lt_trichotomy w.2 y with h | h | h
    · simp [Set.indicator, h, h.not_gt]
    · simp [Set.indicator, h]
    · simp [Set.indicator, h, h.not_gt]
  simp only [e]
  have hi1 : Integrable (fun w => ({w : ℝ × ℝ | w.2 < y}.indicator 1 w : ℝ)) ν := (integrable_const (1 : ℝ)).indicator hm1
  have hi2 : Integrable (fun w => ({w : ℝ × ℝ | y < w.2}.indicator 1 w : ℝ)) ν := (integrable_const (1 : ℝ)).indicator hm2
  rw [integral_sub hi1 hi2, integral_indicator_one hm1, integral_indicator_one hm2]
  unfold midrank
  ring

/-- the ranks of `n` rows are near `n` times the limit -/
theorem rank_error (ν : Measure (ℝ × ℝ)) [IsProbabilityMeasure ν] (hn : 0 < n) :
    Integrable (fun z : Fin n → ℝ × ℝ => ∑ a, |(rankD (fun b => (z b).2) a : ℝ) - n * (2 * midrank ν (z a).2 - 1)|) (Measure.pi fun _ => ν) ∧
    ∫ z : Fin n → ℝ × ℝ, ∑ a, |(rankD (fun b => (z b).2) a : ℝ) - n * (2 * midrank ν (z a).2 - 1)| ∂(Measure.pi fun _ => ν) ≤ n * (2 * √n) := by
  have hWm : Measurable fun y => 2 * midrank ν y - 1 := ((midrank_mono ν).measurable.const_mul 2).sub_const 1
  have one : ∀ a : Fin n, Integrable (fun z : Fin n → ℝ × ℝ => (rankD (fun b => (z b).2) a : ℝ) - n * (2 * midrank ν (z a).2 - 1)) (Measure.pi fun _ => ν) ∧
      ∫ z : Fin n → ℝ × ℝ, |(rankD (fun b => (z b).2) a : ℝ) - n * (2 * midrank ν (z a).2 - 1)| ∂(Measure.pi fun _ => ν) ≤ 2 * √n := by
    intro a
    have e : ∀ z : Fin n → ℝ × ℝ, (rankD (fun b => (z b).2) a : ℝ) - n * (2 * midrank ν (z a).2 - 1) =
        ∑ j, (ordSign (z j).2 (z a).2 - (2 * midrank ν (z a).2 - 1)) := by
      intro z
      rw [rankD_ordSign, sum_sub_distrib]
      simp only [sum_const, card_univ, Fintype.card_fin, nsmul_eq_mul]
    simp only [e]
    have hm : ∀ j : Fin n, Measurable fun z : Fin n → ℝ × ℝ => ordSign (z j).2 (z a).2 - (2 * midrank ν (z a).2 - 1) := fun j =>
      (ordSign_measurable.comp ((by fun_prop : Measurable fun z : Fin n → ℝ × ℝ => ((z j).2, (z a).2)))).sub
        (hWm.comp (by fun_prop : Measurable fun z : Fin n → ℝ × ℝ => (z a).2))
    have hb : ∀ (j : Fin n) (z : Fin n → ℝ × ℝ), |ordSign (z j).2 (z a).2 - (2 * midrank ν (z a).2 - 1)| ≤ 2 := fun j z => by
      have h1 := abs_le.mp (ordSign_abs (z j).2 (z a).2)
      have h2 := midrank_mem ν (z a).2
      rw [abs_le]; constructor <;> linarith
    refine orth_sum (P := Measure.pi fun _ : Fin n => ν) _ hm two_pos hb (fun i j hij => ?_) hn
    have key : ∀ i j : Fin n, i ≠ j → a ≠ j → ∫ z : Fin n → ℝ × ℝ, (ordSign (z i).2 (z a).2 - (2 * midrank ν (z a).2 - 1)) *
        (ordSign (z j).2 (z a).2 - (2 * midrank ν (z a).2 - 1)) ∂(Measure.pi fun _ => ν) = 0 := by
      intro i j hij haj
      refine integral_resample_zero ν j ((hm i).mul (hm j)) (c := 2 * 2) (fun z => ?_) fun z => ?_
      · rw [abs_mul]; exact mul_le_mul (hb i z) (hb j z) (abs_nonneg _) (by norm_num)
      · simp only [Function.update_self, Function.update_of_ne hij, Function.update_of_ne haj]
        have hI : Integrable (fun w : ℝ × ℝ => ordSign w.2 (z a).2) ν :=
          bounded_integrable (ordSign_measurable.comp (by fun_prop : Measurable fun w : ℝ × ℝ => (w.2, (z a).2))) fun w => ordSign_abs _ _
        rw [integral_const_mul, integral_sub hI (integrable_const _), integral_ordSign]
        simp
    by_cases haj : a = j
    · have := key j i hij.symm (fun h => hij (h.symm.trans haj))
      rw [← this]
      congr 1
      funext z
      ring
    · exact key i j hij haj
  have hI : ∀ a : Fin n, Integrable (fun z : Fin n → ℝ × ℝ => |(rankD (fun b => (z b).2) a : ℝ) - n * (2 * midrank ν (z a).2 - 1)|) (Measure.pi fun _ => ν) :=
    fun a => (one a).1.abs
  refine ⟨integrable_finsetSum _ fun a _ => hI a, ?_⟩
  rw [integral_finsetSum _ fun a _ => hI a]
  calc _ ≤ ∑ _a : Fin n, 2 * √n := sum_le_sum fun a _ => (one a).2
    _ = n * (2 * √n) := by simp

/-! ### thresholds -/

/-- the number of the thresholds `1/L, ..., L/L` that are at most `u` -/
theorem thresholds_count (L : ℕ) (hL : 0 < L) {u : ℝ} (hu : 0 ≤ u ∧ u ≤ 1) :
    0 ≤ u - (∑ l ∈ range L, if ((l : ℝ) + 1) / L ≤ u then (1 : ℝ) else 0) / L ∧
      u - (∑ l ∈ range L, if ((l : ℝ) + 1) / L ≤ u then (1 : ℝ) else 0) / L ≤ 1 / L := by
  have hL0 : (0 : ℝ) < L := by exact_mod_cast hL
  have hLu : 0 ≤ u * L := mul_nonneg hu.1 hL0.le
  have hfl : ⌊u * L⌋₊ ≤ L := by
    have : u * L ≤ L := by nlinarith [hu.2]
    exact Nat.floor_le_of_le this
  have e : (∑ l ∈ range L, if ((l : ℝ) + 1) / L ≤ u then (1 : ℝ) else 0) = (⌊u * L⌋₊ : ℝ) := by
    rw [← sum_filter]
    have : (range L).filter (fun l : ℕ => ((l : ℝ) + 1) / L ≤ u) = range ⌊u * L⌋₊ := by
      ext l
      rw [mem_filter, mem_range, mem_range, div_le_iff₀ hL0]
      have h1 : (l : ℝ) + 1 ≤ u * L ↔ l + 1 ≤ ⌊u * L⌋₊ := by
        rw [Nat.le_floor_iff hLu]; push_cast; rfl
      rw [h1]
      omega
    rw [this]
    simp
  rw [e]
  have h1 := Nat.floor_le hLu
  have h2 := Nat.lt_floor_add_one (u * L)
  constructor
  · rw [sub_nonneg, div_le_iff₀ hL0]; exact h1
  · rw [sub_le_iff_le_add, ← add_div, le_div_iff₀ hL0]; linarith

theorem thresholds_diff (L : ℕ) (hL : 0 < L) {u v : ℝ} (hu : 0 ≤ u ∧ u ≤ 1) (hv : 0 ≤ v ∧ v ≤ 1) :
    |u - v| ≤ (1 / L) * (∑ l ∈ range L, ((if ((l : ℝ) + 1) / L ≤ u then (1 : ℝ) else 0) - if ((l : ℝ) + 1) / L ≤ v then 1 else 0) ^ 2) + 1 / L ∧
    (1 / L) * (∑ l ∈ range L, ((if ((l : ℝ) + 1) / L ≤ u then (1 : ℝ) else 0) - if ((l : ℝ) + 1) / L ≤ v then 1 else 0) ^ 2) ≤ |u - v| + 1 / L := by
  have hL0 : (0 : ℝ) < L := by exact_mod_cast hL
  wlog huv : v ≤ u generalizing u v
  · have := this hv hu (le_of_not_ge huv)
    rw [abs_sub_comm]
    have e : ∀ l ∈ range L, ((if ((l : ℝ) + 1) / L ≤ u then (1 : ℝ) else 0) - if ((l : ℝ) + 1) / L ≤ v then 1 else 0) ^ 2 =
        ((if ((l : ℝ) + 1) / L ≤ v then (1 : ℝ) else 0) - if ((l : ℝ) + 1) / L ≤ u then 1 else 0) ^ 2 := fun l _ => by ring
    rw [sum_congr rfl e]
    exact this
  have e : ∀ l ∈ range L, ((if ((l : ℝ) + 1) / L ≤ u then (1 : ℝ) else 0) - if ((l : ℝ) + 1) / L ≤ v then 1 else 0) ^ 2 =
      (if ((l : ℝ) + 1) / L ≤ u then (1 : ℝ) else 0) - if ((l : ℝ) + 1) / L ≤ v then 1 else 0 := by
    intro l _
    by_cases h1 : ((l : ℝ) + 1) / L ≤ v
    · simp [h1, h1.trans huv]
    · by_cases h2 : ((l : ℝ) + 1) / L ≤ u <;> simp [h1, h2]
  rw [sum_congr rfl e, sum_sub_distrib, abs_of_nonneg (sub_nonneg.mpr huv)]
  have h1 := thresholds_count L hL hu
  have h2 := thresholds_count L hL hv
  rw [mul_sub, one_div_mul_eq_div, one_div_mul_eq_div]
  constructor <;> linarith [h1.1, h1.2, h2.1, h2.2]

/-! ### the ranks of neighbours -/

/-- the covariance of a half-line of the first component and one of the limit ranks of the second -/
noncomputable def covLevel (ν : Measure (ℝ × ℝ)) (s t : ℝ) : ℝ :=
  ν.real {w | w.1 ≤ s ∧ t ≤ midrank ν w.2} - ν.real {w | w.1 ≤ s} * ν.real {w | t ≤ midrank ν w.2}

/-- rows sorted by the first component: the ranks of neighbours are nearer than those of other rows, by the squared covariances -/
theorem rank_excess (ν : Measure (ℝ × ℝ)) [IsProbabilityMeasure ν] (s : ℝ) (L : ℕ) (hL : 0 < L) {η : ℝ} (hη : 0 < η) :
    ∃ n0, ∀ m, n0 ≤ m + 1 → ∀ (σ : (Fin (m + 1) → ℝ) → Equiv.Perm (Fin (m + 1))), (∀ τ, MeasurableSet {x | σ x = τ}) →
      (∀ x : Fin (m + 1) → ℝ, Monotone fun k => x (σ x k)) →
      ∃ Err : (Fin (m + 1) → ℝ × ℝ) → ℝ, Integrable Err (Measure.pi fun _ => ν) ∧ (∀ z, 0 ≤ Err z) ∧
        ∫ z, Err z ∂(Measure.pi fun _ => ν) ≤ η * ((m + 1 : ℕ) : ℝ) ^ 2 ∧
        ∀ z, ∑ k : Fin m, |(rankD (fun b => (z b).2) (σ (fun a => (z a).1) k.succ) : ℝ) - rankD (fun b => (z b).2) (σ (fun a => (z a).1) k.castSucc)| ≤
          (1 / (m + 1 : ℕ)) * (∑ a, ∑ b, |(rankD (fun b => (z b).2) a : ℝ) - rankD (fun b => (z b).2) b|) -
          4 * ((m + 1 : ℕ) : ℝ) ^ 2 * ((1 / L) * (∑ l ∈ range L, covLevel ν s (((l : ℝ) + 1) / L) ^ 2) - 1 / L) + Err z := by
  have hL0 : (0 : ℝ) < L := by exact_mod_cast hL
  have hA : ∀ t : ℝ, MeasurableSet {y | t ≤ midrank ν y} := fun t => (midrank_mono ν).measurable measurableSet_Ici
  choose N0 hN0 using fun l : ℕ => adj_excess ν (hA (((l : ℝ) + 1) / L)) s (show 0 < η / 4 by linarith)
  obtain ⟨n1, hn1⟩ := exists_nat_ge ((16 / η) ^ 2)
  refine ⟨max n1 ((range L).sup N0), fun m hm σ hσ hmono => ?_⟩
  have hml : ∀ l ∈ range L, N0 l ≤ m + 1 := fun l hl => (le_sup hl).trans ((le_max_right _ _).trans hm)
  have hch : ∀ l : ℕ, ∃ Err : (Fin (m + 1) → ℝ × ℝ) → ℝ, l ∈ range L → _ := fun l => by
    by_cases hl : l ∈ range L
    · obtain ⟨E, hE⟩ := hN0 l m (hml l hl) σ hσ hmono
      exact ⟨E, fun _ => hE⟩
    · exact ⟨fun _ => 0, fun h => absurd h hl⟩
  choose E hE using hch
  obtain ⟨N, hN⟩ : ∃ N : ℝ, N = ((m + 1 : ℕ) : ℝ) := ⟨_, rfl⟩
  have hNp : 0 < N := by rw [hN]; positivity
  have hNn1 : (16 / η) ^ 2 ≤ N := hn1.trans (by rw [hN]; exact_mod_cast (le_max_left _ _).trans hm)
  obtain ⟨hRI, hR⟩ := rank_error ν (n := m + 1) (Nat.succ_pos m)
  rw [← hN] at hRI hR ⊢
  have hEI : Integrable (fun z => ∑ l ∈ range L, E l z) (Measure.pi fun _ : Fin (m + 1) => ν) := integrable_finsetSum _ fun l hl => (hE l hl).1
  refine ⟨fun z => 4 * (∑ a, |(rankD (fun b => (z b).2) a : ℝ) - N * (2 * midrank ν (z a).2 - 1)|) + (2 * N / L) * ∑ l ∈ range L, E l z,
    (hRI.const_mul 4).add (hEI.const_mul _), ?_, ?_, ?_⟩
  · intro z
    have h1 : 0 ≤ ∑ l ∈ range L, E l z := sum_nonneg fun l hl => (hE l hl).2.1 z
    have h2 : 0 ≤ ∑ a, |(rankD (fun b => (z b).2) a : ℝ) - N * (2 * midrank ν (z a).2 - 1)| := sum_nonneg fun a _ => abs_nonneg _
    positivity
  · rw [integral_add (hRI.const_mul 4) (hEI.const_mul _), integral_const_mul, integral_const_mul, integral_finsetSum _ fun l hl => (hE l hl).1]
    have h1 : ∑ l ∈ range L, ∫ z, E l z ∂(Measure.pi fun _ : Fin (m + 1) => ν) ≤ L * (η / 4 * N) := by
      calc ∑ l ∈ range L, ∫ z, E l z ∂(Measure.pi fun _ : Fin (m + 1) => ν) ≤ ∑ _l ∈ range L, η / 4 * N := by
            refine sum_le_sum fun l hl => ?_
            rw [hN]
            exact (hE l hl).2.2.1
        _ = L * (η / 4 * N) := by simp
    have h2 : (2 * N / L) * ∑ l ∈ range L, ∫ z, E l z ∂(Measure.pi fun _ : Fin (m + 1) => ν) ≤ η / 2 * N ^ 2 := by
      calc (2 * N / L) * ∑ l ∈ range L, ∫ z, E l z ∂(Measure.pi fun _ : Fin (m + 1) => ν) ≤ (2 * N / L) * (L * (η / 4 * N)) :=
            mul_le_mul_of_nonneg_left h1 (by positivity)
        _ = η / 2 * N ^ 2 := by field_simp; ring
    have h3 : √N * 16 ≤ η * N := by
      have h4 : 16 / η ≤ √N := Real.le_sqrt_of_sq_le hNn1
      rw [div_le_iff₀ hη] at h4
      calc √N * 16 ≤ √N * (√N * η) := mul_le_mul_of_nonneg_left h4 (Real.sqrt_nonneg _)
        _ = η * N := by rw [← mul_assoc, Real.mul_self_sqrt hNp.le, mul_comm]
    have h5 : 4 * (N * (2 * √N)) ≤ η / 2 * N ^ 2 := by nlinarith
    linarith
  · intro z
    obtain ⟨τ, hτ⟩ : ∃ τ, τ = σ fun a => (z a).1 := ⟨_, rfl⟩
    rw [← hτ]
    obtain ⟨D, hD⟩ : ∃ D : Fin (m + 1) → ℝ, D = fun a => (rankD (fun b => (z b).2) a : ℝ) := ⟨_, rfl⟩
    obtain ⟨u, hu⟩ : ∃ u : Fin (m + 1) → ℝ, u = fun a => midrank ν (z a).2 := ⟨_, rfl⟩
    obtain ⟨R, hRd⟩ : ∃ R : Fin (m + 1) → ℝ, R = fun a => |D a - N * (2 * u a - 1)| := ⟨_, rfl⟩
    have hu01 : ∀ a, 0 ≤ u a ∧ u a ≤ 1 := fun a => by rw [hu]; exact midrank_mem ν _
    have hclose : ∀ a b, |D a - D b| ≤ 2 * N * |u a - u b| + (R a + R b) := fun a b => by
      have e : D a - D b = 2 * N * (u a - u b) + (D a - N * (2 * u a - 1)) - (D b - N * (2 * u b - 1)) := by ring
      rw [e, hRd]
      refine (abs_sub _ _).trans ?_
      have h1 := abs_add_le (2 * N * (u a - u b)) (D a - N * (2 * u a - 1))
      rw [abs_mul, abs_of_pos (by linarith : (0 : ℝ) < 2 * N)] at h1
      dsimp only
      linarith
    have hclose' : ∀ a b, 2 * N * |u a - u b| ≤ |D a - D b| + (R a + R b) := fun a b => by
      have e : 2 * N * (u a - u b) = (D a - D b) - (D a - N * (2 * u a - 1)) + (D b - N * (2 * u b - 1)) := by ring
      have e2 : 2 * N * |u a - u b| = |2 * N * (u a - u b)| := by rw [abs_mul, abs_of_pos (by linarith : (0 : ℝ) < 2 * N)]
      rw [e2, e, hRd]
      refine (abs_add_le _ _).trans ?_
      have h1 := abs_sub (D a - D b) (D a - N * (2 * u a - 1))
      dsimp only
      linarith
    obtain ⟨i, hi⟩ : ∃ i : ℕ → Fin (m + 1) → ℝ, i = fun (l : ℕ) a => if ((l : ℝ) + 1) / L ≤ u a then (1 : ℝ) else 0 := ⟨_, rfl⟩
    -- neighbours
    have hsR := sum_neighbours_le R (fun a => by rw [hRd]; exact abs_nonneg _) τ
    have hA1 : ∑ k : Fin m, |D (τ k.succ) - D (τ k.castSucc)| ≤ 2 * N * (∑ k : Fin m, |u (τ k.succ) - u (τ k.castSucc)|) + 2 * ∑ a, R a := by
      refine (sum_le_sum fun k (_ : k ∈ univ) => hclose (τ k.succ) (τ k.castSucc)).trans ?_
      rw [sum_add_distrib, ← mul_sum]
      linarith
    have hA2 : ∑ k : Fin m, |u (τ k.succ) - u (τ k.castSucc)| ≤
        (1 / L) * (∑ l ∈ range L, ∑ k : Fin m, (i l (τ k.succ) - i l (τ k.castSucc)) ^ 2) + N / L := by
      refine (sum_le_sum fun k (_ : k ∈ univ) => (thresholds_diff L hL (hu01 (τ k.succ)) (hu01 (τ k.castSucc))).1).trans ?_
      rw [sum_add_distrib, ← mul_sum, sum_comm, hi]
      simp only [sum_const, card_univ, Fintype.card_fin, nsmul_eq_mul]
      have : (m : ℝ) * (1 / L) ≤ N / L := by
        rw [mul_one_div]
        exact div_le_div_of_nonneg_right (by rw [hN]; push_cast; linarith) hL0.le
      linarith
    -- all pairs
    have hB1 : 2 * N * (∑ a, ∑ b, |u a - u b|) ≤ (∑ a, ∑ b, |D a - D b|) + 2 * N * ∑ a, R a := by
      have h1 : ∑ a, ∑ b, (2 * N * |u a - u b|) ≤ ∑ a, ∑ b, (|D a - D b| + (R a + R b)) := sum_le_sum fun a _ => sum_le_sum fun b _ => hclose' a b
      have e1 : ∑ a, ∑ b, (|D a - D b| + (R a + R b)) = (∑ a, ∑ b, |D a - D b|) + 2 * N * ∑ a, R a := by
        simp only [sum_add_distrib, sum_const, card_univ, Fintype.card_fin, nsmul_eq_mul, ← mul_sum, ← hN]
        ring
      simp only [← mul_sum] at h1
      linarith
    have hB2 : (1 / L) * (∑ l ∈ range L, ∑ a, ∑ b, (i l a - i l b) ^ 2) ≤ (∑ a, ∑ b, |u a - u b|) + N ^ 2 / L := by
      have h1 : ∑ a, ∑ b, ((1 / L) * (∑ l ∈ range L, (i l a - i l b) ^ 2)) ≤ ∑ a, ∑ b, (|u a - u b| + 1 / L) :=
        sum_le_sum fun a _ => sum_le_sum fun b _ => by rw [hi]; exact (thresholds_diff L hL (hu01 a) (hu01 b)).2
      have e1 : ∑ a, ∑ b, (|u a - u b| + 1 / (L : ℝ)) = (∑ a, ∑ b, |u a - u b|) + N ^ 2 / L := by
        simp only [sum_add_distrib, sum_const, card_univ, Fintype.card_fin, nsmul_eq_mul, ← hN]
        ring
      have e2 : ∑ a, ∑ b, ((1 / (L : ℝ)) * (∑ l ∈ range L, (i l a - i l b) ^ 2)) = (1 / L) * (∑ l ∈ range L, ∑ a, ∑ b, (i l a - i l b) ^ 2) := by
        simp only [← mul_sum]
        congr 1
        rw [sum_comm (s := range L)]
        exact sum_congr rfl fun a _ => sum_comm
      linarith
    -- thresholds
    have hT : ∀ l ∈ range L, ∑ k : Fin m, (i l (τ k.succ) - i l (τ k.castSucc)) ^ 2 ≤
        (1 / N) * (∑ a, ∑ b, (i l a - i l b) ^ 2) - 2 * N * covLevel ν s (((l : ℝ) + 1) / L) ^ 2 + E l z := by
      intro l hl
      have h1 := (hE l hl).2.2.2 z
      rw [← hτ, ← hN] at h1
      have e : ∀ a, {y | ((l : ℝ) + 1) / L ≤ midrank ν y}.indicator (fun _ => (1 : ℝ)) (z a).2 = i l a := fun a => by
        rw [hi, hu]; rfl
      simp only [e] at h1
      exact h1
    have hTs := sum_le_sum hT
    rw [sum_add_distrib, sum_sub_distrib, ← mul_sum, ← mul_sum] at hTs
    obtain ⟨SA, hSA⟩ : ∃ SA, SA = ∑ l ∈ range L, ∑ k : Fin m, (i l (τ k.succ) - i l (τ k.castSucc)) ^ 2 := ⟨_, rfl⟩
    obtain ⟨SB, hSB⟩ : ∃ SB, SB = ∑ l ∈ range L, ∑ a, ∑ b, (i l a - i l b) ^ 2 := ⟨_, rfl⟩
    obtain ⟨SK, hSK⟩ : ∃ SK, SK = ∑ l ∈ range L, covLevel ν s (((l : ℝ) + 1) / L) ^ 2 := ⟨_, rfl⟩
    obtain ⟨SE, hSE⟩ : ∃ SE, SE = ∑ l ∈ range L, E l z := ⟨_, rfl⟩
    obtain ⟨SR, hSR⟩ : ∃ SR, SR = ∑ a, R a := ⟨_, rfl⟩
    obtain ⟨SU, hSU⟩ : ∃ SU, SU = ∑ a, ∑ b, |u a - u b| := ⟨_, rfl⟩
    obtain ⟨SD, hSD⟩ : ∃ SD, SD = ∑ a, ∑ b, |D a - D b| := ⟨_, rfl⟩
    obtain ⟨AU, hAU⟩ : ∃ AU, AU = ∑ k : Fin m, |u (τ k.succ) - u (τ k.castSucc)| := ⟨_, rfl⟩
    rw [← hAU, ← hSR] at hA1
    rw [← hAU, ← hSA] at hA2
    rw [← hSU, ← hSR, ← hSD] at hB1
    rw [← hSU, ← hSB] at hB2
    rw [← hSA, ← hSB, ← hSK, ← hSE] at hTs
    have goal : ∑ k : Fin m, |D (τ k.succ) - D (τ k.castSucc)| ≤ 1 / N * SD - 4 * N ^ 2 * (1 / L * SK - 1 / L) + (4 * SR + 2 * N / L * SE) := by
      have s1 : 2 * N * AU ≤ 2 * N * ((1 / L) * SA + N / L) := mul_le_mul_of_nonneg_left hA2 (by positivity)
      have s2 : 2 * N / L * SA ≤ 2 * N / L * (1 / N * SB - 2 * N * SK + SE) := mul_le_mul_of_nonneg_left hTs (by positivity)
      have s3 : 2 * ((1 / L) * SB) ≤ 2 * (SU + N ^ 2 / L) := by linarith
      have s4 : 2 * SU ≤ 1 / N * SD + 2 * SR := by
        have : 1 / N * (2 * N * SU) ≤ 1 / N * (SD + 2 * N * SR) := mul_le_mul_of_nonneg_left hB1 (by positivity)
        have e1 : 1 / N * (2 * N * SU) = 2 * SU := by field_simp
        have e2 : 1 / N * (SD + 2 * N * SR) = 1 / N * SD + 2 * SR := by field_simp
        linarith
      have e1 : 2 * N * ((1 / L) * SA + N / L) = 2 * N / L * SA + 2 * N ^ 2 / L := by ring
      have e2 : 2 * N / L * (1 / N * SB - 2 * N * SK + SE) = 2 * ((1 / L) * SB) - 4 * N ^ 2 * (1 / L * SK) + 2 * N / L * SE := by
        field_simp
        ring
      have e3 : 2 * (SU + N ^ 2 / L) = 2 * SU + 2 * N ^ 2 / L := by ring
      have e4 : 4 * N ^ 2 * (1 / L * SK - 1 / L) = 4 * N ^ 2 * (1 / L * SK) - 2 * (2 * N ^ 2 / L) := by ring
      linarith
    rw [hSD, hSK, hSR, hSE, hRd, hD, hu] at goal
    exact goal

end Medil

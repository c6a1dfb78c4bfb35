import Verif.Proofs.XiVarPerm
import Verif.Props.XiTest
import Mathlib.Algebra.Order.Chebyshev
/-
  Mean and variance of the statistic of `xicorr` over all permutations of `y`, and p-values of large statistics.
-/
namespace Medil
open Finset Equiv Filter
variable {n : Nat}

/-- how many ties a list of numbers has: for each position the squared number of positions with the same value, minus 1, added up.
Zero without ties. -/
noncomputable def tieSum (y : Fin n → ℝ) : ℝ := ∑ i, (((univ.filter fun j => y j = y i).card : ℝ) ^ 2 - 1)

theorem tieSum_nonneg (y : Fin n → ℝ) : 0 ≤ tieSum y := by
  refine sum_nonneg fun i _ => ?_
  have h : 1 ≤ (univ.filter fun j => y j = y i).card := card_pos.mpr ⟨i, by simp⟩
  have : (1 : ℝ) ≤ ((univ.filter fun j => y j = y i).card : ℝ) := by exact_mod_cast h
  nlinarith

theorem tieSum_zero (y : Fin n → ℝ) : tieSum y = 0 ↔ Function.Injective y := by
  have h1 : ∀ i, (1 : ℝ) ≤ ((univ.filter fun j => y j = y i).card : ℝ) := fun i => by
    have h : 1 ≤ (univ.filter fun j => y j = y i).card := card_pos.mpr ⟨i, by simp⟩
    exact_mod_cast h
  unfold tieSum
  rw [sum_eq_zero_iff_of_nonneg fun i _ => by nlinarith [h1 i]]
  constructor
  · intro h a b hab
    have h2 := h b (mem_univ _)
    have h3 : ((univ.filter fun j => y j = y b).card : ℝ) = 1 := by nlinarith [h1 b]
    have h4 : (univ.filter fun j => y j = y b).card = 1 := by exact_mod_cast h3
    obtain ⟨c, hc⟩ := card_eq_one.mp h4
    have ha : a ∈ univ.filter fun j => y j = y b := by simp [hab]
    have hb : b ∈ univ.filter fun j => y j = y b := by simp
    rw [hc, mem_singleton] at ha hb
    rw [ha, hb]
  · intro hy i _
    have : (univ.filter fun j => y j = y i) = {i} := by
      ext j; simp [hy.eq_iff]
    rw [this]; simp

theorem sum_sq_rankD_tie (y : Fin n → ℝ) : 3 * ∑ i, (rankD y i : ℝ) ^ 2 = (n : ℝ) * ((n : ℝ) ^ 2 - 1) - tieSum y := by
  have h := sum_sq_rankD y
  have h' : 3 * ∑ i, (rankD y i : ℝ) ^ 2 = (n : ℝ) ^ 3 - ∑ i, ((univ.filter fun j => y j = y i).card : ℝ) ^ 2 := by exact_mod_cast h
  unfold tieSum
  rw [h', sum_sub_distrib]
  simp
  ring

/-- the statistic, as a number -/
noncomputable def xiVal (srt : ArgSort ℝ) (x y : Fin n → ℝ) : ℝ := 1 - xiA1 srt x y / xiCu y

theorem xiStat_val (srt : ArgSort ℝ) (x y : Fin n → ℝ) (hn : 2 ≤ n) : xiStat srt x y = .fin (xiVal srt x y) := by
  unfold xiStat Fl.div
  rw [if_neg (xiCu_pos y hn).ne']
  rfl

theorem rankD_permuted (y : Fin n → ℝ) (π : Perm (Fin n)) (i : Fin n) : rankD (fun k => y (π k)) i = rankD y (π i) :=
  Equiv.sum_comp π fun j => if y j < y (π i) then (1 : ℤ) else if y (π i) < y j then -1 else 0

theorem xiCu_permuted (y : Fin n → ℝ) (π : Perm (Fin n)) (hn : 0 < n) : xiCu (fun k => y (π k)) = xiCu y := by
  rw [xiCu_rankD _ hn, xiCu_rankD _ hn]
  simp only [rankD_permuted]
  rw [Equiv.sum_comp π fun i => (rankD y i : ℝ) ^ 2]

/-- the statistic for a permuted `y` -/
theorem xiVal_perm (srt : ArgSort ℝ) (x y : Fin n → ℝ) (π : Perm (Fin n)) (hn : 0 < n) :
    xiVal srt x (fun k => y (π k)) = 1 - (1 / (4 * n ^ 2 * xiCu y)) * absDiffSum fun k => (rankD y (π (srt.sort (rankAvg x) k)) : ℝ) := by
  unfold xiVal
  rw [xiCu_permuted y π hn, xiA1_rankD srt x y π hn]
  ring

theorem permAvg_sub (F G : Perm (Fin n) → ℝ) : permAvg (fun π => F π - G π) = permAvg F - permAvg G := by
  unfold permAvg
  rw [sum_sub_distrib, sub_div]

/-- the average of the statistic over all permutations of `y` -/
theorem permAvg_xiVal (srt : ArgSort ℝ) (x y : Fin n → ℝ) (hn : 2 ≤ n) :
    permAvg (fun π => xiVal srt x fun k => y (π k)) = 3 * tieSum y / (2 * n * ((n : ℝ) ^ 2 - 1) + tieSum y) := by
  have hn2 : (2 : ℝ) ≤ n := by exact_mod_cast hn
  have hcu := xiCu_pos y hn
  have e : (fun π : Perm (Fin n) => xiVal srt x fun k => y (π k)) = fun π => 1 - 1 / xiCu y * xiA1 srt x fun k => y (π k) := by
    funext π
    unfold xiVal
    rw [xiCu_permuted y π (by omega)]; ring
  rw [e, permAvg_sub, permAvg_const, permAvg_mul, permAvg_xiA1 srt x y hn]
  have h1 := sum_sq_rankD_tie y
  have h2 := tieSum_nonneg y
  have h3 := xiCu_rankD y (show 0 < n by omega)
  have h4 : (0 : ℝ) < (n : ℝ) ^ 2 - 1 := by nlinarith
  have h5 : (0 : ℝ) < 2 * n * ((n : ℝ) ^ 2 - 1) + tieSum y := by nlinarith [mul_pos (show (0 : ℝ) < n by linarith) h4]
  have h6 : xiCu y = (2 * n * ((n : ℝ) ^ 2 - 1) + tieSum y) / (12 * n ^ 3) := by
    rw [h3]
    have : ∑ i, (rankD y i : ℝ) ^ 2 = ((n : ℝ) * ((n : ℝ) ^ 2 - 1) - tieSum y) / 3 := by linarith
    rw [this]
    field_simp
    ring
  have h7 : ∑ i, (rankD y i : ℝ) ^ 2 = ((n : ℝ) * ((n : ℝ) ^ 2 - 1) - tieSum y) / 3 := by linarith
  rw [h6, h7]
  have hn0 : (n : ℝ) ≠ 0 := by linarith
  field_simp
  ring

theorem rankD_bound (y : Fin n → ℝ) (i : Fin n) : |(rankD y i : ℝ)| ≤ n := by
  have : |rankD y i| ≤ (n : ℤ) := by
    unfold rankD
    refine (abs_sum_le_sum_abs _ _).trans ?_
    calc ∑ j, |(if y j < y i then 1 else if y i < y j then -1 else 0 : ℤ)| ≤ ∑ _j : Fin n, (1 : ℤ) := by
          refine sum_le_sum fun j _ => ?_
          split_ifs <;> simp
      _ = n := by simp
  exact_mod_cast this

/-- the variance of the statistic over all permutations of `y` is small -/
theorem permVar_xiVal (srt : ArgSort ℝ) (x y : Fin n → ℝ) (hn : 4 ≤ n) :
    permAvg (fun π => (xiVal srt x (fun k => y (π k)) - permAvg fun π => xiVal srt x fun k => y (π k)) ^ 2) ≤ 32 / n := by
  have hn4 : (4 : ℝ) ≤ n := by exact_mod_cast hn
  have h0 : (0 : ℝ) < n := by linarith
  obtain ⟨b1, b2, b3, e1, e2, e3, m1, m2⟩ := permAvg_absDiff_sq hn (fun i => (rankD y i : ℝ)) (srt.sort (rankAvg x))
  obtain ⟨c, hc⟩ : ∃ c, c = 1 / (4 * (n : ℝ) ^ 2 * xiCu y) := ⟨_, rfl⟩
  have hcu := xiCu_ge y (show 2 ≤ n by omega)
  have hcu8 : 1 / 8 ≤ xiCu y := by
    refine le_trans ?_ hcu
    rw [div_le_div_iff₀ (by norm_num) (by positivity)]
    nlinarith
  have hc0 : 0 ≤ c := by rw [hc]; positivity
  have hc2 : c ≤ 2 / n ^ 2 := by
    rw [hc, div_le_div_iff₀ (by positivity) (by positivity)]
    nlinarith [mul_le_mul_of_nonneg_left hcu8 (show (0 : ℝ) ≤ 8 * n ^ 2 by positivity)]
  obtain ⟨Q, hQ⟩ : ∃ Q : Perm (Fin n) → ℝ, Q = fun π => absDiffSum fun k => (rankD y (π (srt.sort (rankAvg x) k)) : ℝ) := ⟨_, rfl⟩
  have hv : ∀ π, xiVal srt x (fun k => y (π k)) = 1 - c * Q π := fun π => by
    rw [xiVal_perm srt x y π (by omega), hc, hQ]
  rw [← hQ] at m1
  have m2' : permAvg (fun π => Q π ^ 2) = n * ((n : ℝ) - 1) * b1 ^ 2 + ((n : ℝ) - 3) * b2 - 2 * ((n : ℝ) - 2) * b3 := by rw [← m2, hQ]
  simp only [hv]
  rw [permAvg_sub, permAvg_const, permAvg_mul, m1]
  have e : (fun π => (1 - c * Q π - (1 - c * (((n : ℝ) - 1) * b1))) ^ 2) =
      fun π => c ^ 2 * Q π ^ 2 - (2 * c ^ 2 * (((n : ℝ) - 1) * b1) * Q π - (c * (((n : ℝ) - 1) * b1)) ^ 2) := by
    funext π; ring
  rw [e, permAvg_sub, permAvg_sub, permAvg_mul, permAvg_mul, permAvg_const, m1, m2']
  have hD : ∀ a b, |(rankD y a : ℝ) - rankD y b| ≤ 2 * n := fun a b => by
    have h1 := abs_le.mp (rankD_bound y a)
    have h2 := abs_le.mp (rankD_bound y b)
    exact abs_le.mpr ⟨by linarith, by linarith⟩
  have hd0 : ∀ a, |(rankD y a : ℝ) - rankD y a| = 0 := by simp
  have cnt : ∀ (F : Fin n → Fin n → ℝ) (K : ℝ), 0 ≤ K → (∀ a, F a a = 0) → (∀ a b, F a b ≤ K) → ∑ a, ∑ b, F a b ≤ n * ((n : ℝ) - 1) * K := by
    intro F K hK hF0 hF
    have : ∀ a, ∑ b, F a b ≤ ((n : ℝ) - 1) * K := by
      intro a
      rw [← sum_erase_add _ _ (mem_univ a), hF0, add_zero]
      refine (sum_le_sum fun b _ => hF a b).trans ?_
      rw [sum_const, card_erase_of_mem (mem_univ a), card_univ, Fintype.card_fin, nsmul_eq_mul, Nat.cast_sub (by omega)]
      simp
    refine (sum_le_sum fun a _ => this a).trans ?_
    rw [sum_const, card_univ, Fintype.card_fin, nsmul_eq_mul]
    linarith
  have hp : 0 < (n : ℝ) * ((n : ℝ) - 1) := by nlinarith
  have hb1 : b1 ≤ 2 * n := by
    have := cnt (fun a b => |(rankD y a : ℝ) - rankD y b|) (2 * n) (by positivity) hd0 hD
    rw [← e1] at this
    exact le_of_mul_le_mul_left this hp
  have hb1' : 0 ≤ b1 := by
    have : 0 ≤ n * ((n : ℝ) - 1) * b1 := by rw [e1]; positivity
    exact nonneg_of_mul_nonneg_right this hp
  have hb2 : b2 ≤ 4 * n ^ 2 := by
    have := cnt (fun a b => ((rankD y a : ℝ) - rankD y b) ^ 2) (4 * n ^ 2) (by positivity) (by simp) (fun a b => by
      rw [← sq_abs]
      nlinarith [hD a b, abs_nonneg ((rankD y a : ℝ) - rankD y b)])
    rw [← e2] at this
    exact le_of_mul_le_mul_left this hp
  have hb3 : 0 ≤ b3 := by
    have h1 : ∑ a, ∑ b, ((rankD y a : ℝ) - rankD y b) ^ 2 ≤ ∑ a, (∑ b, |(rankD y a : ℝ) - rankD y b|) ^ 2 := by
      refine sum_le_sum fun a _ => ?_
      have : ∀ b, ((rankD y a : ℝ) - rankD y b) ^ 2 = |(rankD y a : ℝ) - rankD y b| ^ 2 := fun b => (sq_abs _).symm
      simp only [this]
      exact sum_sq_le_sq_sum_of_nonneg fun b _ => abs_nonneg _
    rw [← e2, ← e3] at h1
    have h2 : 0 ≤ n * ((n : ℝ) - 1) * ((n - 2) * b3) := by linarith
    have h3 := nonneg_of_mul_nonneg_right h2 hp
    exact nonneg_of_mul_nonneg_right h3 (by linarith)
  have key : ((n : ℝ) - 1) * b1 ^ 2 + ((n : ℝ) - 3) * b2 - 2 * ((n : ℝ) - 2) * b3 ≤ 8 * n ^ 3 := by
    have k1 : ((n : ℝ) - 1) * b1 ^ 2 ≤ n * (4 * n ^ 2) := by
      refine mul_le_mul (by linarith) (by nlinarith) (sq_nonneg _) h0.le
    have k2 : ((n : ℝ) - 3) * b2 ≤ n * (4 * n ^ 2) := by
      by_cases hb : 0 ≤ b2
      · exact mul_le_mul (by linarith) hb2 hb h0.le
      · exact (mul_nonpos_of_nonneg_of_nonpos (by linarith) (by linarith)).trans (by positivity)
    have k3 : 0 ≤ 2 * ((n : ℝ) - 2) * b3 := mul_nonneg (by linarith) hb3
    nlinarith
  calc c ^ 2 * (n * ((n : ℝ) - 1) * b1 ^ 2 + ((n : ℝ) - 3) * b2 - 2 * ((n : ℝ) - 2) * b3) -
        (2 * c ^ 2 * (((n : ℝ) - 1) * b1) * (((n : ℝ) - 1) * b1) - (c * (((n : ℝ) - 1) * b1)) ^ 2)
      = c ^ 2 * (((n : ℝ) - 1) * b1 ^ 2 + ((n : ℝ) - 3) * b2 - 2 * ((n : ℝ) - 2) * b3) := by ring
    _ ≤ c ^ 2 * (8 * n ^ 3) := mul_le_mul_of_nonneg_left key (sq_nonneg _)
    _ ≤ (2 / n ^ 2) ^ 2 * (8 * n ^ 3) := by
        refine mul_le_mul_of_nonneg_right ?_ (by positivity)
        exact pow_le_pow_left₀ hc0 hc2 2
    _ = 32 / n := by field_simp; norm_num

/-- the variance estimate is bounded -/
theorem xiVar_le (y : Fin n → ℝ) (hn : 2 ≤ n) : ∃ v, xiVar y = .fin v ∧ 0 ≤ v ∧ v ≤ 256 := by
  have hn2 : (2 : ℝ) ≤ n := by exact_mod_cast hn
  have hn0 : (0 : ℝ) < n := by linarith
  have hcu := xiCu_ge y hn
  have hcu8 : 1 / 8 ≤ xiCu y := by
    refine le_trans ?_ hcu
    rw [div_le_div_iff₀ (by norm_num) (by positivity)]
    nlinarith
  have hf : ∀ i, 0 ≤ xiFr y i ∧ xiFr y i ≤ 1 := by
    intro i
    have h1 := rankAvg_rankD y i
    have hD : -(n : ℤ) + 1 ≤ rankD y i ∧ rankD y i ≤ n - 1 := by
      have e : rankD y i = ∑ j ∈ univ.erase i, (if y j < y i then 1 else if y i < y j then -1 else 0 : ℤ) := by
        unfold rankD
        rw [← sum_erase_add _ _ (mem_univ i)]; simp
      have hc : ((univ.erase i : Finset (Fin n)).card : ℤ) = n - 1 := by
        rw [card_erase_of_mem (mem_univ i), card_univ, Fintype.card_fin, Nat.cast_sub (by omega)]; simp
      have u : ∑ j ∈ univ.erase i, (if y j < y i then 1 else if y i < y j then -1 else 0 : ℤ) ≤ ∑ _j ∈ univ.erase i, (1 : ℤ) :=
        sum_le_sum fun j _ => by split_ifs <;> norm_num
      have l : ∑ _j ∈ univ.erase i, (-1 : ℤ) ≤ ∑ j ∈ univ.erase i, (if y j < y i then 1 else if y i < y j then -1 else 0 : ℤ) :=
        sum_le_sum fun j _ => by split_ifs <;> norm_num
      rw [sum_const, nsmul_eq_mul, hc] at u l
      rw [e]
      constructor <;> linarith
    have h2 : (-(n : ℝ) + 1 ≤ rankD y i) ∧ ((rankD y i : ℝ) ≤ n - 1) := by
      constructor
      · exact_mod_cast hD.1
      · exact_mod_cast hD.2
    unfold xiFr
    exact ⟨div_nonneg (by linarith) hn0.le, (div_le_one hn0).mpr (by linarith)⟩
  have hmin : ∀ i j, 0 ≤ min (xiFr y i) (xiFr y j) ∧ min (xiFr y i) (xiFr y j) ≤ 1 := fun i j =>
    ⟨le_min (hf i).1 (hf j).1, (min_le_left _ _).trans (hf i).2⟩
  have hrow : ∀ i, 0 ≤ (∑ k, min (xiFr y i) (xiFr y k)) / n ∧ (∑ k, min (xiFr y i) (xiFr y k)) / n ≤ 1 := fun i => by
    refine ⟨div_nonneg (sum_nonneg fun k _ => (hmin i k).1) hn0.le, (div_le_one hn0).mpr ?_⟩
    refine (sum_le_sum fun k _ => (hmin i k).2).trans ?_
    simp
  have hall : 0 ≤ (∑ k, ∑ l, min (xiFr y k) (xiFr y l)) / (n : ℝ) ^ 2 ∧ (∑ k, ∑ l, min (xiFr y k) (xiFr y l)) / (n : ℝ) ^ 2 ≤ 1 := by
    refine ⟨div_nonneg (sum_nonneg fun k _ => sum_nonneg fun l _ => (hmin k l).1) (by positivity), (div_le_one (by positivity)).mpr ?_⟩
    refine (sum_le_sum fun k _ => sum_le_sum fun l _ => (hmin k l).2).trans ?_
    simp [sq]
  rw [xiVar_eq y hn]
  refine ⟨_, rfl, by positivity, ?_⟩
  rw [div_le_iff₀ (by positivity), div_le_iff₀ (by positivity)]
  calc _ ≤ ∑ _i : Fin n, ∑ _j : Fin n, (4 : ℝ) := by
        refine sum_le_sum fun i _ => sum_le_sum fun j _ => ?_
        have a := hmin i j
        have b := hrow i
        have c := hrow j
        have hb : |min (xiFr y i) (xiFr y j) - (∑ k, min (xiFr y i) (xiFr y k)) / n
            - (∑ k, min (xiFr y j) (xiFr y k)) / n + (∑ k, ∑ l, min (xiFr y k) (xiFr y l)) / n ^ 2| ≤ 2 :=
          abs_le.mpr ⟨by linarith, by linarith⟩
        rw [← sq_abs]
        nlinarith [abs_nonneg (min (xiFr y i) (xiFr y j) - (∑ k, min (xiFr y i) (xiFr y k)) / n
            - (∑ k, min (xiFr y j) (xiFr y k)) / n + (∑ k, ∑ l, min (xiFr y k) (xiFr y l)) / n ^ 2)]
    _ = 4 * n ^ 2 := by simp; ring
    _ ≤ 256 * xiCu y ^ 2 * n ^ 2 := by
        refine mul_le_mul_of_nonneg_right ?_ (by positivity)
        nlinarith

/-- a statistic that is bounded away from 0 has a small p-value when there are many observations -/
theorem xi_large (Φ : ℝ → ℝ) (hΦ : Tendsto Φ atTop (nhds 1)) (level δ : ℝ) (hl : 0 < level) (hδ : 0 < δ) :
    ∃ n0, ∀ n, n0 ≤ n → ∀ (srt : ArgSort ℝ) (x y : Fin n → ℝ), δ ≤ xiVal srt x y → (xicorTest srt Φ x y).lt level = true := by
  obtain ⟨z0, hz0⟩ := eventually_atTop.mp (hΦ.eventually (lt_mem_nhds (show 1 - level < 1 by linarith)))
  obtain ⟨n1, hn1⟩ := exists_nat_ge ((16 * |z0| / δ) ^ 2)
  refine ⟨max 2 n1, fun n hn srt x y hx => ?_⟩
  have hn2 : 2 ≤ n := le_trans (le_max_left _ _) hn
  have hnn : (16 * |z0| / δ) ^ 2 ≤ n := hn1.trans (by exact_mod_cast le_trans (le_max_right _ _) hn)
  obtain ⟨v, hv, hv0, hv1⟩ := xiVar_le y hn2
  have hsq : 16 * |z0| / δ ≤ Real.sqrt n := Real.le_sqrt_of_sq_le hnn
  have hpos : 0 < Real.sqrt (n : ℝ) := Real.sqrt_pos.mpr (by exact_mod_cast (show 0 < n by omega))
  unfold xicorTest
  rw [xicorr_ok srt Φ x y (by omega), if_pos rfl, hv, xiStat_val srt x y hn2]
  show (upperTail Φ (xiZ n (Fl.fin (xiVal srt x y)) (Fl.fin v))).lt level = true
  have hxp : 0 < xiVal srt x y := lt_of_lt_of_le hδ hx
  simp only [xiZ, if_neg (not_lt.mpr hv0)]
  rcases hv0.lt_or_eq with hvp | hvz
  · have hs : 0 < Real.sqrt v := Real.sqrt_pos.mpr hvp
    have hs16 : Real.sqrt v ≤ 16 := by
      rw [show (16 : ℝ) = Real.sqrt 256 by rw [show (256 : ℝ) = 16 ^ 2 by norm_num]; simp]
      exact Real.sqrt_le_sqrt hv1
    have hz : z0 ≤ Real.sqrt n * xiVal srt x y / Real.sqrt v := by
      rw [le_div_iff₀ hs]
      have h1 : 16 * |z0| ≤ Real.sqrt n * δ := (div_le_iff₀ hδ).mp hsq
      have h2 : Real.sqrt n * δ ≤ Real.sqrt n * xiVal srt x y := mul_le_mul_of_nonneg_left hx hpos.le
      have h3 : z0 * Real.sqrt v ≤ |z0| * 16 :=
        (mul_le_mul_of_nonneg_right (le_abs_self z0) hs.le).trans (mul_le_mul_of_nonneg_left hs16 (abs_nonneg _))
      linarith
    have := hz0 _ hz
    simp only [Fl.div, if_neg hs.ne', upperTail, Fl.lt]
    simp only [decide_eq_true_eq]
    linarith
  · rw [← hvz]
    have : 0 < Real.sqrt n * xiVal srt x y := mul_pos hpos hxp
    simp [Fl.div, upperTail, Fl.lt, this.ne', this, hl]

end Medil

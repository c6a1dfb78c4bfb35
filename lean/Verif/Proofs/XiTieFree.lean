import Verif.Proofs.XiConc
/-
  The variance of the statistic of `xicorr` over all permutations, when there are no ties, and Cantelli's inequality for it.
-/
namespace Medil
open Finset Equiv
variable {n : Nat}

/-- without ties the ranks are all of `1, …, n` -/
theorem rankD_inj (y : Fin n → ℝ) (hy : Function.Injective y) :
    ∃ e : Perm (Fin n), ∀ k, (rankD y (e k) : ℝ) = 2 * (k.val : ℝ) - ((n : ℝ) - 1) := by
  have hs : StrictMono fun k => y (Tuple.sort y k) :=
    (Tuple.monotone_sort y).strictMono_of_injective (hy.comp (Tuple.sort y).injective)
  refine ⟨Tuple.sort y, fun k => ?_⟩
  have h1 := rankAvg_rankD y (Tuple.sort y k)
  have h2 : rankAvg y (Tuple.sort y k) = (k.val : ℝ) + 1 := by
    rw [← rankAvg_perm y (Tuple.sort y), rankAvg_strictMono _ hs]
  rw [h2] at h1
  linarith

/-- the sum of the distances from one rank to all the others, without ties -/
theorem sum_abs_rankD_row (y : Fin n → ℝ) (hy : Function.Injective y) (a : Fin n) :
    ∑ b, |(rankD y a : ℝ) - rankD y b| = ((rankD y a : ℝ) ^ 2 + (n : ℝ) ^ 2 - 1) / 2 := by
  obtain ⟨e, he⟩ := rankD_inj y hy
  obtain ⟨k, rfl⟩ := e.surjective a
  rw [← Equiv.sum_comp e]
  simp only [he]
  have h : ∀ m : ℕ, k.val ≤ m → ∑ l ∈ range m, |2 * (k.val : ℝ) - (n - 1) - (2 * (l : ℝ) - (n - 1))| =
      (k.val : ℝ) * (k.val + 1) + (m - k.val) * (m - k.val - 1) := by
    intro m hm
    induction m, hm using Nat.le_induction with
    | base =>
      have : ∀ m : ℕ, m ≤ k.val → ∑ l ∈ range m, |2 * (k.val : ℝ) - (n - 1) - (2 * (l : ℝ) - (n - 1))| = 2 * m * k.val - m * (m - 1) := by
        intro m hm
        induction m with
        | zero => simp
        | succ m ih =>
          rw [sum_range_succ, ih (by omega), abs_of_nonneg]
          · push_cast; ring
          · have : (m : ℝ) ≤ k.val := by exact_mod_cast (by omega : m ≤ k.val)
            linarith
      rw [this _ le_rfl]; ring
    | succ m hm ih =>
      rw [sum_range_succ, ih, abs_of_nonpos]
      · push_cast; ring
      · have : (k.val : ℝ) ≤ m := by exact_mod_cast hm
        linarith
  rw [Fin.sum_univ_eq_sum_range (fun l => |2 * (k.val : ℝ) - (n - 1) - (2 * (l : ℝ) - (n - 1))|) n, h n k.isLt.le]
  ring

theorem sum_pow4_rankD (y : Fin n → ℝ) (hy : Function.Injective y) :
    15 * ∑ i, (rankD y i : ℝ) ^ 4 = n * ((n : ℝ) ^ 2 - 1) * (3 * n ^ 2 - 7) := by
  obtain ⟨e, he⟩ := rankD_inj y hy
  rw [← Equiv.sum_comp e]
  simp only [he]
  rw [Fin.sum_univ_eq_sum_range (fun l => (2 * (l : ℝ) - (n - 1)) ^ 4) n]
  have : ∀ l : ℕ, (2 * (l : ℝ) - (n - 1)) ^ 4 = 16 * (l : ℝ) ^ 4 - 32 * (n - 1) * (l : ℝ) ^ 3 + 24 * ((n : ℝ) - 1) ^ 2 * (l : ℝ) ^ 2 -
      8 * ((n : ℝ) - 1) ^ 3 * (l : ℝ) + ((n : ℝ) - 1) ^ 4 := fun l => by ring
  simp only [this, sum_add_distrib, sum_sub_distrib, ← mul_sum, sum_pow1, sum_pow2, sum_pow3, sum_pow4, sum_const, card_range, nsmul_eq_mul]
  ring

/-- the exact mean and variance of the statistic over all permutations of a `y` without ties -/
theorem permVar_xiVal_inj (srt : ArgSort ℝ) (x y : Fin n → ℝ) (hn : 4 ≤ n) (hy : Function.Injective y) :
    permAvg (fun π => xiVal srt x fun k => y (π k)) = 0 ∧
    permAvg (fun π => (xiVal srt x fun k => y (π k)) ^ 2) =
      ((n : ℝ) - 2) * (4 * n - 7) / (10 * ((n : ℝ) + 1) * ((n : ℝ) - 1) ^ 2) := by
  have hn4 : (4 : ℝ) ≤ n := by exact_mod_cast hn
  have hT := (tieSum_zero y).mpr hy
  have hm : permAvg (fun π => xiVal srt x fun k => y (π k)) = 0 := by
    rw [permAvg_xiVal srt x y (by omega), hT]; simp
  refine ⟨hm, ?_⟩
  have h2 := sum_sq_rankD_tie y
  rw [hT, sub_zero] at h2
  have h4 := sum_pow4_rankD y hy
  have h0 : ∑ i, (rankD y i : ℝ) = 0 := by exact_mod_cast sum_rankD y
  have hcu : 4 * (n : ℝ) ^ 2 * xiCu y = 2 * ((n : ℝ) ^ 2 - 1) / 3 := by
    rw [xiCu_rankD y (by omega), show ∑ i, (rankD y i : ℝ) ^ 2 = (n : ℝ) * ((n : ℝ) ^ 2 - 1) / 3 by linarith]
    have : (n : ℝ) ≠ 0 := by linarith
    field_simp
    ring
  obtain ⟨b1, b2, b3, e1, e2, e3, m1, m2⟩ := permAvg_absDiff_sq hn (fun i => (rankD y i : ℝ)) (srt.sort (rankAvg x))
  obtain ⟨Q, hQ⟩ : ∃ Q : Perm (Fin n) → ℝ, Q = fun π => absDiffSum fun k => (rankD y (π (srt.sort (rankAvg x) k)) : ℝ) := ⟨_, rfl⟩
  obtain ⟨c, hc⟩ : ∃ c, c = 1 / (4 * (n : ℝ) ^ 2 * xiCu y) := ⟨_, rfl⟩
  have hv : ∀ π : Perm (Fin n), (xiVal srt x fun k => y (π k)) ^ 2 = (1 - (2 * c) * Q π) + c ^ 2 * Q π ^ 2 := by
    intro π
    rw [xiVal_perm srt x y π (by omega), ← hc, hQ]
    ring
  simp only [hv]
  rw [permAvg_add, permAvg_sub, permAvg_const, permAvg_mul, permAvg_mul]
  have m1' : permAvg Q = ((n : ℝ) - 1) * b1 := by rw [hQ]; exact m1
  have m2' : permAvg (fun π => Q π ^ 2) = n * ((n : ℝ) - 1) * b1 ^ 2 + ((n : ℝ) - 3) * b2 - 2 * ((n : ℝ) - 2) * b3 := by rw [hQ]; exact m2
  rw [m1', m2']
  have hb : ((n : ℝ) * (n - 1)) ≠ 0 := mul_ne_zero (by linarith) (by linarith)
  have n1 : (n : ℝ) + 1 ≠ 0 := by linarith
  have n2 : (n : ℝ) - 1 ≠ 0 := by linarith
  have n3 : (n : ℝ) - 2 ≠ 0 := by linarith
  have n0 : (n : ℝ) ≠ 0 := by linarith
  have eb1 : b1 = 2 * (n + 1) / 3 := by
    have : ∑ a, ∑ b, |(rankD y a : ℝ) - rankD y b| = 2 * ∑ i, (rankD y i : ℝ) ^ 2 := by exact_mod_cast sum_abs_sub_rankD y
    rw [this] at e1
    apply mul_left_cancel₀ hb
    rw [e1]; linear_combination 2 / 3 * h2
  have eb2 : b2 = 2 * n * (n + 1) / 3 := by
    have : ∑ a, ∑ b, ((rankD y a : ℝ) - rankD y b) ^ 2 = 2 * n * ∑ i, (rankD y i : ℝ) ^ 2 := by
      have : ∀ a b, ((rankD y a : ℝ) - rankD y b) ^ 2 = (rankD y a : ℝ) ^ 2 + (rankD y b : ℝ) ^ 2 - 2 * (rankD y a * rankD y b) := fun a b => by ring
      simp only [this, sum_add_distrib, sum_sub_distrib, ← mul_sum, ← sum_mul, h0, sum_const, card_univ, Fintype.card_fin, nsmul_eq_mul]
      ring
    rw [this] at e2
    apply mul_left_cancel₀ hb
    rw [e2]; linear_combination 2 / 3 * n * h2
  have eb3 : b2 + (n - 2) * b3 = (n + 1) * (7 * n ^ 2 - 8) / 15 := by
    apply mul_left_cancel₀ hb
    rw [e3]
    simp only [sum_abs_rankD_row y hy]
    have : ∀ a, (((rankD y a : ℝ) ^ 2 + (n : ℝ) ^ 2 - 1) / 2) ^ 2 = 1 / 4 * (rankD y a : ℝ) ^ 4 + 1 / 2 * ((n : ℝ) ^ 2 - 1) * (rankD y a : ℝ) ^ 2 +
        ((n : ℝ) ^ 2 - 1) ^ 2 / 4 := fun a => by ring
    simp only [this, sum_add_distrib, ← mul_sum, sum_const, card_univ, Fintype.card_fin, nsmul_eq_mul]
    linear_combination 1 / 60 * h4 + 1 / 6 * ((n : ℝ) ^ 2 - 1) * h2
  have ec : c = 3 / (2 * (n - 1) * (n + 1)) := by
    rw [hc, hcu]
    rw [show 2 * ((n : ℝ) ^ 2 - 1) / 3 = 2 * (n - 1) * (n + 1) / 3 by ring]
    rw [one_div_div]
  have e5 : 2 * ((n : ℝ) - 2) * b3 = 2 * ((n + 1) * (7 * n ^ 2 - 8) / 15 - 2 * n * (n + 1) / 3) := by rw [← eb3, eb2]; ring
  rw [e5, eb1, eb2, ec]
  field_simp
  ring

/-- Cantelli's inequality for the statistic -/
theorem xi_cantelli (srt : ArgSort ℝ) (x y : Fin n → ℝ) (hn : 4 ≤ n) (hy : Function.Injective y) (t : ℝ) (ht : 0 < t) :
    ((univ.filter fun π : Perm (Fin n) => t ≤ Real.sqrt n * xiVal srt x (fun k => y (π k)) / Real.sqrt ((2 * n ^ 2 + 7) / (5 * (n ^ 2 - 1)))).card : ℝ) ≤
      1 / (1 + t ^ 2) * n.factorial := by
  have hn4 : (4 : ℝ) ≤ n := by exact_mod_cast hn
  have hf : (0 : ℝ) < n.factorial := by exact_mod_cast n.factorial_pos
  obtain ⟨hm, hv⟩ := permVar_xiVal_inj srt x y hn hy
  obtain ⟨v, hvd⟩ : ∃ v, v = (2 * (n : ℝ) ^ 2 + 7) / (5 * (n ^ 2 - 1)) := ⟨_, rfl⟩
  have hd : 0 < 5 * ((n : ℝ) ^ 2 - 1) := by nlinarith
  have hv0 : 0 < v := by rw [hvd]; positivity
  obtain ⟨c, hc⟩ : ∃ c, c = Real.sqrt n / Real.sqrt v := ⟨_, rfl⟩
  have hc2 : c ^ 2 = n / v := by rw [hc, div_pow, Real.sq_sqrt (by linarith), Real.sq_sqrt hv0.le]
  -- the variance of the standardised statistic is at most 1
  have hvar : permAvg (fun π => (c * xiVal srt x fun k => y (π k)) ^ 2) ≤ 1 := by
    simp only [mul_pow]
    rw [permAvg_mul, hv, hc2, hvd]
    have h1 : (0 : ℝ) < n - 1 := by linarith
    have h2 : (0 : ℝ) < n + 1 := by linarith
    rw [div_div_eq_mul_div, div_mul_div_comm, div_le_one (by positivity)]
    nlinarith [mul_pos h1 h2, mul_pos (mul_pos h1 h2) h1, mul_nonneg (mul_pos h1 h2).le (sq_nonneg ((n : ℝ) - 1)), pow_pos h1 2, pow_pos h1 3,
      mul_pos (mul_pos h1 h2) (show (0 : ℝ) < 11 * n ^ 2 - 14 by nlinarith)]
  have hmean : permAvg (fun π => c * xiVal srt x fun k => y (π k)) = 0 := by rw [permAvg_mul, hm, mul_zero]
  rw [← hvd]
  have e : ∀ π : Perm (Fin n), Real.sqrt n * xiVal srt x (fun k => y (π k)) / Real.sqrt v = c * xiVal srt x fun k => y (π k) := fun π => by
    rw [hc]; ring
  simp only [e]
  rw [← div_le_iff₀ hf, ← sum_boole]
  show permAvg (fun π => if t ≤ c * xiVal srt x (fun k => y (π k)) then (1 : ℝ) else 0) ≤ _
  have h2 : permAvg (fun π => if t ≤ c * xiVal srt x (fun k => y (π k)) then (1 : ℝ) else 0) ≤
      permAvg fun π => 1 / (t + 1 / t) ^ 2 * ((c * xiVal srt x fun k => y (π k)) ^ 2 + ((2 / t) * (c * xiVal srt x fun k => y (π k)) + 1 / t ^ 2)) := by
    refine permAvg_mono fun π => ?_
    obtain ⟨w, hw⟩ : ∃ w, w = c * xiVal srt x fun k => y (π k) := ⟨_, rfl⟩
    rw [← hw]
    have e2 : w ^ 2 + ((2 / t) * w + 1 / t ^ 2) = (w + 1 / t) ^ 2 := by ring
    rw [e2]
    split_ifs with hj
    · rw [div_mul_eq_mul_div, one_mul, one_le_div (by positivity)]
      exact pow_le_pow_left₀ (by positivity) (by linarith) 2
    · positivity
  refine h2.trans ?_
  rw [permAvg_mul, permAvg_add, permAvg_add, permAvg_mul, permAvg_const, hmean, mul_zero, zero_add]
  have : 1 / (t + 1 / t) ^ 2 * (permAvg (fun π => (c * xiVal srt x fun k => y (π k)) ^ 2) + 1 / t ^ 2) ≤ 1 / (t + 1 / t) ^ 2 * (1 + 1 / t ^ 2) :=
    mul_le_mul_of_nonneg_left (by linarith) (by positivity)
  refine this.trans (le_of_eq ?_)
  field_simp
  ring

end Medil

import Verif.Proofs.XiRange
import Verif.Proofs.PermAvg
/-
  The statistic of `xicorr` averaged over all permutations of `y`.
-/
namespace Medil
open Finset Equiv
variable {n : Nat}

/-- sum of the squares of the rank differences, in terms of the numbers of equal values -/
theorem sum_sq_rankD (z : Fin n → ℝ) :
    3 * ∑ i, rankD z i ^ 2 = (n : ℤ) ^ 3 - ∑ i, ((univ.filter fun j => z j = z i).card : ℤ) ^ 2 := by
  let e : Fin n → Fin n → ℤ := fun i j => if z j < z i then 1 else if z i < z j then -1 else 0
  have h1 : ∑ i, rankD z i ^ 2 = ∑ i, ∑ j, ∑ k, e i j * e i k := by
    refine sum_congr rfl fun i _ => ?_
    rw [sq]
    exact sum_mul_sum _ _ _ _
  have h2 : ∑ i, rankD z i ^ 2 = ∑ i, ∑ j, ∑ k, e j i * e j k := by rw [h1, sum_comm]
  have h3 : ∑ i, rankD z i ^ 2 = ∑ i, ∑ j, ∑ k, e k i * e k j := by
    rw [h1, sum_comm]
    rw [sum_congr rfl fun j _ => sum_comm, sum_comm]
  have h4 : ∀ i j k, e i j * e i k + e j i * e j k + e k i * e k j =
      1 - (if z j = z i then 1 else 0) * (if z k = z i then 1 else 0) := by
    have el : ∀ {a b}, z a < z b → e a b = -1 ∧ e b a = 1 := fun {a b} h => by simp [e, h, h.not_gt]
    have ee : ∀ {a b}, z a = z b → e a b = 0 ∧ e b a = 0 := fun {a b} h => by simp [e, h]
    intro i j k
    rcases lt_trichotomy (z i) (z j) with a | a | a <;> rcases lt_trichotomy (z i) (z k) with b | b | b <;>
      rcases lt_trichotomy (z j) (z k) with c | c | c <;>
      first
      | (exfalso; order)
      | (rw [(el a).1, (el a).2, (el b).1, (el b).2, (el c).1, (el c).2, if_neg (by order), zero_mul]; norm_num)
      | (rw [(el a).1, (el a).2, (el b).1, (el b).2, (ee c).1, (ee c).2, if_neg (by order), zero_mul]; norm_num)
      | (rw [(el a).1, (el a).2, (ee b).1, (ee b).2, (el c).1, (el c).2, if_neg (by order), zero_mul]; norm_num)
      | (rw [(ee a).1, (ee a).2, (el b).1, (el b).2, (el c).1, (el c).2, if_neg (show ¬ z k = z i by order), mul_zero]; norm_num)
      | (rw [(ee a).1, (ee a).2, (ee b).1, (ee b).2, (ee c).1, (ee c).2, if_pos (by order), if_pos (by order)]; norm_num)
  have h5 : 3 * ∑ i, rankD z i ^ 2 = ∑ i, ∑ j, ∑ k, (e i j * e i k + e j i * e j k + e k i * e k j) := by
    simp only [sum_add_distrib]
    rw [← h1, ← h2, ← h3]; ring
  rw [h5]
  simp only [h4, sum_sub_distrib, ← mul_sum, ← sum_mul, sum_boole, sum_const, card_univ, Fintype.card_fin, nsmul_eq_mul]
  simp only [sq]
  congr 1
  ring

/-- sum of all distances of rank differences -/
theorem sum_abs_sub_rankD (z : Fin n → ℝ) : ∑ k, ∑ l, |rankD z k - rankD z l| = 2 * ∑ i, rankD z i ^ 2 := by
  let e : Fin n → Fin n → ℤ := fun i j => if z j < z i then 1 else if z i < z j then -1 else 0
  have mono : ∀ k l, z k < z l → rankD z k < rankD z l := by
    intro k l h
    have h1 := rankAvg_rankD z k
    have h2 := rankAvg_rankD z l
    have h3 := rankAvg_lt h
    have : (rankD z k : ℝ) < rankD z l := by linarith
    exact_mod_cast this
  have eqv : ∀ k l, z k = z l → rankD z k = rankD z l := by
    intro k l h; unfold rankD; rw [h]
  have h1 : ∀ k l, |rankD z k - rankD z l| = e k l * rankD z k + e l k * rankD z l := by
    intro k l
    rcases lt_trichotomy (z k) (z l) with h | h | h
    · have := mono k l h
      rw [abs_of_neg (by linarith)]
      simp only [e, h, h.not_gt, if_true, if_false]; ring
    · rw [eqv k l h]; simp [e, h]
    · have := mono l k h
      rw [abs_of_pos (by linarith)]
      simp only [e, h, h.not_gt, if_true, if_false]; ring
  have h2 : ∑ k, ∑ l, e k l * rankD z k = ∑ i, rankD z i ^ 2 := by
    refine sum_congr rfl fun k _ => ?_
    rw [← sum_mul, sq]
    rfl
  have h3 : ∑ k, ∑ l, e l k * rankD z l = ∑ i, rankD z i ^ 2 := by rw [sum_comm, h2]
  simp only [h1, sum_add_distrib, h2, h3]
  ring

/-- the denominator of the statistic -/
theorem xiCu_rankD (y : Fin n → ℝ) (hn : 0 < n) :
    xiCu y = ((n : ℝ) * ((n : ℝ) ^ 2 - 1) - ∑ i, (rankD y i : ℝ) ^ 2) / (4 * n ^ 3) := by
  have hn0 : (0 : ℝ) < n := by exact_mod_cast hn
  have hg : ∀ i, xiGr y i = ((n : ℝ) + 1 - rankD y i) / (2 * n) := by
    intro i
    have h1 := rankAvg_rankD (fun j => -y j) i
    rw [rankD_neg] at h1
    push_cast at h1
    unfold xiGr
    rw [show rankAvg (fun j => -y j) i = ((n : ℝ) + 1 - rankD y i) / 2 by linarith]
    field_simp
  have h0 : ∑ i, (rankD y i : ℝ) = 0 := by exact_mod_cast sum_rankD y
  have e1 : ∀ i, xiGr y i * (1 - xiGr y i) = ((n : ℝ) ^ 2 - 1) / (4 * n ^ 2) + 2 / (4 * (n : ℝ) ^ 2) * rankD y i - (rankD y i : ℝ) ^ 2 / (4 * n ^ 2) := by
    intro i; rw [hg]; field_simp; ring
  unfold xiCu
  simp only [e1, sum_sub_distrib, sum_add_distrib, ← mul_sum, ← sum_div, h0, sum_const, card_univ, Fintype.card_fin, nsmul_eq_mul]
  field_simp
  ring

/-- the numerator of the statistic for a permuted `y`, in the order of the sorted `x` -/
theorem xiA1_rankD (srt : ArgSort ℝ) (x y : Fin n → ℝ) (π : Perm (Fin n)) (hn : 0 < n) :
    xiA1 srt x (fun k => y (π k)) =
      absDiffSum (fun k => (rankD y (π (srt.sort (rankAvg x) k)) : ℝ)) / (4 * n ^ 2) := by
  have hn0 : (0 : ℝ) < n := by exact_mod_cast hn
  have hf : ∀ k, xiFr (fun k => y (π k)) k = ((rankD y (π k) : ℝ) + (n + 1)) / (2 * n) := by
    intro k
    unfold xiFr
    rw [rankAvg_perm, ← rankAvg_rankD]
    field_simp
  unfold xiA1 absDiffSum
  rw [sum_div, sum_div]
  refine sum_congr rfl fun k _ => ?_
  split
  · simp only [hf]
    rw [← sub_div, abs_div, abs_of_pos (show (0 : ℝ) < 2 * n by linarith), add_sub_add_right_eq_sub]
    field_simp; ring
  · simp

/-- the average of the numerator over all permutations of `y` -/
theorem permAvg_xiA1 (srt : ArgSort ℝ) (x y : Fin n → ℝ) (hn : 2 ≤ n) :
    permAvg (fun π => xiA1 srt x fun k => y (π k)) = (∑ i, (rankD y i : ℝ) ^ 2) / (2 * n ^ 3) := by
  have hn2 : (2 : ℝ) ≤ n := by exact_mod_cast hn
  have hn1 : (n : ℝ) - 1 ≠ 0 := by linarith
  have hn0 : (n : ℝ) ≠ 0 := by linarith
  set σ := srt.sort (rankAvg x)
  have hB : ∑ a, ∑ b, |(rankD y a : ℝ) - rankD y b| = 2 * ∑ i, (rankD y i : ℝ) ^ 2 := by
    exact_mod_cast sum_abs_sub_rankD y
  have hk : ∀ k ∈ range (n - 1), permAvg (fun π : Perm (Fin n) => if h : k + 1 < n then
      |(rankD y (π (σ ⟨k + 1, h⟩)) : ℝ) - rankD y (π (σ ⟨k, by omega⟩))| else 0) = 2 * (∑ i, (rankD y i : ℝ) ^ 2) / (n * (n - 1)) := by
    intro k hk
    have h : k + 1 < n := by have := mem_range.mp hk; omega
    simp only [dif_pos h]
    have := permAvg_two (fun a b => |(rankD y a : ℝ) - rankD y b|) (by simp) (σ ⟨k + 1, h⟩) (σ ⟨k, by omega⟩)
      (fun hh => by simpa using σ.injective hh)
    rw [hB] at this
    rw [← this]
    field_simp
  have e : (fun π : Perm (Fin n) => xiA1 srt x fun k => y (π k)) = fun π => (1 / (4 * (n : ℝ) ^ 2)) *
      ∑ k ∈ range (n - 1), if h : k + 1 < n then |(rankD y (π (σ ⟨k + 1, h⟩)) : ℝ) - rankD y (π (σ ⟨k, by omega⟩))| else 0 := by
    funext π
    rw [xiA1_rankD srt x y π (by omega)]
    unfold absDiffSum
    ring
  rw [e, permAvg_mul, permAvg_sum, sum_congr rfl hk]
  simp only [sum_const, card_range, nsmul_eq_mul]
  rw [Nat.cast_sub (by omega), Nat.cast_one]
  field_simp
  ring

end Medil

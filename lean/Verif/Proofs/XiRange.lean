import Verif.Proofs.XiVar
import Mathlib.Algebra.Order.Chebyshev
/-
  Closed forms and bounds for `xicorr`.
-/
namespace Medil
open Finset
variable {K : Type} [Field K] [LinearOrder K] [IsStrictOrderedRing K] {n : Nat}

/-- the sorted ranks of values without ties -/
theorem xiQfr_inj (y : Fin n → K) (hy : Function.Injective y) (i : Fin n) :
    xiQfr y i = ((i.val : K) + 1) / n := by
  have hn : (0 : K) < n := by exact_mod_cast i.pos
  have hmono : Monotone fun k => xiFr y (Tuple.sort (xiFr y) k) :=
    Tuple.monotone_sort (xiFr y)
  have hinj : Function.Injective fun k => xiFr y (Tuple.sort (xiFr y) k) := by
    intro a b h
    have h' : rankAvg y (Tuple.sort (xiFr y) a) = rankAvg y (Tuple.sort (xiFr y) b) := by
      simp only [xiFr] at h
      exact (div_left_inj' hn.ne').mp h
    exact (Tuple.sort (xiFr y)).injective (hy ((rankAvg_eq_iff y _ _).mp h'))
  have hs : StrictMono fun k => xiFr y (Tuple.sort (xiFr y) k) := hmono.strictMono_of_injective hinj
  have hy' : StrictMono fun k => y (Tuple.sort (xiFr y) k) := by
    intro a b hab
    by_contra hc
    have h1 := hs hab
    rcases (not_lt.mp hc).lt_or_eq with h2 | h2
    · have := div_lt_div_of_pos_right (rankAvg_lt h2) hn
      exact lt_asymm h1 this
    · exact hab.ne (((Tuple.sort (xiFr y)).injective (hy h2)).symm)
  show rankAvg y (Tuple.sort (xiFr y) i) / n = _
  rw [← rankAvg_perm y (Tuple.sort (xiFr y)), rankAvg_strictMono _ hy']

theorem sum_pow1 (m : Nat) : ∑ k ∈ range m, (k : K) = m * (m - 1) / 2 := by
  induction m with
  | zero => simp
  | succ m ih => rw [sum_range_succ, ih]; push_cast; ring

theorem sum_pow2 (m : Nat) : ∑ k ∈ range m, (k : K) ^ 2 = m * (m - 1) * (2 * m - 1) / 6 := by
  induction m with
  | zero => simp
  | succ m ih => rw [sum_range_succ, ih]; push_cast; ring

theorem sum_pow3 (m : Nat) : ∑ k ∈ range m, (k : K) ^ 3 = (m * (m - 1) / 2) ^ 2 := by
  induction m with
  | zero => simp
  | succ m ih => rw [sum_range_succ, ih]; push_cast; ring

theorem sum_pow4 (m : Nat) : ∑ k ∈ range m, (k : K) ^ 4 = m * (m - 1) * (2 * m - 1) * (3 * m ^ 2 - 3 * m - 1) / 30 := by
  induction m with
  | zero => simp
  | succ m ih => rw [sum_range_succ, ih]; push_cast; ring

/-- the variance estimate when there are no ties -/
theorem xiVar_inj (y : Fin n → K) (hn : 2 ≤ n) (hy : Function.Injective y) :
    xiVar y = .fin ((2 * (n : K) ^ 2 + 7) / (5 * ((n : K) ^ 2 - 1))) := by
  have hn2 : (2 : K) ≤ n := by exact_mod_cast hn
  have hn0 : (n : K) ≠ 0 := by linarith
  have hn1 : (n : K) - 1 ≠ 0 := by intro h; linarith
  have hn3 : (n : K) + 1 ≠ 0 := by intro h; linarith
  have hn4 : (n : K) ^ 2 - 1 ≠ 0 := by
    rw [show (n : K) ^ 2 - 1 = (n - 1) * (n + 1) by ring]; exact mul_ne_zero hn1 hn3
  have hcu : xiCu y = ((n : K) + 1) * (n - 1) / (6 * n ^ 2) := by
    refine xiCu_strict y (by omega) (Tuple.sort y) (Or.inl ?_)
    exact (Tuple.monotone_sort y).strictMono_of_injective (hy.comp (Tuple.sort y).injective)
  have hq : ∀ i, xiQfr y i = ((i.val : K) + 1) / n := xiQfr_inj y hy
  have hpre : ∀ i : Fin n, ∑ j ∈ univ.filter (· ≤ i), xiQfr y j = ((i.val : K) + 1) * (i.val + 2) / 2 / n := by
    intro i
    have e : ∑ j ∈ univ.filter (· ≤ i), xiQfr y j = ∑ k ∈ range (i.val + 1), ((k : K) + 1) / n := by
      refine sum_bij (fun j _ => j.val) ?_ ?_ ?_ ?_
      · intro j hj
        have := (mem_filter.mp hj).2
        rw [mem_range]
        exact Nat.lt_succ_of_le this
      · intro a _ b _ h; exact Fin.ext h
      · intro k hk
        have hk' := mem_range.mp hk
        have := i.isLt
        exact ⟨⟨k, by omega⟩, by simp only [mem_filter, mem_univ, true_and, Fin.le_def]; omega, rfl⟩
      · intro j _; exact hq j
    rw [e, ← sum_div, sum_succ_range]
    push_cast
    ring
  have hm : ∀ i : Fin n, xiM y i = (((i.val : K) + 1) * (i.val + 2) / 2 + ((n : K) - (i.val + 1)) * (i.val + 1)) / n ^ 2 := by
    intro i
    unfold xiM
    rw [hpre, hq]
    field_simp
  unfold xiVar Fl.div
  rw [if_neg (pow_ne_zero 2 (xiCu_pos y hn).ne'), hcu]
  simp only [hq, hm, xiInd2]
  have s1 : ∑ i : Fin n, (2 * (n : K) - 2 * (i.val + 1) + 1) * (((i.val : K) + 1) / n) * (((i.val : K) + 1) / n) =
      (∑ k ∈ range n, (-2 * (k : K) ^ 3 + (2 * n - 5) * (k : K) ^ 2 + (4 * n - 4) * k + (2 * n - 1))) / n ^ 2 := by
    rw [Fin.sum_univ_eq_sum_range (fun k => (2 * (n : K) - 2 * ((k : K) + 1) + 1) * (((k : K) + 1) / n) * (((k : K) + 1) / n)), sum_div]
    exact sum_congr rfl fun k _ => by field_simp; ring
  have s2 : ∑ i : Fin n, (2 * (n : K) - 2 * (i.val + 1) + 1) * (((i.val : K) + 1) / n) =
      (∑ k ∈ range n, (-2 * (k : K) ^ 2 + (2 * n - 3) * k + (2 * n - 1))) / n := by
    rw [Fin.sum_univ_eq_sum_range (fun k => (2 * (n : K) - 2 * ((k : K) + 1) + 1) * (((k : K) + 1) / n)), sum_div]
    exact sum_congr rfl fun k _ => by field_simp; ring
  have s3 : ∑ i : Fin n, ((((i.val : K) + 1) * (i.val + 2) / 2 + ((n : K) - (i.val + 1)) * (i.val + 1)) / (n : K) ^ 2) ^ 2 =
      (∑ k ∈ range n, ((k : K) ^ 4 / 4 + (1 / 2 - n) * (k : K) ^ 3 + ((n : K) ^ 2 - 2 * n + 1 / 4) * (k : K) ^ 2
        + (2 * (n : K) ^ 2 - n) * k + (n : K) ^ 2)) / (n : K) ^ 4 := by
    rw [Fin.sum_univ_eq_sum_range (fun k => ((((k : K) + 1) * ((k : K) + 2) / 2 + ((n : K) - ((k : K) + 1)) * ((k : K) + 1)) / (n : K) ^ 2) ^ 2), sum_div]
    exact sum_congr rfl fun k _ => by field_simp; ring
  rw [s1, s2, s3]
  simp only [sum_add_distrib, ← mul_sum, ← sum_div, sum_pow1, sum_pow2, sum_pow3, sum_pow4, sum_const, card_range, nsmul_eq_mul]
  congr 1
  rw [show (n : K) ^ 2 - 1 = (n - 1) * (n + 1) by ring]
  field_simp
  ring

/-! ### the lower bound -/

/-- number of smaller values minus number of larger values -/
def rankD (z : Fin n → K) (i : Fin n) : ℤ := ∑ j, (if z j < z i then 1 else if z i < z j then -1 else 0)

theorem rankAvg_rankD (z : Fin n → K) (i : Fin n) : 2 * rankAvg z i = (rankD z i : K) + (n + 1) := by
  have h : ∀ j, ((if z j < z i then 1 else if z i < z j then -1 else 0 : ℤ) : K) =
      2 * (if z j < z i then 1 else 0) + (if z j = z i then 1 else 0) - 1 := by
    intro j
    rcases lt_trichotomy (z j) (z i) with h | h | h
    · rw [if_pos h, if_pos h, if_neg h.ne]; norm_num
    · rw [if_neg (by rw [h]; exact lt_irrefl _), if_neg (by rw [h]; exact lt_irrefl _),
        if_neg (by rw [h]; exact lt_irrefl _), if_pos h]; norm_num
    · rw [if_neg h.not_gt, if_pos h, if_neg h.not_gt, if_neg h.ne']; norm_num
  unfold rankD rankAvg
  rw [Int.cast_sum]
  simp only [h, sum_sub_distrib, sum_add_distrib, ← mul_sum, sum_boole, sum_const, card_univ, Fintype.card_fin, nsmul_eq_mul]
  ring

theorem rankD_neg (z : Fin n → K) (i : Fin n) : rankD (fun j => -z j) i = -rankD z i := by
  unfold rankD
  rw [← sum_neg_distrib]
  refine sum_congr rfl fun j _ => ?_
  simp only [neg_lt_neg_iff]
  rcases lt_trichotomy (z j) (z i) with h | h | h
  · simp [h, h.not_gt]
  · simp [h]
  · simp [h, h.not_gt]

theorem rankD_lt (z : Fin n → K) {i j : Fin n} (h : rankD z i < rankD z j) : z i < z j := by
  by_contra hc
  have h1 := rankAvg_rankD z i
  have h2 := rankAvg_rankD z j
  have h3 : (rankD z i : K) < rankD z j := by exact_mod_cast h
  rcases (not_lt.mp hc).lt_or_eq with h4 | h4
  · have := rankAvg_lt h4; linarith
  · have := (rankAvg_eq_iff z j i).mpr h4; linarith

omit [Field K] [IsStrictOrderedRing K] in
theorem sum_rankD (z : Fin n → K) : ∑ i, rankD z i = 0 := by
  have h : ∑ i, ∑ j, (if z j < z i then 1 else if z i < z j then -1 else 0 : ℤ) =
      ∑ i, ∑ j, -(if z j < z i then 1 else if z i < z j then -1 else 0 : ℤ) := by
    rw [sum_comm]
    refine sum_congr rfl fun i _ => sum_congr rfl fun j _ => ?_
    rcases lt_trichotomy (z j) (z i) with h | h | h
    · simp [h, h.not_gt]
    · simp [h]
    · simp [h, h.not_gt]
  simp only [sum_neg_distrib] at h
  unfold rankD
  omega

/-- `∑ |D|` from the numbers of positive, negative and zero entries -/
theorem sum_abs_rankD (z : Fin n → K) :
    2 * ∑ i, |rankD z i| = ∑ i, ∑ j, |(rankD z i).sign - (rankD z j).sign| := by
  let s : Fin n → ℤ := fun i => (rankD z i).sign
  let e : Fin n → Fin n → ℤ := fun i j => if z j < z i then 1 else if z i < z j then -1 else 0
  have e1 : ∑ i, |rankD z i| = ∑ i, ∑ j, s i * e i j := by
    refine sum_congr rfl fun i _ => ?_
    rw [← mul_sum]
    exact (Int.sign_mul_self_eq_abs (rankD z i)).symm
  have e2 : ∑ i, ∑ j, s i * e i j = ∑ i, ∑ j, -(s j * e i j) := by
    rw [sum_comm]
    refine sum_congr rfl fun i _ => sum_congr rfl fun j _ => ?_
    simp only [e]
    rcases lt_trichotomy (z j) (z i) with h | h | h
    · simp [h, h.not_gt]
    · simp [h]
    · simp [h, h.not_gt]
  rw [two_mul]
  conv_lhs => rw [e1]; congr; rfl; rw [e2]
  rw [← sum_add_distrib]
  refine sum_congr rfl fun i _ => ?_
  rw [← sum_add_distrib]
  refine sum_congr rfl fun j _ => ?_
  show s i * e i j + -(s j * e i j) = |s i - s j|
  have hmono : ∀ a b, z a ≤ z b → s a ≤ s b := by
    intro a b hab
    have : rankD z a ≤ rankD z b := by
      by_contra hc
      exact absurd (rankD_lt z (not_le.mp hc)) (not_lt.mpr hab)
    simp only [s]
    rcases Int.lt_trichotomy (rankD z a) 0 with h1 | h1 | h1 <;>
      rcases Int.lt_trichotomy (rankD z b) 0 with h2 | h2 | h2 <;>
      simp [h1, h2, Int.sign_eq_one_of_pos, Int.sign_eq_neg_one_of_neg] <;> omega
  rcases lt_trichotomy (z j) (z i) with h | h | h
  · have := hmono j i h.le
    rw [abs_of_nonneg (by omega)]
    simp only [e, if_pos h]; ring
  · have h1 := hmono j i h.le
    have h2 := hmono i j h.ge
    have h3 : s i = s j := le_antisymm h2 h1
    rw [h3]; simp
  · have := hmono i j h.le
    rw [abs_of_nonpos (by omega)]
    simp only [e, if_neg h.not_gt, if_pos h]; ring

theorem sum_abs_rankD_le (z : Fin n → K) (a : Fin n) : 2 * ∑ i, |rankD z i| + 1 ≤ (n : ℤ) ^ 2 + |rankD z a| := by
  let s : Fin n → ℤ := fun i => (rankD z i).sign
  have hs : ∀ i, s i = 1 ∨ s i = 0 ∨ s i = -1 := by
    intro i
    rcases Int.lt_trichotomy (rankD z i) 0 with h | h | h
    · exact Or.inr (Or.inr (Int.sign_eq_neg_one_of_neg h))
    · exact Or.inr (Or.inl (by simp [s, h]))
    · exact Or.inl (Int.sign_eq_one_of_pos h)
  have key : ∑ i, ∑ j, |s i - s j| = (n : ℤ) ^ 2 - (∑ i, s i) ^ 2 - (∑ i, (1 - s i ^ 2)) ^ 2 := by
    have e : ∀ i j, |s i - s j| = 1 - s i * s j - (1 - s i ^ 2) * (1 - s j ^ 2) := by
      intro i j
      rcases hs i with h | h | h <;> rcases hs j with h' | h' | h' <;> rw [h, h'] <;> norm_num
    simp only [e]
    rw [sq (∑ i, s i), sq (∑ i, (1 - s i ^ 2)), sum_mul_sum, sum_mul_sum]
    simp only [sum_sub_distrib, sum_const, card_univ, Fintype.card_fin, nsmul_eq_mul]
    ring
  have h2 : 2 * ∑ i, |rankD z i| = (n : ℤ) ^ 2 - (∑ i, s i) ^ 2 - (∑ i, (1 - s i ^ 2)) ^ 2 := by
    rw [sum_abs_rankD]; exact key
  by_cases ha : rankD z a = 0
  · have h3 : (1 : ℤ) ≤ ∑ i, (1 - s i ^ 2) := by
      have := single_le_sum (f := fun i => 1 - s i ^ 2) (s := univ) (fun i _ => by
        rcases hs i with h | h | h <;> rw [h] <;> norm_num) (mem_univ a)
      simpa [s, ha] using this
    have h4 := sq_nonneg (∑ i, s i)
    have h5 : (1 : ℤ) ≤ (∑ i, (1 - s i ^ 2)) ^ 2 := by nlinarith
    have := abs_nonneg (rankD z a)
    linarith
  · have h3 : (1 : ℤ) ≤ |rankD z a| := Int.one_le_abs ha
    have h4 := sq_nonneg (∑ i, s i)
    have h5 := sq_nonneg (∑ i, (1 - s i ^ 2))
    linarith

theorem sum_sq_rankD_le (z : Fin n → K) : 3 * ∑ i, rankD z i ^ 2 ≤ (n : ℤ) ^ 3 - n := by
  let e : Fin n → Fin n → ℤ := fun i j => if z j < z i then 1 else if z i < z j then -1 else 0
  have h1 : ∑ i, rankD z i ^ 2 = ∑ i, ∑ j, ∑ k, e i j * e i k := by
    refine sum_congr rfl fun i _ => ?_
    rw [sq]
    exact sum_mul_sum _ _ _ _
  have h2 : ∑ i, rankD z i ^ 2 = ∑ i, ∑ j, ∑ k, e j i * e j k := by rw [h1, sum_comm]
  have h3 : ∑ i, rankD z i ^ 2 = ∑ i, ∑ j, ∑ k, e k i * e k j := by
    rw [h1, sum_comm]
    rw [sum_congr rfl fun j _ => sum_comm, sum_comm]
  have h4 : ∀ i j k, e i j * e i k + e j i * e j k + e k i * e k j ≤ 1 - (if i = j then (if i = k then 1 else 0) else 0) := by
    intro i j k
    by_cases hij : i = j
    · subst hij
      by_cases hik : i = k
      · subst hik; simp [e]
      · rw [if_pos rfl, if_neg hik]
        simp only [e, lt_irrefl, if_false]
        split_ifs <;> norm_num
    · rw [if_neg hij]
      have : e i j * e i k + e j i * e j k + e k i * e k j ≤ 1 := by
        rcases lt_trichotomy (z i) (z j) with a | a | a <;> rcases lt_trichotomy (z i) (z k) with b | b | b <;>
          rcases lt_trichotomy (z j) (z k) with c | c | c <;>
          first
          | (exfalso; order)
          | (simp only [e, a, b, c, a.not_gt, b.not_gt, c.not_gt, lt_irrefl, if_true, if_false]; norm_num)
          | (simp [e, a, b, c])
      simpa using this
  calc 3 * ∑ i, rankD z i ^ 2 = ∑ i, ∑ j, ∑ k, (e i j * e i k + e j i * e j k + e k i * e k j) := by
        simp only [sum_add_distrib]
        rw [← h1, ← h2, ← h3]; ring
    _ ≤ ∑ i : Fin n, ∑ j : Fin n, ∑ k : Fin n, (1 - (if i = j then (if i = k then 1 else 0) else 0)) :=
        sum_le_sum fun i _ => sum_le_sum fun j _ => sum_le_sum fun k _ => h4 i j k
    _ = (n : ℤ) ^ 3 - n := by
        simp only [sum_sub_distrib, sum_const, card_univ, Fintype.card_fin, nsmul_eq_mul]
        have : ∀ i j : Fin n, ∑ k : Fin n, (if i = j then (if i = k then 1 else 0) else 0 : ℤ) = if i = j then 1 else 0 := by
          intro i j; by_cases h : i = j <;> simp [h]
        simp only [this]
        simp
        ring

theorem absDiffSum_le (f : Fin n → K) (hn : 2 ≤ n) : absDiffSum f ≤ 2 * ∑ i, |f i| - |f ⟨0, by omega⟩| := by
  obtain ⟨m, rfl⟩ : ∃ m, n = m + 1 := ⟨n - 1, by omega⟩
  have e : absDiffSum f = ∑ k : Fin m, |f k.succ - f k.castSucc| := by
    unfold absDiffSum
    rw [Nat.add_sub_cancel, ← Fin.sum_univ_eq_sum_range (fun k => if h : k + 1 < m + 1 then |f ⟨k + 1, h⟩ - f ⟨k, by omega⟩| else 0)]
    refine sum_congr rfl fun k _ => ?_
    rw [dif_pos (by have := k.isLt; omega)]
    rfl
  rw [e]
  have h1 : ∑ k : Fin m, |f k.succ - f k.castSucc| ≤ ∑ k : Fin m, |f k.succ| + ∑ k : Fin m, |f k.castSucc| := by
    rw [← sum_add_distrib]
    exact sum_le_sum fun k _ => abs_sub _ _
  have h2 := Fin.sum_univ_succ fun i => |f i|
  have h3 := Fin.sum_univ_castSucc fun i => |f i|
  have h4 := abs_nonneg (f (Fin.last m))
  have h5 : (⟨0, by omega⟩ : Fin (m + 1)) = 0 := rfl
  rw [h5]
  linarith

/-- the numerator -/
theorem xiA1_le (srt : ArgSort K) (x y : Fin n → K) (hn : 2 ≤ n) :
    xiA1 srt x y ≤ ((n : K) ^ 2 - 1) / (4 * n ^ 2) := by
  have hn0 : (0 : K) < n := by exact_mod_cast (show 0 < n by omega)
  set π := srt.sort (rankAvg x)
  set z : Fin n → K := fun k => y (π k) with hz
  have hf : ∀ k, xiFr y (π k) = rankAvg z k / n := fun k => by unfold xiFr; rw [← rankAvg_perm y π]
  have e : absDiffSum (fun k => xiFr y (π k)) = absDiffSum (fun k => (rankD z k : K)) / (2 * n) := by
    unfold absDiffSum
    rw [sum_div]
    refine sum_congr rfl fun k _ => ?_
    split
    · rename_i h
      simp only [hf]
      have h1 := rankAvg_rankD z ⟨k + 1, h⟩
      have h2 := rankAvg_rankD z ⟨k, by omega⟩
      rw [show rankAvg z ⟨k + 1, h⟩ / (n : K) - rankAvg z ⟨k, by omega⟩ / n =
        ((rankD z ⟨k + 1, h⟩ : K) - rankD z ⟨k, by omega⟩) / (2 * n) by
          rw [show rankAvg z ⟨k + 1, h⟩ = ((rankD z ⟨k + 1, h⟩ : K) + (n + 1)) / 2 by rw [← h1]; ring,
            show rankAvg z ⟨k, by omega⟩ = ((rankD z ⟨k, by omega⟩ : K) + (n + 1)) / 2 by rw [← h2]; ring]
          field_simp; ring, abs_div, abs_of_pos (show (0 : K) < 2 * n by linarith)]
    · simp
  have h1 := absDiffSum_le (fun k => (rankD z k : K)) hn
  have h2 := sum_abs_rankD_le z ⟨0, by omega⟩
  have h3 : 2 * ∑ i, |(rankD z i : K)| + 1 ≤ (n : K) ^ 2 + |(rankD z ⟨0, by omega⟩ : K)| := by exact_mod_cast h2
  unfold xiA1
  rw [show (fun k => xiFr y (srt.sort (rankAvg x) k)) = fun k => xiFr y (π k) from rfl, e, div_div,
    div_le_div_iff₀ (by positivity) (by positivity)]
  have h4 : absDiffSum (fun k => (rankD z k : K)) ≤ (n : K) ^ 2 - 1 := by linarith
  nlinarith [sq_nonneg (n : K), mul_le_mul_of_nonneg_right h4 (show (0 : K) ≤ 4 * n ^ 2 by positivity)]

/-- the denominator is smallest without ties -/
theorem xiCu_ge (y : Fin n → K) (hn : 2 ≤ n) : ((n : K) ^ 2 - 1) / (6 * n ^ 2) ≤ xiCu y := by
  have hn0 : (0 : K) < n := by exact_mod_cast (show 0 < n by omega)
  have hg : ∀ i, xiGr y i = ((n : K) + 1 - rankD y i) / (2 * n) := by
    intro i
    have h1 := rankAvg_rankD (fun j => -y j) i
    rw [rankD_neg] at h1
    push_cast at h1
    unfold xiGr
    rw [show rankAvg (fun j => -y j) i = ((n : K) + 1 - rankD y i) / 2 by linarith]
    field_simp
  have h0 : ∑ i, (rankD y i : K) = 0 := by exact_mod_cast sum_rankD y
  have h2 : 3 * ∑ i, (rankD y i : K) ^ 2 ≤ (n : K) ^ 3 - n := by exact_mod_cast sum_sq_rankD_le y
  have e : ∑ i, xiGr y i * (1 - xiGr y i) = ((n : K) * ((n : K) ^ 2 - 1) - ∑ i, (rankD y i : K) ^ 2) / (4 * n ^ 2) := by
    have e1 : ∀ i, xiGr y i * (1 - xiGr y i) = ((n : K) ^ 2 - 1) / (4 * n ^ 2) + 2 / (4 * (n : K) ^ 2) * rankD y i - (rankD y i : K) ^ 2 / (4 * n ^ 2) := by
      intro i; rw [hg]; field_simp; ring
    simp only [e1, sum_sub_distrib, sum_add_distrib, ← mul_sum, ← sum_div, h0, sum_const, card_univ, Fintype.card_fin, nsmul_eq_mul]
    ring
  unfold xiCu
  rw [e, div_div, div_le_div_iff₀ (by positivity) (by positivity)]
  have h5 : 0 ≤ (n : K) ^ 2 * ((n : K) ^ 3 - n - 3 * ∑ i, (rankD y i : K) ^ 2) := mul_nonneg (by positivity) (by linarith)
  nlinarith

end Medil

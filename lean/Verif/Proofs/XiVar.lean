import Verif.Proofs.Indep
import Mathlib.Tactic.Linarith
import Mathlib.Tactic.FieldSimp
import Mathlib.Order.Interval.Finset.Fin
/-
  The variance estimate and the range of `xicorr`.
-/
namespace Medil
open Finset
variable {K : Type} [Field K] [LinearOrder K] [IsStrictOrderedRing K] {n : Nat}

omit [LinearOrder K] [IsStrictOrderedRing K] in
theorem sum_min_row (g : Fin n → K) (i : Fin n) :
    ∑ j, g (min i j) = ∑ j ∈ univ.filter (· ≤ i), g j + ((n : K) - (i.val + 1)) * g i := by
  rw [← sum_filter_add_sum_filter_not univ (· ≤ i)]
  congr 1
  · exact sum_congr rfl fun j hj => by rw [min_eq_right (mem_filter.mp hj).2]
  · rw [sum_congr rfl (g := fun _ => g i) fun j hj => by
      rw [min_eq_left (not_le.mp (mem_filter.mp hj).2).le], sum_const, nsmul_eq_mul]
    congr 1
    have h1 : (univ.filter fun j : Fin n => ¬ j ≤ i) = Finset.Ioi i := by ext; simp
    rw [h1, Fin.card_Ioi]
    have := i.isLt
    rw [Nat.sub_sub, Nat.cast_sub (by omega)]
    push_cast
    ring

omit [LinearOrder K] [IsStrictOrderedRing K] in
theorem sum_min_all (g : Fin n → K) : ∑ i, ∑ j, g (min i j) = ∑ i, xiInd2 i * g i := by
  simp only [sum_min_row]
  rw [sum_add_distrib]
  have h1 : ∑ i : Fin n, ∑ j ∈ univ.filter (· ≤ i), g j = ∑ j : Fin n, ((n : K) - j.val) * g j := by
    simp only [sum_filter]
    rw [sum_comm]
    refine sum_congr rfl fun j _ => ?_
    rw [← sum_filter, sum_const, nsmul_eq_mul]
    congr 1
    have h2 : (univ.filter fun i : Fin n => j ≤ i) = Finset.Ici j := by ext; simp
    rw [h2, Fin.card_Ici, Nat.cast_sub j.isLt.le]
  rw [h1, ← sum_add_distrib]
  refine sum_congr rfl fun i _ => ?_
  unfold xiInd2
  ring

/-- the doubly centred square sum of a symmetric table -/
theorem centred_sq (a : Fin n → Fin n → K) (ha : ∀ i j, a i j = a j i) (hn : 0 < n) :
    ∑ i, ∑ j, (a i j - (∑ k, a i k) / n - (∑ k, a j k) / n + (∑ k, ∑ l, a k l) / n ^ 2) ^ 2 =
      ∑ i, ∑ j, a i j ^ 2 - 2 * (∑ i, (∑ j, a i j) ^ 2) / n + (∑ i, ∑ j, a i j) ^ 2 / n ^ 2 := by
  have hn0 : (n : K) ≠ 0 := by exact_mod_cast hn.ne'
  set R : Fin n → K := fun i => ∑ k, a i k with hR
  set T : K := ∑ k, ∑ l, a k l with hT
  have hTR : ∑ i, R i = T := rfl
  have e : ∀ i j, (a i j - R i / n - R j / n + T / n ^ 2) ^ 2 =
      a i j ^ 2 + (R i ^ 2 / n ^ 2 - 2 * T / n ^ 3 * R i + T ^ 2 / n ^ 4) + (R j ^ 2 / n ^ 2 - 2 * T / n ^ 3 * R j)
        - (2 / n * R i) * a i j - (2 / n * R j) * a i j + 2 * T / n ^ 2 * a i j + 2 / n ^ 2 * R i * R j := by
    intro i j; field_simp; ring
  have e1 : ∀ i, ∑ j, R j * a i j = ∑ j, R j * a j i := fun i => sum_congr rfl fun j _ => by rw [ha i j]
  have e2 : ∑ i, ∑ j, (2 / n * R j) * a i j = 2 / n * ∑ j, R j ^ 2 := by
    rw [sum_comm, mul_sum]
    refine sum_congr rfl fun j _ => ?_
    rw [← mul_sum, sum_congr rfl fun i _ => ha i j]
    show _ * R j = _
    ring
  have e3 : ∑ i, ∑ j, (2 / n * R i) * a i j = 2 / n * ∑ j, R j ^ 2 := by
    rw [mul_sum]
    refine sum_congr rfl fun i _ => ?_
    rw [← mul_sum]
    simp only [hR]
    ring
  show ∑ i, ∑ j, (a i j - R i / n - R j / n + T / n ^ 2) ^ 2 = _
  simp only [e, sum_add_distrib, sum_sub_distrib, e2, e3]
  simp only [sum_const, card_univ, Fintype.card_fin, nsmul_eq_mul, ← mul_sum, ← sum_mul, ← sum_div, hTR]
  rw [← hT]
  field_simp
  ring

/-- the variance estimate of `xicorr` as a sum of squares -/
theorem xiVar_eq (y : Fin n → K) (hn : 2 ≤ n) :
    xiVar y = .fin ((∑ i, ∑ j, (min (xiFr y i) (xiFr y j) - (∑ k, min (xiFr y i) (xiFr y k)) / n
      - (∑ k, min (xiFr y j) (xiFr y k)) / n + (∑ k, ∑ l, min (xiFr y k) (xiFr y l)) / n ^ 2) ^ 2) / n ^ 2 / xiCu y ^ 2) := by
  have hn0 : (n : K) ≠ 0 := by exact_mod_cast (show n ≠ 0 by omega)
  have hcu := xiCu_pos y hn
  set π := Tuple.sort (xiFr y) with hπ
  have hmono : Monotone (xiFr y ∘ π) := Tuple.monotone_sort _
  have hq : xiQfr y = fun i => xiFr y (π i) := rfl
  have hmin : ∀ i j, min (xiQfr y i) (xiQfr y j) = xiQfr y (min i j) := fun i j => (hmono.map_min).symm
  have hre : ∀ g : K → K → K, ∑ i, ∑ j, g (xiFr y i) (xiFr y j) = ∑ i, ∑ j, g (xiQfr y i) (xiQfr y j) := by
    intro g
    rw [← Equiv.sum_comp π]
    exact sum_congr rfl fun i _ => (Equiv.sum_comp π fun j => g (xiFr y (π i)) (xiFr y j)).symm
  rw [centred_sq (fun i j => min (xiFr y i) (xiFr y j)) (fun i j => min_comm _ _) (by omega)]
  have h1 : ∑ i, ∑ j, min (xiFr y i) (xiFr y j) ^ 2 = ∑ i, xiInd2 i * xiQfr y i * xiQfr y i := by
    rw [hre fun a b => min a b ^ 2]
    simp only [hmin]
    rw [sum_min_all fun i => xiQfr y i ^ 2]
    exact sum_congr rfl fun i _ => by ring
  have h2 : ∑ i, ∑ j, min (xiFr y i) (xiFr y j) = ∑ i, xiInd2 i * xiQfr y i := by
    rw [hre fun a b => min a b]
    simp only [hmin]
    exact sum_min_all _
  have h3 : ∑ i, (∑ j, min (xiFr y i) (xiFr y j)) ^ 2 = (n : K) ^ 2 * ∑ i, xiM y i ^ 2 := by
    rw [← Equiv.sum_comp π, mul_sum]
    refine sum_congr rfl fun i _ => ?_
    rw [← Equiv.sum_comp π]
    have : ∑ j, min (xiFr y (π i)) (xiFr y (π j)) = n * xiM y i := by
      show ∑ j, min (xiQfr y i) (xiQfr y j) = _
      simp only [hmin]
      rw [sum_min_row]
      unfold xiM
      field_simp
    rw [this]; ring
  rw [h1, h2, h3]
  unfold xiVar Fl.div
  rw [if_neg (pow_ne_zero 2 hcu.ne')]
  congr 1
  field_simp

theorem rankAvg_eq_iff (y : Fin n → K) (i j : Fin n) : rankAvg y i = rankAvg y j ↔ y i = y j := by
  constructor
  · intro h
    rcases lt_trichotomy (y i) (y j) with h1 | h1 | h1
    · exact absurd h (rankAvg_lt h1).ne
    · exact h1
    · exact absurd h (rankAvg_lt h1).ne'
  · intro h; unfold rankAvg; rw [h]

/-- the variance estimate is positive unless `y` is constant -/
theorem xiVar_pos (y : Fin n → K) (hn : 2 ≤ n) :
    ∃ v, xiVar y = .fin v ∧ 0 ≤ v ∧ (v = 0 ↔ ∀ i j, y i = y j) := by
  have hn0 : (n : K) ≠ 0 := by exact_mod_cast (show n ≠ 0 by omega)
  have hcu := xiCu_pos y hn
  have hnn : ∀ i j, 0 ≤ (min (xiFr y i) (xiFr y j) - (∑ k, min (xiFr y i) (xiFr y k)) / n
      - (∑ k, min (xiFr y j) (xiFr y k)) / n + (∑ k, ∑ l, min (xiFr y k) (xiFr y l)) / n ^ 2) ^ 2 := fun i j => sq_nonneg _
  refine ⟨_, xiVar_eq y hn, div_nonneg (div_nonneg (sum_nonneg fun i _ => sum_nonneg fun j _ => hnn i j) (by positivity))
    (by positivity), ?_⟩
  rw [div_eq_zero_iff, or_iff_left (pow_ne_zero 2 hcu.ne'), div_eq_zero_iff, or_iff_left (pow_ne_zero 2 hn0),
    sum_eq_zero_iff_of_nonneg fun i _ => sum_nonneg fun j _ => hnn i j]
  constructor
  · intro h i j
    have h1 : ∀ i j, min (xiFr y i) (xiFr y j) = (∑ k, min (xiFr y i) (xiFr y k)) / n
        + (∑ k, min (xiFr y j) (xiFr y k)) / n - (∑ k, ∑ l, min (xiFr y k) (xiFr y l)) / n ^ 2 := by
      intro i j
      have := (sum_eq_zero_iff_of_nonneg fun j _ => hnn i j).mp (h i (mem_univ _)) j (mem_univ _)
      have := pow_eq_zero_iff two_ne_zero |>.mp this
      linarith
    have hi := h1 i i
    have hj := h1 j j
    have hij := h1 i j
    rw [min_self] at hi hj
    have h2 : min (xiFr y i) (xiFr y j) = (xiFr y i + xiFr y j) / 2 := by rw [hij]; linarith
    have h3 : xiFr y i = xiFr y j := by
      rcases min_choice (xiFr y i) (xiFr y j) with h4 | h4 <;> rw [h4] at h2 <;> linarith
    unfold xiFr at h3
    rw [div_left_inj' hn0] at h3
    exact (rankAvg_eq_iff y i j).mp h3
  · intro h i _
    have hc : ∀ k, xiFr y k = xiFr y i := fun k => by unfold xiFr; rw [(rankAvg_eq_iff y k i).mpr (h k i)]
    refine sum_eq_zero fun j _ => ?_
    simp only [hc, min_self, sum_const, card_univ, Fintype.card_fin, nsmul_eq_mul]
    field_simp
    ring

end Medil

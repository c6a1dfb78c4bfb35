import Verif.Model.Indep
import Verif.Spec.Indep
import Mathlib.Algebra.BigOperators.Field
import Mathlib.Algebra.BigOperators.Fin
import Mathlib.Algebra.Order.BigOperators.Ring.Finset
import Mathlib.Tactic.Linarith
import Mathlib.Tactic.NormNum
import Mathlib.Tactic.Ring
import Mathlib.Tactic.FieldSimp
import Mathlib.Tactic.LinearCombination
/-
  Lemmas about the model of medil/independence_testing.py.
-/
namespace Medil
open Finset
set_option linter.unusedSectionVars false

section dcov
variable {K : Type} [Field K] [LinearOrder K] [IsStrictOrderedRing K] {N M : Nat}

theorem centre_eq (x : Fin N → K) (k l : Fin N) : centre (distMat x) k l = centredDist x k l := by
  unfold centre centredDist colMean rowMean allMean distMat
  rw [pow_two]
  ring

theorem centredDist_symm (x : Fin N → K) (k l : Fin N) : centredDist x k l = centredDist x l k := by
  unfold centredDist
  rw [abs_sub_comm (x k) (x l)]
  have h1 : ∀ a, (∑ m, |x a - x m|) = ∑ m, |x m - x a| := fun a =>
    Finset.sum_congr rfl fun m _ => abs_sub_comm _ _
  rw [h1 k, h1 l]
  ring

/-- sum over `k < l` of a symmetric function -/
theorem two_sum_lt (f : Fin N → Fin N → K) (hf : ∀ k l, f k l = f l k) :
    2 * (∑ e ∈ univ.filter (fun e : Fin N × Fin N => e.1 < e.2), f e.1 e.2) =
      ∑ k, ∑ l, f k l - ∑ k, f k k := by
  have hall : ∑ k, ∑ l, f k l = ∑ e : Fin N × Fin N, f e.1 e.2 := by
    rw [← Finset.univ_product_univ, Finset.sum_product]
  have hlt : ∑ e ∈ univ.filter (fun e : Fin N × Fin N => e.2 < e.1), f e.1 e.2 =
      ∑ e ∈ univ.filter (fun e : Fin N × Fin N => e.1 < e.2), f e.1 e.2 := by
    refine Finset.sum_bij' (fun e _ => (e.2, e.1)) (fun e _ => (e.2, e.1)) ?_ ?_ ?_ ?_ ?_
    · intro e he; simpa using he
    · intro e he; simpa using he
    · intro e _; rfl
    · intro e _; rfl
    · intro e _; exact hf _ _
  have hdiag : ∑ e ∈ univ.filter (fun e : Fin N × Fin N => e.1 = e.2), f e.1 e.2 = ∑ k, f k k := by
    refine Finset.sum_bij' (fun e _ => e.1) (fun k _ => (k, k)) ?_ ?_ ?_ ?_ ?_
    · intro e _; exact Finset.mem_univ _
    · intro k _; simp
    · rintro ⟨a, b⟩ he
      have : a = b := by simpa using he
      simp [this]
    · intro k _; rfl
    · rintro ⟨a, b⟩ he
      have : a = b := by simpa using he
      simp [this]
  have hsplit : ∑ e : Fin N × Fin N, f e.1 e.2 =
      ∑ e ∈ univ.filter (fun e : Fin N × Fin N => e.1 < e.2), f e.1 e.2 +
      (∑ e ∈ univ.filter (fun e : Fin N × Fin N => e.1 = e.2), f e.1 e.2 +
       ∑ e ∈ univ.filter (fun e : Fin N × Fin N => e.2 < e.1), f e.1 e.2) := by
    rw [← Finset.sum_filter_add_sum_filter_not univ (fun e : Fin N × Fin N => e.1 < e.2)]
    congr 1
    rw [← Finset.sum_filter_add_sum_filter_not (univ.filter (fun e : Fin N × Fin N => ¬ e.1 < e.2))
      (fun e : Fin N × Fin N => e.1 = e.2), Finset.filter_filter, Finset.filter_filter]
    congr 1
    · refine Finset.sum_congr ?_ fun _ _ => rfl
      ext e; simp only [Finset.mem_filter, Finset.mem_univ, true_and]
      constructor
      · exact fun h => h.2
      · exact fun h => ⟨by rw [h]; exact lt_irrefl _, h⟩
    · refine Finset.sum_congr ?_ fun _ _ => rfl
      ext e; simp only [Finset.mem_filter, Finset.mem_univ, true_and]
      constructor
      · exact fun h => lt_of_le_of_ne (not_lt.mp h.1) (Ne.symm h.2)
      · exact fun h => ⟨not_lt.mpr (le_of_lt h), ne_of_gt h⟩
  rw [hall, hsplit, hlt, hdiag]
  ring

/-- what the code computes, in terms of the full double sum -/
theorem dcov_entry (s : Fin N → Fin M → K) (i j : Fin M) :
    2 * (dcov s).1 i j = sampleDcov (fun k => s k i) (fun k => s k j) -
      (∑ k, centredDist (fun k => s k i) k k * centredDist (fun k => s k j) k k) / N ^ 2 := by
  have h := two_sum_lt (fun k l => centredDist (fun k => s k i) k l * centredDist (fun k => s k j) k l)
    (fun k l => by rw [centredDist_symm _ k l, centredDist_symm _ k l])
  unfold dcov sampleDcov
  simp only [centre_eq]
  rw [← sub_div, ← h]
  ring

theorem centredDist_affine (x : Fin N → K) (c b : K) (k l : Fin N) :
    centredDist (fun m => c * x m + b) k l = |c| * centredDist x k l := by
  have h : ∀ p q : Fin N, |c * x p + b - (c * x q + b)| = |c| * |x p - x q| := by
    intro p q
    rw [← abs_mul]; congr 1; ring
  unfold centredDist
  simp only [h, ← Finset.mul_sum]
  ring

theorem centredDist_perm (x : Fin N → K) (π : Equiv.Perm (Fin N)) (k l : Fin N) :
    centredDist (fun m => x (π m)) k l = centredDist x (π k) (π l) := by
  unfold centredDist
  rw [Equiv.sum_comp π (fun m => |x (π k) - x m|), Equiv.sum_comp π (fun m => |x m - x (π l)|)]
  congr 2
  rw [← Equiv.sum_comp π (fun p => ∑ m, |x p - x m|)]
  exact Finset.sum_congr rfl fun p _ => Equiv.sum_comp π (fun m => |x (π p) - x m|)

theorem dcov_affine (s : Fin N → Fin M → K) (c b : Fin M → K) (i j : Fin M) :
    (dcov fun k i => c i * s k i + b i).1 i j = |c i| * |c j| * (dcov s).1 i j := by
  have h := dcov_entry (fun k i => c i * s k i + b i) i j
  have h' := dcov_entry s i j
  unfold sampleDcov at h h'
  simp only [centredDist_affine] at h
  have e : ∀ k l : Fin N, |c i| * centredDist (fun k => s k i) k l * (|c j| * centredDist (fun k => s k j) k l) =
      |c i| * |c j| * (centredDist (fun k => s k i) k l * centredDist (fun k => s k j) k l) := by
    intro k l; ring
  simp only [e, ← Finset.mul_sum] at h
  linear_combination (1/2) * h - (1/2) * |c i| * |c j| * h'

theorem dbar_affine (s : Fin N → Fin M → K) (c b : Fin M → K) (i : Fin M) :
    (dcov fun k i => c i * s k i + b i).2 i = |c i| * (dcov s).2 i := by
  have h : ∀ p q : Fin N, |c i * s p i + b i - (c i * s q i + b i)| = |c i| * |s p i - s q i| := by
    intro p q
    rw [← abs_mul]; congr 1; ring
  unfold dcov allMean distMat
  simp only [h, ← Finset.mul_sum]
  ring

theorem dcov_symm (s : Fin N → Fin M → K) (i j : Fin M) : (dcov s).1 i j = (dcov s).1 j i := by
  unfold dcov
  simp only [mul_comm]

theorem dcov_perm (s : Fin N → Fin M → K) (π : Equiv.Perm (Fin N)) :
    dcov (fun k i => s (π k) i) = dcov s := by
  apply Prod.ext
  · funext i j
    have h := dcov_entry (fun k i => s (π k) i) i j
    have h' := dcov_entry s i j
    unfold sampleDcov at h h'
    simp only [centredDist_perm (fun k => s k i) π, centredDist_perm (fun k => s k j) π] at h
    have e1 : ∑ k, ∑ l, centredDist (fun k => s k i) (π k) (π l) * centredDist (fun k => s k j) (π k) (π l) =
        ∑ k, ∑ l, centredDist (fun k => s k i) k l * centredDist (fun k => s k j) k l := by
      rw [← Equiv.sum_comp π (fun k => ∑ l, centredDist (fun k => s k i) k l * centredDist (fun k => s k j) k l)]
      exact Finset.sum_congr rfl fun k _ => Equiv.sum_comp π
        (fun l => centredDist (fun k => s k i) (π k) l * centredDist (fun k => s k j) (π k) l)
    have e2 := Equiv.sum_comp π (fun k => centredDist (fun k => s k i) k k * centredDist (fun k => s k j) k k)
    rw [e1, e2] at h
    exact mul_left_cancel₀ (two_ne_zero) (h.trans h'.symm)
  · funext i
    unfold dcov allMean distMat
    simp only
    rw [← Equiv.sum_comp π (fun k => ∑ l, |s k i - s l i|)]
    congr 1
    exact Finset.sum_congr rfl fun k _ => Equiv.sum_comp π (fun l => |s (π k) i - s l i|)

/-- multiplying numerator and denominator by the same positive number changes nothing, also for 0/0 -/
theorem Fl.div_mul (c a b : K) (hc : 0 < c) : Fl.div (c * a) (c * b) = Fl.div a b := by
  unfold Fl.div
  have h1 : c * b = 0 ↔ b = 0 := by simp [ne_of_gt hc]
  have h2 : c * a = 0 ↔ a = 0 := by simp [ne_of_gt hc]
  have h3 : 0 < c * a ↔ 0 < a := by rw [mul_pos_iff_of_pos_left hc]
  by_cases hb : b = 0
  · simp only [if_pos hb, if_pos (h1.mpr hb), h2, h3]
  · rw [if_neg hb, if_neg (fun h => hb (h1.mp h)), mul_div_mul_left _ _ (ne_of_gt hc)]

theorem dcov_const (s : Fin N → Fin M → K) (i j : Fin M) (h : ∀ k l, s k i = s l i) :
    (dcov s).1 i j = 0 ∧ (dcov s).2 i = 0 := by
  have hz : ∀ k l : Fin N, |s k i - s l i| = 0 := fun k l => by rw [h k l, sub_self, abs_zero]
  have hc : ∀ k l, centredDist (fun k => s k i) k l = 0 := by
    intro k l
    unfold centredDist
    simp only [hz, Finset.sum_const_zero, zero_div]
    ring
  constructor
  · unfold dcov
    simp only [centre_eq, hc, zero_mul, Finset.sum_const_zero, zero_div]
  · unfold dcov allMean distMat
    simp only [hz, Finset.sum_const_zero, zero_div]

end dcov

section xi
variable {K : Type} [Field K] [LinearOrder K] [IsStrictOrderedRing K] {n : Nat}

theorem rankAvg_map (x : Fin n → K) (φ : K → K) (hφ : StrictMono φ) :
    rankAvg (fun i => φ (x i)) = rankAvg x := by
  funext i
  unfold rankAvg
  simp only [hφ.lt_iff_lt, hφ.injective.eq_iff]

theorem rankAvg_neg_map (x : Fin n → K) (φ : K → K) (hφ : StrictMono φ) :
    rankAvg (fun i => -φ (x i)) = rankAvg (fun i => -x i) := by
  funext i
  unfold rankAvg
  simp only [neg_lt_neg_iff, neg_inj, hφ.lt_iff_lt, hφ.injective.eq_iff]

theorem rankAvg_perm (x : Fin n → K) (π : Equiv.Perm (Fin n)) (k : Fin n) :
    rankAvg (fun i => x (π i)) k = rankAvg x (π k) := by
  unfold rankAvg
  congr 2
  · refine Finset.card_bij (fun i _ => π i) ?_ ?_ ?_
    · intro i hi; simpa using hi
    · intro i _ j _ h; exact π.injective h
    · intro j hj; exact ⟨π.symm j, by simpa using hj, by simp⟩
  · congr 2
    refine Finset.card_bij (fun i _ => π i) ?_ ?_ ?_
    · intro i hi; simpa using hi
    · intro i _ j _ h; exact π.injective h
    · intro j hj; exact ⟨π.symm j, by simpa using hj, by simp⟩

theorem rankAvg_strictMono (z : Fin n → K) (h : StrictMono z) (k : Fin n) :
    rankAvg z k = (k.val : K) + 1 := by
  unfold rankAvg
  simp only [h.lt_iff_lt, h.injective.eq_iff]
  have h1 : (univ.filter fun j => j < k) = Finset.Iio k := by ext; simp
  have h2 : (univ.filter fun j => j = k) = {k} := by ext; simp
  rw [h1, h2, Fin.card_Iio, Finset.card_singleton]
  norm_num

theorem rankAvg_strictAnti (z : Fin n → K) (h : StrictAnti z) (k : Fin n) :
    rankAvg z k = (n : K) - k.val := by
  unfold rankAvg
  simp only [h.lt_iff_gt, h.injective.eq_iff]
  have h1 : (univ.filter fun j => k < j) = Finset.Ioi k := by ext; simp
  have h2 : (univ.filter fun j => j = k) = {k} := by ext; simp
  rw [h1, h2, Fin.card_Ioi, Finset.card_singleton]
  have : n - 1 - k.val = n - (k.val + 1) := by omega
  rw [this, Nat.cast_sub k.isLt]
  push_cast
  ring

/-- ranks are ordered like the values -/
theorem rankAvg_lt {x : Fin n → K} {i j : Fin n} (h : x i < x j) : rankAvg x i < rankAvg x j := by
  unfold rankAvg
  have h1 : (univ.filter fun k => x k < x i).card + (univ.filter fun k => x k = x i).card ≤
      (univ.filter fun k => x k < x j).card := by
    rw [← Finset.card_union_of_disjoint]
    · apply Finset.card_le_card
      intro k hk
      simp only [Finset.mem_union, Finset.mem_filter, Finset.mem_univ, true_and] at hk ⊢
      rcases hk with hk | hk
      · exact hk.trans h
      · rw [hk]; exact h
    · rw [Finset.disjoint_filter]
      intro k _ hk hk'
      exact absurd hk (by rw [hk']; exact lt_irrefl _)
  have h2 : 1 ≤ (univ.filter fun k => x k = x j).card :=
    Finset.card_pos.mpr ⟨j, by simp⟩
  have h3 : 1 ≤ (univ.filter fun k => x k = x i).card :=
    Finset.card_pos.mpr ⟨i, by simp⟩
  have h1' : (((univ.filter fun k => x k < x i).card : K)) + ((univ.filter fun k => x k = x i).card : K) ≤
      ((univ.filter fun k => x k < x j).card : K) := by exact_mod_cast h1
  have h2' : (1 : K) ≤ ((univ.filter fun k => x k = x j).card : K) := by exact_mod_cast h2
  have h3' : (1 : K) ≤ ((univ.filter fun k => x k = x i).card : K) := by exact_mod_cast h3
  linarith

/-- a permutation that sorts the ranks sorts the values -/
theorem sort_strictMono (srt : ArgSort K) (x : Fin n → K) (hx : Function.Injective x) :
    StrictMono fun k => x (srt.sort (rankAvg x) k) := by
  intro a b hab
  have hle := srt.sorted (rankAvg x) (le_of_lt hab)
  by_contra hc
  have hne : x (srt.sort (rankAvg x) b) ≠ x (srt.sort (rankAvg x) a) := by
    intro he
    exact (ne_of_gt hab) ((srt.sort (rankAvg x)).injective (hx he))
  have hlt : x (srt.sort (rankAvg x) b) < x (srt.sort (rankAvg x) a) := lt_of_le_of_ne (not_lt.mp hc) hne
  exact absurd (rankAvg_lt hlt) (not_lt.mpr hle)

theorem rankAvg_pos (x : Fin n → K) (i : Fin n) : 0 < rankAvg x i := by
  unfold rankAvg; positivity

theorem rankAvg_le (x : Fin n → K) (i : Fin n) : rankAvg x i ≤ n ∧
    (rankAvg x i = n → ∀ j, j ≠ i → x j < x i) := by
  have hd : (univ.filter fun k => x k < x i).card + (univ.filter fun k => x k = x i).card +
      (univ.filter fun k => x i < x k).card = n := by
    have h1 := Finset.card_filter_add_card_filter_not (s := (univ : Finset (Fin n))) (fun k => x k < x i)
    have h2 := Finset.card_filter_add_card_filter_not (s := (univ : Finset (Fin n)).filter fun k => ¬ x k < x i)
      (fun k => x k = x i)
    rw [Finset.filter_filter, Finset.filter_filter] at h2
    have e1 : (univ.filter fun k => ¬ x k < x i ∧ x k = x i) = univ.filter fun k => x k = x i := by
      ext k; simp only [Finset.mem_filter, Finset.mem_univ, true_and]
      exact ⟨fun h => h.2, fun h => ⟨by rw [h]; exact lt_irrefl _, h⟩⟩
    have e2 : (univ.filter fun k => ¬ x k < x i ∧ ¬ x k = x i) = univ.filter fun k => x i < x k := by
      ext k; simp only [Finset.mem_filter, Finset.mem_univ, true_and]
      exact ⟨fun h => lt_of_le_of_ne (not_lt.mp h.1) (Ne.symm h.2),
        fun h => ⟨not_lt.mpr (le_of_lt h), ne_of_gt h⟩⟩
    rw [e1, e2] at h2
    rw [Finset.card_univ, Fintype.card_fin] at h1
    omega
  have h3 : 1 ≤ (univ.filter fun k => x k = x i).card := Finset.card_pos.mpr ⟨i, by simp⟩
  have hd' : ((univ.filter fun k => x k < x i).card : K) + ((univ.filter fun k => x k = x i).card : K) +
      ((univ.filter fun k => x i < x k).card : K) = n := by exact_mod_cast hd
  have h3' : (1 : K) ≤ ((univ.filter fun k => x k = x i).card : K) := by exact_mod_cast h3
  have h4' : (0 : K) ≤ ((univ.filter fun k => x i < x k).card : K) := Nat.cast_nonneg _
  refine ⟨by unfold rankAvg; linarith, ?_⟩
  intro he j hji
  unfold rankAvg at he
  have e1 : ((univ.filter fun k => x k = x i).card : K) = 1 := by linarith
  have e2 : ((univ.filter fun k => x i < x k).card : K) = 0 := by linarith
  have e1' : (univ.filter fun k => x k = x i).card = 1 := by exact_mod_cast e1
  have e2' : (univ.filter fun k => x i < x k).card = 0 := by exact_mod_cast e2
  rcases lt_trichotomy (x j) (x i) with h | h | h
  · exact h
  · obtain ⟨a, ha⟩ := Finset.card_eq_one.mp e1'
    have hj : j ∈ (univ.filter fun k => x k = x i) := by simp [h]
    have hi : i ∈ (univ.filter fun k => x k = x i) := by simp
    rw [ha, Finset.mem_singleton] at hj hi
    exact absurd (hj.trans hi.symm) hji
  · have hj : j ∈ (univ.filter fun k => x i < x k) := by simp [h]
    rw [Finset.card_eq_zero.mp e2'] at hj
    exact absurd hj (Finset.notMem_empty _)

theorem xiCu_pos (y : Fin n → K) (hn : 2 ≤ n) : 0 < xiCu y := by
  have hn0 : (0 : K) < n := by exact_mod_cast (show 0 < n by omega)
  unfold xiCu
  apply div_pos _ hn0
  have hg : ∀ i, 0 < xiGr y i ∧ xiGr y i ≤ 1 := by
    intro i
    unfold xiGr
    exact ⟨div_pos (rankAvg_pos _ i) hn0, (div_le_one hn0).mpr (rankAvg_le _ i).1⟩
  apply Finset.sum_pos'
  · intro i _
    exact mul_nonneg (le_of_lt (hg i).1) (sub_nonneg.mpr (hg i).2)
  · -- not both of the first two ranks are maximal
    by_contra hc
    push Not at hc
    have hone : ∀ i, rankAvg (fun j => -y j) i = n := by
      intro i
      have h1 := hc i (Finset.mem_univ i)
      have h2 : xiGr y i * (1 - xiGr y i) = 0 :=
        le_antisymm h1 (mul_nonneg (le_of_lt (hg i).1) (sub_nonneg.mpr (hg i).2))
      rcases mul_eq_zero.mp h2 with h3 | h3
      · exact absurd h3 (ne_of_gt (hg i).1)
      · have h4 : xiGr y i = 1 := by linarith
        unfold xiGr at h4
        exact (div_eq_one_iff_eq (ne_of_gt hn0)).mp h4
    have a : Fin n := ⟨0, by omega⟩
    have h01 := (rankAvg_le (fun j => -y j) ⟨0, by omega⟩).2 (hone _) ⟨1, by omega⟩ (by simp)
    have h10 := (rankAvg_le (fun j => -y j) ⟨1, by omega⟩).2 (hone _) ⟨0, by omega⟩ (by simp)
    exact lt_asymm h01 h10

theorem absDiffSum_nonneg (f : Fin n → K) : 0 ≤ absDiffSum f := by
  unfold absDiffSum
  refine Finset.sum_nonneg fun k _ => ?_
  split
  · exact abs_nonneg _
  · exact le_refl _

theorem absDiffSum_const (f : Fin n → K) (d : K)
    (h : ∀ k (hk : k + 1 < n), |f ⟨k + 1, hk⟩ - f ⟨k, by omega⟩| = d) :
    absDiffSum f = (n - 1 : Nat) * d := by
  unfold absDiffSum
  rw [Finset.sum_congr rfl (g := fun _ => d)]
  · rw [Finset.sum_const, Finset.card_range, nsmul_eq_mul]
  · intro k hk
    have : k + 1 < n := by have := Finset.mem_range.mp hk; omega
    rw [dif_pos this, h k this]

theorem sum_succ_range (m : Nat) : ∑ k ∈ range m, ((k : K) + 1) = m * (m + 1) / 2 := by
  induction m with
  | zero => simp
  | succ m ih => rw [Finset.sum_range_succ, ih]; push_cast; ring

theorem sum_succ_sq_range (m : Nat) :
    ∑ k ∈ range m, ((k : K) + 1) ^ 2 = (m : K) * ((m : K) + 1) * (2 * (m : K) + 1) / 6 := by
  induction m with
  | zero => simp
  | succ m ih => rw [Finset.sum_range_succ, ih]; push_cast; ring

/-- the denominator when the values of `y`, listed in some order, are strictly monotone -/
theorem xiCu_strict (y : Fin n → K) (hn : 0 < n) (π : Equiv.Perm (Fin n))
    (h : (StrictMono fun k => y (π k)) ∨ StrictAnti fun k => y (π k)) :
    xiCu y = (n + 1) * (n - 1) / (6 * n ^ 2) := by
  have hn0 : (n : K) ≠ 0 := by exact_mod_cast (show n ≠ 0 by omega)
  have base : ∑ k : Fin n, (((k.val : K) + 1) / n) * (1 - ((k.val : K) + 1) / n) =
      (n + 1) * (n - 1) / (6 * n) := by
    rw [Fin.sum_univ_eq_sum_range (fun k => (((k : K) + 1) / n) * (1 - ((k : K) + 1) / n))]
    have e : ∀ k ∈ range n, (((k : K) + 1) / n) * (1 - ((k : K) + 1) / n) =
        ((k : K) + 1) * (1 / n) - ((k : K) + 1) ^ 2 * (1 / n ^ 2) := by
      intro k _; field_simp
    rw [Finset.sum_congr rfl e, Finset.sum_sub_distrib, ← Finset.sum_mul, ← Finset.sum_mul,
      sum_succ_range, sum_succ_sq_range]
    field_simp
    ring
  have key : ∑ i, xiGr y i * (1 - xiGr y i) = (n + 1) * (n - 1) / (6 * n) := by
    rw [← Equiv.sum_comp π (fun i => xiGr y i * (1 - xiGr y i)), ← base]
    rcases h with h | h
    · have hneg : StrictAnti fun k => -y (π k) := fun a b hab => neg_lt_neg (h hab)
      have hg : ∀ k, xiGr y (π k) = ((n : K) - k.val) / n := by
        intro k
        unfold xiGr
        rw [← rankAvg_perm (fun j => -y j) π k, rankAvg_strictAnti _ hneg]
      rw [← Equiv.sum_comp Fin.revPerm (fun k : Fin n => (((k.val : K) + 1) / n) * (1 - ((k.val : K) + 1) / n))]
      refine Finset.sum_congr rfl fun k _ => ?_
      rw [hg k]
      have : ((Fin.revPerm k).val : K) + 1 = n - k.val := by
        rw [Fin.revPerm_apply, Fin.val_rev, Nat.cast_sub k.isLt]
        push_cast; ring
      rw [this]
    · have hneg : StrictMono fun k => -y (π k) := fun a b hab => neg_lt_neg (h hab)
      refine Finset.sum_congr rfl fun k _ => ?_
      have hg : xiGr y (π k) = ((k.val : K) + 1) / n := by
        unfold xiGr
        rw [← rankAvg_perm (fun j => -y j) π k, rankAvg_strictMono _ hneg]
      rw [hg]
  unfold xiCu
  rw [key]
  field_simp

end xi
end Medil

import Verif.Proofs.Indep
import Mathlib.Data.Fin.Tuple.Sort
import Mathlib.Algebra.Order.Chebyshev
/-
  The sample distance covariance as a Gram sum.
-/
namespace Medil
open Finset
variable {K : Type} [Field K] [LinearOrder K] [IsStrictOrderedRing K] {N : Nat}

/-- doubly centring a table -/
def dcentre (a : Fin N → Fin N → K) (k l : Fin N) : K :=
  a k l - (∑ m, a k m) / N - (∑ m, a m l) / N + (∑ p, ∑ m, a p m) / N ^ 2

theorem centredDist_min (x : Fin N → K) (c : K) (k l : Fin N) :
    centredDist x k l = -2 * dcentre (fun p m => min (x p) (x m) - c) k l := by
  have hN : (N : K) ≠ 0 := by exact_mod_cast k.pos.ne'
  have e : ∀ a b : K, |a - b| = a + b - 2 * c - 2 * (min a b - c) := by
    intro a b
    rcases le_total a b with h | h
    · rw [abs_of_nonpos (by linarith), min_eq_left h]; ring
    · rw [abs_of_nonneg (by linarith), min_eq_right h]; ring
  unfold centredDist dcentre
  simp only [e, sum_sub_distrib, sum_add_distrib, ← mul_sum, sum_const, card_univ, Fintype.card_fin, nsmul_eq_mul]
  field_simp
  ring

/-- doubly centring a sum of products of indicators -/
theorem dcentre_gram (T : Nat) (w : Fin T → K) (u : Fin T → Fin N → K) (k l : Fin N) :
    dcentre (fun p m => ∑ t, w t * (u t p * u t m)) k l =
      ∑ t, w t * ((u t k - (∑ m, u t m) / N) * (u t l - (∑ m, u t m) / N)) := by
  have hN : (N : K) ≠ 0 := by exact_mod_cast k.pos.ne'
  have e1 : ∑ m, ∑ t, w t * (u t k * u t m) = ∑ t, w t * (u t k * ∑ m, u t m) := by
    rw [sum_comm]; exact sum_congr rfl fun t _ => by rw [mul_sum, mul_sum]
  have e2 : ∑ m, ∑ t, w t * (u t m * u t l) = ∑ t, w t * ((∑ m, u t m) * u t l) := by
    rw [sum_comm]; exact sum_congr rfl fun t _ => by rw [sum_mul, mul_sum]
  have e3 : ∑ p, ∑ m, ∑ t, w t * (u t p * u t m) = ∑ t, w t * ((∑ m, u t m) * ∑ m, u t m) := by
    have : ∀ p, ∑ m, ∑ t, w t * (u t p * u t m) = ∑ t, w t * (u t p * ∑ m, u t m) := fun p => by
      rw [sum_comm]; exact sum_congr rfl fun t _ => by rw [mul_sum, mul_sum]
    simp only [this]
    rw [sum_comm]; exact sum_congr rfl fun t _ => by rw [sum_mul, mul_sum]
  unfold dcentre
  rw [e1, e2, e3, sum_div, sum_div, sum_div, ← sum_sub_distrib, ← sum_sub_distrib, ← sum_add_distrib]
  refine sum_congr rfl fun t _ => ?_
  field_simp
  ring

/-- the minimum as a sum of products of indicators with non-negative weights -/
theorem min_gram (x : Fin N → K) (hN : 0 < N) : ∃ (c : K) (w : Fin N → K) (u : Fin N → Fin N → K), (∀ t, 0 ≤ w t) ∧
    ∀ p m, min (x p) (x m) - c = ∑ t, w t * (u t p * u t m) := by
  let π := Tuple.sort x
  let z : Fin N → K := fun k => x (π k)
  have hz : Monotone z := Tuple.monotone_sort x
  let g : Nat → K := fun t => if h : t < N then z ⟨t, h⟩ else z ⟨N - 1, by omega⟩
  have hg : Monotone g := by
    refine monotone_nat_of_le_succ fun t => ?_
    simp only [g]
    by_cases h1 : t + 1 < N
    · rw [dif_pos h1, dif_pos (by omega)]; exact hz (by rw [Fin.mk_le_mk]; omega)
    · rw [dif_neg h1]
      by_cases h2 : t < N
      · rw [dif_pos h2]; exact hz (by rw [Fin.mk_le_mk]; omega)
      · rw [dif_neg h2]
  have hgz : ∀ i : Fin N, g i.val = z i := fun i => by simp [g]
  have tele : ∀ i : Nat, ∑ t ∈ range i, (g (t + 1) - g t) = g i - g 0 := fun i => sum_range_sub g i
  refine ⟨g 0, fun t => g (t.val + 1) - g t.val, fun t p => if t.val < (π.symm p).val then 1 else 0,
    fun t => sub_nonneg.mpr (hg (Nat.le_succ _)), fun p m => ?_⟩
  have hx : ∀ p, x p = g (π.symm p).val := fun p => by rw [hgz]; simp [z]
  rw [hx p, hx m, ← hg.map_min, ← tele]
  rw [Fin.sum_univ_eq_sum_range (fun t => (g (t + 1) - g t) *
    ((if t < (π.symm p).val then 1 else 0) * (if t < (π.symm m).val then 1 else 0)))]
  have e : ∀ t, (g (t + 1) - g t) * ((if t < (π.symm p).val then 1 else 0) * (if t < (π.symm m).val then 1 else 0)) =
      if t < min (π.symm p).val (π.symm m).val then g (t + 1) - g t else 0 := by
    intro t
    simp only [lt_min_iff]
    by_cases h1 : t < (π.symm p).val <;> by_cases h2 : t < (π.symm m).val <;> simp [h1, h2]
  simp only [e]
  rw [← sum_filter]
  refine sum_congr ?_ fun _ _ => rfl
  ext t
  simp only [mem_range, mem_filter]
  have := (π.symm p).isLt
  omega

/-- the centred distances of a sample are minus a Gram matrix -/
theorem centredDist_gram (x : Fin N → K) (hN : 0 < N) : ∃ (w : Fin N → K) (u : Fin N → Fin N → K), (∀ t, 0 ≤ w t) ∧
    ∀ k l, centredDist x k l = -2 * ∑ t, w t * (u t k * u t l) := by
  obtain ⟨c, w, u, hw, h⟩ := min_gram x hN
  refine ⟨w, fun t k => u t k - (∑ m, u t m) / N, hw, fun k l => ?_⟩
  rw [centredDist_min x c, ← dcentre_gram]
  congr 1
  simp only [h]

omit [IsStrictOrderedRing K] in
theorem sum_centred_gram {T S : Nat} (x y : Fin N → K) (w : Fin T → K) (u : Fin T → Fin N → K) (w' : Fin S → K) (v : Fin S → Fin N → K)
    (hx : ∀ k l, centredDist x k l = -2 * ∑ t, w t * (u t k * u t l))
    (hy : ∀ k l, centredDist y k l = -2 * ∑ t, w' t * (v t k * v t l)) :
    ∑ k, ∑ l, centredDist x k l * centredDist y k l = 4 * ∑ t, ∑ s, w t * w' s * (∑ k, u t k * v s k) ^ 2 := by
  have e1 : ∀ k l, centredDist x k l * centredDist y k l =
      4 * ∑ t, ∑ s, w t * w' s * ((u t k * v s k) * (u t l * v s l)) := by
    intro k l
    rw [hx, hy, show ∀ a b : K, -2 * a * (-2 * b) = 4 * (a * b) from fun a b => by ring, sum_mul_sum]
    congr 1
    exact sum_congr rfl fun t _ => sum_congr rfl fun s _ => by ring
  simp only [e1, ← mul_sum]
  congr 1
  have e2 : ∀ k, ∑ l, ∑ t, ∑ s, w t * w' s * ((u t k * v s k) * (u t l * v s l)) =
      ∑ t, ∑ s, w t * w' s * ((u t k * v s k) * ∑ l, u t l * v s l) := by
    intro k
    rw [sum_comm]
    refine sum_congr rfl fun t _ => ?_
    rw [sum_comm]
    refine sum_congr rfl fun s _ => ?_
    rw [mul_sum, mul_sum]
  simp only [e2]
  rw [sum_comm]
  refine sum_congr rfl fun t _ => ?_
  rw [sum_comm]
  refine sum_congr rfl fun s _ => ?_
  rw [← mul_sum, ← sum_mul, sq]

/-- the sample distance covariance is not negative -/
theorem sampleDcov_nonneg (x y : Fin N → K) : 0 ≤ sampleDcov x y := by
  rcases Nat.eq_zero_or_pos N with h0 | hN
  · subst h0; simp [sampleDcov]
  obtain ⟨w, u, hw, hx⟩ := centredDist_gram x hN
  obtain ⟨w', v, hw', hy⟩ := centredDist_gram y hN
  unfold sampleDcov
  refine div_nonneg ?_ (by positivity)
  rw [sum_centred_gram x y w u w' v hx hy]
  exact mul_nonneg (by norm_num) (sum_nonneg fun t _ => sum_nonneg fun s _ => mul_nonneg (mul_nonneg (hw t) (hw' s)) (sq_nonneg _))

/-- the diagonal of the centred distances is not positive -/
theorem centredDist_diag (x : Fin N → K) (k : Fin N) : centredDist x k k ≤ 0 := by
  obtain ⟨w, u, hw, hx⟩ := centredDist_gram x k.pos
  rw [hx]
  have : 0 ≤ ∑ t, w t * (u t k * u t k) := sum_nonneg fun t _ => mul_nonneg (hw t) (mul_self_nonneg _)
  linarith

theorem dcov_le_half (s : Fin N → Fin M → K) (i j : Fin M) :
    (dcov s).1 i j ≤ sampleDcov (fun k => s k i) (fun k => s k j) / 2 := by
  have h := dcov_entry s i j
  have : 0 ≤ (∑ k, centredDist (fun k => s k i) k k * centredDist (fun k => s k j) k k) / (N : K) ^ 2 :=
    div_nonneg (sum_nonneg fun k _ => mul_nonneg_of_nonpos_of_nonpos (centredDist_diag _ k) (centredDist_diag _ k)) (by positivity)
  linarith

/-- the mean distance, from the diagonal of the centred distances -/
theorem meanDist_eq (x : Fin N → K) (hN : 0 < N) :
    (∑ k, ∑ l, |x k - x l|) / (N : K) ^ 2 = -(∑ k, centredDist x k k) / N := by
  have hN0 : (N : K) ≠ 0 := by exact_mod_cast hN.ne'
  unfold centredDist
  simp only [sub_self, abs_zero, sum_sub_distrib, sum_add_distrib, sum_const, card_univ, Fintype.card_fin, nsmul_eq_mul,
    ← sum_div]
  have : ∑ i, ∑ m, |x m - x i| = ∑ i, ∑ m, |x i - x m| := sum_comm
  rw [this]
  field_simp
  ring

/-- the sample distance covariance is at most the product of the mean distances -/
theorem sampleDcov_le (x y : Fin N → K) (hN : 0 < N) :
    sampleDcov x y ≤ (∑ k, ∑ l, |x k - x l|) / (N : K) ^ 2 * ((∑ k, ∑ l, |y k - y l|) / (N : K) ^ 2) := by
  have hN0 : (0 : K) < N := by exact_mod_cast hN
  obtain ⟨w, u, hw, hx⟩ := centredDist_gram x hN
  obtain ⟨w', v, hw', hy⟩ := centredDist_gram y hN
  have dx : -(∑ k, centredDist x k k) = 2 * ∑ t, w t * ∑ k, u t k ^ 2 := by
    simp only [hx, ← mul_sum]
    rw [sum_comm]
    have : ∑ t, ∑ k, w t * (u t k * u t k) = ∑ t, w t * ∑ k, u t k ^ 2 :=
      sum_congr rfl fun t _ => by rw [mul_sum]; exact sum_congr rfl fun k _ => by ring
    rw [this]; ring
  have dy : -(∑ k, centredDist y k k) = 2 * ∑ t, w' t * ∑ k, v t k ^ 2 := by
    simp only [hy, ← mul_sum]
    rw [sum_comm]
    have : ∑ t, ∑ k, w' t * (v t k * v t k) = ∑ t, w' t * ∑ k, v t k ^ 2 :=
      sum_congr rfl fun t _ => by rw [mul_sum]; exact sum_congr rfl fun k _ => by ring
    rw [this]; ring
  rw [meanDist_eq x hN, meanDist_eq y hN, dx, dy]
  unfold sampleDcov
  rw [sum_centred_gram x y w u w' v hx hy, div_mul_div_comm, sq]
  refine div_le_div_of_nonneg_right ?_ (by positivity)
  rw [show ∀ a b : K, 2 * a * (2 * b) = 4 * (a * b) from fun a b => by ring, sum_mul_sum]
  refine mul_le_mul_of_nonneg_left ?_ (by norm_num)
  refine sum_le_sum fun t _ => sum_le_sum fun s _ => ?_
  rw [show ∀ a b c d : K, a * b * (c * d) = a * c * (b * d) from fun a b c d => by ring]
  exact mul_le_mul_of_nonneg_left (sum_mul_sq_le_sq_mul_sq _ _ _) (mul_nonneg (hw t) (hw' s))

/-- sums of functions of an empirically independent pair -/
theorem sum_indep {α β : Type} [DecidableEq α] [DecidableEq β] (x : Fin N → α) (y : Fin N → β)
    (h : ∀ a b, N * (univ.filter fun k => x k = a ∧ y k = b).card =
      (univ.filter fun k => x k = a).card * (univ.filter fun k => y k = b).card) (F : α → β → K) :
    (N : K) * ∑ k, F (x k) (y k) = ∑ k, ∑ l, F (x k) (y l) := by
  have e1 : ∑ k, F (x k) (y k) = ∑ a ∈ univ.image x, ∑ b ∈ univ.image y,
      ((univ.filter fun k => x k = a ∧ y k = b).card : K) * F a b := by
    have := sum_comp (s := (univ : Finset (Fin N))) (fun p : α × β => F p.1 p.2) (fun k => (x k, y k))
    rw [this, ← sum_product']
    have hsub : (univ.image fun k => (x k, y k)) ⊆ univ.image x ×ˢ univ.image y := by
      intro p hp
      obtain ⟨k, -, rfl⟩ := mem_image.mp hp
      exact mem_product.mpr ⟨mem_image_of_mem _ (mem_univ k), mem_image_of_mem _ (mem_univ k)⟩
    refine (sum_subset hsub ?_).trans ?_
    · intro p _ hp
      have : (univ.filter fun k => (x k, y k) = p) = ∅ := by
        refine filter_eq_empty_iff.mpr fun k _ hk => hp (mem_image.mpr ⟨k, mem_univ k, hk⟩)
      rw [this]; simp
    · refine sum_congr rfl fun p _ => ?_
      rw [nsmul_eq_mul]
      simp only [Prod.ext_iff]
  have e2 : ∑ k, ∑ l, F (x k) (y l) = ∑ a ∈ univ.image x, ∑ b ∈ univ.image y,
      ((univ.filter fun k => x k = a).card : K) * ((univ.filter fun k => y k = b).card * F a b) := by
    rw [sum_comp (s := (univ : Finset (Fin N))) (fun a => ∑ l, F a (y l)) x]
    refine sum_congr rfl fun a _ => ?_
    rw [sum_comp (s := (univ : Finset (Fin N))) (fun b => F a b) y, nsmul_eq_mul, mul_sum]
    exact sum_congr rfl fun b _ => by rw [nsmul_eq_mul]
  rw [e1, e2, mul_sum]
  refine sum_congr rfl fun a _ => ?_
  rw [mul_sum]
  refine sum_congr rfl fun b _ => ?_
  have : (N : K) * ((univ.filter fun k => x k = a ∧ y k = b).card : K) =
      ((univ.filter fun k => x k = a).card : K) * ((univ.filter fun k => y k = b).card : K) := by exact_mod_cast h a b
  rw [← mul_assoc, this, mul_assoc]

theorem sum_centredDist (x : Fin N → K) : ∑ k, ∑ l, centredDist x k l = 0 := by
  rcases Nat.eq_zero_or_pos N with h0 | hN
  · subst h0; simp
  have hN0 : (N : K) ≠ 0 := by exact_mod_cast hN.ne'
  unfold centredDist
  simp only [sum_sub_distrib, sum_add_distrib, sum_const, card_univ, Fintype.card_fin, nsmul_eq_mul, ← mul_sum, ← sum_div]
  have : ∑ i, ∑ m, |x m - x i| = ∑ i, ∑ m, |x i - x m| := sum_comm
  rw [this]
  field_simp
  ring

/-- an empirically independent pair has sample distance covariance 0 -/
theorem sampleDcov_indep (x y : Fin N → K)
    (h : ∀ a b, N * (univ.filter fun k => x k = a ∧ y k = b).card =
      (univ.filter fun k => x k = a).card * (univ.filter fun k => y k = b).card) : sampleDcov x y = 0 := by
  rcases Nat.eq_zero_or_pos N with h0 | hN
  · subst h0; simp [sampleDcov]
  have hN0 : (N : K) ≠ 0 := by exact_mod_cast hN.ne'
  -- centred distances as functions of the values
  let A : K → K → K := fun a b => |a - b| - (∑ m, |a - x m|) / N - (∑ m, |x m - b|) / N + (∑ p, ∑ m, |x p - x m|) / (N : K) ^ 2
  let B : K → K → K := fun a b => |a - b| - (∑ m, |a - y m|) / N - (∑ m, |y m - b|) / N + (∑ p, ∑ m, |y p - y m|) / (N : K) ^ 2
  have hA : ∀ k l, centredDist x k l = A (x k) (x l) := fun k l => rfl
  have hB : ∀ k l, centredDist y k l = B (y k) (y l) := fun k l => rfl
  have e1 : ∀ k, (N : K) * ∑ l, A (x k) (x l) * B (y k) (y l) = ∑ l, ∑ l', A (x k) (x l) * B (y k) (y l') := fun k =>
    sum_indep x y h fun a b => A (x k) a * B (y k) b
  have e2 : (N : K) * ∑ k, ∑ l, ∑ l', A (x k) (x l) * B (y k) (y l') =
      ∑ k, ∑ k', ∑ l, ∑ l', A (x k) (x l) * B (y k') (y l') :=
    sum_indep x y h fun a b => ∑ l, ∑ l', A a (x l) * B b (y l')
  have e3 : ∑ k, ∑ k', ∑ l, ∑ l', A (x k) (x l) * B (y k') (y l') = (∑ k, ∑ l, A (x k) (x l)) * ∑ k, ∑ l, B (y k) (y l) := by
    rw [sum_mul_sum]
    exact sum_congr rfl fun k _ => sum_congr rfl fun k' _ => by rw [sum_mul_sum]
  have e4 : (N : K) * (N * ∑ k, ∑ l, centredDist x k l * centredDist y k l) = 0 := by
    simp only [hA, hB]
    rw [mul_sum (s := univ) (a := (N : K))]
    simp only [e1]
    rw [e2, e3]
    have := sum_centredDist x
    simp only [hA] at this
    rw [this, zero_mul]
  have e5 : ∑ k, ∑ l, centredDist x k l * centredDist y k l = 0 := by
    rcases mul_eq_zero.mp e4 with h | h
    · exact absurd h hN0
    · exact (mul_eq_zero.mp h).resolve_left hN0
  unfold sampleDcov
  rw [e5, zero_div]

end Medil

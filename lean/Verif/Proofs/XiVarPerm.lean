import Verif.Proofs.XiNull
/-
  The second moment of the sum of successive distances over all permutations.
-/
namespace Medil
open Finset Equiv
variable {n : Nat}

/-- neighbours on a path -/
def pathAdj (a b : Fin n) : ℝ := (if a.val + 1 = b.val then 1 else 0) + (if b.val + 1 = a.val then 1 else 0)

theorem pathAdj_self (a : Fin n) : pathAdj a a = 0 := by simp [pathAdj]

theorem pathAdj_symm (a b : Fin n) : pathAdj a b = pathAdj b a := by unfold pathAdj; ring

theorem sum_next (F : Fin n → ℝ) (a : Fin n) :
    ∑ b : Fin n, (if a.val + 1 = b.val then 1 else 0) * F b = if h : a.val + 1 < n then F ⟨a.val + 1, h⟩ else 0 := by
  split
  · rename_i h
    rw [sum_eq_single ⟨a.val + 1, h⟩]
    · simp
    · intro b _ hb
      rw [if_neg (fun hh => hb (Fin.ext hh.symm)), zero_mul]
    · simp
  · rename_i h
    refine sum_eq_zero fun b _ => ?_
    rw [if_neg (by have := b.isLt; omega), zero_mul]

theorem sum_prev (F : Fin n → ℝ) (a : Fin n) :
    ∑ b : Fin n, (if b.val + 1 = a.val then 1 else 0) * F b = if h : 0 < a.val then F ⟨a.val - 1, by omega⟩ else 0 := by
  split
  · rename_i h
    rw [sum_eq_single ⟨a.val - 1, by omega⟩]
    · rw [if_pos (by simp; omega), one_mul]
    · intro b _ hb
      rw [if_neg (fun hh => hb (Fin.ext (by simp; omega))), zero_mul]
    · simp
  · rename_i h
    refine sum_eq_zero fun b _ => ?_
    rw [if_neg (by omega), zero_mul]

theorem pathAdj_row (hn : 2 ≤ n) (a : Fin n) : ∑ b, pathAdj a b = 2 - (if a = ⟨0, by omega⟩ then 1 else 0) - (if a = ⟨n - 1, by omega⟩ then 1 else 0) := by
  have h1 := sum_next (fun _ => 1) a
  have h2 := sum_prev (fun _ => 1) a
  simp only [mul_one] at h1 h2
  unfold pathAdj
  rw [sum_add_distrib, h1, h2]
  have ha := a.isLt
  simp only [Fin.ext_iff]
  split_ifs <;> first | (exfalso; omega) | norm_num

theorem pathAdj_sum (hn : 2 ≤ n) : ∑ a, ∑ b, pathAdj (n := n) a b = 2 * ((n : ℝ) - 1) := by
  simp only [pathAdj_row hn, sum_sub_distrib, sum_ite_eq', mem_univ, if_true, sum_const, card_univ, Fintype.card_fin, nsmul_eq_mul]
  ring

theorem pathAdj_row_sq (hn : 2 ≤ n) : ∑ a, (∑ b, pathAdj (n := n) a b) ^ 2 = 4 * (n : ℝ) - 6 := by
  have h : ∀ a : Fin n, (∑ b, pathAdj a b) ^ 2 = 4 - 3 * (if a = ⟨0, by omega⟩ then 1 else 0) - 3 * (if a = ⟨n - 1, by omega⟩ then 1 else 0) := by
    intro a
    rw [pathAdj_row hn]
    simp only [Fin.ext_iff]
    split_ifs <;> first | (exfalso; omega) | norm_num
  simp only [h, sum_sub_distrib, ← mul_sum, sum_ite_eq', mem_univ, if_true, sum_const, card_univ, Fintype.card_fin, nsmul_eq_mul]
  ring

theorem pathAdj_sq (hn : 2 ≤ n) : ∑ a, ∑ b, pathAdj (n := n) a b ^ 2 = 2 * ((n : ℝ) - 1) := by
  rw [← pathAdj_sum hn]
  refine sum_congr rfl fun a _ => sum_congr rfl fun b _ => ?_
  unfold pathAdj
  split_ifs <;> first | (exfalso; omega) | norm_num

/-- the sum of successive distances as a sum over the edges of the path -/
theorem absDiffSum_path (g : Fin n → ℝ) : ∑ a, ∑ b, pathAdj a b * |g a - g b| = 2 * absDiffSum g := by
  have h1 : ∑ a : Fin n, ∑ b : Fin n, (if a.val + 1 = b.val then 1 else 0) * |g a - g b| = absDiffSum g := by
    simp only [sum_next]
    have e : ∀ x : Fin n, (if h : x.val + 1 < n then |g x - g ⟨x.val + 1, h⟩| else 0) =
        (fun k => if h : k + 1 < n then |g ⟨k + 1, h⟩ - g ⟨k, by omega⟩| else 0) x.val := by
      intro x
      show _ = if h : x.val + 1 < n then _ else 0
      split
      · rw [abs_sub_comm]
      · rfl
    simp only [e]
    rw [Fin.sum_univ_eq_sum_range (fun k => if h : k + 1 < n then |g ⟨k + 1, h⟩ - g ⟨k, by omega⟩| else 0) n]
    unfold absDiffSum
    refine (sum_subset (range_subset_range.mpr (by omega)) fun k hk hk' => ?_).symm
    rw [dif_neg]
    simp only [mem_range] at hk hk'
    omega
  have h2 : ∑ a : Fin n, ∑ b : Fin n, (if b.val + 1 = a.val then 1 else 0) * |g a - g b| = absDiffSum g := by
    rw [sum_comm, ← h1]
    exact sum_congr rfl fun a _ => sum_congr rfl fun b _ => by rw [abs_sub_comm]
  unfold pathAdj
  simp only [add_mul, sum_add_distrib, h1, h2]
  ring

/-- the second moment of the sum of successive distances, over all permutations -/
theorem permAvg_absDiff_sq (hn : 4 ≤ n) (D : Fin n → ℝ) (σ : Perm (Fin n)) :
    ∃ b1 b2 b3 : ℝ,
      n * ((n : ℝ) - 1) * b1 = ∑ a, ∑ b, |D a - D b| ∧
      n * ((n : ℝ) - 1) * b2 = ∑ a, ∑ b, (D a - D b) ^ 2 ∧
      n * ((n : ℝ) - 1) * (b2 + (n - 2) * b3) = ∑ a, (∑ b, |D a - D b|) ^ 2 ∧
      permAvg (fun π => absDiffSum fun k => D (π (σ k))) = ((n : ℝ) - 1) * b1 ∧
      permAvg (fun π => (absDiffSum fun k => D (π (σ k))) ^ 2) =
        n * ((n : ℝ) - 1) * b1 ^ 2 + ((n : ℝ) - 3) * b2 - 2 * ((n : ℝ) - 2) * b3 := by
  have hn4 : (4 : ℝ) ≤ n := by exact_mod_cast hn
  have h0 : (n : ℝ) ≠ 0 := by linarith
  have h1 : (n : ℝ) - 1 ≠ 0 := by linarith
  obtain ⟨b2, b3, b4, e2, e3, e4, main⟩ := permAvg_square hn (fun a b => |D a - D b|) (by simp) (fun a b => abs_sub_comm _ _)
  obtain ⟨b1, hb1⟩ : ∃ b1, b1 = (∑ a, ∑ b, |D a - D b|) / (n * ((n : ℝ) - 1)) := ⟨_, rfl⟩
  have e1 : n * ((n : ℝ) - 1) * b1 = ∑ a, ∑ b, |D a - D b| := by rw [hb1]; field_simp
  simp only [sq_abs] at e2
  refine ⟨b1, b2, b3, e1, e2, e3, ?_, ?_⟩
  · have hs : permAvg (fun π => absDiffSum fun k => D (π (σ k))) = permAvg (fun π => 1 / 2 * ∑ k, ∑ l, pathAdj k l * |D (π (σ k)) - D (π (σ l))|) := by
      congr 1; funext π
      rw [absDiffSum_path]; ring
    rw [hs, permAvg_mul, permAvg_sum]
    have hk : ∀ k l, permAvg (fun π : Perm (Fin n) => pathAdj k l * |D (π (σ k)) - D (π (σ l))|) = pathAdj k l * b1 := by
      intro k l
      rw [permAvg_mul]
      by_cases hkl : k = l
      · rw [hkl, pathAdj_self]; simp
      · have := permAvg_two (fun a b => |D a - D b|) (by simp) (σ k) (σ l) (fun h => hkl (σ.injective h))
        rw [← e1] at this
        rw [mul_left_cancel₀ (mul_ne_zero h0 h1) this]
    simp only [permAvg_sum, hk, ← sum_mul, pathAdj_sum (show 2 ≤ n by omega)]
    ring
  · have hs : permAvg (fun π => (absDiffSum fun k => D (π (σ k))) ^ 2) = permAvg (fun π => 1 / 4 * (∑ k, ∑ l, pathAdj k l * |D (π k) - D (π l)|) ^ 2) := by
      unfold permAvg
      congr 1
      rw [← Equiv.sum_comp (Equiv.mulRight σ) fun π : Perm (Fin n) => 1 / 4 * (∑ k, ∑ l, pathAdj k l * |D (π k) - D (π l)|) ^ 2]
      refine sum_congr rfl fun π _ => ?_
      have := absDiffSum_path fun k => D (π (σ k))
      show _ = 1 / 4 * (∑ k, ∑ l, pathAdj k l * |D (π (σ k)) - D (π (σ l))|) ^ 2
      rw [this]; ring
    rw [hs, permAvg_mul, main pathAdj pathAdj_self pathAdj_symm, pathAdj_sum (by omega), pathAdj_row_sq (by omega), pathAdj_sq (by omega)]
    rw [← e1] at e4
    have e4' : 2 * b2 + 4 * (n - 2) * b3 + (n - 2) * (n - 3) * b4 = n * ((n : ℝ) - 1) * b1 ^ 2 := by
      have := mul_ne_zero h0 h1
      apply mul_left_cancel₀ this
      rw [e4]; ring
    linear_combination e4'

end Medil

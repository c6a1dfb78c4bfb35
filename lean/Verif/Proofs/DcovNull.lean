import Verif.Proofs.DcovPower
import Verif.Proofs.PermAvg
import Verif.Props.Dcov
import Verif.Props.DcovConsistent
/-
  The statistic of `dcov_fast` when one column is permuted.
-/
namespace Medil
open Finset Equiv
variable {N M : Nat}

/-- the centred distances off the diagonal -/
noncomputable def offDist (x : Fin N → ℝ) (k l : Fin N) : ℝ := if k = l then 0 else centredDist x k l

theorem offDist_diag (x : Fin N → ℝ) (k : Fin N) : offDist x k k = 0 := by simp [offDist]

theorem offDist_symm (x : Fin N → ℝ) (k l : Fin N) : offDist x k l = offDist x l k := by
  unfold offDist
  by_cases h : k = l
  · rw [h]
  · rw [if_neg h, if_neg (Ne.symm h), centredDist_symm]

theorem centredDist_off (x : Fin N → ℝ) (k l : Fin N) : centredDist x k l = offDist x k l + if k = l then centredDist x k k else 0 := by
  unfold offDist
  split_ifs with h
  · rw [h]; ring
  · ring

theorem offDist_row (x : Fin N → ℝ) (k : Fin N) : ∑ l, offDist x k l = -centredDist x k k := by
  have h := sum_centredDist_left x k
  have : ∀ l, centredDist x l k = offDist x k l + if k = l then centredDist x k k else 0 := fun l => by
    rw [centredDist_symm, centredDist_off]
  rw [sum_congr rfl fun l _ => this l, sum_add_distrib, sum_ite_eq, if_pos (mem_univ k)] at h
  linarith

theorem offDist_total (x : Fin N → ℝ) : ∑ k, ∑ l, offDist x k l = N * meanDist x := by
  rcases Nat.eq_zero_or_pos N with h0 | hN
  · subst h0; simp
  have hN0 : (N : ℝ) ≠ 0 := by exact_mod_cast hN.ne'
  simp only [offDist_row]
  unfold meanDist
  rw [meanDist_eq x hN, sum_neg_distrib]
  field_simp

theorem offDist_rows_sq (x : Fin N → ℝ) : ∑ k, (∑ l, offDist x k l) ^ 2 ≤ 16 * ∑ k, x k ^ 2 := by
  simp only [offDist_row, neg_sq]
  exact diag_sq_le x

theorem offDist_sq (x : Fin N → ℝ) : ∑ k, ∑ l, offDist x k l ^ 2 ≤ N ^ 2 * meanDist x ^ 2 := by
  rcases Nat.eq_zero_or_pos N with h0 | hN
  · subst h0; simp
  have hN0 : (0 : ℝ) < N := by exact_mod_cast hN
  have h1 : ∑ k, ∑ l, offDist x k l ^ 2 ≤ ∑ k, ∑ l, centredDist x k l * centredDist x k l :=
    sum_le_sum fun k _ => sum_le_sum fun l _ => by
      unfold offDist
      split_ifs
      · nlinarith [mul_self_nonneg (centredDist x k l)]
      · rw [sq]
  have h2 := sampleDcov_le x x hN
  change sampleDcov x x ≤ meanDist x * meanDist x at h2
  unfold sampleDcov at h2
  rw [div_le_iff₀ (by positivity)] at h2
  nlinarith

/-- the sum that `dcov` returns, up to the factor -/
theorem dcov_off (s : Fin N → Fin M → ℝ) (i j : Fin M) :
    (dcov s).1 i j = (∑ k, ∑ l, offDist (fun k => s k i) k l * offDist (fun k => s k j) k l) / (2 * N ^ 2) := by
  have h := dcov_entry s i j
  have e : ∑ k, ∑ l, centredDist (fun k => s k i) k l * centredDist (fun k => s k j) k l =
      ∑ k, ∑ l, offDist (fun k => s k i) k l * offDist (fun k => s k j) k l +
        ∑ k, centredDist (fun k => s k i) k k * centredDist (fun k => s k j) k k := by
    rw [← sum_add_distrib]
    refine sum_congr rfl fun k _ => ?_
    have : ∀ l, centredDist (fun k => s k i) k l * centredDist (fun k => s k j) k l =
        offDist (fun k => s k i) k l * offDist (fun k => s k j) k l +
          if k = l then centredDist (fun k => s k i) k k * centredDist (fun k => s k j) k k else 0 := by
      intro l
      unfold offDist
      split_ifs with h
      · rw [h]; ring
      · ring
    rw [sum_congr rfl fun l _ => this l, sum_add_distrib, sum_ite_eq, if_pos (mem_univ k)]
  unfold sampleDcov at h
  rw [e, add_div, add_sub_cancel_right] at h
  have : ∀ a : ℝ, a / (2 * (N : ℝ) ^ 2) = a / N ^ 2 / 2 := fun a => by rw [div_div, mul_comm]
  rw [this, ← h]
  ring

theorem offDist_perm (y : Fin N → ℝ) (π : Perm (Fin N)) (k l : Fin N) :
    offDist (fun m => y (π m)) k l = offDist y (π k) (π l) := by
  unfold offDist
  rw [centredDist_perm]
  simp

theorem meanDist_perm (y : Fin N → ℝ) (π : Perm (Fin N)) : meanDist (fun m => y (π m)) = meanDist y := by
  unfold meanDist
  congr 1
  rw [← Equiv.sum_comp π fun p => ∑ m, |y p - y m|]
  exact sum_congr rfl fun p _ => Equiv.sum_comp π fun m => |y (π p) - y m|

/-- the mean of the permuted sum -/
theorem permAvg_off (hN : 2 ≤ N) (x y : Fin N → ℝ) :
    permAvg (fun π => ∑ k, ∑ l, offDist x k l * offDist y (π k) (π l)) = N * meanDist x * meanDist y / ((N : ℝ) - 1) := by
  have h1 : (0 : ℝ) < (N : ℝ) - 1 := by
    have : (2 : ℝ) ≤ N := by exact_mod_cast hN
    linarith
  have hN0 : (0 : ℝ) < N := by linarith
  have e : ∀ k l, permAvg (fun π => offDist x k l * offDist y (π k) (π l)) = offDist x k l * (N * meanDist y / (N * ((N : ℝ) - 1))) := by
    intro k l
    by_cases h : k = l
    · subst h; simp [offDist_diag, permAvg_const]
    · rw [permAvg_mul]
      have := permAvg_two (offDist y) (offDist_diag y) k l h
      rw [offDist_total] at this
      rw [← this]
      field_simp
  simp only [permAvg_sum, e, ← sum_mul]
  rw [offDist_total]
  field_simp

/-- the mean of the permuted sample distance covariance -/
theorem permAvg_dcov (hN : 2 ≤ N) (x y : Fin N → ℝ) :
    permAvg (fun π => N * sampleDcov x fun m => y (π m)) = meanDist x * meanDist y * (N / ((N : ℝ) - 1)) := by
  have h1 : (0 : ℝ) < (N : ℝ) - 1 := by
    have : (2 : ℝ) ≤ N := by exact_mod_cast hN
    linarith
  have hN0 : (0 : ℝ) < N := by linarith
  have e : ∀ π : Perm (Fin N), N * sampleDcov x (fun m => y (π m)) = 1 / N * (∑ k, ∑ l, offDist x k l * offDist y (π k) (π l) +
      ∑ k, centredDist x k k * centredDist y (π k) (π k)) := by
    intro π
    unfold sampleDcov
    have : ∀ k l, centredDist x k l * centredDist (fun m => y (π m)) k l = offDist x k l * offDist y (π k) (π l) +
        if k = l then centredDist x k k * centredDist y (π k) (π k) else 0 := by
      intro k l
      rw [centredDist_perm]
      unfold offDist
      by_cases h : k = l
      · subst h; simp
      · simp [h]
    simp only [this, sum_add_distrib, sum_ite_eq, mem_univ, if_true]
    field_simp
  simp only [e]
  rw [permAvg_mul, permAvg_add, permAvg_off hN, permAvg_sum]
  have e2 : ∀ k, permAvg (fun π => centredDist x k k * centredDist y (π k) (π k)) = centredDist x k k * -meanDist y := by
    intro k
    rw [permAvg_mul, permAvg_one (fun a => centredDist y a a) k]
    unfold meanDist
    rw [meanDist_eq y (by omega)]
    ring
  simp only [e2, ← sum_mul]
  have e3 : ∑ k, centredDist x k k = -(N * meanDist x) := by
    unfold meanDist
    rw [meanDist_eq x (by omega)]
    field_simp
  rw [e3]
  field_simp
  ring

theorem off_sq_arith {n b2 b3 b4 S S' R R' d d' q q' : ℝ} (h4 : 4 ≤ n) (S0 : 0 ≤ S) (S0' : 0 ≤ S') (R0 : 0 ≤ R) (R0' : 0 ≤ R')
    (q0 : 0 ≤ q) (q0' : 0 ≤ q') (e2 : n * (n - 1) * b2 = S') (e3 : n * (n - 1) * (b2 + (n - 2) * b3) = R')
    (e4 : n * (n - 1) * (2 * b2 + 4 * (n - 2) * b3 + (n - 2) * (n - 3) * b4) = (n * d') ^ 2)
    (hS : S ≤ n ^ 2 * d ^ 2) (hS' : S' ≤ n ^ 2 * d' ^ 2) (hR : R ≤ 16 * (n * q)) (hR' : R' ≤ 16 * (n * q')) :
    b4 * (n * d) ^ 2 + 4 * (b3 - b4) * R + 2 * (b2 - 2 * b3 + b4) * S ≤ 2 * n ^ 3 * (d * d') ^ 2 / (n - 1) +
      12 * n * ((3 * d ^ 2 + 64 * q) * (3 * d' ^ 2 + 64 * q')) := by
  have hU : (n * d) ^ 2 + 4 * R + 2 * S ≤ n ^ 2 * (3 * d ^ 2 + 64 * q) := by
    have : n * q ≤ n ^ 2 * q := mul_le_mul_of_nonneg_right (by nlinarith) q0
    linarith [mul_pow n d 2]
  have hU' : (n * d') ^ 2 + 4 * R' + 2 * S' ≤ n ^ 2 * (3 * d' ^ 2 + 64 * q') := by
    have : n * q' ≤ n ^ 2 * q' := mul_le_mul_of_nonneg_right (by nlinarith) q0'
    linarith [mul_pow n d' 2]
  obtain ⟨U, eU⟩ : ∃ U, U = (n * d) ^ 2 + 4 * R + 2 * S := ⟨_, rfl⟩
  obtain ⟨U', eU'⟩ : ∃ U, U = (n * d') ^ 2 + 4 * R' + 2 * S' := ⟨_, rfl⟩
  obtain ⟨W, eW⟩ : ∃ W, W = 3 * d ^ 2 + 64 * q := ⟨_, rfl⟩
  obtain ⟨W', eW'⟩ : ∃ W, W = 3 * d' ^ 2 + 64 * q' := ⟨_, rfl⟩
  rw [← eU, ← eW] at hU
  rw [← eU', ← eW'] at hU'
  rw [← eW, ← eW']
  have U0 : 0 ≤ U := by rw [eU]; positivity
  have U0' : 0 ≤ U' := by rw [eU']; positivity
  have W0 : 0 ≤ W := by rw [eW]; positivity
  have W0' : 0 ≤ W' := by rw [eW']; positivity
  -- the coefficients
  have p1 : 0 < n * (n - 1) := by nlinarith
  have a1 : n / 2 ≤ n - 2 := by linarith
  have a2 : n / 4 ≤ n - 3 := by linarith
  have a3 : n / 2 ≤ n - 1 := by linarith
  have n0 : 0 < n := by linarith
  have p3 : n ^ 3 / 4 ≤ n * (n - 1) * (n - 2) := by
    have := mul_le_mul (mul_le_mul_of_nonneg_left a3 n0.le) a1 (by linarith) p1.le
    have e : n * (n / 2) * (n / 2) = n ^ 3 / 4 := by ring
    linarith
  have p4 : n ^ 4 / 16 ≤ n * (n - 1) * ((n - 2) * (n - 3)) := by
    have := mul_le_mul (mul_le_mul_of_nonneg_left a3 n0.le) (mul_le_mul a1 a2 (by linarith) (by linarith)) (by positivity) p1.le
    have e : n * (n / 2) * (n / 2 * (n / 4)) = n ^ 4 / 16 := by ring
    linarith
  have B3 : |b3| * (n * (n - 1) * (n - 2)) ≤ U' := by
    have : b3 * (n * (n - 1) * (n - 2)) = R' - S' := by rw [← e3, ← e2]; ring
    rw [← abs_of_nonneg (le_trans (by positivity) p3 : (0:ℝ) ≤ n * (n - 1) * (n - 2)), ← abs_mul, this, abs_le, eU']
    have hsq := sq_nonneg (n * d'); constructor <;> linarith
  have B4 : |b4| * (n * (n - 1) * ((n - 2) * (n - 3))) ≤ U' := by
    have : b4 * (n * (n - 1) * ((n - 2) * (n - 3))) = (n * d') ^ 2 - 4 * R' + 2 * S' := by
      rw [← e4, ← e3, ← e2]; ring
    rw [← abs_of_nonneg (le_trans (by positivity) p4 : (0:ℝ) ≤ n * (n - 1) * ((n - 2) * (n - 3))), ← abs_mul, this, abs_le, eU']
    have hsq := sq_nonneg (n * d'); constructor <;> linarith
  have B3' : |b3| ≤ 4 * W' / n := by
    rw [le_div_iff₀ (by linarith)]
    have := (mul_le_mul_of_nonneg_left p3 (abs_nonneg b3)).trans (B3.trans hU')
    have n2 : 0 < n ^ 2 := by positivity
    refine le_of_mul_le_mul_right ?_ n2
    have e : |b3| * n * n ^ 2 = 4 * (|b3| * (n ^ 3 / 4)) := by ring
    linarith
  have B4' : |b4| ≤ 16 * W' / n ^ 2 := by
    rw [le_div_iff₀ (by positivity)]
    have := (mul_le_mul_of_nonneg_left p4 (abs_nonneg b4)).trans (B4.trans hU')
    have n2 : 0 < n ^ 2 := by positivity
    refine le_of_mul_le_mul_right ?_ n2
    have e : |b4| * n ^ 2 * n ^ 2 = 16 * (|b4| * (n ^ 4 / 16)) := by ring
    linarith
  -- the leading term
  have L : 2 * b2 * S ≤ 2 * n ^ 3 * (d * d') ^ 2 / (n - 1) := by
    have hb2 : b2 = S' / (n * (n - 1)) := (eq_div_iff p1.ne').mpr (by linarith)
    rw [hb2, mul_div_assoc', div_mul_eq_mul_div, div_le_div_iff₀ p1 (by linarith)]
    have := mul_le_mul hS' hS S0 (by positivity)
    have hn1 : 0 ≤ n - 1 := by linarith
    have e1 := mul_le_mul_of_nonneg_right this hn1
    have e : 2 * n ^ 3 * (d * d') ^ 2 * (n * (n - 1)) = 2 * (n ^ 2 * d' ^ 2 * (n ^ 2 * d ^ 2) * (n - 1)) := by ring
    linarith
  have rem : b4 * (n * d) ^ 2 + 4 * (b3 - b4) * R + 2 * (-2 * b3 + b4) * S ≤ |b4| * U + |b3| * (2 * U) := by
    have k4 : b4 * ((n * d) ^ 2 - 4 * R + 2 * S) ≤ |b4| * U := by
      refine (le_abs_self _).trans ?_
      rw [abs_mul]
      refine mul_le_mul_of_nonneg_left ?_ (abs_nonneg _)
      rw [abs_le, eU]
      have hsq := sq_nonneg (n * d); constructor <;> linarith
    have k3 : b3 * (4 * R - 4 * S) ≤ |b3| * (2 * U) := by
      refine (le_abs_self _).trans ?_
      rw [abs_mul]
      refine mul_le_mul_of_nonneg_left ?_ (abs_nonneg _)
      rw [abs_le, eU]
      have hsq := sq_nonneg (n * d); constructor <;> linarith
    linarith
  have f1 : |b4| * U ≤ 16 * W' / n ^ 2 * (n ^ 2 * W) := mul_le_mul B4' hU U0 (by positivity)
  have f2 : |b3| * (2 * U) ≤ 4 * W' / n * (2 * (n ^ 2 * W)) := mul_le_mul B3' (by linarith) (by linarith) (by positivity)
  have f3 : 16 * W' / n ^ 2 * (n ^ 2 * W) = 16 * (W * W') := by field_simp
  have f4 : 4 * W' / n * (2 * (n ^ 2 * W)) = 8 * n * (W * W') := by field_simp; ring
  have f5 : 16 * (W * W') ≤ 4 * n * (W * W') := mul_le_mul_of_nonneg_right (by linarith) (mul_nonneg W0 W0')
  rw [f3] at f1
  rw [f4] at f2
  linarith

/-- the second moment of the permuted sum -/
theorem permAvg_off_sq (hN : 4 ≤ N) (x y : Fin N → ℝ) :
    permAvg (fun π => (∑ k, ∑ l, offDist x k l * offDist y (π k) (π l)) ^ 2) ≤
      2 * N ^ 3 * (meanDist x * meanDist y) ^ 2 / ((N : ℝ) - 1) +
        12 * N * ((3 * meanDist x ^ 2 + 64 * ((∑ k, x k ^ 2) / N)) * (3 * meanDist y ^ 2 + 64 * ((∑ k, y k ^ 2) / N))) := by
  have h4 : (4 : ℝ) ≤ N := by exact_mod_cast hN
  obtain ⟨b2, b3, b4, e2, e3, e4, h⟩ := permAvg_square hN (offDist y) (offDist_diag y) (offDist_symm y)
  rw [h (offDist x) (offDist_diag x) (offDist_symm x)]
  have hS := offDist_sq x
  have hS' := offDist_sq y
  have hR := offDist_rows_sq x
  have hR' := offDist_rows_sq y
  have ht := offDist_total x
  have ht' := offDist_total y
  obtain ⟨S, eS⟩ : ∃ S, S = ∑ k, ∑ l, offDist x k l ^ 2 := ⟨_, rfl⟩
  obtain ⟨S', eS'⟩ : ∃ S, S = ∑ k, ∑ l, offDist y k l ^ 2 := ⟨_, rfl⟩
  obtain ⟨R, eR⟩ : ∃ S, S = ∑ k, (∑ l, offDist x k l) ^ 2 := ⟨_, rfl⟩
  obtain ⟨R', eR'⟩ : ∃ S, S = ∑ k, (∑ l, offDist y k l) ^ 2 := ⟨_, rfl⟩
  have S0 : 0 ≤ S := eS ▸ sum_nonneg fun _ _ => sum_nonneg fun _ _ => sq_nonneg _
  have S0' : 0 ≤ S' := eS' ▸ sum_nonneg fun _ _ => sum_nonneg fun _ _ => sq_nonneg _
  have R0 : 0 ≤ R := eR ▸ sum_nonneg fun _ _ => sq_nonneg _
  have R0' : 0 ≤ R' := eR' ▸ sum_nonneg fun _ _ => sq_nonneg _
  rw [← eS] at hS ⊢
  rw [← eS'] at hS' e2
  rw [← eR] at hR ⊢
  rw [← eR'] at hR' e3
  rw [ht]
  rw [ht'] at e4
  obtain ⟨d, ed⟩ : ∃ d, d = meanDist x := ⟨_, rfl⟩
  obtain ⟨d', ed'⟩ : ∃ d, d = meanDist y := ⟨_, rfl⟩
  obtain ⟨q, eq⟩ : ∃ d, d = (∑ k, x k ^ 2) / (N : ℝ) := ⟨_, rfl⟩
  obtain ⟨q', eq'⟩ : ∃ d, d = (∑ k, y k ^ 2) / (N : ℝ) := ⟨_, rfl⟩
  have q0 : 0 ≤ q := eq ▸ div_nonneg (sum_nonneg fun _ _ => sq_nonneg _) (by linarith)
  have q0' : 0 ≤ q' := eq' ▸ div_nonneg (sum_nonneg fun _ _ => sq_nonneg _) (by linarith)
  have hx : ∑ k, x k ^ 2 = N * q := by rw [eq]; field_simp
  have hy : ∑ k, y k ^ 2 = N * q' := by rw [eq']; field_simp
  rw [hx] at hR
  rw [hy] at hR'
  rw [← ed] at hS ⊢
  rw [← ed'] at hS' e4 ⊢
  rw [← eq, ← eq']
  clear eq eq' hx hy ht ht' eS eS' eR eR' h
  exact off_sq_arith h4 S0 S0' R0 R0' q0 q0' e2 e3 e4 hS hS' hR hR'

end Medil

import Verif.Proofs.Dcov
import Mathlib.GroupTheory.GroupAction.MultipleTransitivity
import Mathlib.Data.Real.Basic
/-
  Averages over all permutations of the observations of one variable.
-/
namespace Medil
open Finset Equiv
variable {N : Nat}

/-- sums over permutations only depend on the pattern of equalities -/
theorem sum_perm_shift {γ : Type} (G : (γ → Fin N) → ℝ) (e : γ → Fin N) (σ : Perm (Fin N)) :
    ∑ π : Perm (Fin N), G (fun a => π (σ (e a))) = ∑ π : Perm (Fin N), G fun a => π (e a) :=
  Equiv.sum_comp (Equiv.mulRight σ) fun π : Perm (Fin N) => G fun a => π (e a)

theorem sum_perm_inj {m : ℕ} (G : (Fin m → Fin N) → ℝ) {e e' : Fin m → Fin N} (he : Function.Injective e) (he' : Function.Injective e') :
    ∑ π : Perm (Fin N), G (fun a => π (e a)) = ∑ π : Perm (Fin N), G fun a => π (e' a) := by
  have := Equiv.Perm.isMultiplyPretransitive (Fin N) m
  obtain ⟨σ, hσ⟩ := this.exists_smul_eq (⟨e', he'⟩ : Fin m ↪ Fin N) ⟨e, he⟩
  rw [← sum_perm_shift G e' σ]
  have : ∀ a, σ (e' a) = e a := fun a => DFunLike.congr_fun hσ a
  simp only [this]

/-- the average of a function of one image -/
theorem sum_perm_one (f : Fin N → ℝ) (k : Fin N) : N * ∑ π : Perm (Fin N), f (π k) = N.factorial * ∑ a, f a := by
  have h1 : ∀ k', ∑ π : Perm (Fin N), f (π k') = ∑ π : Perm (Fin N), f (π k) := fun k' => by
    have := sum_perm_shift (fun e : Unit → Fin N => f (e ())) (fun _ => k) (swap k k')
    simp only [swap_apply_left] at this
    exact this
  have h2 : ∑ k', ∑ π : Perm (Fin N), f (π k') = N * ∑ π : Perm (Fin N), f (π k) := by simp [h1]
  rw [← h2, sum_comm]
  have h3 : ∀ π : Perm (Fin N), ∑ k', f (π k') = ∑ a, f a := fun π => Equiv.sum_comp π f
  simp [h3, Fintype.card_perm]

/-- the average over all permutations -/
noncomputable def permAvg (F : Perm (Fin N) → ℝ) : ℝ := (∑ π, F π) / N.factorial

theorem permAvg_one (f : Fin N → ℝ) (k : Fin N) : permAvg (fun π => f (π k)) = (∑ a, f a) / N := by
  have := sum_perm_one f k
  have hN : (N : ℝ) ≠ 0 := by exact_mod_cast k.pos.ne'
  have hf : (N.factorial : ℝ) ≠ 0 := by exact_mod_cast N.factorial_ne_zero
  unfold permAvg
  field_simp
  linarith

theorem permAvg_sum {ι : Type} (S : Finset ι) (F : ι → Perm (Fin N) → ℝ) : permAvg (fun π => ∑ i ∈ S, F i π) = ∑ i ∈ S, permAvg (F i) := by
  unfold permAvg
  rw [sum_comm, sum_div]

theorem permAvg_mul (c : ℝ) (F : Perm (Fin N) → ℝ) : permAvg (fun π => c * F π) = c * permAvg F := by
  unfold permAvg
  rw [← mul_sum, mul_div_assoc]

theorem permAvg_add (F G : Perm (Fin N) → ℝ) : permAvg (fun π => F π + G π) = permAvg F + permAvg G := by
  unfold permAvg
  rw [sum_add_distrib, add_div]

theorem permAvg_const (c : ℝ) : permAvg (fun _ : Perm (Fin N) => c) = c := by
  have hf : (N.factorial : ℝ) ≠ 0 := by exact_mod_cast N.factorial_ne_zero
  unfold permAvg
  simp [Fintype.card_perm]
  field_simp

theorem permAvg_mono {F G : Perm (Fin N) → ℝ} (h : ∀ π, F π ≤ G π) : permAvg F ≤ permAvg G :=
  div_le_div_of_nonneg_right (sum_le_sum fun π _ => h π) (by positivity)

/-- the average of a function of two different images -/
theorem permAvg_two (B : Fin N → Fin N → ℝ) (hB : ∀ a, B a a = 0) (k l : Fin N) (hkl : k ≠ l) :
    N * ((N : ℝ) - 1) * permAvg (fun π => B (π k) (π l)) = ∑ a, ∑ b, B a b := by
  have hN : (N : ℝ) ≠ 0 := by exact_mod_cast k.pos.ne'
  have h1 : ∀ l', k ≠ l' → permAvg (fun π => B (π k) (π l')) = permAvg (fun π => B (π k) (π l)) := by
    intro l' hl'
    unfold permAvg
    congr 1
    exact sum_perm_inj (fun e : Fin 2 → Fin N => B (e 0) (e 1)) (e := ![k, l']) (e' := ![k, l])
      (by intro a b; fin_cases a <;> fin_cases b <;> simp [hl', hl'.symm]) (by intro a b; fin_cases a <;> fin_cases b <;> simp [hkl, hkl.symm])
  have h2 : permAvg (fun π => ∑ l', B (π k) (π l')) = ((N : ℝ) - 1) * permAvg (fun π => B (π k) (π l)) := by
    rw [permAvg_sum, ← sum_erase_add _ _ (mem_univ k), sum_congr rfl fun l' hl' => h1 l' (ne_of_mem_erase hl').symm]
    simp [hB, permAvg_const, Nat.cast_sub (Nat.one_le_of_lt k.pos)]
  have h3 : ∀ π : Perm (Fin N), ∑ l', B (π k) (π l') = ∑ b, B (π k) b := fun π => Equiv.sum_comp π _
  simp only [h3] at h2
  rw [permAvg_one (fun a => ∑ b, B a b) k] at h2
  rw [mul_assoc, ← h2]
  field_simp

/-- the second moment of a permuted sum of products -/
theorem permAvg_square (hN : 4 ≤ N) (B : Fin N → Fin N → ℝ) (hB : ∀ a, B a a = 0) (hs : ∀ a b, B a b = B b a) :
    ∃ b2 b3 b4 : ℝ,
      N * ((N : ℝ) - 1) * b2 = ∑ a, ∑ b, B a b ^ 2 ∧
      N * ((N : ℝ) - 1) * (b2 + (N - 2) * b3) = ∑ a, (∑ b, B a b) ^ 2 ∧
      N * ((N : ℝ) - 1) * (2 * b2 + 4 * (N - 2) * b3 + (N - 2) * (N - 3) * b4) = (∑ a, ∑ b, B a b) ^ 2 ∧
      ∀ A : Fin N → Fin N → ℝ, (∀ a, A a a = 0) → (∀ a b, A a b = A b a) →
        permAvg (fun π => (∑ k, ∑ l, A k l * B (π k) (π l)) ^ 2) =
          b4 * (∑ a, ∑ b, A a b) ^ 2 + 4 * (b3 - b4) * ∑ a, (∑ b, A a b) ^ 2 + 2 * (b2 - 2 * b3 + b4) * ∑ a, ∑ b, A a b ^ 2 := by
  obtain ⟨β, hβ⟩ : ∃ β : Fin N → Fin N → Fin N → Fin N → ℝ, ∀ k l m n, β k l m n = permAvg fun π => B (π k) (π l) * B (π m) (π n) :=
    ⟨_, fun _ _ _ _ => rfl⟩
  have sym1 : ∀ k l m n, β k l m n = β k l n m := fun k l m n => by
    rw [hβ, hβ]; congr 1; funext π; rw [hs (π m)]
  have sym2 : ∀ k l m n, β k l m n = β l k m n := fun k l m n => by
    rw [hβ, hβ]; congr 1; funext π; rw [hs (π k)]
  have inj2 : ∀ {k l : Fin N}, k ≠ l → Function.Injective ![k, l] := by
    intro k l h a b; fin_cases a <;> fin_cases b <;> simp [h, h.symm]
  have inj3 : ∀ {k l n : Fin N}, k ≠ l → k ≠ n → l ≠ n → Function.Injective ![k, l, n] := by
    intro k l n h1 h2 h3 a b; fin_cases a <;> fin_cases b <;> simp [h1, h1.symm, h2, h2.symm, h3, h3.symm]
  have inj4 : ∀ {k l m n : Fin N}, k ≠ l → k ≠ m → k ≠ n → l ≠ m → l ≠ n → m ≠ n → Function.Injective ![k, l, m, n] := by
    intro k l m n h1 h2 h3 h4 h5 h6 a b
    fin_cases a <;> fin_cases b <;> simp [h1, h1.symm, h2, h2.symm, h3, h3.symm, h4, h4.symm, h5, h5.symm, h6, h6.symm]
  obtain ⟨p0, hp0⟩ : ∃ p : Fin N, p.val = 0 := ⟨⟨0, by omega⟩, rfl⟩
  obtain ⟨p1, hp1⟩ : ∃ p : Fin N, p.val = 1 := ⟨⟨1, by omega⟩, rfl⟩
  obtain ⟨p2, hp2⟩ : ∃ p : Fin N, p.val = 2 := ⟨⟨2, by omega⟩, rfl⟩
  obtain ⟨p3, hp3⟩ : ∃ p : Fin N, p.val = 3 := ⟨⟨3, by omega⟩, rfl⟩
  have d01 : p0 ≠ p1 := fun h => by rw [h] at hp0; omega
  have d02 : p0 ≠ p2 := fun h => by rw [h] at hp0; omega
  have d03 : p0 ≠ p3 := fun h => by rw [h] at hp0; omega
  have d12 : p1 ≠ p2 := fun h => by rw [h] at hp1; omega
  have d13 : p1 ≠ p3 := fun h => by rw [h] at hp1; omega
  have d23 : p2 ≠ p3 := fun h => by rw [h] at hp2; omega
  obtain ⟨b2, hb2⟩ : ∃ b, b = β p0 p1 p0 p1 := ⟨_, rfl⟩
  obtain ⟨b3, hb3⟩ : ∃ b, b = β p0 p1 p0 p2 := ⟨_, rfl⟩
  obtain ⟨b4, hb4⟩ : ∃ b, b = β p0 p1 p2 p3 := ⟨_, rfl⟩
  have c2 : ∀ {k l}, k ≠ l → β k l k l = b2 := by
    intro k l h
    rw [hb2, hβ, hβ]
    unfold permAvg
    congr 1
    exact sum_perm_inj (fun e : Fin 2 → Fin N => B (e 0) (e 1) * B (e 0) (e 1)) (inj2 h) (inj2 d01)
  have c3 : ∀ {k l n}, k ≠ l → k ≠ n → l ≠ n → β k l k n = b3 := by
    intro k l n h1 h2 h3
    rw [hb3, hβ, hβ]
    unfold permAvg
    congr 1
    exact sum_perm_inj (fun e : Fin 3 → Fin N => B (e 0) (e 1) * B (e 0) (e 2)) (inj3 h1 h2 h3) (inj3 d01 d02 d12)
  have c4 : ∀ {k l m n}, k ≠ l → k ≠ m → k ≠ n → l ≠ m → l ≠ n → m ≠ n → β k l m n = b4 := by
    intro k l m n h1 h2 h3 h4 h5 h6
    rw [hb4, hβ, hβ]
    unfold permAvg
    congr 1
    exact sum_perm_inj (fun e : Fin 4 → Fin N => B (e 0) (e 1) * B (e 2) (e 3)) (inj4 h1 h2 h3 h4 h5 h6) (inj4 d01 d02 d03 d12 d13 d23)
  have pat : ∀ k l m n, k ≠ l → m ≠ n → β k l m n = b4 + (b3 - b4) * ((if k = m then 1 else 0) + (if k = n then 1 else 0) +
      (if l = m then 1 else 0) + (if l = n then 1 else 0)) + (b2 - 2 * b3 + b4) *
        ((if k = m then (if l = n then 1 else 0) else 0) + (if k = n then (if l = m then 1 else 0) else 0)) := by
    intro k l m n hkl hmn
    by_cases h1 : k = m
    · subst h1
      by_cases h2 : l = n
      · subst h2
        rw [c2 hkl]; simp [hkl, hkl.symm]; ring
      · rw [c3 hkl hmn h2]; simp [hmn, hkl.symm, h2]
    · by_cases h2 : k = n
      · subst h2
        by_cases h3 : l = m
        · subst h3
          rw [sym1, c2 hkl]; simp [hkl, hkl.symm]; ring
        · rw [sym1, c3 hkl hmn.symm h3]; simp [hmn.symm, hkl.symm, h3]
      · by_cases h3 : l = m
        · subst h3
          rw [sym2, c3 hkl.symm hmn h2]; simp [hkl, hmn, h2]
        · by_cases h4 : l = n
          · subst h4
            rw [sym2, sym1, c3 hkl.symm hmn.symm h1]; simp [hkl, h1, h3]
          · rw [c4 hkl h1 h2 h3 h4 hmn]; simp [h1, h2, h3, h4]
  have main : ∀ A : Fin N → Fin N → ℝ, (∀ a, A a a = 0) → (∀ a b, A a b = A b a) →
        permAvg (fun π => (∑ k, ∑ l, A k l * B (π k) (π l)) ^ 2) =
          b4 * (∑ a, ∑ b, A a b) ^ 2 + 4 * (b3 - b4) * ∑ a, (∑ b, A a b) ^ 2 + 2 * (b2 - 2 * b3 + b4) * ∑ a, ∑ b, A a b ^ 2 := by
    intro A hA hsA
    have e1 : ∀ π : Perm (Fin N), (∑ k, ∑ l, A k l * B (π k) (π l)) ^ 2 =
        ∑ k, ∑ l, ∑ m, ∑ n, A k l * A m n * (B (π k) (π l) * B (π m) (π n)) := by
      intro π
      rw [sq, sum_mul]
      refine sum_congr rfl fun k _ => ?_
      rw [sum_mul]
      refine sum_congr rfl fun l _ => ?_
      rw [mul_sum]
      refine sum_congr rfl fun m _ => ?_
      rw [mul_sum]
      exact sum_congr rfl fun n _ => by ring
    simp only [e1, permAvg_sum, permAvg_mul, ← hβ]
    have e2 : ∀ k l m n, A k l * A m n * β k l m n = b4 * (A k l * A m n) + (b3 - b4) * ((if k = m then A k l * A m n else 0) +
        (if k = n then A k l * A m n else 0) + (if l = m then A k l * A m n else 0) + (if l = n then A k l * A m n else 0)) +
        (b2 - 2 * b3 + b4) * ((if k = m then (if l = n then A k l * A m n else 0) else 0) +
          (if k = n then (if l = m then A k l * A m n else 0) else 0)) := by
      intro k l m n
      by_cases h1 : k = l
      · simp [h1, hA]
      by_cases h2 : m = n
      · simp [h2, hA]
      rw [pat k l m n h1 h2]
      split_ifs <;> ring
    simp only [e2, sum_add_distrib, ← mul_sum, sum_ite_eq, mem_univ, if_true]
    have f1 : ∑ k, ∑ l, A k l * ∑ m, ∑ n, A m n = (∑ a, ∑ b, A a b) ^ 2 := by
      rw [sq, sum_mul]; exact sum_congr rfl fun k _ => by rw [sum_mul]
    have pull : ∀ (P : Prop) [Decidable P] (F : Fin N → ℝ), ∑ n, (if P then F n else 0) = if P then ∑ n, F n else 0 := by
      intro P _ F; split_ifs <;> simp
    have f2 : ∑ k, ∑ l, ∑ m, ∑ n, (if k = m then A k l * A m n else 0) = ∑ a, (∑ b, A a b) ^ 2 := by
      simp only [pull, sum_ite_eq, mem_univ, if_true, ← mul_sum]
      exact sum_congr rfl fun k _ => by rw [sq, sum_mul]
    have f3 : ∑ k, ∑ l, A k l * ∑ m, A m k = ∑ a, (∑ b, A a b) ^ 2 := by
      refine sum_congr rfl fun k _ => ?_
      rw [sq, sum_mul]
      exact sum_congr rfl fun l _ => by rw [sum_congr rfl fun m _ => hsA m k]
    have f4 : ∑ k, ∑ l, ∑ m, ∑ n, (if l = m then A k l * A m n else 0) = ∑ a, (∑ b, A a b) ^ 2 := by
      simp only [pull, sum_ite_eq, mem_univ, if_true, ← mul_sum]
      rw [sum_comm]
      refine sum_congr rfl fun k _ => ?_
      rw [sq, ← sum_mul]
      congr 1
      exact sum_congr rfl fun l _ => hsA _ _
    have f5 : ∑ k, ∑ l, A k l * ∑ m, A m l = ∑ a, (∑ b, A a b) ^ 2 := by
      rw [sum_comm]
      refine sum_congr rfl fun k _ => ?_
      rw [sq, ← sum_mul]
      congr 1 <;> exact sum_congr rfl fun l _ => hsA _ _
    have f6 : ∑ k, ∑ l, ∑ m, ∑ n, (if k = m then (if l = n then A k l * A m n else 0) else 0) = ∑ a, ∑ b, A a b ^ 2 := by
      simp only [pull, sum_ite_eq, mem_univ, if_true]
      exact sum_congr rfl fun k _ => sum_congr rfl fun l _ => by rw [sq]
    have f7 : ∑ k, ∑ l, A k l * A l k = ∑ a, ∑ b, A a b ^ 2 :=
      sum_congr rfl fun k _ => sum_congr rfl fun l _ => by rw [sq, hsA l k]
    rw [f1, f2, f3, f4, f5, f6, f7]
    ring
  refine ⟨b2, b3, b4, ?_, ?_, ?_, main⟩
  · have := permAvg_two (fun a b => B a b ^ 2) (fun a => by simp [hB]) p0 p1 d01
    rw [← this, hb2, hβ]
    simp only [sq]
  · have := permAvg_two (fun a b => B a b * ∑ c, B a c) (fun a => by simp [hB]) p0 p1 d01
    have e : permAvg (fun π => B (π p0) (π p1) * ∑ c, B (π p0) c) = b2 + (N - 2) * b3 := by
      have e1 : ∀ π : Perm (Fin N), B (π p0) (π p1) * ∑ c, B (π p0) c = ∑ n, B (π p0) (π p1) * B (π p0) (π n) := fun π => by
        rw [← Equiv.sum_comp π, mul_sum]
      simp only [e1, permAvg_sum, ← hβ]
      rw [← sum_erase_add _ _ (mem_univ p1), ← sum_erase_add _ _ (mem_erase.mpr ⟨d01, mem_univ p0⟩), c2 d01,
        sum_congr rfl fun n hn => c3 d01 (ne_of_mem_erase hn).symm (ne_of_mem_erase (mem_of_mem_erase hn)).symm]
      have z : β p0 p1 p0 p0 = 0 := by rw [hβ]; simp [hB, permAvg_const]
      rw [z, sum_const, card_erase_of_mem (mem_erase.mpr ⟨d01, mem_univ p0⟩), card_erase_of_mem (mem_univ _), card_univ,
        Fintype.card_fin, nsmul_eq_mul, Nat.sub_sub, Nat.cast_sub (by omega)]
      push_cast
      ring
    rw [e] at this
    rw [this]
    exact sum_congr rfl fun a _ => by rw [sq, sum_mul]
  · have := main (fun a b => if a = b then 0 else 1) (fun a => by simp) (fun a b => by simp [eq_comm])
    have n1 : ∀ a : Fin N, ∑ b, (if a = b then (0 : ℝ) else 1) = N - 1 := fun a => by
      have : ∀ b, (if a = b then (0 : ℝ) else 1) = 1 - if a = b then 1 else 0 := fun b => by split_ifs <;> ring
      simp [this]
    have n2 : ∀ a b : Fin N, (if a = b then (0 : ℝ) else 1) ^ 2 = if a = b then (0 : ℝ) else 1 := fun a b => by split_ifs <;> ring
    simp only [n2, n1, sum_const, card_univ, Fintype.card_fin, nsmul_eq_mul] at this
    have e : ∀ π : Perm (Fin N), ∑ k, ∑ l, (if k = l then (0 : ℝ) else 1) * B (π k) (π l) = ∑ a, ∑ b, B a b := by
      intro π
      rw [← Equiv.sum_comp π (fun a => ∑ b, B a b)]
      refine sum_congr rfl fun k _ => ?_
      rw [← Equiv.sum_comp π (fun b => B (π k) b)]
      refine sum_congr rfl fun l _ => ?_
      split_ifs with h
      · rw [h, hB]; ring
      · ring
    simp only [e, permAvg_const] at this
    rw [this]
    ring

end Medil

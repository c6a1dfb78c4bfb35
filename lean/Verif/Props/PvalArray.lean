import Verif.Model.PvalArray
import Mathlib.Data.Nat.Digits.Lemmas
/-
  Property theorem C233: p-values of any shape in `estimate_UDG`.
-/
namespace Medil
variable {K : Type} [LinearOrder K]

/-- position of the entry with the given index (most significant first) in C order, in an array with all dimensions `n` -/
def flatIdx (n : Nat) (idx : List Nat) : Nat := Nat.ofDigits n idx.reverse

/-- **C233** (as stated; false): p-values that are not a square matrix with one row per column of the sample are rejected -/
def C233_statement : Prop :=
  ∀ (N M : Nat) (p : NdArr (Fl ℚ)) (level : ℚ), p.shape ≠ [M, M] → ∃ e, estimateUDGPvals [N, M] p level = .error e

theorem two_dims {c i j : Nat} (hj : j < c) : (i * c + j < c * c ∧ (i * c + j) % (c + 1) = 0) ↔ i = j := by
  constructor
  · rintro ⟨h1, h2⟩
    have hi : i < c := by
      by_contra h
      have : c * c ≤ i * c := Nat.mul_le_mul_right c (by omega)
      omega
    obtain ⟨k, hk⟩ := Nat.dvd_of_mod_eq_zero h2
    have : k = i := by
      rcases Nat.lt_trichotomy k i with h | h | h
      · have : (c + 1) * (k + 1) ≤ (c + 1) * i := Nat.mul_le_mul_left _ h
        nlinarith
      · exact h
      · have : (c + 1) * (i + 1) ≤ (c + 1) * k := Nat.mul_le_mul_left _ h
        nlinarith
    subst this
    nlinarith
  · rintro rfl
    constructor
    · nlinarith
    · rw [show i * c + i = (c + 1) * i by ring]; exact Nat.mul_mod_right _ _

theorem cumprodSum_replicate (n p k : Nat) : cumprodSum p (List.replicate k n) = p * ((List.range k).map fun i => n ^ (i + 1)).sum := by
  induction k generalizing p with
  | zero => simp [cumprodSum]
  | succ k ih =>
    rw [List.replicate_succ, cumprodSum, ih, List.range_succ_eq_map, List.map_cons, List.sum_cons, List.map_map]
    have : ((List.range k).map ((fun i => n ^ (i + 1)) ∘ Nat.succ)).sum = n * ((List.range k).map fun i => n ^ (i + 1)).sum := by
      rw [← List.sum_map_mul_left]
      congr 1
      apply List.map_congr_left
      intro i _
      simp [pow_succ]; ring
    rw [this]; ring

theorem ofDigits_replicate (n m k : Nat) : Nat.ofDigits n (List.replicate k m) = m * ((List.range k).map fun i => n ^ i).sum := by
  induction k with
  | zero => simp
  | succ k ih =>
    rw [List.replicate_succ, Nat.ofDigits_cons, ih, List.range_succ_eq_map, List.map_cons, List.sum_cons, List.map_map]
    have : ((List.range k).map ((fun i => n ^ i) ∘ Nat.succ)).sum = n * ((List.range k).map fun i => n ^ i).sum := by
      rw [← List.sum_map_mul_left]
      congr 1
      apply List.map_congr_left
      intro i _
      simp [pow_succ]; ring
    rw [this]; simp; ring

/-- the step of `fill_diagonal` in `k + 1` dimensions of size `n` -/
theorem step_eq (n k : Nat) : 1 + cumprodSum 1 (List.replicate (k + 1) n).dropLast = ((List.range (k + 1)).map fun i => n ^ i).sum := by
  rw [List.dropLast_replicate, Nat.add_sub_cancel, cumprodSum_replicate, one_mul, List.range_succ_eq_map, List.map_cons, List.sum_cons, List.map_map]
  rfl

theorem many_dims {n k : Nat} (idx : List Nat) (hl : idx.length = k + 1) (hi : ∀ i ∈ idx, i < n) :
    flatIdx n idx % (1 + cumprodSum 1 (List.replicate (k + 1) n).dropLast) = 0 ↔ ∀ i ∈ idx, ∀ j ∈ idx, i = j := by
  have hrep : (∀ i ∈ idx, ∀ j ∈ idx, i = j) ↔ ∃ m, m < n ∧ idx = List.replicate (k + 1) m := by
    constructor
    · intro h
      cases idx with
      | nil => simp at hl
      | cons m l =>
        refine ⟨m, hi m (by simp), ?_⟩
        rw [← hl]
        exact List.eq_replicate_iff.mpr ⟨rfl, fun b hb => h b hb m (by simp)⟩
    · rintro ⟨m, _, rfl⟩ i h1 j h2
      rw [List.eq_of_mem_replicate h1, List.eq_of_mem_replicate h2]
  rw [hrep, step_eq]
  constructor
  · intro h
    obtain ⟨m, hm⟩ := Nat.dvd_of_mod_eq_zero h
    have hpos : 0 < n := by
      cases idx with
      | nil => simp at hl
      | cons a l => have := hi a (by simp); omega
    have hlt : flatIdx n idx < n ^ (k + 1) := by
      rcases Nat.lt_or_ge 1 n with h1 | h1
      · have := Nat.ofDigits_lt_base_pow_length (b := n) (l := idx.reverse) h1 (fun x hx => hi x (List.mem_reverse.mp hx))
        rw [List.length_reverse, hl] at this
        exact this
      · have hn : n = 1 := by omega
        subst hn
        have hz : idx = List.replicate (k + 1) 0 := List.eq_replicate_iff.mpr ⟨hl, fun b hb => by have := hi b hb; omega⟩
        unfold flatIdx
        rw [hz, List.reverse_replicate, ofDigits_replicate]
        simp
    have hmn : m < n := by
      by_contra hc
      have h1 : n ^ k ≤ ((List.range (k + 1)).map fun i => n ^ i).sum := by
        rw [List.range_succ, List.map_append, List.sum_append]; simp
      have : n ^ (k + 1) ≤ ((List.range (k + 1)).map fun i => n ^ i).sum * m := by
        rw [pow_succ]; exact Nat.mul_le_mul h1 (by omega)
      omega
    refine ⟨m, hmn, ?_⟩
    have he : Nat.ofDigits n idx.reverse = Nat.ofDigits n (List.replicate (k + 1) m) := by
      rw [ofDigits_replicate, mul_comm]; exact hm
    rcases Nat.lt_or_ge 1 n with h1 | h1
    · have := Nat.ofDigits_inj_of_len_eq h1 (by simp [hl]) (fun x hx => hi x (List.mem_reverse.mp hx))
        (fun x hx => by rw [List.eq_of_mem_replicate hx]; exact hmn) he
      rw [← List.reverse_reverse idx, this, List.reverse_replicate]
    · exact List.eq_replicate_iff.mpr ⟨hl, fun b hb => by have := hi b hb; omega⟩
  · rintro ⟨m, _, rfl⟩
    unfold flatIdx
    rw [List.reverse_replicate, ofDigits_replicate]
    exact Nat.mul_mod_left _ _

/-- **C233** What `estimate_UDG` does with p-values of any shape, for a two-dimensional sample of any shape: arrays with fewer than two
dimensions, and arrays with more than two dimensions that are not all equal, raise `ValueError`.  All others are accepted; the result has the
shape of the p-values, and is true exactly where the p-value is below the level and not all indices are equal; the p-values are returned.

Missing from the full claim: rejecting the others (`C233_false`). -/
theorem C233_shapes_partial (N M : Nat) (p : NdArr (Fl K)) (level : K) :
    ((∃ u, estimateUDGPvals [N, M] p level = .ok u) ↔ p.shape.length = 2 ∨ 2 < p.shape.length ∧ ∃ n, ∀ d ∈ p.shape, d = n) ∧
    (∀ e, estimateUDGPvals [N, M] p level = .error e → e = .valueError) ∧
    ∀ u q, estimateUDGPvals [N, M] p level = .ok (u, q) → q = p ∧ u.shape = p.shape ∧
      (∀ r c, p.shape = [r, c] → ∀ i j, i < r → j < c → (u.data (i * c + j) = true ↔ (p.data (i * c + j)).lt level = true ∧ i ≠ j)) ∧
      ∀ n k, p.shape = List.replicate (k + 3) n → ∀ idx : List Nat, idx.length = k + 3 → (∀ i ∈ idx, i < n) →
        (u.data (flatIdx n idx) = true ↔ (p.data (flatIdx n idx)).lt level = true ∧ ∃ i ∈ idx, ∃ j ∈ idx, i ≠ j) := by
  obtain ⟨shape, data⟩ := p
  unfold estimateUDGPvals fillDiagonal
  dsimp only
  match shape with
  | [] => exact ⟨by simp, by simp, by simp⟩
  | [a] => exact ⟨by simp, by simp, by simp⟩
  | [r, c] =>
    refine ⟨by simp, by simp, ?_⟩
    rintro u q h
    simp only [Except.ok.injEq, Prod.mk.injEq] at h
    obtain ⟨rfl, rfl⟩ := h
    refine ⟨rfl, rfl, ?_, fun n k h => ?_⟩
    · intro r' c' he i j hi hj
      simp only [List.cons.injEq, and_true] at he
      obtain ⟨rfl, rfl⟩ := he
      dsimp only
      rw [if_congr (two_dims hj) rfl rfl]
      split <;> simp_all
    · have := congrArg List.length h
      simp at this
  | d :: e :: f :: ds =>
    dsimp only
    by_cases h : (e :: f :: ds).all (· == d) = true
    · rw [if_pos h]
      have hall : ∀ x ∈ e :: f :: ds, x = d := by simpa using h
      refine ⟨⟨fun _ => Or.inr ⟨by simp, d, ?_⟩, fun _ => ⟨_, rfl⟩⟩, by simp, ?_⟩
      · intro x hx
        rcases List.mem_cons.mp hx with rfl | hx
        · rfl
        · exact hall x hx
      · rintro u q hu
        simp only [Except.ok.injEq, Prod.mk.injEq] at hu
        obtain ⟨rfl, rfl⟩ := hu
        refine ⟨rfl, rfl, fun r c h => by simp at h, fun n k hs idx hl hi => ?_⟩
        dsimp only
        rw [hs]
        have key := many_dims (n := n) (k := k + 2) idx hl hi
        rw [if_congr key rfl rfl]
        split
        · next hc =>
          simp only [Bool.false_eq_true, false_iff, not_and]
          rintro _ ⟨i, hi', j, hj', hne⟩
          exact hne (hc i hi' j hj')
        · next hc =>
          push Not at hc
          simp [hc]
    · rw [if_neg h]
      refine ⟨⟨by simp, ?_⟩, by simp, by simp⟩
      rintro (h2 | ⟨_, n, hn⟩)
      · simp at h2
      · exfalso
        apply h
        simp only [List.all_eq_true, beq_iff_eq]
        intro x hx
        rw [hn x (by simp [hx]), hn d (by simp)]

/-- square p-values: as in `estimateUDG` -/
theorem C233_square {N M : Nat} [Field K] (lib : TestLib K N) (s : Fin N → Fin M → K) (p : Fin M → Fin M → Fl K) (level : K)
    (a : NdArr (Fl K)) (ha : a.shape = [M, M]) (hp : ∀ i j : Fin M, a.data (i * M + j) = p i j) :
    ∃ u U q, estimateUDGPvals [N, M] a level = .ok (u, a) ∧ estimateUDG lib s (.pvals p) level = .ok (U, q) ∧
      ∀ i j : Fin M, u.data (i * M + j) = U i j := by
  obtain ⟨h1, _, h3⟩ := C233_shapes_partial N M a level
  obtain ⟨⟨u, q⟩, hu⟩ := h1.mpr (Or.inl (by rw [ha]; rfl))
  obtain ⟨rfl, _, h4, _⟩ := h3 u q hu
  refine ⟨u, _, _, hu, rfl, fun i j => ?_⟩
  have := h4 M M ha i j i.isLt j.isLt
  rw [hp] at this
  unfold clearDiag
  rw [Bool.eq_iff_iff, this]
  split
  · next h => subst h; simp
  · next h => simp [Fin.val_ne_of_ne h]

theorem C233_false : ¬ C233_statement := by
  intro h
  obtain ⟨e, he⟩ := h 5 4 ⟨[2, 3], fun _ => .fin 0⟩ (1 / 20) (by decide)
  obtain ⟨u, hu⟩ := (C233_shapes_partial 5 4 (⟨[2, 3], fun _ => .fin 0⟩ : NdArr (Fl ℚ)) (1 / 20)).1.mpr (Or.inl rfl)
  rw [hu] at he
  cases he

/-- three p-values of 0 instead of a matrix are rejected, a 3 × 3 × 3 array is accepted -/
example : (∃ u, estimateUDGPvals [5, 3] (⟨[3, 3, 3], fun _ => .fin 0⟩ : NdArr (Fl ℚ)) (1 / 20) = .ok u) ∧
    ¬ ∃ u, estimateUDGPvals [5, 3] (⟨[3], fun _ => .fin 0⟩ : NdArr (Fl ℚ)) (1 / 20) = .ok u := by
  rw [(C233_shapes_partial 5 3 _ _).1, (C233_shapes_partial 5 3 _ _).1]
  exact ⟨Or.inr ⟨by decide, 3, by decide⟩, by rintro (h | ⟨h, _⟩) <;> simp at h⟩

end Medil

import Verif.Props.Dcov
/-
  C124: the sample distance covariance detects every dependence, and `dcov_fast` does so on enough copies of a sample.
-/
namespace Medil
open Finset
variable {K : Type} [Field K] [LinearOrder K] [IsStrictOrderedRing K] {N M : Nat}

/-- the functions on the observations that are combinations of constants and columns of the centred distances -/
def InSpan (x : Fin N → K) (f : Fin N → K) : Prop :=
  ∃ (e : K) (α : Fin N → K), ∀ k, f k = e + ∑ m, α m * centredDist x k m

omit [IsStrictOrderedRing K] in
theorem InSpan.sub {x f g : Fin N → K} (hf : InSpan x f) (hg : InSpan x g) : InSpan x fun k => f k - g k := by
  obtain ⟨e, α, h⟩ := hf
  obtain ⟨e', α', h'⟩ := hg
  refine ⟨e - e', fun m => α m - α' m, fun k => ?_⟩
  show f k - g k = _
  rw [h, h']
  simp only [sub_mul, sum_sub_distrib]
  ring

omit [IsStrictOrderedRing K] in
theorem InSpan.const (x : Fin N → K) (c : K) : InSpan x fun _ => c := ⟨c, 0, fun k => by simp⟩

theorem inSpan_gt (x : Fin N → K) (k0 : Fin N) : InSpan x fun k => if x k0 < x k then 1 else 0 := by
  by_cases h : ∃ k, x k0 < x k
  · obtain ⟨k, hk⟩ := h
    obtain ⟨k1, hk1, hmin⟩ := exists_min_image (univ.filter fun k => x k0 < x k) x ⟨k, by simpa using hk⟩
    simp only [mem_filter, mem_univ, true_and] at hk1 hmin
    have hd : 2 * (x k1 - x k0) ≠ 0 := mul_ne_zero two_ne_zero (sub_ne_zero.mpr hk1.ne')
    have hne : k1 ≠ k0 := fun h => by rw [h] at hk1; exact lt_irrefl _ hk1
    -- the difference of the two columns
    have hcol : ∀ k, centredDist x k k0 - centredDist x k k1 =
        (if x k0 < x k then 1 else 0) * (2 * (x k1 - x k0)) +
          (-(x k1 - x k0) - (∑ m, |x m - x k0|) / N + (∑ m, |x m - x k1|) / N) := by
      intro k
      unfold centredDist
      by_cases hk : x k0 < x k
      · have := hmin k hk
        rw [if_pos hk, abs_of_pos (by linarith : 0 < x k - x k0), abs_of_nonneg (by linarith : 0 ≤ x k - x k1)]
        ring
      · rw [if_neg hk, abs_of_nonpos (by linarith : x k - x k0 ≤ 0), abs_of_nonpos (by linarith : x k - x k1 ≤ 0)]
        ring
    refine ⟨-((-(x k1 - x k0) - (∑ m, |x m - x k0|) / N + (∑ m, |x m - x k1|) / N) / (2 * (x k1 - x k0))),
      fun m => if m = k0 then 1 / (2 * (x k1 - x k0)) else if m = k1 then -1 / (2 * (x k1 - x k0)) else 0, fun k => ?_⟩
    have e : ∑ m, (if m = k0 then 1 / (2 * (x k1 - x k0)) else if m = k1 then -1 / (2 * (x k1 - x k0)) else 0) * centredDist x k m =
        (centredDist x k k0 - centredDist x k k1) / (2 * (x k1 - x k0)) := by
      rw [sum_eq_add k0 k1 hne.symm]
      · rw [if_pos rfl, if_neg hne, if_pos rfl]; ring
      · intro m _ hm; rw [if_neg hm.1, if_neg hm.2, zero_mul]
      · intro h; exact absurd (mem_univ _) h
      · intro h; exact absurd (mem_univ _) h
    rw [e, hcol]
    show (if x k0 < x k then (1 : K) else 0) = _
    generalize (if x k0 < x k then (1 : K) else 0) = a
    generalize (-(x k1 - x k0) - (∑ m, |x m - x k0|) / (N : K) + (∑ m, |x m - x k1|) / N) = b
    rw [add_div, mul_div_cancel_right₀ _ hd]
    ring
  · have : ∀ k, ¬ x k0 < x k := fun k hk => h ⟨k, hk⟩
    simp only [if_neg (this _)]
    exact InSpan.const x 0

theorem inSpan_eq (x : Fin N → K) (a : K) : InSpan x fun k => if x k = a then 1 else 0 := by
  by_cases ha : ∃ k, x k = a
  · obtain ⟨k0, rfl⟩ := ha
    by_cases h : ∃ k, x k < x k0
    · obtain ⟨k, hk⟩ := h
      obtain ⟨k1, hk1, hmax⟩ := exists_max_image (univ.filter fun k => x k < x k0) x ⟨k, by simpa using hk⟩
      simp only [mem_filter, mem_univ, true_and] at hk1 hmax
      have := (inSpan_gt x k1).sub (inSpan_gt x k0)
      refine cast (congrArg (InSpan x) (funext fun k => ?_)) this
      rcases lt_trichotomy (x k) (x k0) with h | h | h
      · rw [if_neg (not_lt.mpr (hmax k h)), if_neg (not_lt.mpr h.le), if_neg h.ne]; ring
      · rw [if_pos (by rw [h]; exact hk1), if_neg (not_lt.mpr h.le), if_pos h]; ring
      · rw [if_pos (hk1.trans h), if_pos h, if_neg h.ne']; ring
    · have := (InSpan.const x 1).sub (inSpan_gt x k0)
      refine cast (congrArg (InSpan x) (funext fun k => ?_)) this
      rcases lt_or_eq_of_le (not_lt.mp fun hk => h ⟨k, hk⟩) with h | h
      · rw [if_pos h, if_neg h.ne']; ring
      · rw [if_neg (not_lt.mpr h.ge), if_pos h.symm]; ring
  · have : ∀ k, ¬ x k = a := fun k hk => ha ⟨k, hk⟩
    simp only [if_neg (this _)]
    exact InSpan.const x 0

theorem sum_centredDist_left (x : Fin N → K) (l : Fin N) : ∑ k, centredDist x k l = 0 := by
  obtain ⟨w, u, -, hx⟩ := centredDist_gram x l.pos
  have hN0 : (N : K) ≠ 0 := by exact_mod_cast l.pos.ne'
  unfold centredDist
  simp only [sum_sub_distrib, sum_add_distrib, sum_const, card_univ, Fintype.card_fin, nsmul_eq_mul, ← sum_div]
  field_simp
  ring

/-- columns of the two centred distance matrices are orthogonal if the sample distance covariance is 0 -/
theorem centred_orthogonal (x y : Fin N → K) (h : sampleDcov x y = 0) (p q : Fin N) :
    ∑ k, centredDist x k p * centredDist y k q = 0 := by
  have hN := p.pos
  have hN2 : (N : K) ^ 2 ≠ 0 := pow_ne_zero 2 (by exact_mod_cast hN.ne')
  obtain ⟨w, u, hw, hx⟩ := centredDist_gram x hN
  obtain ⟨w', v, hw', hy⟩ := centredDist_gram y hN
  have h1 := (div_eq_zero_iff.mp h).resolve_right hN2
  rw [sum_centred_gram x y w u w' v hx hy] at h1
  have h2 := (mul_eq_zero.mp h1).resolve_left (by norm_num)
  have h3 : ∀ t s, w t * w' s * (∑ k, u t k * v s k) = 0 := by
    intro t s
    have hnn : ∀ t s, 0 ≤ w t * w' s * (∑ k, u t k * v s k) ^ 2 := fun t s => mul_nonneg (mul_nonneg (hw t) (hw' s)) (sq_nonneg _)
    have a1 := (sum_eq_zero_iff_of_nonneg fun t _ => sum_nonneg fun s _ => hnn t s).mp h2 t (mem_univ t)
    have a2 := (sum_eq_zero_iff_of_nonneg fun s _ => hnn t s).mp a1 s (mem_univ s)
    rcases mul_eq_zero.mp a2 with a | a
    · rw [a, zero_mul]
    · rw [pow_eq_zero_iff (by norm_num)] at a
      rw [a, mul_zero]
  have e1 : ∀ k, centredDist x k p * centredDist y k q =
      ∑ t, ∑ s, 4 * (u t p * v s q) * (w t * w' s * (u t k * v s k)) := by
    intro k
    rw [hx, hy, show ∀ a b : K, -2 * a * (-2 * b) = 4 * (a * b) from fun a b => by ring, sum_mul_sum, mul_sum]
    refine sum_congr rfl fun t _ => ?_
    rw [mul_sum]
    exact sum_congr rfl fun s _ => by ring
  simp only [e1]
  rw [sum_comm]
  refine sum_eq_zero fun t _ => ?_
  rw [sum_comm]
  refine sum_eq_zero fun s _ => ?_
  rw [← mul_sum, ← mul_sum, h3, mul_zero]

theorem span_indep {x y f g : Fin N → K} (h : sampleDcov x y = 0) (hf : InSpan x f) (hg : InSpan y g) :
    (N : K) * ∑ k, f k * g k = (∑ k, f k) * ∑ k, g k := by
  obtain ⟨e, α, hf⟩ := hf
  obtain ⟨e', β, hg⟩ := hg
  have s1 : ∀ (z : Fin N → K) (γ : Fin N → K), ∑ k, ∑ m, γ m * centredDist z k m = 0 := by
    intro z γ
    rw [sum_comm]
    exact sum_eq_zero fun m _ => by rw [← mul_sum, sum_centredDist_left, mul_zero]
  have s2 : ∑ k, (∑ m, α m * centredDist x k m) * ∑ m, β m * centredDist y k m = 0 := by
    simp only [sum_mul_sum]
    rw [sum_comm]
    refine sum_eq_zero fun p _ => ?_
    rw [sum_comm]
    refine sum_eq_zero fun q _ => ?_
    have : ∀ k, α p * centredDist x k p * (β q * centredDist y k q) = α p * β q * (centredDist x k p * centredDist y k q) :=
      fun k => by ring
    simp only [this]
    rw [← mul_sum, centred_orthogonal x y h, mul_zero]
  have hfs : ∑ k, f k = N * e := by
    simp only [hf, sum_add_distrib, s1, sum_const, card_univ, Fintype.card_fin, nsmul_eq_mul, add_zero]
  have hgs : ∑ k, g k = N * e' := by
    simp only [hg, sum_add_distrib, s1, sum_const, card_univ, Fintype.card_fin, nsmul_eq_mul, add_zero]
  have hfg : ∑ k, f k * g k = N * (e * e') := by
    have : ∀ k, f k * g k = e * e' + e * (∑ m, β m * centredDist y k m) + e' * (∑ m, α m * centredDist x k m) +
        (∑ m, α m * centredDist x k m) * ∑ m, β m * centredDist y k m := fun k => by rw [hf, hg]; ring
    simp only [this, sum_add_distrib, ← mul_sum, s1, s2, sum_const, card_univ, Fintype.card_fin, nsmul_eq_mul]
    ring
  rw [hfs, hgs, hfg]
  ring

/-- **C124** the sample distance covariance is 0 exactly for empirically independent columns -/
theorem C124_dcov_zero_iff (x y : Fin N → K) : sampleDcov x y = 0 ↔ EmpIndep x y := by
  refine ⟨fun h a b => ?_, sampleDcov_indep x y⟩
  have := span_indep h (inSpan_eq x a) (inSpan_eq y b)
  have e : ∀ k, (if x k = a then (1 : K) else 0) * (if y k = b then 1 else 0) = if x k = a ∧ y k = b then 1 else 0 := by
    intro k
    by_cases h1 : x k = a <;> by_cases h2 : y k = b <;> simp [h1, h2]
  simp only [e, sum_boole] at this
  exact_mod_cast this

/-! ### copies of a sample -/

/-- the sample repeated `r` times -/
def copies {α : Type} (r : Nat) (s : Fin N → α) : Fin (r * N) → α := fun k => s k.modNat

omit [LinearOrder K] [IsStrictOrderedRing K] in
theorem sum_copies (r : Nat) (F : Fin N → K) : ∑ k : Fin (r * N), F k.modNat = r * ∑ k, F k := by
  have := Equiv.sum_comp (finProdFinEquiv (m := r) (n := N)).symm fun p => F p.2
  rw [Fintype.sum_prod_type] at this
  simp only [sum_const, card_univ, Fintype.card_fin, nsmul_eq_mul] at this
  exact this

omit [LinearOrder K] [IsStrictOrderedRing K] in
theorem sum_copies₂ (r : Nat) (F : Fin N → Fin N → K) :
    ∑ p : Fin (r * N), ∑ m : Fin (r * N), F p.modNat m.modNat = r ^ 2 * ∑ p, ∑ m, F p m := by
  have : ∀ p : Fin (r * N), ∑ m : Fin (r * N), F p.modNat m.modNat = r * ∑ m, F p.modNat m := fun p => sum_copies r (F p.modNat)
  simp only [this]
  rw [← mul_sum, sum_copies r fun p => ∑ m, F p m, sq, mul_assoc]

theorem centredDist_copies {r : Nat} (hr : 0 < r) (x : Fin N → K) (k l : Fin (r * N)) :
    centredDist (copies r x) k l = centredDist x k.modNat l.modNat := by
  have hr0 : (r : K) ≠ 0 := by exact_mod_cast hr.ne'
  unfold centredDist copies
  rw [sum_copies r fun m => |x k.modNat - x m|, sum_copies r fun m => |x m - x l.modNat|, sum_copies₂ r fun p m => |x p - x m|]
  push_cast
  rw [mul_div_mul_left _ _ hr0, mul_div_mul_left _ _ hr0, mul_pow, mul_div_mul_left _ _ (pow_ne_zero 2 hr0)]

theorem sampleDcov_copies {r : Nat} (hr : 0 < r) (x y : Fin N → K) : sampleDcov (copies r x) (copies r y) = sampleDcov x y := by
  have hr0 : (r : K) ≠ 0 := by exact_mod_cast hr.ne'
  unfold sampleDcov
  simp only [centredDist_copies hr]
  rw [sum_copies₂ r fun k l => centredDist x k l * centredDist y k l]
  push_cast
  rw [mul_pow, mul_div_mul_left _ _ (pow_ne_zero 2 hr0)]

theorem meanDist_copies {r : Nat} (hr : 0 < r) (x : Fin N → K) : meanDist (copies r x) = meanDist x := by
  have hr0 : (r : K) ≠ 0 := by exact_mod_cast hr.ne'
  unfold meanDist copies
  rw [sum_copies₂ r fun k l => |x k - x l|]
  push_cast
  rw [mul_pow, mul_div_mul_left _ _ (pow_ne_zero 2 hr0)]

/-- the entry that `dcov` returns for `r` copies of a sample -/
theorem dcov_copies {r : Nat} (hr : 0 < r) (s : Fin N → Fin M → K) (i j : Fin M) :
    (dcov (copies r s)).1 i j = (sampleDcov (fun k => s k i) (fun k => s k j) -
      (∑ k, centredDist (fun k => s k i) k k * centredDist (fun k => s k j) k k) / N ^ 2 / r) / 2 := by
  have hr0 : (r : K) ≠ 0 := by exact_mod_cast hr.ne'
  have h := dcov_entry (copies r s) i j
  have e1 : ∀ i, (fun k => copies r s k i) = copies r fun k => s k i := fun i => rfl
  simp only [e1] at h
  rw [sampleDcov_copies hr] at h
  simp only [centredDist_copies hr] at h
  rw [sum_copies r fun k => centredDist (fun k => s k i) k k * centredDist (fun k => s k j) k k] at h
  have e2 : ∀ D : K, (r : K) * D / ((r * N : ℕ) : K) ^ 2 = D / N ^ 2 / r := by
    intro D
    push_cast
    rw [mul_pow, sq (r : K), mul_assoc, mul_div_mul_left _ _ hr0, div_div, mul_comm ((N : K) ^ 2)]
  rw [e2] at h
  rw [← h]
  ring

theorem edge_arith {r N S D c d R : K} (hr : 0 < r) (hN : 0 < N) (hS : 0 < S) (hR : (2 * c * d + N * D) / (N * S) ≤ R) (hRr : R ≤ r) :
    c * d ≤ r * N * ((S - D / r) / 2) := by
  have h1 : 2 * c * d + N * D ≤ r * (N * S) := (div_le_iff₀ (mul_pos hN hS)).mp (hR.trans hRr)
  have h3 : r * N * ((S - D / r) / 2) = (r * (N * S) - N * D) / 2 := by field_simp
  rw [h3]
  linarith

/-- **C124** on sufficiently many copies of a sample the edges of `estimate_UDG(sample, "dcov_fast")` are exactly the pairs of
columns that are not empirically independent -/
theorem C124_dcov_consistent [Archimedean K] (s : Fin N → Fin M → K) (level c : K) (hc : 0 < c) :
    ∃ R : Nat, ∀ r, R ≤ r → ∀ lib : TestLib K (r * N), lib.critVal level = c → ∀ u p,
      estimateUDG lib (copies r s) (.name "dcov_fast") level = .ok (u, p) →
      ∀ i j, u i j = true ↔ i ≠ j ∧ ¬ EmpIndep (fun k => s k i) fun k => s k j := by
  have key : ∀ i j : Fin M, ∃ R : Nat, ∀ r, R ≤ r → ∀ lib : TestLib K (r * N), lib.critVal level = c → ∀ u p,
      estimateUDG lib (copies r s) (.name "dcov_fast") level = .ok (u, p) →
      (u i j = true ↔ i ≠ j ∧ ¬ EmpIndep (fun k => s k i) fun k => s k j) := by
    intro i j
    by_cases hind : EmpIndep (fun k => s k i) fun k => s k j
    · refine ⟨1, fun r hr lib hl u p h => ⟨fun hu => ?_, fun h => absurd hind h.2⟩⟩
      have h1 : EmpIndep (copies r fun k => s k i) (copies r fun k => s k j) := by
        rw [← C124_dcov_zero_iff, sampleDcov_copies hr, C124_dcov_zero_iff]; exact hind
      have := (C116_dcov_independent lib (copies r s) level (hl ▸ hc) u p h i j h1).2.2
      rw [this] at hu; cases hu
    · obtain ⟨S, eS⟩ : ∃ S, S = sampleDcov (fun k => s k i) fun k => s k j := ⟨_, rfl⟩
      obtain ⟨D, eD⟩ : ∃ D, D = (∑ k, centredDist (fun k => s k i) k k * centredDist (fun k => s k j) k k) / (N : K) ^ 2 := ⟨_, rfl⟩
      obtain ⟨d, ed⟩ : ∃ d, d = meanDist (fun k => s k i) * meanDist fun k => s k j := ⟨_, rfl⟩
      have hS : 0 < S := eS ▸ lt_of_le_of_ne (sampleDcov_nonneg _ _) fun h => hind ((C124_dcov_zero_iff _ _).mp h.symm)
      have hN : 0 < N := by
        rcases Nat.eq_zero_or_pos N with h0 | h0
        · exfalso
          subst h0
          exact hind fun a b => by simp
        · exact h0
      have hN0 : (0 : K) < N := by exact_mod_cast hN
      have hd : 0 < d := lt_of_lt_of_le hS (by rw [eS, ed]; exact sampleDcov_le _ _ hN)
      obtain ⟨R, hR⟩ := exists_nat_ge ((2 * c * d + N * D) / (N * S))
      refine ⟨R + 1, fun r hr lib hl u p h => ⟨fun hu => ⟨(dcovFast_edge' lib _ level u p h i j hu).1, hind⟩, fun hij => ?_⟩⟩
      have hr1 : 0 < r := by omega
      have hr0 : (0 : K) < r := by exact_mod_cast hr1
      have hu' : u = clearDiag fun i j => (Fl.div (((r * N : ℕ) : K) * (dcov (copies r s)).1 i j)
          ((dcov (copies r s)).2 i * (dcov (copies r s)).2 j)).ge (lib.critVal level) := by
        have : estimateUDG lib (copies r s) (.name "dcov_fast") level = .ok (clearDiag fun i j =>
          (Fl.div (((r * N : ℕ) : K) * (dcov (copies r s)).1 i j) ((dcov (copies r s)).2 i * (dcov (copies r s)).2 j)).ge
            (lib.critVal level), none) := rfl
        rw [this] at h
        injection h with h
        exact (Prod.ext_iff.mp h).1.symm
      have hb : ∀ i, (dcov (copies r s)).2 i = meanDist fun k => s k i := fun i => by
        rw [dbar_eq]; exact meanDist_copies hr1 fun k => s k i
      rw [hu']
      unfold clearDiag
      rw [if_neg hij.1]
      beta_reduce
      rw [hb, hb, hl, dcov_copies hr1, ← eS, ← eD, ← ed]
      unfold Fl.div
      rw [if_neg hd.ne']
      refine decide_eq_true ((le_div_iff₀ hd).mpr ?_)
      rw [Nat.cast_mul]
      exact edge_arith hr0 hN0 hS hR (by exact_mod_cast (by omega : R ≤ r))
  choose R hR using key
  refine ⟨univ.sup fun i => univ.sup fun j => R i j, fun r hr lib hl u p h i j => hR i j r ?_ lib hl u p h⟩
  exact le_trans (le_trans (le_sup (f := fun j => R i j) (mem_univ j)) (le_sup (f := fun i => univ.sup fun j => R i j) (mem_univ i))) hr

/-- three observations with `y = x²`: uncorrelated, but not independent -/
def squares : Fin 3 → Fin 2 → ℚ := ![![-1, 1], ![0, 0], ![1, 1]]

-- one copy gives no edge, enough copies give one
example : (∑ k, (squares k 0 - 0) * (squares k 1 - 2 / 3) = 0) ∧
    ∃ R : Nat, ∀ r, R ≤ r → ∀ lib : TestLib ℚ (r * 3), lib.critVal (1 / 20) = 3841 / 1000 → ∀ u p,
      estimateUDG lib (copies r squares) (.name "dcov_fast") (1 / 20) = .ok (u, p) → u 0 1 = true := by
  refine ⟨by decide +kernel, ?_⟩
  obtain ⟨R, hR⟩ := C124_dcov_consistent squares (1 / 20) (3841 / 1000) (by norm_num)
  refine ⟨R, fun r hr lib hl u p h => (hR r hr lib hl u p h 0 1).mpr ⟨by decide, fun hi => ?_⟩⟩
  have := hi 0 1
  revert this
  decide +kernel

end Medil

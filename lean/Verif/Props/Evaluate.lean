import Verif.Proofs.Evaluate
import Mathlib.Algebra.Order.Ring.Rat
import Mathlib.Algebra.Field.Rat
import Mathlib.Logic.Equiv.Fin.Basic
import Mathlib.Tactic.NormNum
import Mathlib.Logic.Equiv.Set
/-
  Properties of `medil.evaluate` (C27-C37).
-/
namespace Medil
open Finset
variable {n : Nat}

/-- two structures used in examples, over 4 measurements -/
def exP : List (BVec 4) := [⟨0b0011⟩, ⟨0b1110⟩]
def exT : List (BVec 4) := [⟨0b0111⟩, ⟨0b1100⟩, ⟨0b0100⟩]

/-! ### C27 -/

/-- **C27** -/
theorem C27_recover_ug (B : List (BVec n)) :
    (∀ i j, recoverUg B i j = recoverUg B j i) ∧ (∀ i, recoverUg B i i = false) ∧
    ∀ i j, i ≠ j → (recoverUg B i j = true ↔ ∃ r ∈ B, r i = true ∧ r j = true) := by
  refine ⟨?_, ?_, ?_⟩
  · intro i j
    rw [Bool.eq_iff_iff, recoverUg_apply, recoverUg_apply]
    constructor <;> rintro ⟨h, r, hr, h1, h2⟩ <;> exact ⟨Ne.symm h, r, hr, h2, h1⟩
  · intro i
    rw [Bool.eq_false_iff]
    intro h
    exact ((recoverUg_apply B i i).mp h).1 rfl
  · intro i j hij
    rw [recoverUg_apply]; simp [hij]

/-! ### C28 -/

theorem ushdOf_comm (G H : BMat n) : ushdOf G H = ushdOf H G := by
  rw [ushdOf_eq, ushdOf_eq]
  congr 2
  ext e
  exact and_congr_right fun _ => ne_comm

theorem sum_sq_eq_zero (f : Fin n → Fin n → Int) :
    (∑ i, ∑ j, (f i j) ^ 2) = 0 ↔ ∀ i j, f i j = 0 := by
  rw [Finset.sum_eq_zero_iff_of_nonneg (fun i _ => Finset.sum_nonneg fun j _ => sq_nonneg _)]
  constructor
  · intro h i j
    have := h i (Finset.mem_univ i)
    rw [Finset.sum_eq_zero_iff_of_nonneg (fun j _ => sq_nonneg _)] at this
    exact pow_eq_zero_iff (by decide) |>.mp (this j (Finset.mem_univ j))
  · intro h i _
    exact Finset.sum_eq_zero fun j _ => by rw [h i j]; rfl

/-- **C28** `sfd` is symmetric; the first component is zero iff all pairs (and single measurements) have
equally many common parents; the second iff the implied dependence graphs are equal -/
theorem C28_sfd_zero (P T : List (BVec n)) :
    sfd P T = sfd T P ∧
    ((sfd P T).1 = 0 ↔ ∀ i j, commonParents P i j = commonParents T i j) ∧
    ((sfd P T).2 = 0 ↔ ∀ i j, i ≠ j →
      ((∃ r ∈ P, r i = true ∧ r j = true) ↔ ∃ r ∈ T, r i = true ∧ r j = true)) := by
  refine ⟨?_, ?_, ?_⟩
  · unfold sfd
    simp only [Prod.mk.injEq]
    constructor
    · refine Finset.sum_congr rfl fun i _ => Finset.sum_congr rfl fun j _ => ?_
      ring
    · exact ushdOf_comm _ _
  · unfold sfd
    simp only
    rw [sum_sq_eq_zero]
    refine forall_congr' fun i => forall_congr' fun j => ?_
    rw [sub_eq_zero, wtdUg_eq, wtdUg_eq]
    unfold commonParents
    constructor
    · intro h; exact_mod_cast h.symm
    · intro h; rw [h]
  · show ushdOf (recoverUg T) (recoverUg P) = 0 ↔ _
    rw [ushdOf_eq, Finset.card_eq_zero, Finset.filter_eq_empty_iff]
    have hT := C27_recover_ug T
    have hP := C27_recover_ug P
    constructor
    · intro h
      have key : ∀ i j : Fin n, i < j → recoverUg T i j = recoverUg P i j := by
        intro i j hij
        by_contra hne
        exact h (Finset.mem_univ (i, j)) ⟨hij, hne⟩
      intro i j hij
      rw [← hP.2.2 i j hij, ← hT.2.2 i j hij]
      rcases lt_or_gt_of_ne hij with h' | h'
      · rw [key i j h']
      · rw [hP.1 i j, hT.1 i j, key j i h']
    · intro h e _ he
      apply he.2
      rw [Bool.eq_iff_iff, hT.2.2 _ _ (ne_of_lt he.1), hP.2.2 _ _ (ne_of_lt he.1)]
      exact (h _ _ (ne_of_lt he.1)).symm

example : sfd exP exT = (9, 2) := by decide +kernel

/-! ### C29 -/

/-- **C29** the order of the latents and latents without children do not matter -/
theorem C29_sfd_rows (P P' T T' : List (BVec n)) (hP : P.Perm P') (hT : T.Perm T') (a b : Nat) :
    sfd (P' ++ List.replicate a zeroRow) (T' ++ List.replicate b zeroRow) = sfd P T := by
  have hw : ∀ {B B' : List (BVec n)} (c : Nat), B.Perm B' → ∀ i j,
      wtdUg (B' ++ List.replicate c zeroRow) i j = wtdUg B i j := by
    intro B B' c h i j
    rw [wtdUg_eq, wtdUg_eq, List.filter_append, List.length_append]
    have : (List.replicate c (zeroRow : BVec n)).filter (fun r => r i && r j) = [] := by
      rw [List.filter_eq_nil_iff]
      intro r hr
      rw [List.eq_of_mem_replicate hr]; simp [zeroRow]
    rw [this, (h.symm.filter _).length_eq]; simp
  have hu : ∀ {B B' : List (BVec n)} (c : Nat), B.Perm B' →
      ∀ i j, recoverUg (B' ++ List.replicate c zeroRow) i j = recoverUg B i j := by
    intro B B' c h i j
    rw [Bool.eq_iff_iff, recoverUg_apply, recoverUg_apply]
    refine and_congr_right fun _ => ?_
    constructor
    · rintro ⟨r, hr, h1, h2⟩
      rcases List.mem_append.mp hr with hr | hr
      · exact ⟨r, h.mem_iff.mpr hr, h1, h2⟩
      · rw [List.eq_of_mem_replicate hr] at h1; simp [zeroRow] at h1
    · rintro ⟨r, hr, h1, h2⟩
      exact ⟨r, List.mem_append_left _ (h.mem_iff.mp hr), h1, h2⟩
  unfold sfd
  simp only [Prod.mk.injEq]
  refine ⟨?_, ?_⟩
  · refine Finset.sum_congr rfl fun i _ => Finset.sum_congr rfl fun j _ => ?_
    rw [hw _ hP, hw _ hT]
  · rw [ushdOf_eq, ushdOf_eq]
    simp only [hu _ hP, hu _ hT]

example : exP.Perm exP.reverse := (List.reverse_perm exP).symm

/-! ### C30, C31 -/

/-- **C30** the second component of `sfd` satisfies the triangle inequality and is bounded by the number
of pairs -/
theorem C30_ushd_distance (P Q R : List (BVec n)) :
    (sfd P R).2 ≤ (sfd P Q).2 + (sfd Q R).2 ∧ 2 * (sfd P Q).2 ≤ n * (n - 1) := by
  constructor
  · show ushdOf (recoverUg R) (recoverUg P) ≤ ushdOf (recoverUg Q) (recoverUg P) + ushdOf (recoverUg R) (recoverUg Q)
    rw [ushdOf_eq, ushdOf_eq, ushdOf_eq]
    refine le_trans (Finset.card_le_card ?_) (Finset.card_union_le _ _)
    intro e he
    simp only [Finset.mem_filter, Finset.mem_univ, true_and, Finset.mem_union] at he ⊢
    by_cases h : recoverUg Q e.1 e.2 = recoverUg P e.1 e.2
    · exact Or.inr ⟨he.1, by rw [h]; exact he.2⟩
    · exact Or.inl ⟨he.1, h⟩
  · show 2 * ushdOf _ _ ≤ _
    rw [ushdOf_eq]
    have h1 : ((Finset.univ : Finset (Fin n × Fin n)).filter fun e =>
        e.1 < e.2 ∧ recoverUg Q e.1 e.2 ≠ recoverUg P e.1 e.2).card =
        ((Finset.univ : Finset (Fin n × Fin n)).filter fun e =>
        e.2 < e.1 ∧ recoverUg Q e.1 e.2 ≠ recoverUg P e.1 e.2).card := by
      apply Finset.card_bij (fun e _ => (e.2, e.1))
      · intro e he
        simp only [Finset.mem_filter, Finset.mem_univ, true_and] at he ⊢
        exact ⟨he.1, by rw [(C27_recover_ug Q).1, (C27_recover_ug P).1]; exact he.2⟩
      · rintro ⟨a, b⟩ _ ⟨c, d⟩ _ h; simp at h ⊢; exact ⟨h.2, h.1⟩
      · rintro ⟨a, b⟩ h
        simp only [Finset.mem_filter, Finset.mem_univ, true_and] at h
        refine ⟨(b, a), ?_, rfl⟩
        simp only [Finset.mem_filter, Finset.mem_univ, true_and]
        exact ⟨h.1, by rw [(C27_recover_ug Q).1, (C27_recover_ug P).1]; exact h.2⟩
    have hdis : Disjoint ((Finset.univ : Finset (Fin n × Fin n)).filter fun e =>
        e.1 < e.2 ∧ recoverUg Q e.1 e.2 ≠ recoverUg P e.1 e.2)
        ((Finset.univ : Finset (Fin n × Fin n)).filter fun e =>
        e.2 < e.1 ∧ recoverUg Q e.1 e.2 ≠ recoverUg P e.1 e.2) := by
      rw [Finset.disjoint_left]
      intro e h1 h2
      simp only [Finset.mem_filter, Finset.mem_univ, true_and] at h1 h2
      exact lt_asymm h1.1 h2.1
    rw [two_mul]
    conv_lhs => arg 2; rw [h1]
    rw [← Finset.card_union_of_disjoint hdis]
    have hsub : ∀ s t : Finset (Fin n × Fin n), (∀ e ∈ s, e.1 ≠ e.2) → (∀ e ∈ t, e.1 ≠ e.2) →
        s ∪ t ⊆ (Finset.univ : Finset (Fin n)).offDiag := by
      intro s t hs ht e he
      simp only [Finset.mem_offDiag, Finset.mem_univ, true_and]
      rcases Finset.mem_union.mp he with h | h
      · exact hs e h
      · exact ht e h
    refine le_trans (Finset.card_le_card (hsub _ _ (fun e he => ?_) (fun e he => ?_))) ?_
    · simp only [Finset.mem_filter, Finset.mem_univ, true_and] at he
      exact ne_of_lt he.1
    · simp only [Finset.mem_filter, Finset.mem_univ, true_and] at he
      exact ne_of_gt he.1
    rw [Finset.offDiag_card, Finset.card_univ, Fintype.card_fin, Nat.mul_sub, Nat.mul_one]

/-- **C31** -/
theorem C31_sfd_ge_ushd (P T : List (BVec n)) : 2 * ((sfd P T).2 : Int) ≤ (sfd P T).1 := by
  show 2 * ((ushdOf (recoverUg T) (recoverUg P) : Nat) : Int) ≤ ∑ i, ∑ j, (wtdUg T i j - wtdUg P i j) ^ 2
  rw [ushdOf_eq]
  have hlow : ∀ i j : Fin n, i ≠ j →
      (if recoverUg T i j ≠ recoverUg P i j then (1 : Int) else 0) ≤ (wtdUg T i j - wtdUg P i j) ^ 2 := by
    intro i j hij
    split
    · rename_i hne
      have : wtdUg T i j ≠ wtdUg P i j := by
        intro h
        apply hne
        rw [Bool.eq_iff_iff, ← wtdUg_pos T hij, ← wtdUg_pos P hij, h]
      have h1 : (wtdUg T i j - wtdUg P i j) ≠ 0 := sub_ne_zero.mpr this
      have := sq_nonneg (wtdUg T i j - wtdUg P i j)
      have h2 : (wtdUg T i j - wtdUg P i j) ^ 2 ≠ 0 := pow_ne_zero 2 h1
      omega
    · exact sq_nonneg _
  rw [← Finset.sum_product']
  rw [Finset.univ_product_univ]
  let s1 := (Finset.univ : Finset (Fin n × Fin n)).filter fun e => e.1 < e.2
  let s2 := (Finset.univ : Finset (Fin n × Fin n)).filter fun e => e.2 < e.1
  have hdis : Disjoint s1 s2 := by
    rw [Finset.disjoint_left]
    intro e h1 h2
    simp only [s1, s2, Finset.mem_filter, Finset.mem_univ, true_and] at h1 h2
    exact lt_asymm h1 h2
  have hF1 : ((((Finset.univ : Finset (Fin n × Fin n)).filter fun e =>
      e.1 < e.2 ∧ recoverUg T e.1 e.2 ≠ recoverUg P e.1 e.2).card : Nat) : Int) ≤
      ∑ e ∈ s1, (wtdUg T e.1 e.2 - wtdUg P e.1 e.2) ^ 2 := by
    rw [← Finset.filter_filter, Finset.card_filter]
    push_cast
    apply Finset.sum_le_sum
    intro e he
    simp only [s1, Finset.mem_filter, Finset.mem_univ, true_and] at he
    exact hlow e.1 e.2 (ne_of_lt he)
  have hsw : ∑ e ∈ s1, (wtdUg T e.1 e.2 - wtdUg P e.1 e.2) ^ 2 =
      ∑ e ∈ s2, (wtdUg T e.1 e.2 - wtdUg P e.1 e.2) ^ 2 := by
    apply Finset.sum_bij (fun e _ => (e.2, e.1))
    · intro e he; simpa [s1, s2] using he
    · rintro ⟨a, b⟩ _ ⟨c, d⟩ _ h; simp at h ⊢; exact ⟨h.2, h.1⟩
    · rintro ⟨a, b⟩ h; exact ⟨(b, a), by simpa [s1, s2] using h, rfl⟩
    · rintro ⟨a, b⟩ _
      simp only
      rw [wtdUg_comm T a b, wtdUg_comm P a b]
  have hall : ∑ e ∈ s1 ∪ s2, (wtdUg T e.1 e.2 - wtdUg P e.1 e.2) ^ 2 ≤
      ∑ e : Fin n × Fin n, (wtdUg T e.1 e.2 - wtdUg P e.1 e.2) ^ 2 :=
    Finset.sum_le_sum_of_subset_of_nonneg (Finset.subset_univ _) (fun e _ _ => sq_nonneg _)
  rw [Finset.sum_union hdis, ← hsw] at hall
  linarith

/-! ### C32 -/

/-- **C32** with equally many columns `sfd` never raises; with different numbers it raises `ValueError`,
unless one of the numbers is 1 (then numpy broadcasts silently and a value is returned) -/
theorem C32_sfd_shapes {m n : Nat} (P : List (BVec m)) (T : List (BVec n)) :
    (m ≠ n → m ≠ 1 → n ≠ 1 → sfdPy P T = .error .valueError) ∧
    (m ≠ n → (m = 1 ∨ n = 1) → ∃ r, sfdPy P T = .ok r) ∧
    ∀ Q : List (BVec n), sfdPy Q T = .ok (sfd Q T) := by
  have key : ∀ {m n c : Nat} (P : List (BVec m)) (T : List (BVec n)), bcastDim n m = .ok c →
      ∃ r, sfdPy P T = .ok r := by
    intro m n c P T h
    unfold sfdPy
    split
    · rename_i e he; rw [h] at he; cases he
    · exact ⟨_, rfl⟩
  refine ⟨?_, ?_, ?_⟩
  · intro h1 h2 h3
    have : bcastDim n m = .error .valueError := by
      unfold bcastDim
      rw [if_neg (Ne.symm h1), if_neg h3, if_neg h2]
    unfold sfdPy
    split
    · rename_i e he; rw [this] at he; cases he; rfl
    · rename_i c hc; rw [this] at hc; cases hc
  · intro h1 h2
    have : ∃ c, bcastDim n m = .ok c := by
      unfold bcastDim
      rw [if_neg (Ne.symm h1)]
      by_cases hn : n = 1
      · exact ⟨m, by rw [if_pos hn]⟩
      · exact ⟨n, by rw [if_neg hn, if_pos (h2.resolve_right hn)]⟩
    obtain ⟨c, hc⟩ := this
    exact key P T hc
  · intro Q
    have hb : bcastDim n n = .ok n := by unfold bcastDim; rw [if_pos rfl]
    unfold sfdPy
    split
    · rename_i e he; rw [hb] at he; cases he
    · rename_i c hc
      rw [hb] at hc
      cases hc
      simp only [bcastIdx, dif_pos, Fin.cast_eq_self]
      rfl

example : sfdPy exP exT = .ok (9, 2) ∧ sfdPy exP [(⟨0b111⟩ : BVec 3)] = .error .valueError := by
  refine ⟨by rw [(C32_sfd_shapes exP exT).2.2]; decide +kernel, ?_⟩
  exact (C32_sfd_shapes exP _).1 (by decide) (by decide) (by decide)


/-! ### C33–C36: matching rows -/

section matching
variable {m l : Nat} {K : Type} [Field K] [LinearOrder K] [IsStrictOrderedRing K]

/-- **C33** `min_perm_squared_l2_dist` returns a permutation of the predicted rows together with its
distance to the zero-padded true matrix; no permutation is closer; it is the lexicographically first of
the closest.  With more true rows than predicted rows (two or more) it raises `ValueError`, and with no
predicted row `IndexError`. -/
theorem C33_min_perm (P : Fin m → Fin n → K) (T : Fin l → Fin n → K) :
    (l ≤ m → 0 < m → ∃ σ : Equiv.Perm (Fin m),
      minPermSquaredL2Dist P T = .ok (List.ofFn σ, matchDist id P (padded id T) σ) ∧
      (∀ τ, matchDist id P (padded id T) σ ≤ matchDist id P (padded id T) τ) ∧
      ∀ τ, matchDist id P (padded id T) τ = matchDist id P (padded id T) σ →
        τ = σ ∨ List.Lex (· < ·) (List.ofFn σ) (List.ofFn τ)) ∧
    (m < l → 2 ≤ l → minPermSquaredL2Dist P T = .error .valueError) ∧
    (m = 0 → l ≤ 1 → minPermSquaredL2Dist P T = .error .indexError) := by
  refine ⟨fun hl hm => minPermDist_spec id id P T hl hm, ?_, ?_⟩
  · intro h1 h2
    unfold minPermSquaredL2Dist minPermDist padTrue
    rw [if_neg (by omega)]
  · intro h1 h2
    unfold minPermSquaredL2Dist minPermDist padTrue
    rw [if_pos (by omega)]
    simp only [if_pos h1]

/-- the returned distance of a successful call, characterised as the least distance -/
theorem minPerm_least {f cast : K → K} {P : Fin m → Fin n → K} {T : Fin l → Fin n → K} (hl : l ≤ m)
    {p : List (Fin m)} {d : K} (h : minPermDist f cast P T = .ok (p, d)) :
    (∃ σ : Equiv.Perm (Fin m), p = List.ofFn σ ∧ d = matchDist f P (padded cast T) σ) ∧
      ∀ τ : Equiv.Perm (Fin m), d ≤ matchDist f P (padded cast T) τ := by
  rcases Nat.eq_zero_or_pos m with hm | hm
  · unfold minPermDist padTrue at h
    rw [if_pos (Or.inl hl)] at h
    simp only [if_pos hm] at h
    cases h
  · obtain ⟨σ, h1, h2, -⟩ := minPermDist_spec f cast P T hl hm
    rw [h] at h1
    simp only [Except.ok.injEq, Prod.mk.injEq] at h1
    exact ⟨⟨σ, h1.1, h1.2⟩, fun τ => by rw [h1.2]; exact h2 τ⟩

theorem matchDist_nonneg (f : K → K) (P T : Fin m → Fin n → K) (σ : Equiv.Perm (Fin m)) :
    0 ≤ matchDist f P T σ :=
  Finset.sum_nonneg fun _ _ => Finset.sum_nonneg fun _ _ => sq_nonneg _

theorem matchDist_eq_zero (f : K → K) (P T : Fin m → Fin n → K) (σ : Equiv.Perm (Fin m)) :
    matchDist f P T σ = 0 ↔ ∀ i j, f (P (σ i) j) = f (T i j) := by
  unfold matchDist
  rw [Finset.sum_eq_zero_iff_of_nonneg (fun i _ => Finset.sum_nonneg fun j _ => sq_nonneg _)]
  constructor
  · intro h i j
    have := h i (Finset.mem_univ i)
    rw [Finset.sum_eq_zero_iff_of_nonneg (fun j _ => sq_nonneg _)] at this
    exact sub_eq_zero.mp (pow_eq_zero_iff (by decide) |>.mp (this j (Finset.mem_univ j)))
  · intro h i _
    exact Finset.sum_eq_zero fun j _ => by rw [h i j, sub_self]; exact zero_pow (by decide)

/-- **C34** the distance is non-negative, and zero iff the predicted rows are a rearrangement of the true
rows padded with zero rows -/
theorem C34_min_perm_zero (P : Fin m → Fin n → K) (T : Fin l → Fin n → K) (hl : l ≤ m)
    (p : List (Fin m)) (d : K) (h : minPermSquaredL2Dist P T = .ok (p, d)) :
    0 ≤ d ∧ (d = 0 ↔ ∃ σ : Equiv.Perm (Fin m), ∀ i j,
      P (σ i) j = if h : i.val < l then T ⟨i, h⟩ j else 0) := by
  obtain ⟨⟨σ, -, hd⟩, hmin⟩ := minPerm_least hl h
  refine ⟨by rw [hd]; exact matchDist_nonneg _ _ _ _, ?_, ?_⟩
  · intro h0
    exact ⟨σ, fun i j => (matchDist_eq_zero id P (padded id T) σ).mp (hd ▸ h0) i j⟩
  · rintro ⟨τ, hτ⟩
    have h0 : matchDist id P (padded id T) τ = 0 := (matchDist_eq_zero id P (padded id T) τ).mpr fun i j => hτ i j
    exact le_antisymm (h0 ▸ hmin τ) (by rw [hd]; exact matchDist_nonneg _ _ _ _)

/-- extend a permutation of the first `l` rows to all `m` rows -/
theorem extend_perm (hl : l ≤ m) (ρ : Equiv.Perm (Fin l)) :
    ∃ ρ' : Equiv.Perm (Fin m), (∀ (i : Fin m) (h : i.val < l),
        ∃ h' : (ρ' i).val < l, (⟨ρ' i, h'⟩ : Fin l) = ρ ⟨i, h⟩) ∧
      ∀ i : Fin m, ¬ i.val < l → ¬ (ρ' i).val < l := by
  let e : Fin l ≃ {i : Fin m // i.val < l} :=
    ⟨fun i => ⟨⟨i, lt_of_lt_of_le i.isLt hl⟩, i.isLt⟩, fun i => ⟨i.1, i.2⟩, fun i => rfl, fun i => rfl⟩
  refine ⟨ρ.extendDomain e, ?_, ?_⟩
  · intro i h
    have : ρ.extendDomain e i = e (ρ ⟨i, h⟩) := by
      have := Equiv.Perm.extendDomain_apply_image ρ e ⟨i, h⟩
      exact this
    rw [this]
    exact ⟨(ρ ⟨i, h⟩).isLt, rfl⟩
  · intro i h
    rw [Equiv.Perm.extendDomain_apply_not_subtype ρ e h]
    exact h

/-- **C35** permuting the rows of the predicted matrix (`ρ`) or of the true matrix (`π`) leaves the
distance unchanged -/
theorem C35_min_perm_invariant (P : Fin m → Fin n → K) (T : Fin l → Fin n → K) (hl : l ≤ m)
    (ρ : Equiv.Perm (Fin m)) (π : Equiv.Perm (Fin l)) (p p' : List (Fin m)) (d d' : K)
    (h : minPermSquaredL2Dist P T = .ok (p, d))
    (h' : minPermSquaredL2Dist (fun i => P (ρ i)) (fun i => T (π i)) = .ok (p', d')) : d' = d := by
  obtain ⟨π', hp1, hp2⟩ := extend_perm hl π
  have hpad : ∀ i j, (padded id (fun i => T (π i)) : Fin m → Fin n → K) i j = padded id T (π' i) j := by
    intro i j
    unfold padded
    by_cases hi : i.val < l
    · obtain ⟨h1, h2⟩ := hp1 i hi
      rw [dif_pos hi, dif_pos h1, h2]
    · rw [dif_neg hi, dif_neg (hp2 i hi)]
  -- a permutation for one problem gives one for the other with the same distance
  have key : ∀ τ : Equiv.Perm (Fin m),
      matchDist id (fun i => P (ρ i)) (padded id (fun i => T (π i))) τ =
        matchDist id P (padded id T) ((π'.symm.trans τ).trans ρ) := by
    intro τ
    unfold matchDist
    rw [← Equiv.sum_comp π' (fun i => ∑ j, (id (P (((π'.symm.trans τ).trans ρ) i) j) -
      id (padded id T i j)) ^ 2)]
    refine Finset.sum_congr rfl fun i _ => Finset.sum_congr rfl fun j _ => ?_
    simp [hpad]
  obtain ⟨⟨σ, -, hd⟩, hmin⟩ := minPerm_least hl h
  obtain ⟨⟨σ', -, hd'⟩, hmin'⟩ := minPerm_least hl h'
  apply le_antisymm
  · have h1 := hmin' ((π'.trans σ).trans ρ.symm)
    rw [key] at h1
    have : ((π'.symm.trans ((π'.trans σ).trans ρ.symm)).trans ρ) = σ := by
      ext i; simp
    rw [this] at h1
    rw [hd]; exact h1
  · rw [hd', key]; exact hmin _

/-- **C36** the `_abs` variant ignores signs, and its distance is at most that of the plain variant -/
theorem C36_min_perm_abs (P P' : Fin m → Fin n → K) (T T' : Fin l → Fin n → K) (hl : l ≤ m)
    (hP : ∀ i j, P' i j = P i j ∨ P' i j = -P i j) (hT : ∀ i j, T' i j = T i j ∨ T' i j = -T i j) :
    minPermSquaredL2DistAbs P' T' = minPermSquaredL2DistAbs P T ∧
    ∀ p d q e, minPermSquaredL2DistAbs P T = .ok (p, d) → minPermSquaredL2Dist P T = .ok (q, e) →
      d ≤ e := by
  constructor
  · have hPa : ∀ i j, |P' i j| = |P i j| := by
      intro i j; rcases hP i j with h | h <;> simp [h]
    have hTa : ∀ i j, |(padded id T' : Fin m → Fin n → K) i j| = |padded id T i j| := by
      intro i j
      unfold padded
      split
      · rename_i h
        rcases hT ⟨i, h⟩ j with h | h <;> simp [h]
      · rfl
    have hdist : ∀ p, permDist (fun x => |x|) P' (padded id T') p =
        permDist (fun x => |x|) P (padded id T) p := by
      intro p
      unfold permDist
      simp only [hPa, hTa]
    unfold minPermSquaredL2DistAbs minPermDist padTrue
    rw [if_pos (Or.inl hl), if_pos (Or.inl hl)]
    have e1 : (fun (i : Fin m) (j : Fin n) => if h : i.val < l then id (T' ⟨i, h⟩ j) else 0) =
      padded id T' := rfl
    have e2 : (fun (i : Fin m) (j : Fin n) => if h : i.val < l then id (T ⟨i, h⟩ j) else 0) =
      padded id T := rfl
    simp only [e1, e2, hdist]
  · intro p d q e h1 h2
    obtain ⟨-, hmin⟩ := minPerm_least hl h1
    obtain ⟨⟨σ, -, he⟩, -⟩ := minPerm_least hl h2
    refine le_trans (hmin σ) ?_
    rw [he]
    unfold matchDist
    refine Finset.sum_le_sum fun i _ => Finset.sum_le_sum fun j _ => ?_
    simp only [id]
    rw [← sq_abs (P (σ i) j - _)]
    exact sq_le_sq' (by
      have := abs_sub_abs_le_abs_sub (padded id T i j) (P (σ i) j)
      rw [abs_sub_comm] at this
      linarith) (abs_sub_abs_le_abs_sub _ _)

end matching

-- two predicted rows, one true row: the rows are swapped
example : minPermSquaredL2Dist (K := ℚ) (fun (i : Fin 2) (j : Fin 2) => if i = 0 then 0 else j.val + 1)
    (fun (_ : Fin 1) (j : Fin 2) => (j.val : ℚ) + 2) = .ok ([1, 0], 2) := by decide +kernel

/-! ### C37: dtype -/

/-- conversion of a float to an integer dtype: truncation towards zero -/
def truncRat (x : ℚ) : ℚ := (Int.tdiv x.num x.den : ℤ)

/-- the claim: with an integer predicted matrix the distance is still that to the matrix `T` as given -/
def C37_statement : Prop :=
  ∀ (m l n : Nat) (P : Fin m → Fin n → ℤ) (T : Fin l → Fin n → ℚ) (p : List (Fin m)) (d : ℚ), l ≤ m →
    minPermDist id truncRat (fun i j => (P i j : ℚ)) T = .ok (p, d) →
    (∃ σ, d = matchDist id (fun i j => (P i j : ℚ)) (padded id T) σ) ∧
      ∀ τ, d ≤ matchDist id (fun i j => (P i j : ℚ)) (padded id T) τ

/-- **C37 is false**: predicted `[[0]]` (int), true `[[0.5]]`: the returned distance is 0, not 0.25 -/
theorem C37_false : ¬ C37_statement := by
  intro h
  have hrun : minPermDist id truncRat (fun (_ : Fin 1) (_ : Fin 1) => ((0 : ℤ) : ℚ))
      (fun (_ : Fin 1) (_ : Fin 1) => (1 / 2 : ℚ)) = .ok ([0], 0) := by decide +kernel
  obtain ⟨⟨σ, hσ⟩, -⟩ := h 1 1 1 (fun _ _ => 0) (fun _ _ => 1 / 2) [0] 0 (le_refl 1) hrun
  revert σ
  decide +kernel

/-- **C37, proved part**: the distance is the least distance to the truncated true matrix; so the claim
holds when the true matrix has integer entries.  Missing for the full claim: it is false (`C37_false`). -/
theorem C37_min_perm_dtype_partial {m l : Nat} (P : Fin m → Fin n → ℤ) (T : Fin l → Fin n → ℚ)
    (p : List (Fin m)) (d : ℚ) (hl : l ≤ m)
    (h : minPermDist id truncRat (fun i j => (P i j : ℚ)) T = .ok (p, d)) :
    ((∃ σ, d = matchDist id (fun i j => (P i j : ℚ)) (padded truncRat T) σ) ∧
      ∀ τ, d ≤ matchDist id (fun i j => (P i j : ℚ)) (padded truncRat T) τ) ∧
    ((∀ i j, (T i j).den = 1) →
      (∃ σ, d = matchDist id (fun i j => (P i j : ℚ)) (padded id T) σ) ∧
      ∀ τ, d ≤ matchDist id (fun i j => (P i j : ℚ)) (padded id T) τ) := by
  obtain ⟨⟨σ, -, hd⟩, hmin⟩ := minPerm_least hl h
  refine ⟨⟨⟨σ, hd⟩, hmin⟩, ?_⟩
  intro hint
  have : (padded truncRat T : Fin m → Fin n → ℚ) = padded id T := by
    funext i j
    unfold padded
    split
    · rename_i hi
      have hden := hint ⟨i, hi⟩ j
      unfold truncRat
      rw [hden]
      simp only [Nat.cast_one, Int.tdiv_one, id]
      exact Rat.coe_int_num_of_den_eq_one hden
    · rfl
  rw [← this]
  exact ⟨⟨σ, hd⟩, hmin⟩

end Medil

import Verif.Model.IntWidth
import Verif.Spec.IntWidth
import Verif.Proofs.Evaluate
import Mathlib.Tactic.Linarith
import Mathlib.Tactic.Ring
import Mathlib.Tactic.NormNum
import Mathlib.Tactic.Positivity
import Mathlib.Algebra.Order.BigOperators.Group.Finset
import Mathlib.Algebra.Order.BigOperators.Group.List
/-
  C211-C212: integers with a fixed number of bits in medil/evaluate.py.
-/
namespace Medil
open Finset
variable {n : Nat}

/-! ### wrapping -/

theorem IntType.wrap_add_left (t : IntType) (a b : Int) : t.wrap (t.wrap a + b) = t.wrap (a + b) := by
  unfold IntType.wrap; split
  · exact Int.bmod_add_bmod
  · simp

theorem IntType.wrap_add_right (t : IntType) (a b : Int) : t.wrap (a + t.wrap b) = t.wrap (a + b) := by
  rw [add_comm, t.wrap_add_left, add_comm]

theorem IntType.wrap_sq (t : IntType) (a : Int) : t.wrap (t.wrap a ^ 2) = t.wrap (a ^ 2) := by
  unfold IntType.wrap; split
  · rw [pow_two, pow_two, Int.bmod_mul_bmod, Int.mul_bmod_bmod]
  · rw [pow_two, pow_two]; simp [Int.mul_emod]

theorem IntType.wrap_zero (t : IntType) : t.wrap 0 = 0 := by unfold IntType.wrap; split <;> simp

theorem IntType.wrap_eq_zero (t : IntType) (z : Int) : t.wrap z = 0 ↔ (2 : Int) ^ t.bits ∣ z := by
  unfold IntType.wrap; split
  · rw [← Int.dvd_iff_bmod_eq_zero]; push_cast; rfl
  · rw [← Int.dvd_iff_emod_eq_zero]

theorem IntType.wrap_eq_self (t : IntType) {z : Int} (h : t.Fits z) : t.wrap z = z := by
  unfold IntType.Fits at h
  unfold IntType.wrap
  split
  · rw [if_pos ‹_›] at h
    exact Int.bmod_eq_of_le_mul_two (by push_cast; linarith [h.1]) (by push_cast; linarith [h.2])
  · rw [if_neg ‹_›] at h
    exact Int.emod_eq_of_lt h.1 h.2

theorem IntType.foldl_wrap {α : Type} (t : IntType) (f : α → Int) (l : List α) (a : Int) :
    l.foldl (fun acc e => t.wrap (acc + f e)) (t.wrap a) = t.wrap (a + (l.map f).sum) := by
  induction l generalizing a with
  | nil => simp
  | cons x l ih => rw [List.foldl_cons, t.wrap_add_left, ih, List.map_cons, List.sum_cons, add_assoc]

theorem IntType.foldl_wrap0 {α : Type} (t : IntType) (f : α → Int) (l : List α) :
    l.foldl (fun acc e => t.wrap (acc + f e)) 0 = t.wrap (l.map f).sum := by
  have := t.foldl_wrap f l 0
  rwa [t.wrap_zero, zero_add] at this

theorem dotWidth_eq (t : IntType) (B : List (BVec n)) (i j : Fin n) : dotWidth t B i j = t.wrap (commonParents B i j) := by
  unfold dotWidth
  simp only [t.wrap_add_right]
  rw [t.foldl_wrap0]
  congr 1
  have := wtdUg_eq B i j
  exact this

theorem sum_flatMap_int {α : Type} (l : List α) (f : α → List Int) : (l.flatMap f).sum = (l.map fun a => (f a).sum).sum := by
  induction l with
  | nil => simp
  | cons a l ih => rw [List.flatMap_cons, List.sum_append, ih, List.map_cons, List.sum_cons]

/-! ### C211 -/

/-- **C211** (as stated; false): the integer type does not matter -/
def C211_statement : Prop :=
  ∀ (n : Nat) (s t : IntType) (P T : List (BVec n)), 8 ≤ s.bits → 8 ≤ t.bits →
    (n * max P.length T.length) ^ 2 < 2 ^ 63 →
    sfdWidth s t P T = sfd P T ∧ ∀ i j, recoverUgWidth t T i j ≠ 0 ↔ recoverUg T i j = true

theorem recoverUgWidth_ne (t : IntType) (B : List (BVec n)) (i j : Fin n) (hij : i ≠ j) :
    recoverUgWidth t B i j ≠ 0 ↔ ¬ 2 ^ t.bits ∣ commonParents B i j := by
  unfold recoverUgWidth
  rw [if_neg hij, dotWidth_eq, Ne, t.wrap_eq_zero]
  rw [← Int.natCast_dvd_natCast]
  push_cast
  rfl

theorem commonParents_le (B : List (BVec n)) (i j : Fin n) : commonParents B i j ≤ B.length := List.length_filter_le _ _

theorem recoverUgWidth_small (t : IntType) (B : List (BVec n)) (hB : B.length < 2 ^ t.bits) (i j : Fin n) :
    recoverUgWidth t B i j ≠ 0 ↔ recoverUg B i j = true := by
  by_cases hij : i = j
  · subst hij; simp [recoverUgWidth, recoverUg]
  · rw [recoverUgWidth_ne t B i j hij, ← wtdUg_pos B hij, wtdUg_eq]
    have h := commonParents_le B i j
    constructor
    · intro h1 h2
      apply h1
      have : commonParents B i j = 0 := by unfold commonParents; omega
      rw [this]; exact dvd_zero _
    · intro h1 h2
      have h3 : commonParents B i j ≠ 0 := by unfold commonParents; omega
      exact absurd (Nat.le_of_dvd (Nat.pos_of_ne_zero h3) h2) (by omega)

/-- **C211**, what is true instead.  Two measurements are adjacent in `recover_ug` exactly if the number of their common
parents is not a multiple of `2^bits`; so the graph is right if there are fewer than `2^bits` latents, and then (with fewer
than `2^63` for the sum) both results of `sfd` are right. -/
theorem C211_widths_partial (s t : IntType) (P T : List (BVec n)) :
    (∀ i j, i ≠ j → (recoverUgWidth t T i j ≠ 0 ↔ ¬ 2 ^ t.bits ∣ commonParents T i j)) ∧
    (T.length < 2 ^ t.bits → ∀ i j, recoverUgWidth t T i j ≠ 0 ↔ recoverUg T i j = true) ∧
    ((n * max P.length T.length) ^ 2 < 2 ^ 63 → (sfdWidth s t P T).1 = (sfd P T).1) ∧
    (P.length < 2 ^ s.bits → T.length < 2 ^ t.bits → (sfdWidth s t P T).2 = (sfd P T).2) := by
  refine ⟨recoverUgWidth_ne t T, recoverUgWidth_small t T, ?_, ?_⟩
  · intro hb
    set M := max P.length T.length with hM
    have hle : ∀ (B : List (BVec n)) (i j : Fin n), B.length ≤ M → 0 < n → (commonParents B i j : Int) ≤ M ∧
        dotWidth int64 B i j = commonParents B i j := by
      intro B i j hB hn
      have h1 := commonParents_le B i j
      have h2 : M ^ 2 < 2 ^ 63 := by
        refine lt_of_le_of_lt ?_ hb
        apply Nat.pow_le_pow_left
        exact Nat.le_mul_of_pos_left M hn
      have h3 : M < 2 ^ 32 := by
        by_contra hc
        have : (2 ^ 32) ^ 2 ≤ M ^ 2 := Nat.pow_le_pow_left (by omega) 2
        omega
      refine ⟨by omega, ?_⟩
      rw [dotWidth_eq]
      apply int64.wrap_eq_self
      unfold IntType.Fits int64
      norm_num
      omega
    have hd : ∀ i j : Fin n, ((commonParents T i j : Int) - commonParents P i j) ^ 2 ≤ (M : Int) ^ 2 := by
      intro i j
      have hn : 0 < n := Nat.lt_of_le_of_lt (Nat.zero_le _) i.isLt
      have h1 := (hle T i j (by omega) hn).1
      have h2 := (hle P i j (by omega) hn).1
      apply sq_le_sq'
      · omega
      · omega
    have hM2 : ∀ _ : Fin n, (M : Int) ^ 2 < 2 ^ 63 := by
      intro i
      have h2 : M ^ 2 < 2 ^ 63 := by
        refine lt_of_le_of_lt ?_ hb
        apply Nat.pow_le_pow_left
        exact Nat.le_mul_of_pos_left M (Nat.lt_of_le_of_lt (Nat.zero_le _) i.isLt)
      exact_mod_cast h2
    have hterm : ∀ e : Fin n × Fin n, int64.wrap (int64.wrap (dotWidth int64 T e.1 e.2 - dotWidth int64 P e.1 e.2) ^ 2) =
        ((commonParents T e.1 e.2 : Int) - commonParents P e.1 e.2) ^ 2 := by
      intro e
      have hn : 0 < n := Nat.lt_of_le_of_lt (Nat.zero_le _) e.1.isLt
      rw [int64.wrap_sq, (hle T _ _ (by omega) hn).2, (hle P _ _ (by omega) hn).2]
      apply int64.wrap_eq_self
      have h1 := hd e.1 e.2
      have h2 := hM2 e.1
      have h3 : (0 : Int) ≤ ((commonParents T e.1 e.2 : Int) - commonParents P e.1 e.2) ^ 2 := sq_nonneg _
      unfold IntType.Fits int64
      norm_num at h2 ⊢
      constructor <;> linarith
    unfold sfdWidth sfd
    dsimp only
    simp only [hterm]
    rw [int64.foldl_wrap0]
    have hsum : ((((List.finRange n).flatMap fun i => (List.finRange n).map fun j => (i, j)).map fun e =>
        ((commonParents T e.1 e.2 : Int) - commonParents P e.1 e.2) ^ 2).sum) =
        ∑ i, ∑ j, (wtdUg T i j - wtdUg P i j) ^ 2 := by
      rw [List.map_flatMap, sum_flatMap_int]
      simp only [List.map_map]
      rw [Fin.sum_univ_def]
      congr 1
      apply List.map_congr_left
      intro i _
      rw [Fin.sum_univ_def]
      congr 1
      apply List.map_congr_left
      intro j _
      simp only [Function.comp_apply, wtdUg_eq]
      rfl
    rw [hsum]
    apply int64.wrap_eq_self
    have h0 : (0 : Int) ≤ ∑ i : Fin n, ∑ j : Fin n, (wtdUg T i j - wtdUg P i j) ^ 2 :=
      sum_nonneg fun i _ => sum_nonneg fun j _ => sq_nonneg _
    have h1 : (∑ i : Fin n, ∑ j : Fin n, (wtdUg T i j - wtdUg P i j) ^ 2) ≤ ∑ _i : Fin n, ∑ _j : Fin n, (M : Int) ^ 2 := by
      refine sum_le_sum fun i _ => sum_le_sum fun j _ => ?_
      rw [wtdUg_eq, wtdUg_eq]; exact hd i j
    have h2 : (∑ _i : Fin n, ∑ _j : Fin n, (M : Int) ^ 2) = ((n * M) ^ 2 : Nat) := by
      simp; ring
    have h3 : (((n * M) ^ 2 : Nat) : Int) < 2 ^ 63 := by exact_mod_cast hb
    unfold IntType.Fits int64
    push_cast at h2
    norm_num at h3 ⊢
    constructor <;> linarith
  · intro hP hT
    have h : ∀ (t : IntType) (B : List (BVec n)), B.length < 2 ^ t.bits → ∀ i j,
        decide (recoverUgWidth t B i j ≠ 0) = recoverUg B i j := by
      intro t B hB i j
      rw [Bool.eq_iff_iff, decide_eq_true_iff]
      exact recoverUgWidth_small t B hB i j
    unfold sfdWidth sfd ushdOf
    dsimp only
    simp only [h t T hT, h s P hP]

/-- the claim is false for `uint8`: two measurements with 256 common parents are not adjacent in `recover_ug` -/
theorem C211_false : ¬ C211_statement := by
  intro h
  have h1 := (h 2 ⟨8, false⟩ ⟨8, false⟩ [] (List.replicate 256 (BVec.of fun _ => true)) (by norm_num) (by norm_num)
    (by norm_num)).2 0 1
  rw [recoverUgWidth_ne _ _ _ _ (by decide)] at h1
  have h2 : commonParents (List.replicate 256 (BVec.of fun _ => true : BVec 2)) 0 1 = 256 := by
    unfold commonParents
    rw [List.filter_eq_self.mpr (by intro r hr; rw [List.eq_of_mem_replicate hr]; simp), List.length_replicate]
  rw [h2, recoverUg_apply] at h1
  exact (h1.mpr ⟨by decide, _, List.mem_replicate.mpr ⟨by norm_num, rfl⟩, by simp, by simp⟩) (by norm_num)

-- 255 common parents are counted correctly by `uint8`, and seen as -1 (not zero) by `int8`
example : recoverUgWidth ⟨8, false⟩ (List.replicate 255 (BVec.of fun _ => true : BVec 2)) 0 1 = 255 ∧
    recoverUgWidth ⟨8, true⟩ (List.replicate 255 (BVec.of fun _ => true : BVec 2)) 0 1 = -1 := by decide +kernel

/-! ### C212 -/

/-- **C212** (as stated; false): the integer type does not matter -/
def C212_statement : Prop :=
  ∀ (m l n : Nat) (t : IntType) (P : Fin m → Fin n → Int) (T : Fin l → Fin n → Int), 8 ≤ t.bits → t.bits ≤ 64 → 0 < m → l ≤ m →
    (∀ i j, t.Fits (P i j)) → (∀ i j, t.Fits (T i j)) →
    (minPermWidth (.int t) false P T).map (fun r => (r.1, (r.2 : ℚ))) =
      minPermSquaredL2Dist (fun i j => (P i j : ℚ)) (fun i j => (T i j : ℚ)) ∧
    (minPermWidth (.int t) true P T).map (fun r => (r.1, (r.2 : ℚ))) =
      minPermSquaredL2DistAbs (fun i j => (P i j : ℚ)) (fun i j => (T i j : ℚ))

theorem IntType.wrap_sub_right (t : IntType) (a b : Int) : t.wrap (a - t.wrap b) = t.wrap (a - b) := by
  unfold IntType.wrap; split
  · exact Int.sub_bmod_bmod
  · simp

theorem IntType.wrap_sub_left (t : IntType) (a b : Int) : t.wrap (t.wrap a - b) = t.wrap (a - b) := by
  unfold IntType.wrap; split
  · exact Int.bmod_sub_bmod
  · simp

/-- the absolute value or the number itself -/
private def absOr (abs : Bool) (z : Int) : Int := if abs then |z| else z

theorem IntType.wrap_absIf (t : IntType) (abs : Bool) (a b : Int) :
    t.wrap (t.wrap (t.absIf abs a - t.absIf abs b) ^ 2) = t.wrap ((absOr abs a - absOr abs b) ^ 2) := by
  rw [← t.wrap_sq (absOr abs a - absOr abs b)]
  congr 2
  unfold IntType.absIf absOr
  cases abs
  · rfl
  · simp only [if_true]
    rw [t.wrap_sub_right, t.wrap_sub_left]

theorem zip_map_sum {α β : Type} (g : α → β → Int) : ∀ (l : List α) (k : List β),
    ((l.zip k).map fun e => g e.1 e.2).sum = (List.zipWith g l k).sum
  | [], _ => by simp
  | _ :: _, [] => by simp
  | a :: l, b :: k => by simp [zip_map_sum g l k]

theorem permDistWidth_eq {m : Nat} (t : IntType) (abs : Bool) (P T : Fin m → Fin n → Int) (perm : List (Fin m)) :
    permDistWidth t abs P T perm = t.accumulator.wrap
      (List.zipWith (fun a i => ∑ j, t.wrap ((absOr abs (P a j) - absOr abs (T i j)) ^ 2)) perm (List.finRange m)).sum := by
  unfold permDistWidth
  simp only [t.wrap_absIf]
  rw [t.accumulator.foldl_wrap0, List.map_flatMap, sum_flatMap_int]
  congr 1
  rw [← zip_map_sum]
  congr 1
  apply List.map_congr_left
  intro e _
  rw [Fin.sum_univ_def, List.map_map]
  rfl

theorem zipWith_sum_bound {α β : Type} (g : α → β → Int) (C : Int) (hC : 0 ≤ C) (hg : ∀ a b, 0 ≤ g a b ∧ g a b ≤ C) :
    ∀ (l : List α) (k : List β), 0 ≤ (List.zipWith g l k).sum ∧ (List.zipWith g l k).sum ≤ k.length * C
  | [], k => by simp; positivity
  | a :: l, [] => by simp
  | a :: l, b :: k => by
    have h := zipWith_sum_bound g C hC hg l k
    have h2 := hg a b
    simp only [List.zipWith_cons_cons, List.sum_cons, List.length_cons]
    push_cast
    constructor
    · linarith [h.1]
    · linarith [h.2]

theorem zipWith_sum_cast {α β : Type} (g : α → β → Int) : ∀ (l : List α) (k : List β),
    ((List.zipWith g l k).sum : ℚ) = (List.zipWith (fun a b => (g a b : ℚ)) l k).sum
  | [], _ => by simp
  | _ :: _, [] => by simp
  | a :: l, b :: k => by simp [zipWith_sum_cast g l k]

theorem minSnd_cast {α : Type} : ∀ l : List (α × Int),
    minSnd (l.map fun r => (r.1, (r.2 : ℚ))) = (minSnd l).map fun r => (r.1, (r.2 : ℚ))
  | [] => rfl
  | x :: l => by
    simp only [List.map_cons, minSnd]
    rw [minSnd_cast l]
    cases minSnd l with
    | none => rfl
    | some y =>
      simp only [Option.map_some]
      by_cases h : y.2 < x.2
      · rw [if_pos h, if_pos (by exact_mod_cast h)]; rfl
      · rw [if_neg h, if_neg (by exact_mod_cast h)]; rfl

theorem permDistWidth_small {m : Nat} (t : IntType) (abs : Bool) (P T : Fin m → Fin n → Int) (D : Int)
    (hD : ∀ a i j, |P a j - T i j| ≤ D) (hD0 : 0 ≤ D) (ht : t.Fits (D ^ 2)) (hs : m * n * D ^ 2 < 2 ^ 63) (perm : List (Fin m)) :
    (permDistWidth t abs P T perm : ℚ) = permDist (if abs then fun x => |x| else id) (fun i j => (P i j : ℚ)) (fun i j => (T i j : ℚ)) perm := by
  have h1 : ∀ a i j, 0 ≤ (absOr abs (P a j) - absOr abs (T i j)) ^ 2 ∧ (absOr abs (P a j) - absOr abs (T i j)) ^ 2 ≤ D ^ 2 := by
    intro a i j
    refine ⟨sq_nonneg _, ?_⟩
    apply sq_le_sq.mpr
    rw [abs_of_nonneg hD0]
    refine le_trans ?_ (hD a i j)
    unfold absOr
    split
    · exact abs_abs_sub_abs_le _ _
    · exact le_refl _
  have h2 : ∀ a i j, t.wrap ((absOr abs (P a j) - absOr abs (T i j)) ^ 2) = (absOr abs (P a j) - absOr abs (T i j)) ^ 2 := by
    intro a i j
    apply t.wrap_eq_self
    have h := h1 a i j
    unfold IntType.Fits at ht ⊢
    split at ht
    · rw [if_pos ‹_›]
      constructor
      · have : (0 : Int) < 2 ^ t.bits := by positivity
        linarith
      · linarith
    · rw [if_neg ‹_›]
      exact ⟨h.1, lt_of_le_of_lt h.2 ht.2⟩
  rw [permDistWidth_eq]
  simp only [h2]
  have hb := zipWith_sum_bound (fun a i => ∑ j, (absOr abs (P a j) - absOr abs (T i j)) ^ 2) (n * D ^ 2) (by positivity)
    (fun a i => ⟨sum_nonneg fun j _ => (h1 a i j).1, by
      refine le_trans (sum_le_sum fun j _ => (h1 a i j).2) ?_
      simp⟩) perm (List.finRange m)
  rw [List.length_finRange] at hb
  rw [IntType.wrap_eq_self]
  · rw [zipWith_sum_cast]
    unfold permDist
    congr 2
    funext a i
    push_cast
    refine sum_congr rfl fun j _ => ?_
    unfold absOr
    cases abs
    · simp
    · simp
  · have hb2 : (m : Int) * (n * D ^ 2) < 2 ^ 63 := by rw [← mul_assoc]; exact hs
    have hb3 := hb.1
    have hb4 := lt_of_le_of_lt hb.2 hb2
    generalize (List.zipWith (fun a i => ∑ j, (absOr abs (P a j) - absOr abs (T i j)) ^ 2) perm (List.finRange m)).sum = z at hb3 hb4
    unfold IntType.Fits IntType.accumulator
    dsimp only
    split <;> constructor <;> norm_num at * <;> linarith

/-- **C212**, what is true instead.  The results are exact if the square of the largest possible difference of two entries (of
predicted and padded true weights) is a value of the type and `rows * columns` times this square is less than `2^63`; the
differences themselves may be negative although the type is unsigned. -/
theorem C212_small_partial {m l : Nat} (t : IntType) (P : Fin m → Fin n → Int) (T : Fin l → Fin n → Int) (D : Int)
    (hm : 0 < m) (hl : l ≤ m) (hT : ∀ i j, t.Fits (T i j))
    (hD : ∀ a i j, |P a j - T i j| ≤ D) (hD2 : l < m → ∀ a j, |P a j| ≤ D) (hD0 : 0 ≤ D) (ht : t.Fits (D ^ 2))
    (hs : m * n * D ^ 2 < 2 ^ 63) :
    (minPermWidth (.int t) false P T).map (fun r => (r.1, (r.2 : ℚ))) =
      minPermSquaredL2Dist (fun i j => (P i j : ℚ)) (fun i j => (T i j : ℚ)) ∧
    (minPermWidth (.int t) true P T).map (fun r => (r.1, (r.2 : ℚ))) =
      minPermSquaredL2DistAbs (fun i j => (P i j : ℚ)) (fun i j => (T i j : ℚ)) := by
  have hpad : ∀ abs, (minPermWidth (.int t) abs P T).map (fun r => (r.1, (r.2 : ℚ))) =
      minPermDist (if abs then fun x => |x| else id) id (fun i j => (P i j : ℚ)) (fun i j => (T i j : ℚ)) := by
    intro abs
    have hw : (fun (i : Fin m) (j : Fin n) => if h : i.val < l then t.wrap (T ⟨i, h⟩ j) else 0) =
        fun (i : Fin m) (j : Fin n) => if h : i.val < l then T ⟨i, h⟩ j else 0 := by
      funext i j
      split
      · exact t.wrap_eq_self (hT _ _)
      · rfl
    unfold minPermWidth minPermDist padTrue
    rw [if_pos (Or.inl hl), if_neg (by omega), if_pos (Or.inl hl)]
    dsimp only
    rw [if_neg (by omega), hw]
    have hd := permDistWidth_small t abs P (fun (i : Fin m) (j : Fin n) => if h : i.val < l then T ⟨i, h⟩ j else 0) D (by
      intro a i j
      split
      · exact hD _ _ _
      · rw [sub_zero]; exact hD2 (by omega) a j) hD0 ht hs
    have he : ((pyPerms m (List.finRange m)).map fun p =>
        (p, permDist (if abs then fun x => |x| else id) (fun i j => (P i j : ℚ))
          (fun i j => if h : i.val < l then id ((T ⟨i, h⟩ j : Int) : ℚ) else 0) p)) =
        ((pyPerms m (List.finRange m)).map fun p =>
          (p, permDistWidth t abs P (fun (i : Fin m) (j : Fin n) => if h : i.val < l then T ⟨i, h⟩ j else 0) p)).map
            fun r => (r.1, (r.2 : ℚ)) := by
      rw [List.map_map]
      apply List.map_congr_left
      intro p _
      simp only [Function.comp_apply, hd]
      congr 3
      funext i j
      split <;> simp
    rw [he, minSnd_cast]
    generalize minSnd (List.map (fun p => (p, permDistWidth t abs P _ p)) _) = o
    cases o <;> rfl
  exact ⟨hpad false, hpad true⟩

/-- the claim is false for `uint8`: `[[16]]` and `[[0]]` have distance `16² = 256`, and the result is 0 -/
theorem C212_false : ¬ C212_statement := by
  intro h
  have h1 := (h 1 1 1 ⟨8, false⟩ (fun _ _ => 16) (fun _ _ => 0) (by norm_num) (by norm_num) (by norm_num) (by norm_num)
    (by intros; norm_num [IntType.Fits]) (by intros; norm_num [IntType.Fits])).1
  revert h1
  decide +kernel

/-- a bool array of predicted weights: `TypeError` for every array of true weights that fits -/
theorem C212_bool {m l : Nat} (abs : Bool) (P : Fin m → Fin n → Int) (T : Fin l → Fin n → Int) (hm : 0 < m) (hl : l ≤ m) :
    minPermWidth .bool abs P T = .error .typeError := by
  unfold minPermWidth
  rw [if_pos (Or.inl hl), if_neg (by omega)]

-- 0/1 arrays of `uint8` with up to 2^32 rows and columns satisfy the hypotheses with `D = 1`; here is one of each kind
example : (minPermWidth (.int ⟨8, false⟩) false (fun (i : Fin 2) (j : Fin 2) => if i = j then 0 else 1)
    (fun (i : Fin 2) (j : Fin 2) => if i = j then 1 else 0)) = .ok ([1, 0], 0) := by decide +kernel
example : (minPermWidth (.int ⟨8, false⟩) false (fun (_ : Fin 1) (_ : Fin 2) => 0)
    (fun (_ : Fin 1) (_ : Fin 2) => 1)) = .ok ([0], 2) := by decide +kernel
example : (⟨8, false⟩ : IntType).Fits (1 ^ 2) := by norm_num [IntType.Fits]
-- int8: -128 has absolute value -128, whose square wraps to 0
example : (minPermWidth (.int ⟨8, true⟩) true (fun (_ : Fin 1) (_ : Fin 1) => -128)
    (fun (_ : Fin 1) (_ : Fin 1) => 0)) = .ok ([0], 0) := by decide +kernel

end Medil

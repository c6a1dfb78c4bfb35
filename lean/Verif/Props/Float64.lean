import Verif.Model.Float64
import Verif.Props.NcfaData
import Mathlib.Tactic.Linarith
import Mathlib.Tactic.NormNum
import Mathlib.Tactic.FieldSimp
import Mathlib.Tactic.Push
import Mathlib.Data.Nat.Sqrt
/-
  Floats that are turned into integers, with double precision rounding (C143, C144, C100).
-/
namespace Medil

section
variable {K : Type} [Field K] [LinearOrder K] [FloorRing K] [IsStrictOrderedRing K]

theorem rne_error (x : K) : |(rne x : K) - x| ≤ 1 / 2 := by
  have h1 := Int.floor_le x
  have h2 := Int.lt_floor_add_one x
  unfold rne
  rw [abs_le]
  split
  · constructor <;> linarith
  · split
    · push_cast
      constructor <;> linarith
    · split
      · constructor <;> linarith
      · push_cast
        constructor <;> linarith

theorem rne_mono {x y : K} (h : x ≤ y) : rne x ≤ rne y := by
  by_contra hc
  push Not at hc
  have h1 := abs_le.mp (rne_error x)
  have h2 := abs_le.mp (rne_error y)
  have h3 : (rne y : K) + 1 ≤ rne x := by exact_mod_cast hc
  have : x = y := by linarith
  rw [this] at hc
  exact lt_irrefl _ hc

theorem rne_int (n : ℤ) : rne (n : K) = n := by
  unfold rne
  simp

theorem fl64_error (x : K) : |fl64 x - x| ≤ |x| / 2 ^ 53 := by
  unfold fl64
  by_cases hx : x = 0
  · simp [hx]
  rw [if_neg hx]
  have hu : (0 : K) < 2 ^ (Int.log 2 |x| - 52) := zpow_pos (by norm_num) _
  have h1 := rne_error (x / 2 ^ (Int.log 2 |x| - 52))
  have h2 : (2 : K) ^ Int.log 2 |x| ≤ |x| := by
    have := Int.zpow_log_le_self (b := 2) (by norm_num) (abs_pos.mpr hx)
    simpa using this
  have h3 : (rne (x / 2 ^ (Int.log 2 |x| - 52)) : K) * 2 ^ (Int.log 2 |x| - 52) - x =
      ((rne (x / 2 ^ (Int.log 2 |x| - 52)) : K) - x / 2 ^ (Int.log 2 |x| - 52)) * 2 ^ (Int.log 2 |x| - 52) := by
    rw [sub_mul, div_mul_cancel₀ _ hu.ne']
  rw [h3, abs_mul, abs_of_pos hu]
  have h4 : (2 : K) ^ (Int.log 2 |x| - 52) = 2 ^ Int.log 2 |x| / 2 ^ 52 := by
    rw [zpow_sub₀ (by norm_num)]
    norm_num
  rw [h4]
  have h5 : (0 : K) < 2 ^ Int.log 2 |x| := zpow_pos (by norm_num) _
  have h6 := mul_le_mul_of_nonneg_right h1 (show (0 : K) ≤ 2 ^ Int.log 2 |x| / 2 ^ 52 by positivity)
  rw [h4] at h6
  refine h6.trans ?_
  rw [le_div_iff₀ (by positivity)]
  calc 1 / 2 * ((2 : K) ^ Int.log 2 |x| / 2 ^ 52) * 2 ^ 53 = 2 ^ Int.log 2 |x| := by ring
    _ ≤ |x| := h2

end

/-! ### C143 -/

/-- the claim: 70 percent of the rows, rounded down, are used for training -/
def C143_statement : Prop := ∀ N : Nat, 2 ≤ N → trainSize64 N = 7 * N / 10

/-- **C143 is false**: of 90 rows, 62 and not 63 are used for training -/
theorem C143_false : ¬ C143_statement := by
  intro h
  have := h 90 (by norm_num)
  revert this
  decide +kernel

theorem seven_tenths : fl64 (7 / 10 : ℚ) = 6305039478318694 / 2 ^ 53 := by decide +kernel

theorem trainSize_bounds (N : Nat) :
    |fl64 (fl64 (7 / 10 : ℚ) * N) - 7 * N / 10| ≤ N / 2 ^ 52 ∧
    |fl64 (fl64 (7 / 10 : ℚ) * N) - 7 * N / 10| ≤ 11 / 10 * (N / 2 ^ 53) := by
  have h1 := fl64_error (fl64 (7 / 10 : ℚ) * N)
  have hN : (0 : ℚ) ≤ N := Nat.cast_nonneg N
  rw [seven_tenths] at h1 ⊢
  rw [abs_of_nonneg (show (0 : ℚ) ≤ 6305039478318694 / 2 ^ 53 * N by positivity)] at h1
  rw [abs_le] at h1
  constructor
  · rw [abs_le]
    constructor <;> norm_num at h1 ⊢ <;> linarith
  · rw [abs_le]
    constructor <;> norm_num at h1 ⊢ <;> linarith

/-- **C143, proved part**: up to 2^49 rows, the number of training rows is 70 percent rounded down, except that for multiples of 10
it may be one less; it is always at least 1 and less than the number of rows.  (Both cases occur: 100 and 90 rows.)
Missing for the full claim: it is false (`C143_false`). -/
theorem C143_train_share_partial (N : Nat) (hN : 2 ≤ N) :
    (1 ≤ trainSize64 N ∧ trainSize64 N < N) ∧
    (N ≤ 2 ^ 49 → trainSize64 N = 7 * N / 10 ∨ 10 ∣ N ∧ trainSize64 N + 1 = 7 * N / 10) := by
  obtain ⟨h1, h2⟩ := trainSize_bounds N
  have hN' : (2 : ℚ) ≤ N := by exact_mod_cast hN
  rw [abs_le] at h1 h2
  set y := fl64 (fl64 (7 / 10 : ℚ) * N) with hy
  have hlo : (1 : ℤ) ≤ ⌊y⌋ := by
    rw [Int.le_floor]
    push_cast
    norm_num at h1
    linarith
  have hhi : ⌊y⌋ < (N : ℤ) := by
    rw [Int.floor_lt]
    push_cast
    norm_num at h1
    linarith
  have htr : trainSize64 N = ⌊y⌋.toNat := rfl
  refine ⟨by omega, ?_⟩
  intro hb
  have hb' : (N : ℚ) ≤ 562949953421312 := by exact_mod_cast hb
  obtain ⟨q, r, hr, hqr⟩ : ∃ q r : Nat, r < 10 ∧ 7 * N = 10 * q + r :=
    ⟨7 * N / 10, 7 * N % 10, Nat.mod_lt _ (by norm_num), (Nat.div_add_mod _ _).symm⟩
  have hdiv : 7 * N / 10 = q := by omega
  have hqr' : (7 : ℚ) * N = 10 * q + r := by exact_mod_cast hqr
  have herr : 11 / 10 * ((N : ℚ) / 2 ^ 53) < 1 / 10 := by
    rw [show (2 : ℚ) ^ 53 = 9007199254740992 by norm_num]
    linarith
  rw [hdiv]
  by_cases hr0 : r = 0
  · subst hr0
    have h10 : 10 ∣ N := by omega
    have hf : ⌊y⌋ = q ∨ ⌊y⌋ = q - 1 := by
      have ha : (q : ℤ) - 1 ≤ ⌊y⌋ := by
        rw [Int.le_floor]
        push_cast at hqr' ⊢
        linarith
      have hb : ⌊y⌋ < (q : ℤ) + 1 := by
        rw [Int.floor_lt]
        push_cast at hqr' ⊢
        linarith
      omega
    rcases hf with hf | hf
    · left; omega
    · right; exact ⟨h10, by omega⟩
  · left
    have hr1 : (1 : ℚ) ≤ r := by exact_mod_cast Nat.one_le_iff_ne_zero.mpr hr0
    have hr9 : (r : ℚ) ≤ 9 := by exact_mod_cast Nat.lt_succ_iff.mp hr
    have ha : (q : ℤ) ≤ ⌊y⌋ := by
      rw [Int.le_floor]
      push_cast
      linarith
    have hb : ⌊y⌋ < (q : ℤ) + 1 := by
      rw [Int.floor_lt]
      push_cast
      linarith
    omega

/-- the split of `NeuroCausalFactorAnalysis.fit` has this number of training rows, whatever permutation is drawn -/
theorem C143_split_lengths {G O : Type} {M : Nat} (env : NcfaEnv G O) (henv : env.trainSize = trainSize64) (seed : Nat) (d : Dataset M) :
    (randomSplit env seed d).1.length = trainSize64 d.size ∧
    (randomSplit env seed d).2.length = d.size - trainSize64 d.size := by
  have := (C143_train_share_partial d.size d.two_le).1
  unfold randomSplit
  simp [henv]
  omega

example : trainSize64 100 = 70 ∧ trainSize64 90 = 62 ∧ trainSize64 101 = 70 := by decide +kernel

/-! ### C144 -/

/-- the claim: the number of edges is `density * max_edges` rounded to the nearest integer (halves to even) -/
def C144_statement : Prop :=
  ∀ (density : ℚ) (maxEdges : Nat), fl64 density = density → 0 ≤ density → density ≤ 1 →
    numEdges64 density maxEdges = rne (density * maxEdges)

/-- **C144 is false**: the double 0.35 is a little less than 35/100; of 10 possible edges, 4 and not 3 are drawn -/
theorem C144_false : ¬ C144_statement := by
  intro h
  have := h (fl64 (35 / 100)) 10 (by decide +kernel) (by decide +kernel) (by decide +kernel)
  revert this
  decide +kernel

/-- **C144, proved part**: for a density in [0, 1] and up to 2^51 possible edges the number lies between 0 and the number of possible edges, and it is the
rounded exact product unless the exact product is within a relative error of 2^-53 of the middle between two integers (then it is
one of the two).  Missing for the full claim: it is false (`C144_false`). -/
theorem C144_edge_count_partial (density : ℚ) (maxEdges : Nat) (h0 : 0 ≤ density) (h1 : density ≤ 1) (hK : maxEdges ≤ 2 ^ 51) :
    (0 ≤ numEdges64 density maxEdges ∧ numEdges64 density maxEdges ≤ maxEdges) ∧
    |(numEdges64 density maxEdges : ℚ) - density * maxEdges| ≤ 1 / 2 + density * maxEdges / 2 ^ 53 ∧
    (numEdges64 density maxEdges = rne (density * maxEdges) ∨
      ∃ n : ℤ, |density * maxEdges - (n + 1 / 2)| ≤ density * maxEdges / 2 ^ 53) := by
  have hK' : (maxEdges : ℚ) ≤ 2251799813685248 := by exact_mod_cast hK
  have hM0 : (0 : ℚ) ≤ maxEdges := Nat.cast_nonneg _
  have hx0 : 0 ≤ density * maxEdges := mul_nonneg h0 hM0
  have hx1 : density * maxEdges ≤ maxEdges := mul_le_of_le_one_left hM0 h1
  have herr := fl64_error (density * (maxEdges : ℚ))
  rw [abs_of_nonneg hx0] at herr
  have h2 := rne_error (fl64 (density * (maxEdges : ℚ)))
  have h3 := rne_error (density * (maxEdges : ℚ))
  unfold numEdges64
  set x := density * (maxEdges : ℚ)
  set y := fl64 x
  rw [abs_le] at herr h2 h3
  have hsmall : x / 2 ^ 53 ≤ 1 / 4 := by
    rw [show (2 : ℚ) ^ 53 = 9007199254740992 by norm_num]
    linarith
  refine ⟨⟨?_, ?_⟩, ?_, ?_⟩
  · have : (-1 : ℚ) < rne y := by linarith
    have : (-1 : ℤ) < rne y := by exact_mod_cast this
    omega
  · have : (rne y : ℚ) < maxEdges + 1 := by linarith
    have : rne y < (maxEdges : ℤ) + 1 := by exact_mod_cast this
    omega
  · rw [abs_le]
    constructor <;> linarith
  · rcases lt_trichotomy (rne y) (rne x) with h | h | h
    · right
      refine ⟨rne y, ?_⟩
      have h' : (rne y : ℚ) + 1 ≤ rne x := by exact_mod_cast h
      rw [abs_le]
      constructor <;> linarith
    · exact Or.inl h
    · right
      refine ⟨rne x, ?_⟩
      have h' : (rne x : ℚ) + 1 ≤ rne y := by exact_mod_cast h
      rw [abs_le]
      constructor <;> linarith

example : numEdges64 (fl64 (1 / 5)) 45 = 9 ∧ fl64 (1 / 5 : ℚ) ≠ 1 / 5 := by decide +kernel

/-! ### C100 -/

/-- **C100, the square root**: for fewer than 2^52 missing edges, the float `int(np.sqrt(p))` is the exact integer square root, as
used in the model of the printed bound -/
theorem C100_sqrt_exact (p : Nat) (hp : p < 2 ^ 52) : isqrt64 p = Nat.sqrt p := by
  unfold isqrt64
  by_cases hp0 : p = 0
  · subst hp0
    simp [fl64]
  have hs1 : 1 ≤ Nat.sqrt p := Nat.one_le_iff_ne_zero.mpr (by rw [ne_eq, Nat.sqrt_eq_zero]; exact hp0)
  set s := Nat.sqrt p with hs
  have hle : s * s ≤ p := Nat.sqrt_le p
  have hlt : p < (s + 1) * (s + 1) := Nat.lt_succ_sqrt p
  have hs26 : s < 2 ^ 26 := by
    by_contra hc
    push Not at hc
    have : 2 ^ 26 * 2 ^ 26 ≤ s * s := Nat.mul_le_mul hc hc
    omega
  set x := Real.sqrt p with hx
  have hxx : x * x = p := Real.mul_self_sqrt (Nat.cast_nonneg p)
  have hx0 : 0 ≤ x := Real.sqrt_nonneg _
  have hsR : (1 : ℝ) ≤ s := by exact_mod_cast hs1
  have hs26R : (s : ℝ) + 1 ≤ 2 ^ 26 := by exact_mod_cast hs26
  have hleR : (s : ℝ) * s ≤ p := by exact_mod_cast hle
  have hltR : (p : ℝ) + 1 ≤ (s + 1) * (s + 1) := by exact_mod_cast hlt
  have hsx : (s : ℝ) ≤ x := by
    by_contra hc
    push Not at hc
    nlinarith
  have hxs : x < s + 1 := by
    by_contra hc
    push Not at hc
    nlinarith
  -- distance to the next integer
  have hgap : 1 ≤ 2 * ((s : ℝ) + 1) * (s + 1 - x) := by nlinarith
  have hxpos : 0 < x := by linarith
  have hne : x ≠ 0 := hxpos.ne'
  have hfl : fl64 x = (rne (x / 2 ^ (Int.log 2 |x| - 52)) : ℝ) * 2 ^ (Int.log 2 |x| - 52) := by
    unfold fl64
    rw [if_neg hne]
  have hu : (0 : ℝ) < 2 ^ (Int.log 2 |x| - 52) := zpow_pos (by norm_num) _
  -- the unit divides 1
  have hlog : Int.log 2 |x| ≤ 52 := by
    have h1 : (2 : ℝ) ^ Int.log 2 |x| ≤ |x| := by
      have := Int.zpow_log_le_self (b := 2) (by norm_num) (abs_pos.mpr hne)
      simpa using this
    by_contra hc
    push Not at hc
    have h2 : (2 : ℝ) ^ (52 : ℤ) ≤ 2 ^ Int.log 2 |x| := zpow_le_zpow_right₀ (by norm_num) (by omega)
    rw [abs_of_pos hxpos] at h1
    rw [abs_of_pos hxpos] at h2
    norm_num at h2 hs26R
    linarith
  obtain ⟨k, hk⟩ : ∃ k : ℕ, 52 - Int.log 2 |x| = k := ⟨(52 - Int.log 2 |x|).toNat, by omega⟩
  have hdiv : (s : ℝ) / 2 ^ (Int.log 2 |x| - 52) = ((s * 2 ^ k : ℕ) : ℤ) := by
    have : Int.log 2 |x| - 52 = -(k : ℤ) := by omega
    rw [this, zpow_neg, zpow_natCast]
    push_cast
    field_simp
  rw [Int.floor_eq_iff]
  constructor
  · -- not rounded below `s`
    have h1 : rne ((s : ℝ) / 2 ^ (Int.log 2 |x| - 52)) ≤ rne (x / 2 ^ (Int.log 2 |x| - 52)) :=
      rne_mono ((div_le_div_iff_of_pos_right hu).mpr hsx)
    rw [hdiv, rne_int] at h1
    have h2 : (((s * 2 ^ k : ℕ) : ℤ) : ℝ) ≤ (rne (x / 2 ^ (Int.log 2 |x| - 52)) : ℝ) := by exact_mod_cast h1
    rw [← hdiv, div_le_iff₀ hu] at h2
    rw [hfl]
    push_cast
    exact h2
  · have herr := fl64_error x
    rw [abs_of_pos hxpos, abs_le] at herr
    have h1 : x / 2 ^ 53 < s + 1 - x := by
      have h2 : x / 2 ^ 53 ≤ (s + 1) / 2 ^ 53 := by
        apply div_le_div_of_nonneg_right hxs.le (by positivity)
      have h3 : ((s : ℝ) + 1) / 2 ^ 53 < s + 1 - x := by
        rw [div_lt_iff₀ (by positivity)]
        have h4 : ((s : ℝ) + 1) * (s + 1) ≤ 2 ^ 26 * 2 ^ 26 := by nlinarith
        by_contra hc
        push Not at hc
        have h5 : (s + 1 - x) * 2 ^ 53 * (s + 1) ≤ (s + 1) * (s + 1) := mul_le_mul_of_nonneg_right hc (by linarith)
        norm_num at h4 h5
        nlinarith
      linarith
    push_cast
    linarith

end Medil

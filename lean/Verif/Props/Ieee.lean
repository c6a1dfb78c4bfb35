import Verif.Spec.InfLaws
import Verif.Props.RoundedXi
import Verif.Props.DcovError
/-
  An arithmetic with infinities: double precision with overflow (without underflow).  It satisfies the laws of `Spec/InfLaws.lean`; used in the
  examples for C228 and C229.
-/
namespace Medil
namespace Ieee
open Classical

/-- rounding to 53 bits, infinity from `2 ^ 1024` on -/
noncomputable def rnd (x : ℝ) : Fl ℝ :=
  if 2 ^ 1024 ≤ fl64 x then .pinf else if fl64 x ≤ -2 ^ 1024 then .ninf else .fin (fl64 x)

noncomputable def neg : Fl ℝ → Fl ℝ
  | .nan => .nan | .pinf => .ninf | .ninf => .pinf | .fin x => .fin (-x)

noncomputable def abs : Fl ℝ → Fl ℝ
  | .nan => .nan | .pinf => .pinf | .ninf => .pinf | .fin x => .fin |x|

noncomputable def add : Fl ℝ → Fl ℝ → Fl ℝ
  | .fin x, .fin y => rnd (x + y)
  | .nan, _ => .nan
  | _, .nan => .nan
  | .pinf, .ninf => .nan
  | .ninf, .pinf => .nan
  | .pinf, _ => .pinf
  | _, .pinf => .pinf
  | .ninf, _ => .ninf
  | _, .ninf => .ninf

/-- an infinity with the sign of `s` -/
noncomputable def inf (s : ℝ) : Fl ℝ := if 0 < s then .pinf else if s < 0 then .ninf else .nan

noncomputable def mul : Fl ℝ → Fl ℝ → Fl ℝ
  | .fin x, .fin y => rnd (x * y)
  | .nan, _ => .nan
  | _, .nan => .nan
  | .pinf, .pinf => .pinf
  | .ninf, .ninf => .pinf
  | .pinf, .ninf => .ninf
  | .ninf, .pinf => .ninf
  | .pinf, .fin y => inf y
  | .ninf, .fin y => inf (-y)
  | .fin x, .pinf => inf x
  | .fin x, .ninf => inf (-x)

noncomputable def div : Fl ℝ → Fl ℝ → Fl ℝ
  | .fin x, .fin y => if y = 0 then inf x else rnd (x / y)
  | .nan, _ => .nan
  | _, .nan => .nan
  | .pinf, .fin y => if y = 0 then .pinf else inf y
  | .ninf, .fin y => if y = 0 then .ninf else inf (-y)
  | .fin _, _ => .fin 0
  | _, _ => .nan

noncomputable def fma : Fl ℝ → Fl ℝ → Fl ℝ → Fl ℝ
  | .fin x, .fin y, .fin z => rnd (x * y + z)
  | .fin _, .fin _, z => z
  | x, y, z => add (mul x y) z

noncomputable def lt : Fl ℝ → Fl ℝ → Bool
  | .fin x, .fin y => decide (x < y)
  | .ninf, .fin _ => true
  | .ninf, .pinf => true
  | .fin _, .pinf => true
  | _, _ => false

noncomputable def ge : Fl ℝ → Fl ℝ → Bool
  | .nan, _ => false
  | _, .nan => false
  | x, y => !lt x y

/-- double precision with overflow -/
noncomputable def lib : FloatLib where
  F := Fl ℝ
  val := fun x => match x with | .fin x => some x | _ => none
  isNan := fun x => match x with | .nan => true | _ => false
  ofNat := fun n => rnd n
  add := add
  sub := fun x y => add x (neg y)
  mul := mul
  div := div
  fma := fma
  abs := abs
  neg := neg
  sqrt := fun x => match x with
    | .fin x => if x < 0 then .nan else rnd (Real.sqrt x)
    | .pinf => .pinf
    | _ => .nan
  log := fun x => match x with
    | .fin x => if x < 0 then .nan else if x = 0 then .ninf else rnd (Real.log x)
    | .pinf => .pinf
    | _ => .nan
  clipLow := fun x => match x with
    | .nan => .nan
    | .ninf => .fin (fl64 (1 / 100000))
    | .pinf => .pinf
    | .fin x => .fin (max x (fl64 (1 / 100000)))
  clipOne := fun x => match x with
    | .nan => .nan
    | .ninf => .fin (-1)
    | .pinf => .fin 1
    | .fin x => .fin (max (-1) (min x 1))
  ge := ge
  lt := lt
  order := fun _ => seqTree
  order_perm := fun _ => seqTree_perm

theorem rnd_zero : rnd 0 = .fin 0 := by
  have : fl64 (0 : ℝ) = 0 := if_pos rfl
  unfold rnd
  rw [this, if_neg (by norm_num), if_neg (by norm_num)]

theorem rnd_ne_nan (x : ℝ) : rnd x ≠ .nan := by
  unfold rnd; split
  · simp
  · split <;> simp

theorem ofNat_cases {n : Nat} (hn : 0 < n) : rnd n = .pinf ∨ ∃ y, 0 < y ∧ rnd n = .fin y := by
  have h : 0 < fl64 (n : ℝ) := fl64_sign.1 (by exact_mod_cast hn)
  unfold rnd
  split
  · exact Or.inl rfl
  · rw [if_neg (not_le.mpr (lt_trans (neg_neg_of_pos (by positivity)) h))]
    exact Or.inr ⟨_, h, rfl⟩

theorem posBad_iff (x : lib.F) : lib.PosBad x ↔ x = Fl.nan ∨ x = Fl.pinf := by
  have h0 : lib.ofNat 0 = .fin 0 := by show rnd ((0 : Nat) : ℝ) = _; rw [Nat.cast_zero, rnd_zero]
  unfold FloatLib.PosBad
  rw [h0]
  cases x <;> simp [lib, lt]

theorem negBad_iff (x : lib.F) : lib.NegBad x ↔ x = Fl.nan ∨ x = Fl.ninf := by
  have h0 : lib.ofNat 0 = .fin 0 := by show rnd ((0 : Nat) : ℝ) = _; rw [Nat.cast_zero, rnd_zero]
  unfold FloatLib.NegBad
  rw [h0]
  cases x <;> simp [lib, lt]

theorem isNan_iff (x : lib.F) : lib.isNan x = true ↔ x = Fl.nan := by cases x <;> simp [lib]

theorem inf_pos {y : ℝ} (h : 0 < y) : inf y = .pinf := if_pos h
theorem inf_neg {y : ℝ} (h : 0 < y) : inf (-y) = .ninf := by unfold inf; rw [if_neg (by linarith), if_pos (by linarith)]

theorem lib_nanLaws : lib.NanLaws := by
  constructor
  case fma_left => intro x y z h; rw [isNan_iff] at h; subst h; rfl
  case fma_right =>
    intro x y z h; rw [isNan_iff] at h; subst h
    have hadd : ∀ w, add w .nan = .nan := fun w => by cases w <;> rfl
    cases x <;> cases y <;> first | rfl | (show lib.isNan (add _ .nan) = true; rw [hadd]; rfl)
  case abs => intro x h; rw [isNan_iff] at h; subst h; rfl
  case log => intro x h; rw [isNan_iff] at h; subst h; rfl
  case clipLow => intro x h; rw [isNan_iff] at h; subst h; rfl
  all_goals
    intro x y h
    rw [isNan_iff] at h
    subst h
    first | rfl | (cases x <;> rfl)

theorem lib_infLaws : lib.InfLaws := by
  refine ⟨lib_nanLaws, ?_, ?_, ?_, ?_, ?_, ?_, ?_, ?_, ?_, ?_, ?_, ?_, ?_⟩
  · intro x y z h; rw [isNan_iff] at h; subst h; cases x <;> rfl
  · intro x h
    cases x with
    | nan => exact Or.inl (Or.inl rfl)
    | ninf => exact Or.inr ((negBad_iff _).mpr (Or.inr rfl))
    | pinf => exact Or.inl ((posBad_iff _).mpr (Or.inr rfl))
    | fin x => simp [lib] at h
  · intro x h; rw [isNan_iff] at h; subst h; rfl
  · intro x y h
    cases x <;> cases y <;> first | rfl | (simp [lib] at h)
  · intro x h
    rw [posBad_iff]
    cases x <;> simp [lib, abs] at h ⊢
  · intro x h
    rw [posBad_iff]
    cases x <;> simp [lib, mul] at h ⊢
  · intro x y h
    rw [posBad_iff, posBad_iff] at h
    rw [posBad_iff]
    rcases h with (rfl | rfl) | (rfl | rfl)
    · exact Or.inl rfl
    · cases y <;> simp [lib, add]
    · cases x <;> simp [lib, add]
    · cases x <;> simp [lib, add]
  · intro x y h
    rw [negBad_iff, negBad_iff] at h
    rw [negBad_iff]
    rcases h with (rfl | rfl) | (rfl | rfl)
    · exact Or.inl rfl
    · cases y <;> simp [lib, add]
    · cases x <;> simp [lib, add]
    · cases x <;> simp [lib, add]
  · intro x n hn h
    rw [posBad_iff] at h ⊢
    show div x (rnd n) = _ ∨ div x (rnd n) = _
    rcases ofNat_cases hn with h2 | ⟨y, hy, h2⟩ <;> rw [h2] <;> rcases h with rfl | rfl <;> simp [div, inf_pos, *]
  · intro x n hn h
    rw [negBad_iff] at h ⊢
    show div x (rnd n) = _ ∨ div x (rnd n) = _
    rcases ofNat_cases hn with h2 | ⟨y, hy, h2⟩ <;> rw [h2] <;> rcases h with rfl | rfl <;> simp [div, inf_neg, *]
  · intro x y hx hy
    rw [posBad_iff] at hx hy
    rcases hx with rfl | rfl <;> rcases hy with rfl | rfl <;> rfl
  · intro x y hx hy
    rw [negBad_iff] at hx hy
    rcases hx with rfl | rfl <;> rcases hy with rfl | rfl <;> rfl
  · intro x y hy hx
    rw [posBad_iff] at hx hy
    rcases hx with rfl | rfl <;> rcases hy with rfl | rfl <;> rfl

theorem lib_neg : lib.NegReverses := by
  intro x y hx hy
  cases x <;> cases y <;> simp [lib, neg, lt] at hx hy ⊢

theorem lib_neg_nan (x : lib.F) : lib.isNan (lib.neg x) = lib.isNan x := by cases x <;> rfl

theorem rnd_nonneg {r : ℝ} (h : 0 ≤ r) : rnd r = .pinf ∨ ∃ y, 0 ≤ y ∧ rnd r = .fin y := by
  have h0 : 0 ≤ fl64 r := by
    rcases h.eq_or_lt with rfl | h
    · exact (if_pos rfl : fl64 (0 : ℝ) = 0).ge
    · exact (fl64_sign.1 h).le
  unfold rnd
  split
  · exact Or.inl rfl
  · rw [if_neg (not_le.mpr (lt_of_lt_of_le (neg_neg_of_pos (by positivity)) h0))]
    exact Or.inr ⟨_, h0, rfl⟩

theorem rnd_nonpos {r : ℝ} (h : r ≤ 0) : rnd r = .ninf ∨ ∃ y, y ≤ 0 ∧ rnd r = .fin y := by
  have h0 : fl64 r ≤ 0 := by
    rcases h.eq_or_lt with rfl | h
    · exact (if_pos rfl : fl64 (0 : ℝ) = 0).le
    · exact (fl64_sign.2 h).le
  unfold rnd
  rw [if_neg (not_le.mpr (lt_of_le_of_lt h0 (by positivity)))]
  split
  · exact Or.inl rfl
  · exact Or.inr ⟨_, h0, rfl⟩

theorem fl64_nat_one_le {N : Nat} (hN : 1 ≤ N) : 1 ≤ fl64 (N : ℝ) := by
  rcases Nat.lt_or_ge (2 ^ 53) N with h | h
  · have := abs_le.mp (fl64_error (N : ℝ))
    have hp : (2 : ℝ) ≤ N := by exact_mod_cast (by omega : 2 ≤ N)
    rw [abs_of_nonneg (by positivity)] at this
    have h3 : (N : ℝ) / 2 ^ 53 ≤ N / 2 := div_le_div_of_nonneg_left (by positivity) (by norm_num) (by norm_num)
    linarith [this.1]
  · rw [fl64_nat N h]; exact_mod_cast hN

/-- the condition of `C228_gaussian` on the logarithm -/
theorem lib_log {N : Nat} (hN : 1 ≤ N) :
    lib.lt (lib.log (lib.ofNat 1)) (lib.div (lib.neg (lib.log (lib.ofNat N))) (lib.ofNat N)) = false := by
  have h1 : lib.ofNat 1 = .fin 1 := by
    show rnd ((1 : Nat) : ℝ) = _
    have e := fl64_nat 1 (by norm_num)
    unfold rnd
    rw [e, Nat.cast_one, if_neg (not_le.mpr (one_lt_pow₀ one_lt_two (by norm_num))),
      if_neg (not_le.mpr (lt_trans (neg_neg_of_pos (by positivity)) one_pos))]
  have hlog1 : lib.log (lib.ofNat 1) = .fin 0 := by
    rw [h1]
    show (if (1 : ℝ) < 0 then Fl.nan else if (1 : ℝ) = 0 then .ninf else rnd (Real.log 1)) = _
    rw [if_neg (by norm_num), if_neg (by norm_num), Real.log_one, rnd_zero]
  have hlog : lib.log (lib.ofNat N) = .pinf ∨ ∃ y, 0 ≤ y ∧ lib.log (lib.ofNat N) = .fin y := by
    rcases ofNat_cases hN with h | ⟨y, hy, h⟩
    · left; show lib.log (rnd N) = _; rw [h]; rfl
    · have hy1 : 1 ≤ y := by
        have := fl64_nat_one_le hN
        unfold rnd at h
        split at h
        · cases h
        · split at h
          · cases h
          · cases h; exact this
      show lib.log (rnd N) = _ ∨ ∃ y, 0 ≤ y ∧ lib.log (rnd N) = _
      rw [h]
      show (if y < 0 then Fl.nan else if y = 0 then .ninf else rnd (Real.log y)) = _ ∨
        ∃ z, 0 ≤ z ∧ (if y < 0 then Fl.nan else if y = 0 then .ninf else rnd (Real.log y)) = _
      rw [if_neg hy.not_gt, if_neg hy.ne']
      exact rnd_nonneg (Real.log_nonneg hy1)
  have key : ∀ z : Fl ℝ, z = .nan ∨ z = .ninf ∨ (∃ y, y ≤ 0 ∧ z = .fin y) → lib.lt (.fin 0) z = false := by
    rintro z (rfl | rfl | ⟨y, hy, rfl⟩)
    · rfl
    · rfl
    · exact decide_eq_false (not_lt.mpr hy)
  rw [hlog1]
  apply key
  show div (neg (lib.log (lib.ofNat N))) (rnd N) = _ ∨ div (neg (lib.log (lib.ofNat N))) (rnd N) = _ ∨
    ∃ y, y ≤ 0 ∧ div (neg (lib.log (lib.ofNat N))) (rnd N) = _
  rcases hlog with h | ⟨y, hy, h⟩ <;> rcases ofNat_cases hN with h2 | ⟨w, hw, h2⟩ <;> rw [h, h2]
  · exact Or.inl rfl
  · right; left
    show (if w = 0 then Fl.ninf else inf (-w)) = _
    rw [if_neg hw.ne', inf_neg hw]
  · exact Or.inr (Or.inr ⟨0, le_rfl, rfl⟩)
  · right
    show (if w = 0 then inf (-y) else rnd (-y / w)) = _ ∨ ∃ z, z ≤ 0 ∧ (if w = 0 then inf (-y) else rnd (-y / w)) = _
    rw [if_neg hw.ne']
    exact rnd_nonpos (div_nonpos_of_nonpos_of_nonneg (by linarith) hw.le)

/-- with ranks, sorting and the normal distribution function -/
noncomputable def xiLib (srt : ArgSort ℝ) (Φ : ℝ → ℝ) : FloatXiLib where
  toFloatLib := lib
  half := fun k => rnd (k / 2)
  argsort := fun f => srt.sort fun i => match f i with | .fin x => x | _ => 0
  sort := fun f => srt.sort fun i => match f i with | .fin x => x | _ => 0
  cdf := fun x => match x with
    | .nan => .nan
    | .ninf => .fin 0
    | .pinf => .fin 1
    | .fin x => rnd (Φ x)
  nan := .nan

theorem xiLib_nanLaws (srt : ArgSort ℝ) (Φ : ℝ → ℝ) : (xiLib srt Φ).NanXiLaws := by
  have hn : ∀ x, (xiLib srt Φ).isNan x = true → x = Fl.nan := fun x h => (isNan_iff x).mp h
  refine ⟨lib_nanLaws, rfl, fun x h => ?_, fun x h => ?_⟩
  · obtain rfl := hn _ h; rfl
  · obtain rfl := hn _ h; rfl

end Ieee
end Medil

import Verif.Proofs.Indep
import Mathlib.Algebra.Order.Ring.Rat
import Mathlib.Algebra.Field.Rat
import Mathlib.Data.Rat.Floor
/-
  Properties of `medil.independence_testing` (C45-C53, C74, C75).
-/
namespace Medil
open Finset
set_option linter.unusedSectionVars false

section dcov
variable {K : Type} [Field K] [LinearOrder K] [IsStrictOrderedRing K] {N M : Nat}

/-! ### C45 -/

/-- the claim: entry `(i,j)` is the sample distance covariance of features `i` and `j` -/
def C45_statement : Prop :=
  ∀ (N M : Nat) (s : Fin N → Fin M → ℚ) (i j : Fin M), 0 < N →
    (dcov s).1 i j = sampleDcov (fun k => s k i) (fun k => s k j)

/-- **C45 is false**: two observations 0 and 1 of one feature; the code gives 1/16, the definition 1/4 -/
theorem C45_false : ¬ C45_statement := by
  intro h
  have := h 2 1 (fun k _ => k.val) 0 0 (by decide)
  revert this
  decide +kernel

/-- **C45, proved part**: the exact relation.  Twice the entry is the sample distance covariance minus the
contribution of the diagonal: the code sums over pairs `k < l` only.  Missing for the full claim: it is
false (`C45_false`). -/
theorem C45_dcov_partial (s : Fin N → Fin M → K) (i j : Fin M) :
    2 * (dcov s).1 i j = sampleDcov (fun k => s k i) (fun k => s k j) -
      (∑ k, centredDist (fun k => s k i) k k * centredDist (fun k => s k j) k k) / N ^ 2 :=
  dcov_entry s i j

/-! ### C46 -/

/-- **C46** `dcov` is symmetric, invariant under shifts and under reordering the observations, and
scales with the absolute value of the factors -/
theorem C46_dcov_invariance (s : Fin N → Fin M → K) :
    (∀ i j, (dcov s).1 i j = (dcov s).1 j i) ∧
    (∀ (c b : Fin M → K) (i j : Fin M),
      (dcov fun k i => c i * s k i + b i).1 i j = |c i| * |c j| * (dcov s).1 i j ∧
      (dcov fun k i => c i * s k i + b i).2 i = |c i| * (dcov s).2 i) ∧
    ∀ π : Equiv.Perm (Fin N), dcov (fun k i => s (π k) i) = dcov s :=
  ⟨dcov_symm s, fun c b i j => ⟨dcov_affine s c b i j, dbar_affine s c b i⟩, dcov_perm s⟩

/-- three observations of two features -/
def exSample : Fin 3 → Fin 2 → ℚ := fun k i => if i = 0 then k.val else k.val * k.val

example : (dcov exSample).1 0 1 = 16 / 81 ∧ (dcov exSample).2 0 = 8 / 9 := by decide +kernel

/-! ### C47 -/

/-- **C47** `estimate_UDG(sample, "dcov_fast", level)` returns a graph that is symmetric, irreflexive,
unchanged by changes of units `x ↦ c x + b` (`c ≠ 0`) and by reordering the observations, and gives a
constant feature no edge -/
theorem C47_dcov_fast (lib : TestLib K N) (s : Fin N → Fin M → K) (level : K) :
    ∃ u : Fin M → Fin M → Bool, estimateUDG lib s (.name "dcov_fast") level = .ok (u, none) ∧
      (∀ i j, u i j = u j i) ∧ (∀ i, u i i = false) ∧
      (∀ i, (∀ k l, s k i = s l i) → ∀ j, u i j = false ∧ u j i = false) ∧
      (∀ c b : Fin M → K, (∀ i, c i ≠ 0) →
        estimateUDG lib (fun k i => c i * s k i + b i) (.name "dcov_fast") level = .ok (u, none)) ∧
      ∀ π : Equiv.Perm (Fin N),
        estimateUDG lib (fun k i => s (π k) i) (.name "dcov_fast") level = .ok (u, none) := by
  have hsymm : ∀ i j, (Fl.div ((N : K) * (dcov s).1 i j) ((dcov s).2 i * (dcov s).2 j)) =
      (Fl.div ((N : K) * (dcov s).1 j i) ((dcov s).2 j * (dcov s).2 i)) := by
    intro i j; rw [dcov_symm s i j, mul_comm ((dcov s).2 i)]
  refine ⟨_, rfl, ?_, ?_, ?_, ?_, ?_⟩
  · intro i j
    unfold clearDiag
    by_cases h : i = j
    · rw [if_pos h, if_pos h.symm]
    · rw [if_neg h, if_neg (Ne.symm h)]
      show Fl.ge _ _ = Fl.ge _ _
      rw [hsymm]
  · intro i; simp [clearDiag]
  · intro i hi j
    have h1 : ∀ j, (Fl.div ((N : K) * (dcov s).1 i j) ((dcov s).2 i * (dcov s).2 j)) = .nan := by
      intro j
      obtain ⟨h1, h2⟩ := dcov_const s i j hi
      rw [h1, h2]
      simp [Fl.div]
    have h2 := h1 j
    rw [hsymm] at h2
    simp only [clearDiag, h1, h2, Fl.ge]
    constructor <;> split <;> rfl
  · intro c b hc
    have key : ∀ i j, (Fl.div ((N : K) * (dcov fun k i => c i * s k i + b i).1 i j)
        ((dcov fun k i => c i * s k i + b i).2 i * (dcov fun k i => c i * s k i + b i).2 j)) =
        (Fl.div ((N : K) * (dcov s).1 i j) ((dcov s).2 i * (dcov s).2 j)) := by
      intro i j
      rw [dcov_affine, dbar_affine, dbar_affine]
      have e1 : (N : K) * (|c i| * |c j| * (dcov s).1 i j) = (|c i| * |c j|) * (N * (dcov s).1 i j) := by ring
      have e2 : |c i| * (dcov s).2 i * (|c j| * (dcov s).2 j) = (|c i| * |c j|) * ((dcov s).2 i * (dcov s).2 j) := by
        ring
      rw [e1, e2]
      exact Fl.div_mul _ _ _ (mul_pos (abs_pos.mpr (hc i)) (abs_pos.mpr (hc j)))
    unfold estimateUDG
    simp only [if_true]
    congr 2
    funext i j
    simp only [clearDiag, key]
  · intro π
    unfold estimateUDG
    simp only [if_true, dcov_perm]

/-! ### C48, C49 -/

/-- **C48** the methods that compute p-values with a pairwise test -/
theorem C48_pvalue_methods (lib : TestLib K N) (s : Fin N → Fin M → K) (level : K) :
    (∀ (name : String) (test : (Fin N → K) → (Fin N → K) → Fl K),
      (name = "dcov_big" ∧ test = lib.dcorTest) ∨ (name = "xicor" ∧ test = lib.xicorTest) →
      ∃ (u : Fin M → Fin M → Bool) (p : Fin M → Fin M → Fl K),
        estimateUDG lib s (.name name) level = .ok (u, some p) ∧
        (∀ i j, u i j = u j i ∧ p i j = p j i) ∧ (∀ i, u i i = false) ∧
        (∀ i j, i < j → p i j = test (fun k => s k i) (fun k => s k j) ∧
          (u i j = true ↔ (p i j).lt level = true)) ∧
        -- raising the level only adds edges
        ∀ level', level ≤ level' → ∃ u', estimateUDG lib s (.name name) level' = .ok (u', some p) ∧
          ∀ i j, u i j = true → u' i j = true) ∧
    -- supplied p-values
    (∀ p : Fin M → Fin M → Fl K, ∃ u, estimateUDG lib s (.pvals p) level = .ok (u, some p) ∧
      (∀ i, u i i = false) ∧ ∀ i j, i ≠ j → (u i j = true ↔ (p i j).lt level = true)) := by
  have hmono : ∀ (x : Fl K) (level' : K), level ≤ level' → x.lt level = true → x.lt level' = true := by
    intro x level' hl h
    cases x with
    | nan => exact h
    | ninf => exact h
    | pinf => exact h
    | fin x =>
      simp only [Fl.lt, decide_eq_true_eq] at h ⊢
      exact lt_of_lt_of_le h hl
  have hp : ∀ (test : (Fin N → K) → (Fin N → K) → Fl K) (i j : Fin M),
      pairPvals test s i j = pairPvals test s j i := by
    intro test i j
    unfold pairPvals
    rcases lt_trichotomy i j with h | h | h
    · rw [if_pos h, if_neg (lt_asymm h), if_pos h]
    · rw [h]
    · rw [if_neg (lt_asymm h), if_pos h, if_pos h]
  constructor
  · intro name test hname
    have hrun : ∀ level : K, estimateUDG lib s (.name name) level =
        .ok (clearDiag fun i j => (pairPvals test s i j).lt level, some (pairPvals test s)) := by
      intro level
      rcases hname with ⟨rfl, rfl⟩ | ⟨rfl, rfl⟩ <;> simp [estimateUDG]
    refine ⟨_, _, hrun level, ?_, ?_, ?_, ?_⟩
    · intro i j
      refine ⟨?_, hp test i j⟩
      unfold clearDiag
      by_cases h : i = j
      · rw [if_pos h, if_pos h.symm]
      · rw [if_neg h, if_neg (Ne.symm h)]
        show Fl.lt _ _ = Fl.lt _ _
        rw [hp]
    · intro i; simp [clearDiag]
    · intro i j hij
      constructor
      · unfold pairPvals; rw [if_pos hij]
      · unfold clearDiag; rw [if_neg (ne_of_lt hij)]
    · intro level' hl
      refine ⟨_, hrun level', ?_⟩
      intro i j h
      unfold clearDiag at h ⊢
      split at h
      · cases h
      · rename_i hne
        rw [if_neg hne]
        exact hmono _ _ hl h
  · intro p
    refine ⟨_, rfl, fun i => by simp [clearDiag], fun i j hij => ?_⟩
    unfold clearDiag; rw [if_neg hij]

/-- **C49** any other method name raises -/
theorem C49_unknown_method (lib : TestLib K N) (s : Fin N → Fin M → K) (level : K) (name : String)
    (h1 : name ≠ "dcov_fast") (h2 : name ≠ "dcov_big") (h3 : name ≠ "xicor") :
    estimateUDG lib s (.name name) level = .error .unboundLocal := by
  unfold estimateUDG
  simp only [if_neg h1, if_neg h2, if_neg h3]
  split <;> rfl

example (lib : TestLib ℚ 3) : estimateUDG lib exSample (.name "g-test") 0 = .error .unboundLocal :=
  C49_unknown_method lib exSample 0 _ (by decide) (by decide) (by decide)

end dcov

/-! ### C50 -/

/-- **C50** `xicorr` raises exactly when the sizes differ; on empty inputs it returns `(nan, nan)` -/
theorem C50_xicorr_sizes (srt : ArgSort ℝ) (Φ : ℝ → ℝ) (x y : List ℝ) (ties : Bool) :
    (x.length ≠ y.length → xicorr srt Φ x y ties = .error .valueError) ∧
    (x.length = y.length → ∃ r, xicorr srt Φ x y ties = .ok r) ∧
    xicorr srt Φ [] [] ties = .ok (.nan, .nan) := by
  refine ⟨?_, ?_, ?_⟩
  · intro h
    unfold xicorr
    rw [dif_pos h]
  · intro h
    unfold xicorr
    rw [dif_neg (not_not.mpr h)]
    split
    · exact ⟨_, rfl⟩
    · cases ties
      · exact ⟨_, rfl⟩
      · exact ⟨_, rfl⟩
  · simp [xicorr]

/-! ### C51 -/

theorem xiVar_congr {n : Nat} {y y' : Fin n → ℝ} (h : rankAvg y' = rankAvg y)
    (h' : rankAvg (fun i => -y' i) = rankAvg (fun i => -y i)) : xiVar y' = xiVar y := by
  have h1 : xiFr y' = xiFr y := by funext i; unfold xiFr; rw [h]
  have h2 : xiGr y' = xiGr y := by funext i; unfold xiGr; rw [h']
  have h3 : xiQfr y' = xiQfr y := by funext i; unfold xiQfr; rw [h1]
  have h4 : xiM y' = xiM y := by funext i; unfold xiM; simp only [h3]
  unfold xiVar xiCu
  simp only [h2, h3, h4]

/-- **C51** strictly increasing transformations of `x` and of `y` change neither the statistic nor the
p-value -/
theorem C51_xicorr_ranks (srt : ArgSort ℝ) (Φ : ℝ → ℝ) (x y : List ℝ) (ties : Bool)
    (f g : ℝ → ℝ) (hf : StrictMono f) (hg : StrictMono g) :
    xicorr srt Φ (x.map f) (y.map g) ties = xicorr srt Φ x y ties := by
  -- on indexed families
  have key : ∀ (n : Nat) (a b : Fin n → ℝ),
      xiStat srt (fun i => f (a i)) (fun i => g (b i)) = xiStat srt a b ∧
      xiVar (fun i => g (b i)) = xiVar b := by
    intro n a b
    have e1 := rankAvg_map a f hf
    have e2 := rankAvg_map b g hg
    have e3 := rankAvg_neg_map b g hg
    refine ⟨?_, xiVar_congr e2 e3⟩
    have h1 : xiFr (fun i => g (b i)) = xiFr b := by funext i; unfold xiFr; rw [e2]
    have h2 : xiGr (fun i => g (b i)) = xiGr b := by funext i; unfold xiGr; rw [e3]
    unfold xiStat xiA1 xiCu
    rw [e1, h1, h2]
  -- the result as a function of length and families
  have gen : ∀ (n : Nat) (x y : List ℝ) (hx : x.length = n) (hy : y.length = n),
      xicorr srt Φ x y ties =
        if n = 0 then .ok (.nan, .nan) else
          .ok (xiStat srt (fun i : Fin n => x[i.val]) (fun i : Fin n => y[i.val]),
            upperTail Φ (xiZ n (xiStat srt (fun i : Fin n => x[i.val]) (fun i : Fin n => y[i.val]))
              (if ties then xiVar (fun i : Fin n => y[i.val]) else .fin (2 / 5)))) := by
    intro n x y hx hy
    subst hx
    unfold xicorr
    rw [dif_neg (by simp [hy])]
    split
    · rfl
    · cases ties <;> rfl
  by_cases h : x.length = y.length
  · rw [gen x.length (x.map f) (y.map g) (by simp) (by simp [h]), gen x.length x y rfl h.symm]
    simp only [List.getElem_map]
    obtain ⟨k1, k2⟩ := key x.length (fun i : Fin x.length => x[i.val])
      (fun i : Fin x.length => y[i.val]'(by have := i.isLt; omega))
    rw [k1, k2]
  · rw [(C50_xicorr_sizes srt Φ x y ties).1 h,
      (C50_xicorr_sizes srt Φ (x.map f) (y.map g) ties).1 (by simpa using h)]

/-! ### C52, C53 -/

section xi
variable {K : Type} [Field K] [LinearOrder K] [IsStrictOrderedRing K] {n : Nat}

/-- **C52** for `n ≥ 2` the denominator is positive, so the statistic is a number; it is at most 1 -/
theorem C52_xi_le_one (srt : ArgSort K) (x y : Fin n → K) (hn : 2 ≤ n) :
    0 < xiCu y ∧ ∃ v, xiStat srt x y = .fin v ∧ v ≤ 1 := by
  have hcu := xiCu_pos y hn
  refine ⟨hcu, 1 - xiA1 srt x y / xiCu y, ?_, ?_⟩
  · unfold xiStat Fl.div
    rw [if_neg (ne_of_gt hcu)]
    rfl
  · have : 0 ≤ xiA1 srt x y := by
      unfold xiA1
      exact div_nonneg (absDiffSum_nonneg _) (by positivity)
    have := div_nonneg this (le_of_lt hcu)
    linarith

/-- **C53** without ties, a strictly increasing or strictly decreasing relation has statistic
`(n-2)/(n+1)` -/
theorem C53_xi_monotone (srt : ArgSort K) (x y : Fin n → K) (hn : 2 ≤ n) (hx : Function.Injective x)
    (h : (∀ i j, x i < x j → y i < y j) ∨ (∀ i j, x i < x j → y j < y i)) :
    xiStat srt x y = .fin (((n : K) - 2) / (n + 1)) := by
  have hn0 : (n : K) ≠ 0 := by exact_mod_cast (show n ≠ 0 by omega)
  have hn1 : (0 : K) < (n : K) - 1 := by
    have : (2 : K) ≤ n := by exact_mod_cast hn
    linarith
  have hn2 : (0 : K) < (n : K) + 1 := by linarith
  have hs := sort_strictMono srt x hx
  let π := srt.sort (rankAvg x)
  have hy : (StrictMono fun k => y (π k)) ∨ StrictAnti fun k => y (π k) := by
    rcases h with h | h
    · exact Or.inl fun a b hab => h _ _ (hs hab)
    · exact Or.inr fun a b hab => h _ _ (hs hab)
  have hcu := xiCu_strict y (by omega) π hy
  have hfr : ∀ k (hk : k + 1 < n), |xiFr y (π ⟨k + 1, hk⟩) - xiFr y (π ⟨k, by omega⟩)| = 1 / n := by
    intro k hk
    have hpos : (0 : K) < 1 / n := by positivity
    unfold xiFr
    rw [← rankAvg_perm y π, ← rankAvg_perm y π]
    rcases hy with hy | hy
    · rw [rankAvg_strictMono _ hy, rankAvg_strictMono _ hy]
      rw [show (((k + 1 : Nat) : K) + 1) / n - ((k : K) + 1) / n = 1 / n by push_cast; ring]
      exact abs_of_pos hpos
    · rw [rankAvg_strictAnti _ hy, rankAvg_strictAnti _ hy]
      rw [show ((n : K) - ((k + 1 : Nat) : K)) / n - ((n : K) - (k : K)) / n = -(1 / n) by push_cast; ring]
      rw [abs_neg]; exact abs_of_pos hpos
  have hA1 : xiA1 srt x y = ((n : K) - 1) / (2 * n ^ 2) := by
    unfold xiA1
    rw [absDiffSum_const _ (1 / (n : K)) hfr, Nat.cast_sub (by omega)]
    push_cast
    field_simp
  have hcu0 := ne_of_gt (xiCu_pos y hn)
  unfold xiStat Fl.div
  rw [if_neg hcu0, hA1, hcu]
  unfold Fl.oneSub
  have h1 := ne_of_gt hn1
  have h2 := ne_of_gt hn2
  have : 1 - ((n : K) - 1) / (2 * n ^ 2) / (((n : K) + 1) * (n - 1) / (6 * n ^ 2)) = ((n : K) - 2) / (n + 1) := by
    field_simp
    ring
  simp only [this]

end xi

/-! ### C74, C75 : constant measurements, order of the columns -/

/-- sorting by Mathlib's `Tuple.sort` -/
def exSort (K : Type) [LinearOrder K] : ArgSort K := ⟨fun f => Tuple.sort f, fun f => Tuple.monotone_sort f⟩

-- C53 applies to three observations of `x = 0, 1, 2` and `y = x ^ 2`
example : xiStat (exSort ℚ) (fun k : Fin 3 => (k.val : ℚ)) (fun k => (k.val : ℚ) ^ 2) = .fin (1 / 4) := by
  rw [C53_xi_monotone _ _ _ (by decide)]
  · norm_num
  · intro a b h
    have h' : (a.val : ℚ) = b.val := h
    exact Fin.ext (by exact_mod_cast h')
  · left
    intro i j h
    have h' : i.val < j.val := by exact_mod_cast h
    exact_mod_cast Nat.pow_lt_pow_left h' (by decide)

theorem xi_const {n : Nat} (srt : ArgSort ℝ) (x y : Fin n → ℝ) (hn : 2 ≤ n) (hy : ∀ i j, y i = y j) :
    xiStat srt x y = .fin 1 ∧ xiVar y = .fin 0 := by
  have hn0 : (n : ℝ) ≠ 0 := by exact_mod_cast (show n ≠ 0 by omega)
  have hcu := ne_of_gt (xiCu_pos y hn)
  have hfr : ∃ c, ∀ i, xiFr y i = c := by
    refine ⟨xiFr y ⟨0, by omega⟩, fun i => ?_⟩
    unfold xiFr rankAvg
    rw [hy i ⟨0, by omega⟩]
  obtain ⟨c, hc⟩ := hfr
  constructor
  · have : xiA1 srt x y = 0 := by
      unfold xiA1
      rw [absDiffSum_const _ 0 (fun k hk => by rw [hc, hc, sub_self, abs_zero])]
      simp
    unfold xiStat Fl.div
    rw [if_neg hcu, this]
    simp [Fl.oneSub]
  · have hq : ∀ i, xiQfr y i = c := fun i => hc _
    have hm : ∀ i, xiM y i = c := by
      intro i
      unfold xiM
      simp only [hq, Finset.sum_const, nsmul_eq_mul]
      have : (univ.filter (· ≤ i)) = Finset.Iic i := by ext; simp
      rw [this, Fin.card_Iic]
      push_cast
      field_simp
      ring
    have hind : ∑ i : Fin n, (xiInd2 i : ℝ) = n ^ 2 := by
      unfold xiInd2
      rw [Fin.sum_univ_eq_sum_range (fun i => 2 * (n : ℝ) - 2 * ((i : ℝ) + 1) + 1)]
      rw [Finset.sum_add_distrib, Finset.sum_sub_distrib, ← Finset.mul_sum (range n) (fun x : Nat => (x : ℝ) + 1) (2 : ℝ), sum_succ_range]
      simp only [Finset.sum_const, Finset.card_range, nsmul_eq_mul]
      ring
    unfold xiVar
    simp only [hq, hm, ← Finset.sum_mul, hind, Finset.sum_const, Finset.card_univ, Fintype.card_fin,
      nsmul_eq_mul]
    unfold Fl.div
    rw [if_neg (pow_ne_zero 2 hcu)]
    congr 1
    field_simp
    ring

theorem xicorTest_eq {N : Nat} (srt : ArgSort ℝ) (Φ : ℝ → ℝ) (x y : Fin N → ℝ) (hN : 0 < N) :
    xicorTest srt Φ x y = upperTail Φ (xiZ N (xiStat srt x y) (xiVar y)) := by
  have gen : ∀ (n : Nat) (a b : List ℝ) (hx : a.length = n) (hy : b.length = n) (hn : 0 < n),
      xicorr srt Φ a b =
          .ok (xiStat srt (fun i : Fin n => a[i.val]) (fun i : Fin n => b[i.val]),
            upperTail Φ (xiZ n (xiStat srt (fun i : Fin n => a[i.val]) (fun i : Fin n => b[i.val]))
              (xiVar (fun i : Fin n => b[i.val])))) := by
    intro n a b hx hy hn
    subst hx
    unfold xicorr
    rw [dif_neg (by simp [hy]), if_neg (by omega)]
    rfl
  unfold xicorTest
  rw [gen N (List.ofFn x) (List.ofFn y) (by simp) (by simp) hN]
  simp

/-- what the xicor test says about a constant second column: p-value 0 -/
theorem xicorTest_const {N : Nat} (srt : ArgSort ℝ) (Φ : ℝ → ℝ) (x y : Fin N → ℝ) (hN : 2 ≤ N)
    (hy : ∀ i j, y i = y j) : xicorTest srt Φ x y = .fin 0 := by
  obtain ⟨h1, h2⟩ := xi_const srt x y hN hy
  rw [xicorTest_eq srt Φ x y (by omega), h1, h2]
  have hpos : 0 < Real.sqrt (N : ℝ) := Real.sqrt_pos.mpr (by exact_mod_cast (show 0 < N by omega))
  simp [xiZ, Fl.div, upperTail, ne_of_gt hpos, hpos]

/-- the claim: a measurement that is constant in the sample gets no edge, with `dcov_fast` and with
`xicor` -/
def C74_statement : Prop :=
  ∀ (Φ : ℝ → ℝ) (srt : ArgSort ℝ) (N M : Nat) (lib : TestLib ℝ N) (s : Fin N → Fin M → ℝ) (level : ℝ)
    (m : String) (u : Fin M → Fin M → Bool) (p : Option (Fin M → Fin M → Fl ℝ)) (i j : Fin M),
    lib.xicorTest = xicorTest srt Φ → 2 ≤ N → 0 < level → level < 1 → (m = "dcov_fast" ∨ m = "xicor") →
    estimateUDG lib s (.name m) level = .ok (u, p) → (∀ k l, s k i = s l i) →
    u i j = false ∧ u j i = false

/-- `xicor` joins a constant measurement to every measurement with a smaller index, at every positive
level, whatever the sample (of at least two observations) and the order of sorting, in exact arithmetic (rounding: `C200_constant_column`,
`C200_double_precision`) -/
theorem C74_xicor_constant (Φ : ℝ → ℝ) (srt : ArgSort ℝ) {N M : Nat} (lib : TestLib ℝ N)
    (hlib : lib.xicorTest = xicorTest srt Φ) (s : Fin N → Fin M → ℝ) (hN : 2 ≤ N) (level : ℝ)
    (hlevel : 0 < level) (i j : Fin M) (hij : i < j) (hj : ∀ k l, s k j = s l j) :
    ∃ u p, estimateUDG lib s (.name "xicor") level = .ok (u, some p) ∧ u i j = true ∧ u j i = true := by
  obtain ⟨u, p, h1, h2, -, h4, -⟩ := (C48_pvalue_methods lib s level).1 "xicor" _ (Or.inr ⟨rfl, rfl⟩)
  refine ⟨u, p, h1, ?_⟩
  obtain ⟨h5, h6⟩ := h4 i j hij
  have : u i j = true := by
    rw [h6, h5, hlib, xicorTest_const srt Φ _ _ hN hj]
    simpa [Fl.lt] using hlevel
  exact ⟨this, by rw [← (h2 i j).1]; exact this⟩

/-- **C74 is false** for `xicor` -/
theorem C74_false : ¬ C74_statement := by
  intro h
  let lib : TestLib ℝ 2 := ⟨id, fun _ _ => .nan, xicorTest (exSort ℝ) id⟩
  let s : Fin 2 → Fin 2 → ℝ := fun k i => if i = 0 then k.val else 5
  obtain ⟨u, p, h1, h2, -⟩ := C74_xicor_constant id (exSort ℝ) lib rfl s (le_refl 2) (1 / 20) (by norm_num)
    0 1 (by decide) (fun k l => rfl)
  have := (h id (exSort ℝ) 2 2 lib s (1 / 20) "xicor" u (some p) 1 0 rfl (le_refl 2) (by norm_num) (by norm_num)
    (Or.inr rfl) h1 (fun k l => rfl)).2
  rw [h2] at this
  cases this

/-- **C74, proved part**: the claim holds for `dcov_fast`.  Missing for the full claim: it is false for
`xicor` (`C74_false`, `C74_xicor_constant`). -/
theorem C74_constant_no_edge_partial {N M : Nat} (lib : TestLib ℝ N) (s : Fin N → Fin M → ℝ) (level : ℝ)
    (u : Fin M → Fin M → Bool) (p : Option (Fin M → Fin M → Fl ℝ)) (i j : Fin M)
    (h : estimateUDG lib s (.name "dcov_fast") level = .ok (u, p)) (hi : ∀ k l, s k i = s l i) :
    u i j = false ∧ u j i = false := by
  obtain ⟨u', h1, -, -, h4, -⟩ := C47_dcov_fast lib s level
  rw [h1] at h
  simp only [Except.ok.injEq, Prod.mk.injEq] at h
  rw [← h.1]
  exact h4 i hi j

/-- the claim: reordering the measurements reorders the estimated graph, for the methods `dcov_fast` and
`xicor`; `Φ` is the standard normal distribution function, of which only `Φ 0 = 1/2` is used -/
def C75_statement : Prop :=
  ∀ (Φ : ℝ → ℝ) (srt : ArgSort ℝ) (N M : Nat) (lib : TestLib ℝ N) (s : Fin N → Fin M → ℝ) (level : ℝ)
    (m : String) (u u' : Fin M → Fin M → Bool) (p p' : Option (Fin M → Fin M → Fl ℝ))
    (σ : Equiv.Perm (Fin M)), Φ 0 = 1 / 2 →
    lib.xicorTest = xicorTest srt Φ → 2 ≤ N → 0 < level → level < 1 → (m = "dcov_fast" ∨ m = "xicor") →
    estimateUDG lib s (.name m) level = .ok (u, p) →
    estimateUDG lib (fun k i => s k (σ i)) (.name m) level = .ok (u', p') →
    ∀ i j, u' i j = u (σ i) (σ j)

/-- two observations 0, 1 as second column: statistic 0, variance 1, whatever the first column -/
theorem xi_two (srt : ArgSort ℝ) (x : Fin 2 → ℝ) :
    xiStat srt x (fun k => (k.val : ℝ)) = .fin 0 ∧ xiVar (fun k : Fin 2 => (k.val : ℝ)) = .fin 1 := by
  have hm : StrictMono fun k : Fin 2 => (k.val : ℝ) := by
    intro a b h
    have h' : a.val < b.val := h
    show (a.val : ℝ) < b.val
    exact_mod_cast h'
  have hfr : ∀ k : Fin 2, xiFr (fun k : Fin 2 => (k.val : ℝ)) k = ((k.val : ℝ) + 1) / 2 := by
    intro k
    unfold xiFr
    rw [rankAvg_strictMono _ hm]
    norm_num
  have hcu : xiCu (fun k : Fin 2 => (k.val : ℝ)) = 1 / 8 := by
    rw [xiCu_strict _ (by decide) (Equiv.refl _) (Or.inl hm)]
    norm_num
  constructor
  · let π := srt.sort (rankAvg x)
    have hd : |xiFr (fun k : Fin 2 => (k.val : ℝ)) (π 1) - xiFr (fun k : Fin 2 => (k.val : ℝ)) (π 0)| = 1 / 2 := by
      have hne : π 0 ≠ π 1 := fun h => by simpa using π.injective h
      rw [hfr, hfr]
      generalize π 0 = a at *
      generalize π 1 = b at *
      match a, b with
      | 0, 0 => exact absurd rfl hne
      | 1, 1 => exact absurd rfl hne
      | 0, 1 => norm_num
      | 1, 0 => norm_num
    have hA : xiA1 srt x (fun k => (k.val : ℝ)) = 1 / 8 := by
      unfold xiA1
      rw [absDiffSum_const _ (1 / 2) (fun k hk => by
        obtain rfl : k = 0 := by omega
        exact hd)]
      norm_num
    unfold xiStat
    rw [hA, hcu]
    norm_num [Fl.div, Fl.oneSub]
  · have hsort : Tuple.sort (xiFr (fun k : Fin 2 => (k.val : ℝ))) = 1 := by
      rw [← Equiv.Perm.one_def.symm, Tuple.sort_eq_refl_iff_monotone]
      intro a b h
      rw [hfr, hfr]
      have : (a.val : ℝ) ≤ b.val := by exact_mod_cast h
      linarith
    have hq : ∀ k : Fin 2, xiQfr (fun k : Fin 2 => (k.val : ℝ)) k = ((k.val : ℝ) + 1) / 2 := by
      intro k
      unfold xiQfr
      rw [hsort, Equiv.Perm.one_apply, hfr]
    have f0 : (univ.filter (· ≤ (0 : Fin 2))) = {0} := by decide
    have f1 : (univ.filter (· ≤ (1 : Fin 2))) = {0, 1} := by decide
    have hm0 : xiM (fun k : Fin 2 => (k.val : ℝ)) 0 = 1 / 2 := by
      unfold xiM
      rw [f0]
      simp only [hq, Finset.sum_singleton]
      norm_num
    have hm1 : xiM (fun k : Fin 2 => (k.val : ℝ)) 1 = 3 / 4 := by
      unfold xiM
      rw [f1]
      simp only [hq]
      norm_num
    unfold xiVar
    simp only [Fin.sum_univ_two, hm0, hm1, hcu, hq, xiInd2]
    norm_num [Fl.div]

/-- **C75 is false** for `xicor`: observations `[[0, 5], [1, 5]]` at level 0.05: an edge; with the two
columns exchanged the p-value is 0.5: no edge -/
theorem C75_false : ¬ C75_statement := by
  intro h
  let Φ : ℝ → ℝ := fun _ => 1 / 2
  let lib : TestLib ℝ 2 := ⟨id, fun _ _ => .nan, xicorTest (exSort ℝ) Φ⟩
  let s : Fin 2 → Fin 2 → ℝ := fun k i => if i = 0 then k.val else 5
  obtain ⟨u, p, h1, h2, h2'⟩ := C74_xicor_constant Φ (exSort ℝ) lib rfl s (le_refl 2) (1 / 20) (by norm_num)
    0 1 (by decide) (fun k l => rfl)
  let σ : Equiv.Perm (Fin 2) := Equiv.swap 0 1
  obtain ⟨u', p', h3, -, -, h5, -⟩ := (C48_pvalue_methods lib (fun k i => s k (σ i)) (1 / 20)).1 "xicor" _
    (Or.inr ⟨rfl, rfl⟩)
  have heq := h Φ (exSort ℝ) 2 2 lib s (1 / 20) "xicor" u u' (some p) (some p') σ rfl rfl (le_refl 2)
    (by norm_num) (by norm_num) (Or.inr rfl) h1 h3 0 1
  have hs0 : σ 0 = 1 := by simp [σ]
  have hs1 : σ 1 = 0 := by simp [σ]
  rw [hs0, hs1, h2'] at heq
  obtain ⟨h6, h7⟩ := h5 0 1 (by decide)
  rw [h7, h6] at heq
  have hcol : (fun k => s k (σ 1)) = fun k : Fin 2 => (k.val : ℝ) := by
    funext k; rw [hs1]; simp [s]
  rw [hcol] at heq
  have hp : lib.xicorTest (fun k => s k (σ 0)) (fun k : Fin 2 => (k.val : ℝ)) = .fin (1 / 2) := by
    show xicorTest (exSort ℝ) Φ (fun k => s k (σ 0)) (fun k : Fin 2 => (k.val : ℝ)) = Fl.fin (1 / 2)
    rw [xicorTest_eq _ _ _ _ (by decide)]
    obtain ⟨e1, e2⟩ := xi_two (exSort ℝ) (fun k => s k (σ 0))
    rw [e1, e2]
    norm_num [xiZ, Fl.div, upperTail, Φ]
  rw [hp] at heq
  norm_num [Fl.lt] at heq

/-- **C75, proved part**: the claim holds for `dcov_fast`, and for a pairwise test method whenever the
test is symmetric in its two columns.  Missing for the full claim: it is false for `xicor`
(`C75_false`). -/
theorem C75_column_order_partial {N M : Nat} (lib : TestLib ℝ N) (s : Fin N → Fin M → ℝ) (level : ℝ)
    (m : String) (u u' : Fin M → Fin M → Bool) (p p' : Option (Fin M → Fin M → Fl ℝ))
    (σ : Equiv.Perm (Fin M))
    (hm : m = "dcov_fast" ∨ (m = "dcov_big" ∧ ∀ x y, lib.dcorTest x y = lib.dcorTest y x) ∨
      (m = "xicor" ∧ ∀ x y, lib.xicorTest x y = lib.xicorTest y x))
    (h : estimateUDG lib s (.name m) level = .ok (u, p))
    (h' : estimateUDG lib (fun k i => s k (σ i)) (.name m) level = .ok (u', p')) :
    ∀ i j, u' i j = u (σ i) (σ j) := by
  have hpair : ∀ (test : (Fin N → ℝ) → (Fin N → ℝ) → Fl ℝ), (∀ x y, test x y = test y x) →
      ∀ i j, i ≠ j → pairPvals test (fun k i => s k (σ i)) i j = pairPvals test s (σ i) (σ j) := by
    intro test ht i j hij
    have : ∀ (s : Fin N → Fin M → ℝ) (a b : Fin M), a ≠ b →
        pairPvals test s a b = test (fun k => s k a) (fun k => s k b) := by
      intro s a b hab
      unfold pairPvals
      rcases lt_or_gt_of_ne hab with h | h
      · rw [if_pos h]
      · rw [if_neg (lt_asymm h), if_pos h, ht]
    rw [this _ i j hij, this s (σ i) (σ j) (fun hc => hij (σ.injective hc))]
  intro i j
  rcases hm with rfl | ⟨rfl, hsym⟩ | ⟨rfl, hsym⟩ <;>
    simp only [estimateUDG, if_true, Except.ok.injEq, Prod.mk.injEq,
      show ("dcov_big" = "dcov_fast") = False by simp, show ("dcov_big" = "g-test") = False by simp,
      show ("xicor" = "dcov_fast") = False by simp, show ("xicor" = "g-test") = False by simp,
      show ("xicor" = "dcov_big") = False by simp, if_false] at h h'
  · rw [← h.1, ← h'.1]
    unfold clearDiag
    simp only [σ.injective.eq_iff]
    rfl
  all_goals
    rw [← h.1, ← h'.1]
    unfold clearDiag
    simp only [σ.injective.eq_iff]
    by_cases hij : i = j
    · rw [if_pos hij, if_pos hij]
    · rw [if_neg hij, if_neg hij, hpair _ hsym i j hij]

end Medil

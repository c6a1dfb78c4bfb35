import Verif.Proofs.XiRange
import Verif.Props.Indep
/-
  C110-C112: range of the statistic and of the p-value of `xicorr`, with and without ties.
-/
namespace Medil
open Finset

theorem xicorr_ok (srt : ArgSort ℝ) (Φ : ℝ → ℝ) {n : Nat} (x y : Fin n → ℝ) (hn : 0 < n) (ties : Bool) :
    xicorr srt Φ (List.ofFn x) (List.ofFn y) ties = .ok (xiStat srt x y,
      upperTail Φ (xiZ n (xiStat srt x y) (if ties then xiVar y else .fin (2 / 5)))) := by
  have gen : ∀ (n : Nat) (a b : List ℝ) (hx : a.length = n) (hy : b.length = n) (hn : 0 < n),
      xicorr srt Φ a b ties =
          .ok (xiStat srt (fun i : Fin n => a[i.val]) (fun i : Fin n => b[i.val]),
            upperTail Φ (xiZ n (xiStat srt (fun i : Fin n => a[i.val]) (fun i : Fin n => b[i.val]))
              (if ties then xiVar (fun i : Fin n => b[i.val]) else .fin (2 / 5)))) := by
    intro n a b hx hy hn
    subst hx
    unfold xicorr
    rw [dif_neg (by simp [hy]), if_neg (by omega)]
    cases ties <;> rfl
  rw [gen n (List.ofFn x) (List.ofFn y) (by simp) (by simp) hn]
  simp

/-- **C111** for at least two observations, with or without ties, the statistic lies between -1/2 and 1 -/
theorem C111_xi_range {K : Type} [Field K] [LinearOrder K] [IsStrictOrderedRing K] {n : Nat} (srt : ArgSort K)
    (x y : Fin n → K) (hn : 2 ≤ n) : ∃ v, xiStat srt x y = .fin v ∧ -(1 / 2) ≤ v ∧ v ≤ 1 := by
  obtain ⟨hcu, v, hv, hv1⟩ := C52_xi_le_one srt x y hn
  refine ⟨v, hv, ?_, hv1⟩
  have hv' : v = 1 - xiA1 srt x y / xiCu y := by
    unfold xiStat Fl.div at hv
    rw [if_neg hcu.ne'] at hv
    simpa [Fl.oneSub] using hv.symm
  have h1 := xiA1_le srt x y hn
  have h2 := xiCu_ge y hn
  have h3 : xiA1 srt x y ≤ 3 / 2 * xiCu y := by
    refine h1.trans ?_
    have : ((n : K) ^ 2 - 1) / (4 * n ^ 2) = 3 / 2 * (((n : K) ^ 2 - 1) / (6 * n ^ 2)) := by
      have hn0 : (n : K) ≠ 0 := by exact_mod_cast (show n ≠ 0 by omega)
      field_simp; ring
    rw [this]
    linarith
  have h4 : xiA1 srt x y / xiCu y ≤ 3 / 2 := (div_le_iff₀ hcu).mpr h3
  rw [hv']
  linarith

-- the statistic is negative on a zigzag of three observations: -1/8
example : xiStat (exSort ℚ) (fun k : Fin 3 => (k.val : ℚ)) ![0, 2, 1] = .fin (-1 / 8) := by
  have hsort : (exSort ℚ).sort (rankAvg fun k : Fin 3 => (k.val : ℚ)) = 1 := by
    show Tuple.sort _ = 1
    rw [Tuple.sort_eq_refl_iff_monotone.mpr]
    · rfl
    · intro a b hab
      rw [rankAvg_strictMono _ (fun a b h => by exact_mod_cast h), rankAvg_strictMono _ (fun a b h => by exact_mod_cast h)]
      have : a.val ≤ b.val := hab
      have : (a.val : ℚ) ≤ b.val := by exact_mod_cast this
      linarith
  unfold xiStat xiA1
  rw [hsort]
  have h1 : (absDiffSum fun k => xiFr (![0, 2, 1] : Fin 3 → ℚ) ((1 : Equiv.Perm (Fin 3)) k)) / (2 * ((3 : ℕ) : ℚ)) = 1 / 6 := by
    decide +kernel
  have h2 : xiCu (![0, 2, 1] : Fin 3 → ℚ) = 4 / 27 := by decide +kernel
  rw [h1, h2]
  unfold Fl.div
  rw [if_neg (by norm_num)]
  show Fl.fin _ = _
  norm_num

/-- what `xicorr(x, y, ties)` returns: the statistic and the p-value, as numbers -/
def xicorrIs (srt : ArgSort ℝ) (Φ : ℝ → ℝ) {n : Nat} (x y : Fin n → ℝ) (ties : Bool) (xi p : ℝ) : Prop :=
  xicorr srt Φ (List.ofFn x) (List.ofFn y) ties = .ok (.fin xi, .fin p)

/-- **C110** for two or more observations `xicorr` returns numbers: the p-value lies between 0 and 1 -/
theorem C110_xicorr_pvalue (srt : ArgSort ℝ) (Φ : ℝ → ℝ) (hΦ : ∀ t, 0 ≤ Φ t ∧ Φ t ≤ 1) {n : Nat}
    (x y : Fin n → ℝ) (hn : 2 ≤ n) (ties : Bool) :
    ∃ xi p, xicorrIs srt Φ x y ties xi p ∧ 0 ≤ p ∧ p ≤ 1 := by
  obtain ⟨hcu, xi, hxi, -⟩ := C52_xi_le_one srt x y hn
  have hpos : 0 < Real.sqrt (n : ℝ) := Real.sqrt_pos.mpr (by exact_mod_cast (show 0 < n by omega))
  have main : ∀ v : ℝ, 0 ≤ v → (v = 0 → xi = 1) →
      ∃ p, upperTail Φ (xiZ n (.fin xi) (.fin v)) = .fin p ∧ 0 ≤ p ∧ p ≤ 1 := by
    intro v hv h0
    rw [show xiZ n (.fin xi) (.fin v) = Fl.div (Real.sqrt n * xi) (Real.sqrt v) by
      simp [xiZ, not_lt.mpr hv]]
    rcases hv.lt_or_eq with hv | hv
    · unfold Fl.div
      rw [if_neg (Real.sqrt_pos.mpr hv).ne']
      exact ⟨_, rfl, by linarith [(hΦ (Real.sqrt n * xi / Real.sqrt v)).2], by linarith [(hΦ (Real.sqrt n * xi / Real.sqrt v)).1]⟩
    · rw [← hv, h0 hv.symm]
      exact ⟨0, by simp [Fl.div, upperTail, hpos.ne', hpos], le_refl _, zero_le_one⟩
  unfold xicorrIs
  rw [xicorr_ok srt Φ x y (by omega), hxi]
  cases ties
  · obtain ⟨p, h1, h2, h3⟩ := main (2 / 5) (by norm_num) (by norm_num)
    exact ⟨xi, p, by simp [h1], h2, h3⟩
  · obtain ⟨v, hv, hv0, hvc⟩ := xiVar_pos y hn
    obtain ⟨p, h1, h2, h3⟩ := main v hv0 fun h => by
      have := (xi_const srt x y hn (hvc.mp h)).1
      rw [hxi] at this
      simpa using this
    exact ⟨xi, p, by simp [hv, h1], h2, h3⟩

/-- **C112** without ties in `y`, `ties=True` divides by the standard deviation `(2n²+7)/(5(n²-1))` instead of
`2/5` (under the square root), which is larger: it gives the same statistic and a p-value at least as large when the statistic is
not negative -/
theorem C112_ties_conservative (srt : ArgSort ℝ) (Φ : ℝ → ℝ) (hΦ : Monotone Φ) {n : Nat} (x y : Fin n → ℝ) (hn : 2 ≤ n)
    (hy : Function.Injective y) :
    ∃ xi p q, xicorrIs srt Φ x y true xi p ∧ xicorrIs srt Φ x y false xi q ∧
      p = 1 - Φ (Real.sqrt n * xi / Real.sqrt ((2 * n ^ 2 + 7) / (5 * (n ^ 2 - 1)))) ∧
      q = 1 - Φ (Real.sqrt n * xi / Real.sqrt (2 / 5)) ∧
      (0 ≤ xi → q ≤ p) ∧ (xi ≤ 0 → p ≤ q) := by
  obtain ⟨hcu, xi, hxi, -⟩ := C52_xi_le_one srt x y hn
  have hn2 : (2 : ℝ) ≤ n := by exact_mod_cast hn
  have hd : 0 < 5 * ((n : ℝ) ^ 2 - 1) := by nlinarith
  have hv : (2 : ℝ) / 5 < (2 * n ^ 2 + 7) / (5 * (n ^ 2 - 1)) := by
    rw [lt_div_iff₀ hd]; linarith
  have hv1 : (0 : ℝ) < (2 * n ^ 2 + 7) / (5 * (n ^ 2 - 1)) := by linarith
  have hs1 : 0 < Real.sqrt (2 / 5) := Real.sqrt_pos.mpr (by norm_num)
  have hs2 : 0 < Real.sqrt ((2 * (n : ℝ) ^ 2 + 7) / (5 * (n ^ 2 - 1))) := Real.sqrt_pos.mpr hv1
  have hs : Real.sqrt (2 / 5) ≤ Real.sqrt ((2 * (n : ℝ) ^ 2 + 7) / (5 * (n ^ 2 - 1))) := Real.sqrt_le_sqrt hv.le
  refine ⟨xi, _, _, ?_, ?_, rfl, rfl, ?_, ?_⟩
  · unfold xicorrIs
    rw [xicorr_ok srt Φ x y (by omega), hxi, if_pos rfl, xiVar_inj y hn hy]
    simp [xiZ, not_lt.mpr hv1.le, Fl.div, hs2.ne', upperTail]
  · unfold xicorrIs
    rw [xicorr_ok srt Φ x y (by omega), hxi]
    have : ¬ ((2 : ℝ) / 5 < 0) := by norm_num
    simp [xiZ, this, Fl.div, upperTail]
  · intro h0
    have : Real.sqrt n * xi / Real.sqrt ((2 * (n : ℝ) ^ 2 + 7) / (5 * (n ^ 2 - 1))) ≤ Real.sqrt n * xi / Real.sqrt (2 / 5) :=
      div_le_div_of_nonneg_left (mul_nonneg (Real.sqrt_nonneg _) h0) hs1 hs
    linarith [hΦ this]
  · intro h0
    have h1 : Real.sqrt n * (-xi) / Real.sqrt ((2 * (n : ℝ) ^ 2 + 7) / (5 * (n ^ 2 - 1))) ≤ Real.sqrt n * (-xi) / Real.sqrt (2 / 5) :=
      div_le_div_of_nonneg_left (mul_nonneg (Real.sqrt_nonneg _) (by linarith)) hs1 hs
    rw [mul_neg, neg_div, neg_div] at h1
    linarith [hΦ (neg_le_neg_iff.mp h1)]

/-- the docstring of `xicorr` says that there is no harm in `ties=True` when there are no ties; the stronger reading, that the
returned p-value is then the same, fails for every strictly increasing distribution function: three increasing observations -/
theorem C112_not_equal (srt : ArgSort ℝ) (Φ : ℝ → ℝ) (hΦ : StrictMono Φ) :
    ∃ (x y : Fin 3 → ℝ) (xi p q : ℝ), Function.Injective y ∧
      xicorrIs srt Φ x y true xi p ∧ xicorrIs srt Φ x y false xi q ∧ q < p := by
  have hx : StrictMono fun k : Fin 3 => (k.val : ℝ) := fun a b h => by
    show (a.val : ℝ) < b.val
    exact_mod_cast h
  have hxi := C53_xi_monotone srt (fun k : Fin 3 => (k.val : ℝ)) (fun k : Fin 3 => (k.val : ℝ)) (by norm_num) hx.injective
    (Or.inl fun i j h => h)
  obtain ⟨xi, p, q, h1, h2, h3, h4, -⟩ := C112_ties_conservative srt Φ hΦ.monotone (fun k : Fin 3 => (k.val : ℝ))
    (fun k : Fin 3 => (k.val : ℝ)) (by norm_num) hx.injective
  refine ⟨_, _, xi, p, q, hx.injective, h1, h2, ?_⟩
  have hxi' : xi = 1 / 4 := by
    unfold xicorrIs at h1
    rw [xicorr_ok _ _ _ _ (by norm_num), hxi] at h1
    simp only [Except.ok.injEq, Prod.mk.injEq, Fl.fin.injEq] at h1
    rw [← h1.1]; norm_num
  rw [h3, h4, hxi']
  have ha : 0 < Real.sqrt (2 / 5) := Real.sqrt_pos.mpr (by norm_num)
  have hb : Real.sqrt (2 / 5) < Real.sqrt ((2 * ((3 : ℕ) : ℝ) ^ 2 + 7) / (5 * (((3 : ℕ) : ℝ) ^ 2 - 1))) :=
    Real.sqrt_lt_sqrt (by norm_num) (by norm_num)
  have hc : 0 < Real.sqrt ((3 : ℕ) : ℝ) * (1 / 4) := mul_pos (Real.sqrt_pos.mpr (by norm_num)) (by norm_num)
  linarith [hΦ (div_lt_div_of_pos_left hc ha hb)]

/-- **C52** on the value of `xicorr`: for two or more observations, with either setting of `ties`, the statistic is a number and at most 1, and
the denominator, the mean of `g(1-g)` for the fraction `g` of observations with larger `y` (those with equal `y` counted half, the
observation itself once), is positive -/
theorem C52_xicorr (srt : ArgSort ℝ) (Φ : ℝ → ℝ) {n : Nat} (x y : Fin n → ℝ) (hn : 2 ≤ n) (ties : Bool) :
    (∃ (v : ℝ) (p : Fl ℝ), xicorr srt Φ (List.ofFn x) (List.ofFn y) ties = .ok (.fin v, p) ∧ v ≤ 1) ∧
    ∀ g : Fin n → ℝ, (∀ i, g i = (((univ.filter fun j => y i < y j).card : ℝ) + (((univ.filter fun j => y j = y i).card : ℝ) + 1) / 2) / n) →
      0 < (∑ i, g i * (1 - g i)) / n := by
  obtain ⟨hcu, v, hv, hv1⟩ := C52_xi_le_one srt x y hn
  refine ⟨⟨v, _, by rw [xicorr_ok srt Φ x y (by omega), hv], hv1⟩, fun g hg => ?_⟩
  have : g = xiGr y := by
    funext i
    rw [hg]
    simp [xiGr, rankAvg]
  rw [this]
  exact hcu

/-- **C53** on the value of `xicorr` -/
theorem C53_xicorr (srt : ArgSort ℝ) (Φ : ℝ → ℝ) {n : Nat} (x y : Fin n → ℝ) (hn : 2 ≤ n) (hx : Function.Injective x)
    (h : (∀ i j, x i < x j → y i < y j) ∨ (∀ i j, x i < x j → y j < y i)) (ties : Bool) :
    ∃ p, xicorr srt Φ (List.ofFn x) (List.ofFn y) ties = .ok (.fin (((n : ℝ) - 2) / (n + 1)), p) :=
  ⟨_, by rw [xicorr_ok srt Φ x y (by omega), C53_xi_monotone srt x y hn hx h]⟩

/-- **C111** on the value of `xicorr` -/
theorem C111_xicorr (srt : ArgSort ℝ) (Φ : ℝ → ℝ) {n : Nat} (x y : Fin n → ℝ) (hn : 2 ≤ n) (ties : Bool) :
    ∃ (v : ℝ) (p : Fl ℝ), xicorr srt Φ (List.ofFn x) (List.ofFn y) ties = .ok (.fin v, p) ∧ -(1 / 2) ≤ v ∧ v ≤ 1 := by
  obtain ⟨v, hv, h1, h2⟩ := C111_xi_range srt x y hn
  exact ⟨v, _, by rw [xicorr_ok srt Φ x y (by omega), hv], h1, h2⟩

end Medil

import Verif.Spec.RoundedXi
import Verif.Proofs.Rounded
import Verif.Proofs.XiVar
/-
  Along a sequence of ever more accurate arithmetics the p-values of `xicorr` converge to the exact ones, if the second column is not constant.
-/
namespace Medil
namespace FloatXiLib
open Filter Topology FloatLib

/-- ever more accurate arithmetics -/
structure SeqXi (srt : ArgSort ℝ) (Φ : ℝ → ℝ) where
  a : ℕ → FloatXiLib
  acc : ∀ k, AccurateXi (a k) srt Φ (1 / (k + 1))

variable {srt : ArgSort ℝ} {Φ : ℝ → ℝ} {n : Nat}

/-- the operations without ranks, sorting and `norm.cdf` -/
def SeqXi.base (A : SeqXi srt Φ) : Seq := ⟨fun k => (A.a k).toFloatLib, fun k => (A.acc k).base⟩

variable {A : SeqXi srt Φ} {x y : ∀ k, Fin n → (A.a k).F} {X Y : Fin n → ℝ}

/-- ranks are exact -/
theorem rank_exact (hx : ∀ k r, (A.a k).val (x k r) = some (X r)) :
    ∀ᶠ k in atTop, ∀ i, (A.a k).val ((A.a k).rank (x k) i) = some (rankAvg X i) := by
  have h1 : ∀ᶠ k : ℕ in atTop, ((3 * n + 1 : ℕ) : ℝ) ≤ k := (tendsto_natCast_atTop_atTop (R := ℝ)).eventually_ge_atTop _
  filter_upwards [h1] with k hk i
  have hlt : ∀ p q, (A.a k).lt (x k p) (x k q) = decide (X p < X q) := fun p q => (A.acc k).base.lt _ _ _ _ (hx k p) (hx k q)
  have e1 : (Finset.univ.filter fun j => (A.a k).lt (x k j) (x k i) = true) = Finset.univ.filter fun j => X j < X i := by
    ext j; simp [hlt]
  have e2 : (Finset.univ.filter fun j => (A.a k).lt (x k j) (x k i) = false ∧ (A.a k).lt (x k i) (x k j) = false) =
      Finset.univ.filter fun j => X j = X i := by
    ext j; simp only [hlt, Finset.mem_filter, Finset.mem_univ, true_and, decide_eq_false_iff_not, not_lt]
    exact ⟨fun h => le_antisymm h.2 h.1, fun h => ⟨h.ge, h.le⟩⟩
  unfold rank
  rw [if_neg (by
    rintro ⟨j, hj⟩
    rw [(A.acc k).notNan _ _ (hx k j)] at hj
    cases hj), e1, e2]
  have c1 : (Finset.univ.filter fun j => X j < X i).card ≤ n := (Finset.card_le_univ _).trans (by simp)
  have c2 : (Finset.univ.filter fun j => X j = X i).card ≤ n := (Finset.card_le_univ _).trans (by simp)
  rw [(A.acc k).half]
  · congr 1
    unfold rankAvg
    push_cast
    ring
  · rw [one_div_one_div]
    have : ((2 * (Finset.univ.filter fun j => X j < X i).card + (Finset.univ.filter fun j => X j = X i).card + 1 : ℕ) : ℝ) ≤
      ((3 * n + 1 : ℕ) : ℝ) := by exact_mod_cast (by omega)
    linarith

theorem conv_rank (hx : ∀ k r, (A.a k).val (x k r) = some (X r)) (i : Fin n) :
    Conv A.base (fun k => (A.a k).rank (x k) i) (rankAvg X i) :=
  ⟨fun _ => rankAvg X i, (rank_exact hx).mono fun _ h => h i, tendsto_const_nhds⟩

theorem conv_fr (hn : 0 < n) (hy : ∀ k r, (A.a k).val (y k r) = some (Y r)) (i : Fin n) :
    Conv A.base (fun k => (A.a k).fr (y k) i) (xiFr Y i) :=
  (conv_rank hy i).div (conv_ofNat n) (by exact_mod_cast hn.ne')

theorem conv_gr (hn : 0 < n) (hy : ∀ k r, (A.a k).val (y k r) = some (Y r)) (i : Fin n) :
    Conv A.base (fun k => (A.a k).gr (y k) i) (xiGr Y i) :=
  (conv_rank (x := fun k r => (A.a k).neg (y k r)) (fun k r => (A.acc k).base.neg _ _ (hy k r)) i).div (conv_ofNat n) (by exact_mod_cast hn.ne')

theorem conv_mean (hn : 0 < n) (site : Nat) {f : ∀ k, Fin n → (A.a k).F} {z : Fin n → ℝ}
    (h : ∀ i, Conv A.base (fun k => f k i) (z i)) : Conv A.base (fun k => (A.a k).mean site (f k)) ((∑ i, z i) / n) :=
  (Conv.sum [site] h).div (conv_ofNat n) (by exact_mod_cast hn.ne')

theorem conv_one : Conv A.base (fun k => (A.a k).ofNat 1) 1 := by
  have := conv_ofNat (A := A.base) 1
  rw [Nat.cast_one] at this
  exact this

theorem conv_cu (hn : 0 < n) (hy : ∀ k r, (A.a k).val (y k r) = some (Y r)) : Conv A.base (fun k => (A.a k).cu (y k)) (xiCu Y) :=
  conv_mean hn 6 fun i => (conv_gr hn hy i).mul (conv_one.sub (conv_gr hn hy i))

theorem absDiffSum_eq (f : Fin n → ℝ) :
    absDiffSum f = ∑ k : Fin (n - 1), |f ⟨k.val + 1, by have := k.isLt; omega⟩ - f ⟨k.val, by have := k.isLt; omega⟩| := by
  unfold absDiffSum
  rw [Finset.sum_range]
  refine Finset.sum_congr rfl fun k _ => ?_
  rw [dif_pos (by have := k.isLt; omega)]

theorem conv_congr {A : Seq} {x x' : ∀ k, (A.a k).F} {r : ℝ} (h : ∀ᶠ k in atTop, x k = x' k) (hx : Conv A x' r) : Conv A x r := by
  obtain ⟨z, hz, ht⟩ := hx
  exact ⟨z, by filter_upwards [h, hz] with k h1 h2; rw [h1, h2], ht⟩

theorem conv_A1 (hn : 0 < n) (hx : ∀ k r, (A.a k).val (x k r) = some (X r)) (hy : ∀ k r, (A.a k).val (y k r) = some (Y r)) :
    Conv A.base (fun k => (A.a k).A1 (x k) (y k)) (xiA1 srt X Y) := by
  have h := (Conv.sum (A := A.base) [7] fun i : Fin (n - 1) =>
    ((conv_fr (A := A) hn hy (srt.sort (rankAvg X) ⟨i.val + 1, by have := i.isLt; omega⟩)).sub
      (conv_fr hn hy (srt.sort (rankAvg X) ⟨i.val, by have := i.isLt; omega⟩))).abs).div (conv_ofNat (2 * n))
        (by exact_mod_cast (by omega : 2 * n ≠ 0))
  have e : xiA1 srt X Y = (∑ k : Fin (n - 1), |xiFr Y (srt.sort (rankAvg X) ⟨k.val + 1, by have := k.isLt; omega⟩) -
      xiFr Y (srt.sort (rankAvg X) ⟨k.val, by have := k.isLt; omega⟩)|) / ((2 * n : ℕ) : ℝ) := by
    unfold xiA1
    rw [absDiffSum_eq]
    push_cast
    rfl
  rw [e]
  refine conv_congr ?_ h
  filter_upwards [rank_exact hx] with k hk
  unfold A1
  rw [(A.acc k).argsort _ _ hk]
  rfl

theorem conv_xi (hn : 2 ≤ n) (hx : ∀ k r, (A.a k).val (x k r) = some (X r)) (hy : ∀ k r, (A.a k).val (y k r) = some (Y r)) :
    Conv A.base (fun k => (A.a k).xi (x k) (y k)) (1 - xiA1 srt X Y / xiCu Y) :=
  conv_one.sub ((conv_A1 (by omega) hx hy).div (conv_cu (by omega) hy) (xiCu_pos Y hn).ne')

/-- sorting is continuous -/
theorem sort_tendsto (u : ℕ → Fin n → ℝ) (w : Fin n → ℝ) (hu : ∀ i, Tendsto (fun k => u k i) atTop (𝓝 (w i)))
    (σ : ℕ → Equiv.Perm (Fin n)) (hσ : ∀ᶠ k in atTop, Monotone fun p => u k (σ k p)) (p : Fin n) :
    Tendsto (fun k => u k (σ k p)) atTop (𝓝 (w (Tuple.sort w p))) := by
  have h1 : ∀ᶠ k in atTop, ∀ i j, w i < w j → u k i < u k j := by
    refine eventually_all.mpr fun i => eventually_all.mpr fun j => ?_
    by_cases h : w i < w j
    · exact ((hu i).eventually_lt (hu j) h).mono fun k hk _ => hk
    · exact Eventually.of_forall fun k hk => absurd hk h
  have h2 : ∀ᶠ k in atTop, w (σ k p) = w (Tuple.sort w p) := by
    filter_upwards [h1, hσ] with k h1 h2
    have hm : Monotone (w ∘ σ k) := by
      intro p q hpq
      by_contra hcon
      exact absurd (h2 hpq) (not_le.mpr (h1 _ _ (not_le.mp hcon)))
    exact congrFun (Tuple.comp_sort_eq_comp_iff_monotone.mpr hm) p
  have h3 : Tendsto (fun k => ∑ i, |u k i - w i|) atTop (𝓝 0) := by
    have : Tendsto (fun k => ∑ i, |u k i - w i|) atTop (𝓝 (∑ i : Fin n, |w i - w i|)) :=
      tendsto_finsetSum _ fun i _ => ((hu i).sub_const _).abs
    simpa using this
  rw [tendsto_iff_dist_tendsto_zero]
  refine squeeze_zero' (Eventually.of_forall fun k => dist_nonneg) ?_ h3
  filter_upwards [h2] with k hk
  rw [← hk, Real.dist_eq]
  exact Finset.single_le_sum (f := fun i => |u k i - w i|) (fun i _ => abs_nonneg _) (Finset.mem_univ _)

theorem conv_qfr (hn : 0 < n) (hy : ∀ k r, (A.a k).val (y k r) = some (Y r)) (i : Fin n) :
    Conv A.base (fun k => (A.a k).qfr (y k) i) (xiQfr Y i) := by
  choose u hu htu using fun i => conv_fr (A := A) hn hy i
  have hall := eventually_all.mpr hu
  refine ⟨fun k => u ((A.a k).sort ((A.a k).fr (y k)) i) k, ?_, ?_⟩
  · filter_upwards [hall] with k hk
    exact hk _
  · refine sort_tendsto (fun k i => u i k) (xiFr Y) htu (fun k => (A.a k).sort ((A.a k).fr (y k))) ?_ i
    filter_upwards [hall] with k hk
    exact (A.acc k).sort _ _ hk

theorem conv_cumsum {q : ∀ k, Fin n → (A.a k).F} {z : Fin n → ℝ} (h : ∀ i, Conv A.base (fun k => q k i) (z i)) :
    ∀ (i : Nat) (hi : i < n), Conv A.base (fun k => (A.a k).cumsum (q k) i hi) (∑ j ∈ Finset.univ.filter (· ≤ (⟨i, hi⟩ : Fin n)), z j)
  | 0, hi => by
    have e : (Finset.univ.filter (· ≤ (⟨0, hi⟩ : Fin n))) = {⟨0, hi⟩} := by
      ext j; simp [Fin.le_def, Fin.ext_iff]
    rw [e, Finset.sum_singleton]
    exact h _
  | i + 1, hi => by
    have e : (Finset.univ.filter (· ≤ (⟨i + 1, hi⟩ : Fin n))) =
        insert ⟨i + 1, hi⟩ (Finset.univ.filter (· ≤ (⟨i, by omega⟩ : Fin n))) := by
      ext j; simp [Fin.le_def, Fin.ext_iff]; omega
    rw [e, Finset.sum_insert (by simp), add_comm (z _)]
    exact (conv_cumsum h i (by omega)).add (h ⟨i + 1, hi⟩)

theorem conv_m (hn : 0 < n) (hy : ∀ k r, (A.a k).val (y k r) = some (Y r)) (i : Fin n) :
    Conv A.base (fun k => (A.a k).m (y k) i) (xiM Y i) := by
  have h := ((conv_cumsum (A := A) (fun i => conv_qfr hn hy i) i i.isLt).add
    ((conv_ofNat (n - (i.val + 1))).mul (conv_qfr hn hy i))).div (conv_ofNat n) (by exact_mod_cast hn.ne')
  rw [Nat.cast_sub (by have := i.isLt; omega)] at h
  unfold xiM
  push_cast at h
  exact h

theorem conv_ind2 (i : Fin n) : Conv A.base (fun k => (A.a k).ind2 i) (xiInd2 i) := by
  have h := conv_ofNat (A := A.base) (2 * n - 2 * (i.val + 1) + 1)
  have e : (xiInd2 i : ℝ) = ((2 * n - 2 * (i.val + 1) + 1 : ℕ) : ℝ) := by
    unfold xiInd2
    rw [Nat.cast_add, Nat.cast_sub (by have := i.isLt; omega)]
    push_cast; ring
  rw [e]; exact h

/-- the variance estimate converges -/
theorem conv_v (hn : 2 ≤ n) (hy : ∀ k r, (A.a k).val (y k r) = some (Y r)) {v : ℝ} (hv : xiVar Y = .fin v) :
    Conv A.base (fun k => (A.a k).v (y k)) v := by
  have hn0 : 0 < n := by omega
  have hnn : ((n : ℕ) : ℝ) ≠ 0 := by exact_mod_cast hn0.ne'
  have hcu := xiCu_pos Y hn
  have hq := fun i => conv_qfr (A := A) hn0 hy i
  have ha := (conv_mean (A := A) hn0 8 fun i => ((conv_ind2 i).mul (hq i)).mul (hq i)).div (conv_ofNat n) hnn
  have hc := (conv_mean (A := A) hn0 9 fun i => (conv_ind2 i).mul (hq i)).div (conv_ofNat n) hnn
  have hb := conv_mean (A := A) hn0 10 fun i => (conv_m hn0 hy i).mul (conv_m hn0 hy i)
  have h := ((ha.sub ((conv_ofNat 2).mul hb)).add (hc.mul hc)).div ((conv_cu hn0 hy).mul (conv_cu hn0 hy)) (mul_pos hcu hcu).ne'
  unfold xiVar Fl.div at hv
  simp only [if_neg (pow_ne_zero 2 hcu.ne'), Fl.fin.injEq] at hv
  rw [← hv]
  simp only [sq]
  push_cast at h
  exact h

/-- the p-values converge -/
theorem conv_pvalue (hΦ : Continuous Φ) (hn : 2 ≤ n) (hx : ∀ k r, (A.a k).val (x k r) = some (X r))
    (hy : ∀ k r, (A.a k).val (y k r) = some (Y r)) {v : ℝ} (hv : xiVar Y = .fin v) (h0 : 0 < v) :
    Conv A.base (fun k => (A.a k).pvalue (x k) (y k)) (1 - Φ (Real.sqrt n * (1 - xiA1 srt X Y / xiCu Y) / Real.sqrt v)) := by
  have hnn : (0 : ℝ) < (n : ℕ) := by exact_mod_cast (by omega : 0 < n)
  obtain ⟨u, hu, htu⟩ := (((conv_ofNat (A := A.base) n).sqrt hnn).mul (conv_xi hn hx hy)).div ((conv_v hn hy hv).sqrt h0)
    (Real.sqrt_pos.mpr h0).ne'
  refine conv_one.sub ?_
  refine conv_of_near (r := fun k => Φ (u k)) (b := fun _ => 1) ((hΦ.tendsto _).comp htu) tendsto_const_nhds ?_
  filter_upwards [hu] with k hk
  obtain ⟨z, hz, hle⟩ := (A.acc k).cdf _ _ hk
  exact ⟨z, hz, by rw [mul_one]; exact hle⟩

end FloatXiLib
end Medil

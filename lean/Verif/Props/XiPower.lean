import Verif.Props.XiNull
/-
  C172: `xicor` finds piecewise monotone relations.
-/
namespace Medil
open Finset Filter Topology
variable {n M : Nat}

/-- `f` is increasing or decreasing on each of `k` successive pieces of the line -/
def PiecewiseMono (k : ℕ) (f : ℝ → ℝ) : Prop :=
  ∃ c : ℝ → Fin k, Monotone c ∧ ∀ p, MonotoneOn f {t | c t = p} ∨ AntitoneOn f {t | c t = p}

theorem rankD_mono (y : Fin n → ℝ) {i j : Fin n} (h : y i ≤ y j) : rankD y i ≤ rankD y j := by
  by_contra hc
  exact absurd (rankD_lt y (not_le.mp hc)) (not_lt.mpr h)

theorem rankD_le_pred (y : Fin n → ℝ) (i : Fin n) : |(rankD y i : ℝ)| ≤ (n : ℝ) - 1 := by
  have : |rankD y i| ≤ (n : ℤ) - 1 := by
    unfold rankD
    refine (abs_sum_le_sum_abs _ _).trans ?_
    calc ∑ j, |(if y j < y i then 1 else if y i < y j then -1 else 0 : ℤ)| ≤ ∑ j : Fin n, (1 - if j = i then (1 : ℤ) else 0) := by
          refine sum_le_sum fun j _ => ?_
          by_cases hj : j = i
          · subst hj; simp
          · rw [if_neg hj]
            split_ifs <;> simp
      _ = n - 1 := by simp
  exact_mod_cast this

/-- a bounded sequence that is monotone on each of `k` successive pieces has a small total variation -/
theorem absDiffSum_pieces (k : ℕ) (g : Fin n → ℝ) (R : ℝ) (hR : ∀ t, |g t| ≤ R) (p : Fin n → Fin k) (hp : Monotone p) (sg : Fin k → ℝ)
    (hsg : ∀ q, |sg q| = 1) (hg : ∀ a b, a ≤ b → p a = p b → 0 ≤ sg (p a) * (g b - g a)) (hn : 0 < n) :
    absDiffSum g ≤ 2 * R * (2 * k - 1) := by
  obtain ⟨Ψ, hΨ⟩ : ∃ Ψ : ℕ → ℝ, Ψ = fun t => if h : t < n then 4 * R * (p ⟨t, h⟩).val + sg (p ⟨t, h⟩) * g ⟨t, h⟩ else 0 := ⟨_, rfl⟩
  have hR0 : 0 ≤ R := (abs_nonneg _).trans (hR ⟨0, hn⟩)
  have hsb : ∀ t, |sg (p t) * g t| ≤ R := fun t => by rw [abs_mul, hsg, one_mul]; exact hR t
  have hstep : ∀ t ∈ range (n - 1), (if h : t + 1 < n then |g ⟨t + 1, h⟩ - g ⟨t, by omega⟩| else 0) ≤ Ψ (t + 1) - Ψ t := by
    intro t ht
    have h : t + 1 < n := by have := mem_range.mp ht; omega
    have h' : t < n := by omega
    rw [dif_pos h, hΨ]
    dsimp only
    rw [dif_pos h, dif_pos h']
    have hle : (⟨t, h'⟩ : Fin n) ≤ ⟨t + 1, h⟩ := by simp
    rcases (hp hle).eq_or_lt with e | e
    · have h1 := hg _ _ hle e
      rw [← e]
      have : |g ⟨t + 1, h⟩ - g ⟨t, h'⟩| = |sg (p ⟨t, h'⟩) * (g ⟨t + 1, h⟩ - g ⟨t, h'⟩)| := by rw [abs_mul, hsg, one_mul]
      rw [this, abs_of_nonneg h1]
      linarith
    · have h1 := abs_le.mp (hsb ⟨t, h'⟩)
      have h2 := abs_le.mp (hsb ⟨t + 1, h⟩)
      have h3 : ((p ⟨t, h'⟩).val : ℝ) + 1 ≤ (p ⟨t + 1, h⟩).val := by exact_mod_cast e
      have h4 : |g ⟨t + 1, h⟩ - g ⟨t, h'⟩| ≤ 2 * R := (abs_sub _ _).trans (by linarith [hR ⟨t + 1, h⟩, hR ⟨t, h'⟩])
      have h5 := mul_le_mul_of_nonneg_left h3 (show 0 ≤ 4 * R by linarith)
      linarith
  have hlast : n - 1 < n := by omega
  unfold absDiffSum
  refine (sum_le_sum hstep).trans ?_
  rw [sum_range_sub, hΨ]
  dsimp only
  rw [dif_pos hlast, dif_pos hn]
  have h1 := abs_le.mp (hsb ⟨0, hn⟩)
  have h2 := abs_le.mp (hsb ⟨n - 1, hlast⟩)
  have h3 : ((p ⟨n - 1, hlast⟩).val : ℝ) + 1 ≤ k := by exact_mod_cast (p ⟨n - 1, hlast⟩).isLt
  have h4 : (0 : ℝ) ≤ (p ⟨0, hn⟩).val := by positivity
  have h5 := mul_le_mul_of_nonneg_left h3 (show 0 ≤ 4 * R by linarith)
  have h6 := mul_nonneg (show 0 ≤ 4 * R by linarith) h4
  linarith

/-- the statistic of a piecewise monotone relation -/
theorem xiVal_pieces (srt : ArgSort ℝ) (k : ℕ) (f : ℝ → ℝ) (hf : PiecewiseMono k f) (x : Fin n → ℝ) (hn : 2 ≤ n) :
    1 - 3 * (2 * k - 1) / ((n : ℝ) + 1) ≤ xiVal srt x fun r => f (x r) := by
  have hn2 : (2 : ℝ) ≤ n := by exact_mod_cast hn
  obtain ⟨c, hc, hpc⟩ := hf
  have hxs : Monotone fun t => x (srt.sort (rankAvg x) t) := by
    intro a b hab
    have := srt.sorted (rankAvg x) hab
    by_contra hcon
    exact absurd (rankAvg_lt (not_le.mp hcon)) (not_lt.mpr this)
  have hv := xiVal_perm srt x (fun r => f (x r)) 1 (by omega)
  simp only [Equiv.Perm.coe_one, id_eq] at hv
  rw [hv]
  obtain ⟨g, hg⟩ : ∃ g : Fin n → ℝ, g = fun t => (rankD (fun r => f (x r)) (srt.sort (rankAvg x) t) : ℝ) := ⟨_, rfl⟩
  rw [← hg]
  classical
  have hsum := absDiffSum_pieces k g ((n : ℝ) - 1) (fun t => by rw [hg]; exact rankD_le_pred _ _) (fun t => c (x (srt.sort (rankAvg x) t)))
    (hc.comp hxs) (fun q => if MonotoneOn f {t | c t = q} then 1 else -1) (fun q => by split_ifs <;> simp) ?_ (by omega)
  swap
  · intro a b hab hcab
    have hx := hxs hab
    dsimp only at hx
    by_cases hm : MonotoneOn f {t | c t = c (x (srt.sort (rankAvg x) a))}
    · rw [if_pos hm, one_mul, hg]
      have := hm (by simp) (by simpa using hcab.symm) hx
      have : (rankD (fun r => f (x r)) (srt.sort (rankAvg x) a) : ℝ) ≤ rankD (fun r => f (x r)) (srt.sort (rankAvg x) b) := by
        exact_mod_cast rankD_mono (fun r => f (x r)) this
      dsimp only
      linarith
    · rw [if_neg hm, hg]
      have ha := (hpc (c (x (srt.sort (rankAvg x) a)))).resolve_left hm
      have := ha (by simp) (by simpa using hcab.symm) hx
      have : (rankD (fun r => f (x r)) (srt.sort (rankAvg x) b) : ℝ) ≤ rankD (fun r => f (x r)) (srt.sort (rankAvg x) a) := by
        exact_mod_cast rankD_mono (fun r => f (x r)) this
      dsimp only
      linarith
  have hcu := xiCu_ge (fun r => f (x r)) hn
  have hn1 : (0 : ℝ) < (n : ℝ) ^ 2 - 1 := by nlinarith
  have hcu' : 2 * ((n : ℝ) ^ 2 - 1) / 3 ≤ 4 * n ^ 2 * xiCu fun r => f (x r) := by
    rw [div_le_iff₀ (by positivity)] at hcu
    linarith
  have hpos : (0 : ℝ) < 2 * ((n : ℝ) ^ 2 - 1) / 3 := by positivity
  have hA : 0 ≤ absDiffSum g := by
    unfold absDiffSum
    refine sum_nonneg fun t _ => ?_
    split <;> positivity
  have h1 : 1 / (4 * (n : ℝ) ^ 2 * xiCu fun r => f (x r)) * absDiffSum g ≤ 1 / (2 * ((n : ℝ) ^ 2 - 1) / 3) * (2 * ((n : ℝ) - 1) * (2 * k - 1)) :=
    mul_le_mul (one_div_le_one_div_of_le hpos hcu') hsum hA (by positivity)
  have h2 : 1 / (2 * ((n : ℝ) ^ 2 - 1) / 3) * (2 * ((n : ℝ) - 1) * (2 * k - 1)) = 3 * (2 * k - 1) / ((n : ℝ) + 1) := by
    have a : (n : ℝ) - 1 ≠ 0 := by linarith
    have b : (n : ℝ) + 1 ≠ 0 := by linarith
    rw [show (n : ℝ) ^ 2 - 1 = (n - 1) * (n + 1) by ring]
    field_simp
  linarith

/-- **C172** If `y` is a function of `x` that is monotone on each of `k` pieces, the statistic of `xicorr(x, y)` is at least
`1 - 3(2k-1)/(n+1)`. -/
theorem C172_xi_piecewise (srt : ArgSort ℝ) (Φ : ℝ → ℝ) (hΦ : ∀ t, 0 ≤ Φ t ∧ Φ t ≤ 1) (k : ℕ) (f : ℝ → ℝ) (hf : PiecewiseMono k f)
    (x : Fin n → ℝ) (hn : 2 ≤ n) (ties : Bool) :
    ∃ xi p, xicorrIs srt Φ x (fun r => f (x r)) ties xi p ∧ 1 - 3 * (2 * k - 1) / ((n : ℝ) + 1) ≤ xi := by
  obtain ⟨xi, p, h, -⟩ := C110_xicorr_pvalue srt Φ hΦ x (fun r => f (x r)) hn ties
  refine ⟨xiVal srt x fun r => f (x r), p, ?_, xiVal_pieces srt k f hf x hn⟩
  unfold xicorrIs at h ⊢
  rw [xicorr_ok srt Φ _ _ (by omega), xiStat_val srt _ _ hn] at h ⊢
  injection h with h
  have := (Prod.ext_iff.mp h).2
  dsimp only at this
  rw [this]

/-- **C172** From a number of rows on that depends only on the level and the number of pieces, `estimate_UDG(sample, "xicor")` joins two columns when
the later one is a piecewise monotone function of the earlier one. -/
theorem C172_xicor_edge (Φ : ℝ → ℝ) (hΦ : Tendsto Φ atTop (𝓝 1)) (level : ℝ) (hl : 0 < level) (k : ℕ) :
    ∃ n0, ∀ n, n0 ≤ n → ∀ (srt : ArgSort ℝ) (lib : TestLib ℝ n), lib.xicorTest = xicorTest srt Φ →
      ∀ (M : ℕ) (s : Fin n → Fin M → ℝ) (i j : Fin M), i < j → (∃ f, PiecewiseMono k f ∧ ∀ r, s r j = f (s r i)) →
      ∃ u p, estimateUDG lib s (.name "xicor") level = .ok (u, p) ∧ u i j = true ∧ u j i = true := by
  obtain ⟨n1, h1⟩ := xi_large Φ hΦ level (1 / 2) hl (by norm_num)
  refine ⟨max (max 2 (12 * k)) n1, fun n hn srt lib hlib M s i j hij hf => ?_⟩
  obtain ⟨f, hf, he⟩ := hf
  have hn2 : 2 ≤ n := (le_max_left _ _).trans ((le_max_left _ _).trans hn)
  have hnk : 12 * k ≤ n := (le_max_right _ _).trans ((le_max_left _ _).trans hn)
  have hnk' : 12 * (k : ℝ) ≤ n := by exact_mod_cast hnk
  have hv := xiVal_pieces srt k f hf (fun r => s r i) hn2
  have hj : (fun r => s r j) = fun r => f (s r i) := funext he
  have hhalf : 1 / 2 ≤ xiVal srt (fun r => s r i) fun r => s r j := by
    rw [hj]
    refine le_trans ?_ hv
    have : 3 * (2 * (k : ℝ) - 1) / ((n : ℝ) + 1) ≤ 1 / 2 := by
      rw [div_le_div_iff₀ (by positivity) (by norm_num)]
      linarith
    linarith
  obtain ⟨u, p, h, hu, hsym⟩ := xicor_edge srt Φ lib hlib s level i j hij
  have := h1 n ((le_max_right _ _).trans hn) srt _ _ hhalf
  exact ⟨u, p, h, hu.trans this, by rw [hsym]; exact hu.trans this⟩

/-- `f t = t²` has two pieces -/
theorem square_pieces : PiecewiseMono 2 fun t => t ^ 2 := by
  refine ⟨fun t => if t < 0 then 0 else 1, fun a b hab => ?_, fun p => ?_⟩
  · dsimp only
    split_ifs with h1 h2 h2
    · rfl
    · decide
    · linarith
    · rfl
  · by_cases hp : p = 0
    · right
      intro a ha b hb hab
      have hb' : b < 0 := by
        by_contra hc
        rw [Set.mem_ofPred_eq] at hb
        dsimp only at hb
        rw [if_neg hc, hp] at hb
        exact absurd hb (by decide)
      dsimp only
      nlinarith
    · left
      intro a ha b hb hab
      have ha' : ¬ a < 0 := by
        intro hc
        rw [Set.mem_ofPred_eq] at ha
        dsimp only at ha
        rw [if_pos hc] at ha
        exact hp ha.symm
      dsimp only
      nlinarith

/-- the square of a column is found, although it may be uncorrelated with the column -/
example (Φ : ℝ → ℝ) (hΦ : Tendsto Φ atTop (𝓝 1)) :
    ∃ n0, ∀ n, n0 ≤ n → ∀ (srt : ArgSort ℝ) (lib : TestLib ℝ n), lib.xicorTest = xicorTest srt Φ →
      ∀ s : Fin n → Fin 2 → ℝ, (∀ r, s r 1 = s r 0 ^ 2) → ∃ u p, estimateUDG lib s (.name "xicor") (1 / 20) = .ok (u, p) ∧ u 0 1 = true := by
  obtain ⟨n0, h⟩ := C172_xicor_edge Φ hΦ (1 / 20) (by norm_num) 2
  refine ⟨n0, fun n hn srt lib hlib s hs => ?_⟩
  obtain ⟨u, p, h1, h2, -⟩ := h n hn srt lib hlib 2 s 0 1 (by decide) ⟨_, square_pieces, hs⟩
  exact ⟨u, p, h1, h2⟩

end Medil

import Verif.Proofs.XiTieFree
import Verif.Props.DcovNull
import Mathlib.Probability.CDF
import Mathlib.Probability.Distributions.Gaussian.Real
/-
  C170-C172: the statistic of `xicorr` for permuted data, and when `estimate_UDG(sample, "xicor")` joins two columns.
-/
namespace Medil
open Finset MeasureTheory ProbabilityTheory Filter Topology
variable {n M : Nat}

/-! ### C170 -/

/-- **C170** Averaged over all `n!` orders of `y`, the statistic of `xicorr(x, y)` is `3T / (2n(n²-1) + T)`, where `T` measures the ties
of `y`; this is never negative, and 0 exactly when `y` has no ties. -/
theorem C170_xi_mean (srt : ArgSort ℝ) (Φ : ℝ → ℝ) (hΦ : ∀ t, 0 ≤ Φ t ∧ Φ t ≤ 1) (x y : Fin n → ℝ) (hn : 2 ≤ n) (ties : Bool) :
    ∃ xi : Equiv.Perm (Fin n) → ℝ, (∀ π, ∃ p, xicorrIs srt Φ x (fun k => y (π k)) ties (xi π) p) ∧
      (∑ π, xi π) / n.factorial = 3 * tieSum y / (2 * n * ((n : ℝ) ^ 2 - 1) + tieSum y) ∧
      0 ≤ (∑ π, xi π) / n.factorial ∧ ((∑ π, xi π) / n.factorial = 0 ↔ Function.Injective y) := by
  refine ⟨fun π => xiVal srt x fun k => y (π k), fun π => ?_, ?_⟩
  · obtain ⟨xi, p, h, -⟩ := C110_xicorr_pvalue srt Φ hΦ x (fun k => y (π k)) hn ties
    refine ⟨p, ?_⟩
    unfold xicorrIs at h ⊢
    rw [xicorr_ok srt Φ _ _ (by omega), xiStat_val srt _ _ hn] at h ⊢
    injection h with h
    have := (Prod.ext_iff.mp h).2
    dsimp only at this
    rw [this]
  · have h := permAvg_xiVal srt x y hn
    have hn2 : (2 : ℝ) ≤ n := by exact_mod_cast hn
    have h0 := tieSum_nonneg y
    have h4 : (0 : ℝ) < (n : ℝ) ^ 2 - 1 := by nlinarith
    have h5 : (0 : ℝ) < 2 * n * ((n : ℝ) ^ 2 - 1) + tieSum y := by nlinarith [mul_pos (show (0 : ℝ) < n by linarith) h4]
    unfold permAvg at h
    refine ⟨h, ?_, ?_⟩
    · rw [h]; positivity
    · rw [h, div_eq_zero_iff, ← tieSum_zero y]
      constructor
      · rintro (h | h)
        · linarith
        · linarith
      · intro h; left; linarith

/-- **C170** Without ties the statistic has, over all orders of `y`, variance exactly `(n-2)(4n-7) / (10(n+1)(n-1)²)`: about `2/(5n)`. -/
theorem C170_xi_variance (srt : ArgSort ℝ) (Φ : ℝ → ℝ) (hΦ : ∀ t, 0 ≤ Φ t ∧ Φ t ≤ 1) (x y : Fin n → ℝ) (hn : 4 ≤ n) (hy : Function.Injective y)
    (ties : Bool) :
    ∃ xi : Equiv.Perm (Fin n) → ℝ, (∀ π, ∃ p, xicorrIs srt Φ x (fun k => y (π k)) ties (xi π) p) ∧
      (∑ π, xi π) / n.factorial = 0 ∧
      (∑ π, xi π ^ 2) / n.factorial = ((n : ℝ) - 2) * (4 * n - 7) / (10 * ((n : ℝ) + 1) * ((n : ℝ) - 1) ^ 2) := by
  refine ⟨fun π => xiVal srt x fun k => y (π k), fun π => ?_, (permVar_xiVal_inj srt x y hn hy).1, (permVar_xiVal_inj srt x y hn hy).2⟩
  obtain ⟨xi, p, h, -⟩ := C110_xicorr_pvalue srt Φ hΦ x (fun k => y (π k)) (by omega) ties
  refine ⟨p, ?_⟩
  unfold xicorrIs at h ⊢
  rw [xicorr_ok srt Φ _ _ (by omega), xiStat_val srt _ _ (by omega)] at h ⊢
  injection h with h
  have := (Prod.ext_iff.mp h).2
  dsimp only at this
  rw [this]

/-- two values, each half of the time: the average of the statistic is not 0 but about 1/3 -/
example : tieSum (fun k : Fin 4 => if k.val < 2 then (0 : ℝ) else 1) = 12 := by
  unfold tieSum
  have h : ∀ i : Fin 4, (univ.filter fun j : Fin 4 => (if j.val < 2 then (0 : ℝ) else 1) = if i.val < 2 then 0 else 1).card = 2 := by
    intro i
    have : ∀ j : Fin 4, ((if j.val < 2 then (0 : ℝ) else 1) = if i.val < 2 then 0 else 1) ↔ (j.val < 2 ↔ i.val < 2) := by
      intro j
      by_cases h1 : j.val < 2 <;> by_cases h2 : i.val < 2 <;> simp [h1, h2]
    simp only [this]
    clear this
    revert i
    decide
  simp only [h]
  norm_num

/-! ### edges -/

/-- an edge of `estimate_UDG(sample, "xicor")` -/
theorem xicor_edge (srt : ArgSort ℝ) (Φ : ℝ → ℝ) (lib : TestLib ℝ n) (hlib : lib.xicorTest = xicorTest srt Φ) (s : Fin n → Fin M → ℝ)
    (level : ℝ) (i j : Fin M) (hij : i < j) :
    ∃ u p, estimateUDG lib s (.name "xicor") level = .ok (u, p) ∧
      u i j = (xicorTest srt Φ (fun k => s k i) fun k => s k j).lt level ∧ u j i = u i j := by
  have e : estimateUDG lib s (.name "xicor") level = .ok (clearDiag fun i j => (pairPvals lib.xicorTest s i j).lt level, some (pairPvals lib.xicorTest s)) := by
    unfold estimateUDG
    simp
  refine ⟨_, _, e, ?_, ?_⟩
  · unfold clearDiag pairPvals
    rw [if_neg hij.ne]
    dsimp only
    rw [if_pos hij, hlib]
  · unfold clearDiag pairPvals
    rw [if_neg hij.ne, if_neg hij.ne']
    dsimp only
    rw [if_neg (not_lt.mpr hij.le), if_pos hij, if_pos hij]

theorem xicor_edge_iff (srt : ArgSort ℝ) (Φ : ℝ → ℝ) (lib : TestLib ℝ n) (hlib : lib.xicorTest = xicorTest srt Φ) (s : Fin n → Fin M → ℝ)
    (level : ℝ) (i j : Fin M) (hij : i < j) :
    (∃ u p, estimateUDG lib s (.name "xicor") level = .ok (u, p) ∧ u i j = true) ↔
      (xicorTest srt Φ (fun k => s k i) fun k => s k j).lt level = true := by
  obtain ⟨u, p, h, hu, -⟩ := xicor_edge srt Φ lib hlib s level i j hij
  rw [← hu]
  constructor
  · rintro ⟨u', p', h', hu'⟩
    rw [h] at h'
    injection h' with h'
    have := (Prod.ext_iff.mp h').1
    dsimp only at this
    rw [this]; exact hu'
  · intro h'; exact ⟨u, p, h, h'⟩

/-! ### C171: few values -/

/-- few values mean many ties -/
theorem tieSum_ge (y : Fin n → ℝ) (m : ℕ) (hm : (univ.image y).card ≤ m) (hn : 0 < n) : (n : ℝ) ^ 3 / m ^ 2 - n ≤ tieSum y := by
  have h1 : ∑ i, ((univ.filter fun j => y j = y i).card : ℝ) ^ 2 = ∑ v ∈ univ.image y, ((univ.filter fun j => y j = v).card : ℝ) ^ 3 := by
    rw [← sum_fiberwise_of_maps_to (s := univ) (t := univ.image y) (g := y) fun i _ => mem_image_of_mem y (mem_univ i)]
    refine sum_congr rfl fun v _ => ?_
    rw [sum_congr rfl fun i hi => by rw [(mem_filter.mp hi).2], sum_const, nsmul_eq_mul]
    ring
  have h2 : ∑ v ∈ univ.image y, ((univ.filter fun j => y j = v).card : ℝ) = n := by
    have := card_eq_sum_card_fiberwise (s := univ) (t := univ.image y) (f := y) fun i _ => mem_image_of_mem y (mem_univ i)
    rw [card_univ, Fintype.card_fin] at this
    exact_mod_cast this.symm
  have h3 := pow_sum_div_card_le_sum_pow (s := univ.image y) (f := fun v => ((univ.filter fun j => y j = v).card : ℝ)) (fun _ _ => by positivity) 2
  rw [h2, ← h1] at h3
  have hc : 0 < (univ.image y).card := card_pos.mpr ⟨y ⟨0, hn⟩, mem_image_of_mem y (mem_univ _)⟩
  have h4 : (n : ℝ) ^ 3 / m ^ 2 ≤ (n : ℝ) ^ 3 / ((univ.image y).card : ℝ) ^ 2 := by
    have a : (0 : ℝ) < ((univ.image y).card : ℝ) := by exact_mod_cast hc
    have b : ((univ.image y).card : ℝ) ≤ m := by exact_mod_cast hm
    exact div_le_div_of_nonneg_left (by positivity) (by positivity) (pow_le_pow_left₀ a.le b 2)
  unfold tieSum
  rw [sum_sub_distrib]
  simp only [sum_const, card_univ, Fintype.card_fin, nsmul_eq_mul, mul_one]
  linarith

/-- with few values the statistic is bounded away from 0 for almost all permutations -/
theorem xi_few_values (m : ℕ) (hm0 : 0 < m) (ε : ℝ) (hε : 0 < ε) :
    ∃ n0, ∀ n, n0 ≤ n → ∀ (srt : ArgSort ℝ) (x y : Fin n → ℝ), (univ.image y).card ≤ m →
      ((univ.filter fun π : Equiv.Perm (Fin n) => xiVal srt x (fun k => y (π k)) < 3 / (2 * (4 * m ^ 2 + 1))).card : ℝ) ≤ ε * n.factorial := by
  have hm1 : (1 : ℝ) ≤ m := by exact_mod_cast hm0
  obtain ⟨δ, hδ⟩ : ∃ δ : ℝ, δ = 3 / (2 * (4 * m ^ 2 + 1)) := ⟨_, rfl⟩
  have hδ0 : 0 < δ := by rw [hδ]; positivity
  obtain ⟨n1, hn1⟩ := exists_nat_ge (32 / (δ ^ 2 * ε))
  refine ⟨max (max 4 (2 * m)) n1, fun n hn srt x y hy => ?_⟩
  have hn4 : 4 ≤ n := (le_max_left _ _).trans ((le_max_left _ _).trans hn)
  have hnm : 2 * m ≤ n := (le_max_right _ _).trans ((le_max_left _ _).trans hn)
  have hnn : 32 / (δ ^ 2 * ε) ≤ n := hn1.trans (by exact_mod_cast (le_max_right _ _).trans hn)
  have hn4' : (4 : ℝ) ≤ n := by exact_mod_cast hn4
  have hnm' : 2 * (m : ℝ) ≤ n := by exact_mod_cast hnm
  have hn0 : (0 : ℝ) < n := by linarith
  have hf : (0 : ℝ) < n.factorial := by exact_mod_cast n.factorial_pos
  have hT := tieSum_ge y m hy (by omega)
  have hT0 := tieSum_nonneg y
  have hT1 : (n : ℝ) ^ 3 / (2 * m ^ 2) ≤ tieSum y := by
    refine le_trans ?_ hT
    have : (n : ℝ) ≤ (n : ℝ) ^ 3 / (2 * m ^ 2) := by
      rw [le_div_iff₀ (by positivity)]
      nlinarith [mul_le_mul_of_nonneg_left (show 2 * (m : ℝ) ^ 2 ≤ n ^ 2 by nlinarith) hn0.le]
    have e : (n : ℝ) ^ 3 / m ^ 2 = (n : ℝ) ^ 3 / (2 * m ^ 2) + (n : ℝ) ^ 3 / (2 * m ^ 2) := by field_simp; norm_num
    linarith
  have hmean : 2 * δ ≤ permAvg fun π => xiVal srt x fun k => y (π k) := by
    rw [permAvg_xiVal srt x y (by omega)]
    have h4 : (0 : ℝ) < (n : ℝ) ^ 2 - 1 := by nlinarith
    have h5 : (0 : ℝ) < 2 * n * ((n : ℝ) ^ 2 - 1) + tieSum y := by nlinarith [mul_pos hn0 h4]
    have h6 : (n : ℝ) ^ 3 ≤ tieSum y * (2 * m ^ 2) := (div_le_iff₀ (by positivity)).mp hT1
    rw [hδ, show 2 * (3 / (2 * (4 * (m : ℝ) ^ 2 + 1))) = 3 / (4 * m ^ 2 + 1) by field_simp, div_le_div_iff₀ (by positivity) h5]
    nlinarith [mul_pos hn0 hn0]
  have hvar := permVar_xiVal srt x y hn4
  obtain ⟨a, ha⟩ : ∃ a, a = permAvg fun π => xiVal srt x fun k => y (π k) := ⟨_, rfl⟩
  rw [← ha] at hvar hmean
  rw [← hδ]
  have hcount : ((univ.filter fun π : Equiv.Perm (Fin n) => xiVal srt x (fun k => y (π k)) < δ).card : ℝ) ≤
      ∑ π : Equiv.Perm (Fin n), (xiVal srt x (fun k => y (π k)) - a) ^ 2 / δ ^ 2 := by
    rw [← sum_boole]
    refine sum_le_sum fun π _ => ?_
    split_ifs with h
    · rw [one_le_div (by positivity)]
      nlinarith
    · positivity
  refine hcount.trans ?_
  rw [← sum_div]
  unfold permAvg at hvar
  rw [div_le_iff₀ hf] at hvar
  rw [div_le_iff₀ (by positivity)]
  refine hvar.trans ?_
  have : 32 / (n : ℝ) ≤ ε * δ ^ 2 := by
    rw [div_le_iff₀ hn0]
    rw [div_le_iff₀ (by positivity)] at hnn
    nlinarith
  nlinarith [mul_le_mul_of_nonneg_right this hf.le]

/-- **C171** The later of two columns takes at most `m` values (say, 0 and 1).  From some number of rows on, whatever the data, almost every way to
permute this column gives an edge between the two columns, at every level. -/
theorem C171_permutations (Φ : ℝ → ℝ) (hΦ : Tendsto Φ atTop (𝓝 1)) (level : ℝ) (hl : 0 < level) (m : ℕ) (ε : ℝ) (hε : 0 < ε) :
    ∃ n0, ∀ n, n0 ≤ n → ∀ (srt : ArgSort ℝ) (lib : TestLib ℝ n), lib.xicorTest = xicorTest srt Φ →
      ∀ (M : ℕ) (s : Fin n → Fin M → ℝ) (i j : Fin M), i < j → (univ.image fun k => s k j).card ≤ m →
      (1 - ε) * n.factorial ≤ (Nat.card {π : Equiv.Perm (Fin n) // ∃ u p, estimateUDG lib (permuteColumn s j π) (.name "xicor") level = .ok (u, p) ∧
        u i j = true} : ℝ) := by
  have hm1 : (0 : ℝ) < 3 / (2 * (4 * ((max m 1 : ℕ) : ℝ) ^ 2 + 1)) := by positivity
  obtain ⟨n1, h1⟩ := xi_large Φ hΦ level _ hl hm1
  obtain ⟨n2, h2⟩ := xi_few_values (max m 1) (by simp) ε hε
  refine ⟨max n1 n2, fun n hn srt lib hlib M s i j hij hcard => ?_⟩
  have h2 := h2 n ((le_max_right _ _).trans hn) srt (fun k => s k i) (fun k => s k j) (hcard.trans (le_max_left _ _))
  classical
  have hsub : (univ.filter fun π : Equiv.Perm (Fin n) => ¬ xiVal srt (fun k => s k i) (fun k => s (π k) j) < 3 / (2 * (4 * ((max m 1 : ℕ) : ℝ) ^ 2 + 1))) ⊆
      univ.filter fun π : Equiv.Perm (Fin n) => ∃ u p, estimateUDG lib (permuteColumn s j π) (.name "xicor") level = .ok (u, p) ∧ u i j = true := by
    intro π hπ
    refine mem_filter.mpr ⟨mem_univ _, (xicor_edge_iff srt Φ lib hlib _ level i j hij).mpr ?_⟩
    unfold permuteColumn
    simp only [if_neg hij.ne, if_true]
    exact h1 n ((le_max_left _ _).trans hn) srt _ _ (not_lt.mp (mem_filter.mp hπ).2)
  have hle := card_le_card hsub
  have hsum := card_filter_add_card_filter_not (s := (univ : Finset (Equiv.Perm (Fin n))))
    (fun π => xiVal srt (fun k => s k i) (fun k => s (π k) j) < 3 / (2 * (4 * ((max m 1 : ℕ) : ℝ) ^ 2 + 1)))
  rw [card_univ, Fintype.card_perm, Fintype.card_fin] at hsum
  rw [Nat.card_eq_fintype_card, Fintype.card_subtype]
  have e1 : ((univ.filter fun π : Equiv.Perm (Fin n) => xiVal srt (fun k => s k i) (fun k => s (π k) j) < 3 / (2 * (4 * ((max m 1 : ℕ) : ℝ) ^ 2 + 1))).card : ℝ) +
      ((univ.filter fun π : Equiv.Perm (Fin n) => ¬ xiVal srt (fun k => s k i) (fun k => s (π k) j) < 3 / (2 * (4 * ((max m 1 : ℕ) : ℝ) ^ 2 + 1))).card : ℝ) =
      n.factorial := by exact_mod_cast hsum
  have e2 : ((univ.filter fun π : Equiv.Perm (Fin n) => ¬ xiVal srt (fun k => s k i) (fun k => s (π k) j) < 3 / (2 * (4 * ((max m 1 : ℕ) : ℝ) ^ 2 + 1))).card : ℝ) ≤
      ((univ.filter fun π : Equiv.Perm (Fin n) => ∃ u p, estimateUDG lib (permuteColumn s j π) (.name "xicor") level = .ok (u, p) ∧ u i j = true).card : ℝ) := by
    exact_mod_cast hle
  linarith

/-- `xicorr` only looks at the order of the values -/
theorem xicorr_order (srt : ArgSort ℝ) (Φ : ℝ → ℝ) (ties : Bool) {x x' y y' : Fin n → ℝ} (hx : ∀ i j, x i < x j ↔ x' i < x' j)
    (hy : ∀ i j, y i < y j ↔ y' i < y' j) : xicorr srt Φ (List.ofFn x) (List.ofFn y) ties = xicorr srt Φ (List.ofFn x') (List.ofFn y') ties := by
  have heq : ∀ {a b : Fin n → ℝ}, (∀ i j, a i < a j ↔ b i < b j) → rankAvg a = rankAvg b := by
    intro a b h
    funext i
    have h2 : ∀ j, a j = a i ↔ b j = b i := fun j => by
      rw [eq_iff_le_not_lt, eq_iff_le_not_lt, ← not_lt, ← not_lt, h, h]
    unfold rankAvg
    simp only [h, h2]
  have hr := heq hx
  have hry := heq hy
  have hrn : rankAvg (fun j => -y j) = rankAvg (fun j => -y' j) := heq fun i j => by
    rw [neg_lt_neg_iff, neg_lt_neg_iff, hy]
  rcases Nat.eq_zero_or_pos n with h0 | hn
  · subst h0
    rw [Subsingleton.elim x x', Subsingleton.elim y y']
  have hf : xiFr y = xiFr y' := by funext i; unfold xiFr; rw [hry]
  have hg : xiGr y = xiGr y' := by funext i; unfold xiGr; rw [hrn]
  have hc : xiCu y = xiCu y' := by unfold xiCu; rw [hg]
  have hs : xiStat srt x y = xiStat srt x' y' := by unfold xiStat xiA1; rw [hc, hf, hr]
  have hq : xiQfr y = xiQfr y' := by funext i; unfold xiQfr; rw [hf]
  have hm : xiM y = xiM y' := by funext i; unfold xiM; rw [hq]
  have hv : xiVar y = xiVar y' := by unfold xiVar; rw [hq, hm, hc]
  rw [xicorr_ok srt Φ x y hn, xicorr_ok srt Φ x' y' hn, hs, hv]

/-- the test only looks at the order of the values -/
theorem xicorTest_order (srt : ArgSort ℝ) (Φ : ℝ → ℝ) {x x' y y' : Fin n → ℝ} (hx : ∀ i j, x i < x j ↔ x' i < x' j)
    (hy : ∀ i j, y i < y j ↔ y' i < y' j) : xicorTest srt Φ x y = xicorTest srt Φ x' y' := by
  unfold xicorTest
  rw [xicorr_order srt Φ true hx hy]

/-- sets of data that depend only on the order of the values are measurable -/
theorem order_measurable (E : Set ((Fin n → ℝ) × (Fin n → ℝ)))
    (hE : ∀ z z', (∀ i j, z.1 i < z.1 j ↔ z'.1 i < z'.1 j) → (∀ i j, z.2 i < z.2 j ↔ z'.2 i < z'.2 j) → z ∈ E → z' ∈ E) : MeasurableSet E := by
  classical
  obtain ⟨P, hP⟩ : ∃ P : (Fin n → ℝ) × (Fin n → ℝ) → Fin n → Fin n → Bool × Bool, P = fun z i j => (decide (z.1 i < z.1 j), decide (z.2 i < z.2 j)) :=
    ⟨_, rfl⟩
  have hm : Measurable P := by
    rw [hP]
    refine measurable_pi_lambda _ fun i => measurable_pi_lambda _ fun j => Measurable.prodMk ?_ ?_
    · refine measurable_to_bool ?_
      have : (fun z : (Fin n → ℝ) × (Fin n → ℝ) => decide (z.1 i < z.1 j)) ⁻¹' {true} = {z | z.1 i < z.1 j} := by ext z; simp
      rw [this]
      exact measurableSet_lt (by fun_prop) (by fun_prop)
    · refine measurable_to_bool ?_
      have : (fun z : (Fin n → ℝ) × (Fin n → ℝ) => decide (z.2 i < z.2 j)) ⁻¹' {true} = {z | z.2 i < z.2 j} := by ext z; simp
      rw [this]
      exact measurableSet_lt (by fun_prop) (by fun_prop)
  have e : E = P ⁻¹' (P '' E) := by
    refine Set.Subset.antisymm (Set.subset_preimage_image P E) fun z hz => ?_
    obtain ⟨z', hz', he⟩ := hz
    rw [hP] at he
    refine hE z' z (fun i j => ?_) (fun i j => ?_) hz'
    · simpa using (Prod.ext_iff.mp (congrFun (congrFun he i) j)).1
    · simpa using (Prod.ext_iff.mp (congrFun (congrFun he i) j)).2
  rw [e]
  exact hm (Set.toFinite _).measurableSet

/-- **C171** Two independent columns, of independent rows with a common law, the later one with finitely many values: the probability that
they are joined tends to 1, at every level. -/
theorem C171_discrete (Φ : ℝ → ℝ) (hΦ : Tendsto Φ atTop (𝓝 1)) (level : ℝ) (hl : 0 < level) (ν : Measure (Fin M → ℝ)) [IsProbabilityMeasure ν]
    (i j : Fin M) (hij : i < j) (hind : IndepFun (fun x : Fin M → ℝ => x i) (fun x => x j) ν) (V : Finset ℝ) (hV : ν {x | x j ∉ V} = 0)
    (ε : ℝ) (hε : 0 < ε) :
    ∃ n0, ∀ n, n0 ≤ n → ∀ (Ω : Type) [MeasurableSpace Ω] (μ : Measure Ω) [IsProbabilityMeasure μ] (s : Ω → Fin n → Fin M → ℝ),
      IIDRows μ s ν → ∀ (srt : ArgSort ℝ) (lib : TestLib ℝ n), lib.xicorTest = xicorTest srt Φ →
      μ {ω | ¬ ∃ u p, estimateUDG lib (s ω) (.name "xicor") level = .ok (u, p) ∧ u i j = true} ≤ ENNReal.ofReal ε := by
  have hm1 : (0 : ℝ) < 3 / (2 * (4 * ((max V.card 1 : ℕ) : ℝ) ^ 2 + 1)) := by positivity
  obtain ⟨n1, h1⟩ := xi_large Φ hΦ level _ hl hm1
  obtain ⟨n2, h2⟩ := xi_few_values (max V.card 1) (by simp) ε hε
  refine ⟨max n1 n2, fun n hn Ω _ μ _ s hs srt lib hlib => ?_⟩
  classical
  obtain ⟨E, hEd⟩ : ∃ E, E = {z : (Fin n → ℝ) × (Fin n → ℝ) | ¬ (xicorTest srt Φ z.1 z.2).lt level = true} := ⟨_, rfl⟩
  have hE : MeasurableSet E :=
    order_measurable _ fun z z' h1 h2 hz => by
      rw [hEd, Set.mem_ofPred_eq] at hz ⊢
      rwa [← xicorTest_order srt Φ h1 h2]
  have hG : MeasurableSet {z : (Fin n → ℝ) × (Fin n → ℝ) | ∀ k, z.2 k ∈ V} := by
    have : {z : (Fin n → ℝ) × (Fin n → ℝ) | ∀ k, z.2 k ∈ V} = ⋂ k, (fun z : (Fin n → ℝ) × (Fin n → ℝ) => z.2 k) ⁻¹' (V : Set ℝ) := by
      ext z; simp
    rw [this]
    exact MeasurableSet.iInter fun k => (by fun_prop : Measurable fun z : (Fin n → ℝ) × (Fin n → ℝ) => z.2 k) V.measurableSet
  have hnull : μ {ω | ((fun k => s ω k i), fun k => s ω k j) ∉ {z : (Fin n → ℝ) × (Fin n → ℝ) | ∀ k, z.2 k ∈ V}} = 0 := by
    have : {ω | ((fun k => s ω k i), fun k => s ω k j) ∉ {z : (Fin n → ℝ) × (Fin n → ℝ) | ∀ k, z.2 k ∈ V}} = ⋃ k, {ω | s ω k j ∉ V} := by
      ext ω; simp
    rw [this, measure_iUnion_null_iff]
    intro k
    have hS : MeasurableSet {x : Fin M → ℝ | x j ∉ V} :=
      ((by fun_prop : Measurable fun x : Fin M → ℝ => x j) V.measurableSet).compl
    rw [← hs.law k, Measure.map_apply_of_aemeasurable (hs.meas k) hS] at hV
    exact hV
  have key := hs.exchange i j hind E _ hE hG ε hε.le ?_
  swap
  · intro x y hy
    have hc : (univ.image y).card ≤ max V.card 1 :=
      (card_le_card fun v hv => by obtain ⟨k, -, rfl⟩ := mem_image.mp hv; exact hy k).trans (le_max_left _ _)
    refine le_trans ?_ (h2 n ((le_max_right _ _).trans hn) srt x y hc)
    refine Nat.cast_le.mpr (card_le_card ?_)
    intro π hπ
    refine mem_filter.mpr ⟨mem_univ _, ?_⟩
    by_contra hcon
    have h3 := (mem_filter.mp hπ).2
    rw [hEd] at h3
    exact h3 (h1 n ((le_max_left _ _).trans hn) srt x _ (not_lt.mp hcon))
  rw [hnull, add_zero] at key
  refine (measure_mono fun ω hω => ?_).trans key
  rw [Set.mem_ofPred_eq] at hω
  rw [xicor_edge_iff srt Φ lib hlib (s ω) level i j hij] at hω
  rw [hEd]
  exact hω

/-- an edge between columns without ties -/
theorem xicorTest_inj (srt : ArgSort ℝ) (Φ : ℝ → ℝ) (x y : Fin n → ℝ) (hn : 2 ≤ n) (hy : Function.Injective y) (level : ℝ) :
    (xicorTest srt Φ x y).lt level = true ↔
      1 - Φ (Real.sqrt n * xiVal srt x y / Real.sqrt ((2 * n ^ 2 + 7) / (5 * (n ^ 2 - 1)))) < level := by
  have hn2 : (2 : ℝ) ≤ n := by exact_mod_cast hn
  have hd : 0 < 5 * ((n : ℝ) ^ 2 - 1) := by nlinarith
  have hv : (0 : ℝ) < (2 * n ^ 2 + 7) / (5 * (n ^ 2 - 1)) := by positivity
  unfold xicorTest
  rw [xicorr_ok srt Φ x y (by omega), if_pos rfl, xiVar_inj y hn hy, xiStat_val srt x y hn]
  simp [xiZ, not_lt.mpr hv.le, Fl.div, (Real.sqrt_pos.mpr hv).ne', upperTail, Fl.lt]

theorem injective_measurable : MeasurableSet {z : (Fin n → ℝ) × (Fin n → ℝ) | Function.Injective z.2} :=
  order_measurable _ fun z z' _ h2 hz => by
    rw [Set.mem_ofPred_eq] at hz ⊢
    intro a b hab
    by_contra hne
    rcases lt_or_gt_of_ne (fun h => hne (hz h)) with h | h
    · exact ((h2 a b).mp h).ne hab
    · exact ((h2 b a).mp h).ne hab.symm

/-- a column of independent rows with an atomless common law has no ties -/
theorem IIDRows.no_ties {Ω : Type} [MeasurableSpace Ω] {μ : Measure Ω} [IsProbabilityMeasure μ] {s : Ω → Fin n → Fin M → ℝ}
    {ν : Measure (Fin M → ℝ)} [IsProbabilityMeasure ν] (h : IIDRows μ s ν) (j : Fin M) (hat : ∀ c : ℝ, ν {x | x j = c} = 0) :
    μ {ω | ¬ Function.Injective fun k => s ω k j} = 0 := by
  have hsub : {ω | ¬ Function.Injective fun k => s ω k j} ⊆ ⋃ k, ⋃ l, ⋃ _ : k ≠ l, {ω | s ω k j = s ω l j} := by
    intro ω hω
    rw [Set.mem_ofPred_eq] at hω
    unfold Function.Injective at hω
    push Not at hω
    obtain ⟨k, l, h1, h2⟩ := hω
    simp only [Set.mem_iUnion]
    exact ⟨k, l, h2, h1⟩
  refine measure_mono_null hsub ?_
  simp only [measure_iUnion_null_iff]
  intro k l hkl
  have hmj := measurable_pi_apply (X := fun _ : Fin M => ℝ) j
  have hi : IndepFun (fun ω => s ω k j) (fun ω => s ω l j) μ := (h.rows.indepFun hkl).comp hmj hmj
  have hk : AEMeasurable (fun ω => s ω k j) μ := hmj.comp_aemeasurable (h.meas k)
  have hl : AEMeasurable (fun ω => s ω l j) μ := hmj.comp_aemeasurable (h.meas l)
  have hmap := (indepFun_iff_map_prod_eq_prod_map_map hk hl).mp hi
  have hD : MeasurableSet {z : ℝ × ℝ | z.1 = z.2} := measurableSet_eq_fun measurable_fst measurable_snd
  have e : μ {ω | s ω k j = s ω l j} = (μ.map fun ω => (s ω k j, s ω l j)) {z : ℝ × ℝ | z.1 = z.2} := by
    rw [Measure.map_apply_of_aemeasurable (hk.prodMk hl) hD]; rfl
  rw [e, hmap, Measure.measure_prod_null hD]
  refine Eventually.of_forall fun c => ?_
  have hl' : μ.map (fun ω => s ω l j) = ν.map fun x => x j := by
    rw [← h.law l, AEMeasurable.map_map_of_aemeasurable hmj.aemeasurable (h.meas l)]; rfl
  have : Prod.mk c ⁻¹' {z : ℝ × ℝ | z.1 = z.2} = {c} := by ext b; simp [eq_comm]
  dsimp only
  rw [this, hl', Measure.map_apply hmj (measurableSet_singleton c)]
  exact hat c

/-- **C171** (part) For a later column with a continuous distribution function the claim holds up to a constant, for every number of rows from 4 on:
if the two columns are independent they are joined with probability at most `1 / (1 + z²)`, where `z` is the critical value of the
normal law for the level.  (Missing for discrete data, where it is false: `C171_false`.) -/
theorem C171_level_partial (hn : 4 ≤ n) (Φ : ℝ → ℝ) (hΦ : Monotone Φ) (level z : ℝ) (hz : 0 < z) (hzl : Φ z ≤ 1 - level)
    (ν : Measure (Fin M → ℝ)) [IsProbabilityMeasure ν] (i j : Fin M) (hij : i < j)
    (hind : IndepFun (fun x : Fin M → ℝ => x i) (fun x => x j) ν) (hat : ∀ c : ℝ, ν {x | x j = c} = 0)
    {Ω : Type} [MeasurableSpace Ω] (μ : Measure Ω) [IsProbabilityMeasure μ] (s : Ω → Fin n → Fin M → ℝ) (hs : IIDRows μ s ν)
    (srt : ArgSort ℝ) (lib : TestLib ℝ n) (hlib : lib.xicorTest = xicorTest srt Φ) :
    μ {ω | ∃ u p, estimateUDG lib (s ω) (.name "xicor") level = .ok (u, p) ∧ u i j = true} ≤ ENNReal.ofReal (1 / (1 + z ^ 2)) := by
  classical
  obtain ⟨E, hEd⟩ : ∃ E, E = {z : (Fin n → ℝ) × (Fin n → ℝ) | (xicorTest srt Φ z.1 z.2).lt level = true} := ⟨_, rfl⟩
  have hE : MeasurableSet E :=
    order_measurable _ fun z z' h1 h2 hz => by
      rw [hEd, Set.mem_ofPred_eq] at hz ⊢
      rwa [← xicorTest_order srt Φ h1 h2]
  have key := hs.exchange i j hind E _ hE injective_measurable (1 / (1 + z ^ 2)) (by positivity) ?_
  swap
  · intro x y hy
    rw [Set.mem_ofPred_eq] at hy
    refine le_trans ?_ (xi_cantelli srt x y hn hy z hz)
    refine Nat.cast_le.mpr (card_le_card ?_)
    intro π hπ
    refine mem_filter.mpr ⟨mem_univ _, ?_⟩
    have h3 := (mem_filter.mp hπ).2
    rw [hEd] at h3
    have h4 := (xicorTest_inj srt Φ x (fun k => y (π k)) (by omega) (hy.comp π.injective) level).mp h3
    by_contra hcon
    have := hΦ (not_le.mp hcon).le
    linarith
  have h0 : μ {ω | ((fun k => s ω k i), fun k => s ω k j) ∉ {z : (Fin n → ℝ) × (Fin n → ℝ) | Function.Injective z.2}} = 0 := hs.no_ties j hat
  rw [h0, add_zero] at key
  refine (measure_mono fun ω hω => ?_).trans key
  rw [Set.mem_ofPred_eq, xicor_edge_iff srt Φ lib hlib (s ω) level i j hij] at hω
  rw [hEd]
  exact hω

/-- independent normal columns meet the hypotheses -/
example : IndepFun (fun x : Fin 2 → ℝ => x 0) (fun x => x 1) (Measure.pi fun _ : Fin 2 => gaussianReal 0 1) ∧
    ∀ c : ℝ, (Measure.pi fun _ : Fin 2 => gaussianReal 0 1) {x | x 1 = c} = 0 := by
  refine ⟨(iIndepFun_pi (X := fun _ x => x) fun _ => aemeasurable_id).indepFun (by decide), fun c => ?_⟩
  have : NullSingletonClass (gaussianReal 0 1) := nullSingletonClass_gaussianReal (by norm_num)
  exact Measure.pi_hyperplane (fun _ : Fin 2 => gaussianReal 0 1) 1 c

/-- **C171** (as stated; false): independent columns are joined by `"xicor"` with a probability that is at most the significance level, up
to any tolerance, from some number of rows on.  `Φ` is the distribution function of the standard normal law. -/
def C171_statement : Prop :=
  ∀ (M : ℕ) (ν : Measure (Fin M → ℝ)) [IsProbabilityMeasure ν] (i j : Fin M), i ≠ j →
    IndepFun (fun x : Fin M → ℝ => x i) (fun x => x j) ν → ∀ (level ε : ℝ), 0 < level → level < 1 → 0 < ε →
    ∃ n0, ∀ n, n0 ≤ n → ∀ (Ω : Type) [MeasurableSpace Ω] (μ : Measure Ω) [IsProbabilityMeasure μ] (s : Ω → Fin n → Fin M → ℝ),
      IIDRows μ s ν → ∀ (srt : ArgSort ℝ) (lib : TestLib ℝ n), lib.xicorTest = xicorTest srt (cdf (gaussianReal 0 1)) →
      μ {ω | ∃ u p, estimateUDG lib (s ω) (.name "xicor") level = .ok (u, p) ∧ u i j = true} ≤ ENNReal.ofReal (level + ε)

/-- two independent variables, each 0 or 1 -/
noncomputable def coins : Measure (Fin 2 → ℝ) := Measure.pi fun _ => squaresLaw.map fun x => x 1

instance : IsProbabilityMeasure (squaresLaw.map fun x => x 1) := Measure.isProbabilityMeasure_map (measurable_pi_apply 1).aemeasurable

instance : IsProbabilityMeasure coins := by unfold coins; infer_instance

theorem coins_indep : IndepFun (fun x : Fin 2 → ℝ => x 0) (fun x => x 1) coins :=
  (iIndepFun_pi (X := fun _ x => x) fun _ => aemeasurable_id).indepFun (by decide)

theorem coins_values : coins {x | x 1 ∉ ({0, 1} : Finset ℝ)} = 0 := by
  have hS : MeasurableSet {t : ℝ | t ∉ ({0, 1} : Finset ℝ)} := (({0, 1} : Finset ℝ).measurableSet).compl
  have h1 : coins {x | x 1 ∉ ({0, 1} : Finset ℝ)} = (squaresLaw.map fun x => x 1) {t : ℝ | t ∉ ({0, 1} : Finset ℝ)} := by
    have := measurePreserving_eval (fun _ : Fin 2 => squaresLaw.map fun x => x 1) 1
    rw [← this.map_eq, Measure.map_apply (measurable_pi_apply 1) hS]
    rfl
  rw [h1, Measure.map_apply (measurable_pi_apply 1) hS]
  unfold squaresLaw
  rw [Measure.map_apply measurable_from_top ((measurable_pi_apply 1) hS)]
  have : (![![-1, 1], ![0, 0], ![1, 1]] : Fin 3 → Fin 2 → ℝ) ⁻¹' ((fun x : Fin 2 → ℝ => x 1) ⁻¹' {t : ℝ | t ∉ ({0, 1} : Finset ℝ)}) = ∅ := by
    ext k
    fin_cases k <;> simp
  rw [this, measure_empty]

theorem C171_false : ¬ C171_statement := by
  intro h
  obtain ⟨n1, h1⟩ := h 2 coins 0 1 (by decide) coins_indep (1 / 20) (1 / 5) (by norm_num) (by norm_num) (by norm_num)
  obtain ⟨n2, h2⟩ := C171_discrete (cdf (gaussianReal 0 1)) (tendsto_cdf_atTop _) (1 / 20) (by norm_num) coins 0 1 (by decide) coins_indep _ coins_values
    (1 / 2) (by norm_num)
  obtain ⟨n, hn⟩ : ∃ n, n = max n1 n2 := ⟨_, rfl⟩
  let lib : TestLib ℝ n := ⟨id, xicorTest (exSort ℝ) (cdf (gaussianReal 0 1)), xicorTest (exSort ℝ) (cdf (gaussianReal 0 1))⟩
  have h1 := h1 n (hn ▸ le_max_left _ _) _ _ _ (iidRows_exists coins n) (exSort ℝ) lib rfl
  have h2 := h2 n (hn ▸ le_max_right _ _) _ _ _ (iidRows_exists coins n) (exSort ℝ) lib rfl
  obtain ⟨E, hE⟩ : ∃ E : Set (Fin n → Fin 2 → ℝ), E = {ω | ∃ u p, estimateUDG lib ω (.name "xicor") (1 / 20) = .ok (u, p) ∧ u 0 1 = true} := ⟨_, rfl⟩
  have h2' : (Measure.pi fun _ : Fin n => coins) Eᶜ ≤ ENNReal.ofReal (1 / 2) := by rw [hE]; exact h2
  rw [← hE] at h1
  have h3 : (1 : ENNReal) ≤ (Measure.pi fun _ : Fin n => coins) E + (Measure.pi fun _ : Fin n => coins) Eᶜ := by
    rw [← measure_univ (μ := Measure.pi fun _ : Fin n => coins), ← Set.union_compl_self E]
    exact measure_union_le _ _
  have h4 := h3.trans (add_le_add h1 h2')
  rw [← ENNReal.ofReal_add (by norm_num) (by norm_num), ← ENNReal.ofReal_one, ENNReal.ofReal_le_ofReal_iff (by norm_num)] at h4
  norm_num at h4

end Medil

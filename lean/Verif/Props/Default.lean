import Verif.Props.Levels
import Verif.Proofs.Chi2
import Mathlib.Algebra.Order.Chebyshev
/-
  C227: `estimate_UDG` with its default method and level on small samples; the critical value in numbers.
-/
namespace Medil
open Finset MeasureTheory ProbabilityTheory
variable {N M : Nat}

/-- the squares of the centred distances between different rows -/
theorem offDist_sq_sharp (x : Fin N → ℝ) : ∑ k, ∑ l, offDist x k l ^ 2 ≤ N * (N - 1) * meanDist x ^ 2 := by
  rcases Nat.eq_zero_or_pos N with h0 | hN
  · subst h0; simp
  have hN0 : (0 : ℝ) < N := by exact_mod_cast hN
  have h1 : ∑ k, ∑ l, offDist x k l ^ 2 = ∑ k, ∑ l, centredDist x k l * centredDist x k l - ∑ k, centredDist x k k ^ 2 := by
    rw [← sum_sub_distrib]
    refine sum_congr rfl fun k _ => ?_
    have e : ∀ l, centredDist x k l * centredDist x k l = offDist x k l ^ 2 + if k = l then centredDist x k k ^ 2 else 0 := by
      intro l
      unfold offDist
      split_ifs with h
      · rw [← h]; ring
      · ring
    rw [sum_congr rfl fun l _ => e l, sum_add_distrib, sum_ite_eq, if_pos (mem_univ k)]
    ring
  have h2 := sampleDcov_le x x hN
  change sampleDcov x x ≤ meanDist x * meanDist x at h2
  unfold sampleDcov at h2
  rw [div_le_iff₀ (by positivity)] at h2
  have h3 := offDist_total x
  simp only [offDist_row] at h3
  rw [sum_neg_distrib] at h3
  have h4 := sq_sum_le_card_mul_sum_sq (s := univ) (f := fun k => centredDist x k k)
  rw [card_univ, Fintype.card_fin] at h4
  have h5 : (N : ℝ) * meanDist x ^ 2 ≤ ∑ k, centredDist x k k ^ 2 := by
    have e : ∑ k, centredDist x k k = -(N * meanDist x) := by linarith
    rw [e] at h4
    have : (N : ℝ) * (N * meanDist x ^ 2) ≤ N * ∑ k, centredDist x k k ^ 2 := by nlinarith
    exact le_of_mul_le_mul_left this hN0
  rw [h1]
  nlinarith

/-- the statistic is at most half the number of rows less one -/
theorem dcovStat_le (x y : Fin N → ℝ) (hx : Varies x) (hy : Varies y) : dcovStat x y ≤ ((N : ℝ) - 1) / 2 := by
  have hN : 0 < N := by obtain ⟨k, _⟩ := hx; exact k.pos
  have hN0 : (0 : ℝ) < N := by exact_mod_cast hN
  have hN1 : (1 : ℝ) ≤ N := by exact_mod_cast hN
  have mx := (meanDist_pos_iff x).mpr hx
  have my := (meanDist_pos_iff y).mpr hy
  unfold dcovStat
  have e : ∀ k l, (if k = l then 0 else centredDist x k l * centredDist y k l) = offDist x k l * offDist y k l := by
    intro k l; unfold offDist; split <;> simp
  simp only [e]
  have hS := offDist_sq_sharp x
  have hS' := offDist_sq_sharp y
  have hcs := sum_mul_sq_le_sq_mul_sq (univ : Finset (Fin N × Fin N)) (fun p => offDist x p.1 p.2) (fun p => offDist y p.1 p.2)
  rw [← univ_product_univ, sum_product, sum_product, sum_product] at hcs
  dsimp only at hcs
  have hb : ∑ k, ∑ l, offDist x k l * offDist y k l ≤ N * (N - 1) * (meanDist x * meanDist y) := by
    have hpos : 0 ≤ (N : ℝ) * (N - 1) * (meanDist x * meanDist y) := by
      have : (0 : ℝ) ≤ N - 1 := by linarith
      positivity
    refine abs_le_of_sq_le_sq' ?_ hpos |>.2
    calc _ ≤ _ := hcs
      _ ≤ (N * (N - 1) * meanDist x ^ 2) * (N * (N - 1) * meanDist y ^ 2) :=
        mul_le_mul hS hS' (sum_nonneg fun _ _ => sum_nonneg fun _ _ => sq_nonneg _) ((sum_nonneg fun _ _ => sum_nonneg fun _ _ => sq_nonneg _).trans hS)
      _ = _ := by ring
  rw [div_div, div_le_iff₀ (by positivity)]
  refine hb.trans (le_of_eq ?_)
  ring

/-- a column with the value 1 in half of the rows (rounded down) and 0 in the others -/
def halfOnes (N : Nat) : Fin N → ℝ := fun k => if k.val < N / 2 then 1 else 0

theorem sum_half (N : Nat) (a b : ℝ) : ∑ k : Fin N, (if k.val < N / 2 then a else b) = (N / 2 : ℕ) * a + ((N : ℝ) - (N / 2 : ℕ)) * b := by
  have hc : (univ.filter fun k : Fin N => k.val < N / 2).card = N / 2 := by
    rw [Fin.card_filter_val_lt]; omega
  have hc' : (univ.filter fun k : Fin N => ¬ k.val < N / 2).card = N - N / 2 := by
    have := card_filter_add_card_filter_not (s := (univ : Finset (Fin N))) (fun k => k.val < N / 2)
    rw [hc, card_univ, Fintype.card_fin] at this
    omega
  rw [sum_ite, sum_const, sum_const, hc, hc', nsmul_eq_mul, nsmul_eq_mul, Nat.cast_sub (Nat.div_le_self N 2)]

theorem halfOnes_dist (k l : Fin N) : |halfOnes N k - halfOnes N l| =
    if k.val < N / 2 then (if l.val < N / 2 then 0 else 1) else (if l.val < N / 2 then 1 else 0) := by
  unfold halfOnes
  split_ifs <;> norm_num

theorem halfOnes_meanDist (N : Nat) : meanDist (halfOnes N) = 2 * (N / 2 : ℕ) * ((N : ℝ) - (N / 2 : ℕ)) / N ^ 2 := by
  unfold meanDist
  congr 1
  have e : ∀ k : Fin N, ∑ l, |halfOnes N k - halfOnes N l| = if k.val < N / 2 then ((N : ℝ) - (N / 2 : ℕ)) else ((N / 2 : ℕ) : ℝ) := by
    intro k
    simp only [halfOnes_dist]
    split_ifs
    · rw [sum_half]; ring
    · rw [sum_half]; ring
  simp only [e]
  rw [sum_half]; ring

theorem halfOnes_centred (hN : 0 < N) (k l : Fin N) : centredDist (halfOnes N) k l =
    2 / N ^ 2 * (if k.val < N / 2 then (if l.val < N / 2 then -((N : ℝ) - (N / 2 : ℕ)) ^ 2 else (N / 2 : ℕ) * ((N : ℝ) - (N / 2 : ℕ)))
      else (if l.val < N / 2 then (N / 2 : ℕ) * ((N : ℝ) - (N / 2 : ℕ)) else -((N / 2 : ℕ) : ℝ) ^ 2)) := by
  have hN0 : (N : ℝ) ≠ 0 := by exact_mod_cast hN.ne'
  have e : ∀ k : Fin N, ∑ l, |halfOnes N k - halfOnes N l| = if k.val < N / 2 then ((N : ℝ) - (N / 2 : ℕ)) else ((N / 2 : ℕ) : ℝ) := by
    intro k
    simp only [halfOnes_dist]
    split_ifs
    · rw [sum_half]; ring
    · rw [sum_half]; ring
  have e' : ∀ l : Fin N, ∑ k, |halfOnes N k - halfOnes N l| = if l.val < N / 2 then ((N : ℝ) - (N / 2 : ℕ)) else ((N / 2 : ℕ) : ℝ) := by
    intro l
    rw [← e l]
    exact sum_congr rfl fun k _ => abs_sub_comm _ _
  unfold centredDist
  rw [e', halfOnes_dist]
  simp only [e, sum_half]
  generalize ((N / 2 : ℕ) : ℝ) = a
  split_ifs <;> field_simp <;> ring

theorem halfOnes_stat (hN : 2 ≤ N) : dcovStat (halfOnes N) (halfOnes N) =
    ((N : ℝ) + 3) / 2 - N ^ 2 / (2 * ((N / 2 : ℕ) * ((N : ℝ) - (N / 2 : ℕ)))) := by
  have hN1 : 0 < N := by omega
  have hN0 : (N : ℝ) ≠ 0 := by exact_mod_cast hN1.ne'
  have e : ∑ k, ∑ l, (if k = l then 0 else centredDist (halfOnes N) k l * centredDist (halfOnes N) k l) =
      ∑ k, ((∑ l, centredDist (halfOnes N) k l * centredDist (halfOnes N) k l) - centredDist (halfOnes N) k k * centredDist (halfOnes N) k k) := by
    refine sum_congr rfl fun k _ => ?_
    have : ∀ l, (if k = l then 0 else centredDist (halfOnes N) k l * centredDist (halfOnes N) k l) =
        centredDist (halfOnes N) k l * centredDist (halfOnes N) k l - if k = l then centredDist (halfOnes N) k k * centredDist (halfOnes N) k k else 0 := by
      intro l
      split_ifs with h
      · rw [h]; ring
      · ring
    rw [sum_congr rfl fun l _ => this l, sum_sub_distrib, sum_ite_eq, if_pos (mem_univ k)]
  have e2 : ∀ k : Fin N, ((∑ l, centredDist (halfOnes N) k l * centredDist (halfOnes N) k l) - centredDist (halfOnes N) k k * centredDist (halfOnes N) k k) =
      if k.val < N / 2 then
        (4 / (N : ℝ) ^ 4 * ((N / 2 : ℕ) * ((N : ℝ) - (N / 2 : ℕ)) ^ 4 + ((N : ℝ) - (N / 2 : ℕ)) * ((N / 2 : ℕ) * ((N : ℝ) - (N / 2 : ℕ))) ^ 2 - ((N : ℝ) - (N / 2 : ℕ)) ^ 4))
      else (4 / (N : ℝ) ^ 4 * ((N / 2 : ℕ) * ((N / 2 : ℕ) * ((N : ℝ) - (N / 2 : ℕ))) ^ 2 + ((N : ℝ) - (N / 2 : ℕ)) * ((N / 2 : ℕ) : ℝ) ^ 4 - ((N / 2 : ℕ) : ℝ) ^ 4)) := by
    intro k
    simp only [halfOnes_centred hN1]
    by_cases hk : k.val < N / 2
    · simp only [if_pos hk]
      have : ∀ l : Fin N, (2 / (N : ℝ) ^ 2 * (if l.val < N / 2 then -((N : ℝ) - (N / 2 : ℕ)) ^ 2 else (N / 2 : ℕ) * ((N : ℝ) - (N / 2 : ℕ)))) *
          (2 / (N : ℝ) ^ 2 * (if l.val < N / 2 then -((N : ℝ) - (N / 2 : ℕ)) ^ 2 else (N / 2 : ℕ) * ((N : ℝ) - (N / 2 : ℕ)))) =
          if l.val < N / 2 then 4 / (N : ℝ) ^ 4 * ((N : ℝ) - (N / 2 : ℕ)) ^ 4 else 4 / (N : ℝ) ^ 4 * ((N / 2 : ℕ) * ((N : ℝ) - (N / 2 : ℕ))) ^ 2 := by
        intro l; split_ifs <;> field_simp <;> ring
      simp only [this]
      rw [sum_half]
      generalize ((N / 2 : ℕ) : ℝ) = a
      field_simp; ring
    · simp only [if_neg hk]
      have : ∀ l : Fin N, (2 / (N : ℝ) ^ 2 * (if l.val < N / 2 then (N / 2 : ℕ) * ((N : ℝ) - (N / 2 : ℕ)) else -((N / 2 : ℕ) : ℝ) ^ 2)) *
          (2 / (N : ℝ) ^ 2 * (if l.val < N / 2 then (N / 2 : ℕ) * ((N : ℝ) - (N / 2 : ℕ)) else -((N / 2 : ℕ) : ℝ) ^ 2)) =
          if l.val < N / 2 then 4 / (N : ℝ) ^ 4 * ((N / 2 : ℕ) * ((N : ℝ) - (N / 2 : ℕ))) ^ 2 else 4 / (N : ℝ) ^ 4 * ((N / 2 : ℕ) : ℝ) ^ 4 := by
        intro l; split_ifs <;> field_simp <;> ring
      simp only [this]
      rw [sum_half]
      generalize ((N / 2 : ℕ) : ℝ) = a
      field_simp; ring
  unfold dcovStat
  rw [e]
  simp only [e2]
  rw [sum_half, halfOnes_meanDist N]
  have ha : ((N / 2 : ℕ) : ℝ) ≠ 0 := by
    have : N / 2 ≠ 0 := by omega
    exact_mod_cast this
  have hb : (N : ℝ) - ((N / 2 : ℕ) : ℝ) ≠ 0 := by
    have h1 : N / 2 < N := by omega
    have : ((N / 2 : ℕ) : ℝ) < N := by exact_mod_cast h1
    linarith
  generalize ((N / 2 : ℕ) : ℝ) = a at ha hb ⊢
  field_simp
  ring

/-- **C227** The critical value of the default level 0.05 is between 3.84 and 3.8416. -/
theorem C227_critical_value (ppf : ℝ → Fl ℝ) (hppf : IsChi2Ppf ppf) : ∃ c, ppf (1 - 5 / 100) = .fin c ∧ 384 / 100 < c ∧ c ≤ 38416 / 10000 := by
  obtain ⟨x, hx, hxc⟩ := hppf.inside (1 - 5 / 100) (by norm_num) (by norm_num)
  refine ⟨x, hx, ?_, ?_⟩
  · by_contra h
    push Not at h
    have := ((hxc ((19596 / 10000) ^ 2)).mp (h.trans (by norm_num))).2
    rw [show (1 - 5 / 100 : ℝ) = 95 / 100 by norm_num] at this
    exact absurd gauss_19596 (not_lt.mpr this)
  · refine (hxc _).mpr ⟨by norm_num, ?_⟩
    have := gauss_196
    rw [show ((196 / 100 : ℝ)) ^ 2 = 38416 / 10000 by norm_num] at this
    rw [show (1 - 5 / 100 : ℝ) = 95 / 100 by norm_num]
    exact this

/-- **C227** With the default method and level two measurements that vary are joined if the statistic is at least 3.8416, and not joined if
it is at most 3.84. -/
theorem C227_default_test (ppf : ℝ → Fl ℝ) (hppf : IsChi2Ppf ppf) (lib : TestLib ℝ N) (s : Fin N → Fin M → ℝ) :
    ∃ u : Fin M → Fin M → Bool, estimateUDGAt ppf lib s (.name "dcov_fast") (5 / 100) = .ok (u, none) ∧
      ∀ i j, i ≠ j → Varies (fun k => s k i) → Varies (fun k => s k j) →
        (38416 / 10000 ≤ dcovStat (fun k => s k i) (fun k => s k j) → u i j = true) ∧
        (dcovStat (fun k => s k i) (fun k => s k j) ≤ 384 / 100 → u i j = false) := by
  refine ⟨_, rfl, fun i j hij hi hj => ?_⟩
  obtain ⟨c, hc, h1, h2⟩ := C227_critical_value ppf hppf
  have hge : ∀ d : ℝ, (Fl.fin d).geFl (.fin c) = true ↔ c ≤ d := fun d => by simp [Fl.geFl]
  refine ⟨fun h => ?_, fun h => ?_⟩
  · rw [dcovFastAt_iff, hc, hge]
    exact ⟨hij, hi, hj, h2.trans h⟩
  · rw [Bool.eq_false_iff, ne_eq, dcovFastAt_iff, hc, hge]
    rintro ⟨_, _, _, h3⟩
    linarith

/-- **C227** With the default method and level a sample of at most eight observations always gives the graph without edges. -/
theorem C227_eight_observations (ppf : ℝ → Fl ℝ) (hppf : IsChi2Ppf ppf) (lib : TestLib ℝ N) (s : Fin N → Fin M → ℝ) (hN : N ≤ 8) :
    ∃ u : Fin M → Fin M → Bool, estimateUDGAt ppf lib s (.name "dcov_fast") (5 / 100) = .ok (u, none) ∧ ∀ i j, u i j = false := by
  refine ⟨_, rfl, fun i j => ?_⟩
  rw [Bool.eq_false_iff, ne_eq, dcovFastAt_iff]
  rintro ⟨_, hi, hj, h⟩
  obtain ⟨c, hc, h1, _⟩ := C227_critical_value ppf hppf
  rw [hc] at h
  simp only [Fl.geFl, decide_eq_true_eq] at h
  have h2 := dcovStat_le _ _ hi hj
  have h3 : (N : ℝ) ≤ 8 := by exact_mod_cast hN
  linarith

/-- **C227** Eight is the exact limit: for every larger number of observations two equal measurements, 1 in half of the rows (rounded down)
and 0 in the others, are joined. -/
theorem C227_nine_observations (ppf : ℝ → Fl ℝ) (hppf : IsChi2Ppf ppf) (lib : TestLib ℝ N) (hN : 9 ≤ N) :
    ∃ u : Fin 2 → Fin 2 → Bool, estimateUDGAt ppf lib (fun k (_ : Fin 2) => halfOnes N k) (.name "dcov_fast") (5 / 100) = .ok (u, none) ∧
      u 0 1 = true := by
  obtain ⟨u, hu, h⟩ := C227_default_test ppf hppf lib (fun k (_ : Fin 2) => halfOnes N k)
  have hv : Varies (halfOnes N) := by
    refine ⟨⟨0, by omega⟩, ⟨N - 1, by omega⟩, ?_⟩
    unfold halfOnes
    rw [if_pos (by simp; omega), if_neg (by simp; omega)]
    exact one_ne_zero
  refine ⟨u, hu, (h 0 1 (by decide) hv hv).1 ?_⟩
  change _ ≤ dcovStat (halfOnes N) (halfOnes N)
  rw [halfOnes_stat (by omega)]
  have hN9 : (9 : ℝ) ≤ N := by exact_mod_cast hN
  have hab : ((N : ℝ) ^ 2 - 1) / 4 ≤ (N / 2 : ℕ) * ((N : ℝ) - (N / 2 : ℕ)) := by
    rcases Nat.even_or_odd' N with ⟨m, hm | hm⟩
    · have : N / 2 = m := by omega
      rw [this]
      have : (N : ℝ) = 2 * m := by exact_mod_cast hm
      rw [this]; nlinarith
    · have : N / 2 = m := by omega
      rw [this]
      have : (N : ℝ) = 2 * m + 1 := by exact_mod_cast hm
      rw [this]; nlinarith
  have hq : (N : ℝ) ^ 2 / (2 * ((N / 2 : ℕ) * ((N : ℝ) - (N / 2 : ℕ)))) ≤ 81 / 40 := by
    generalize ((N / 2 : ℕ) * ((N : ℝ) - (N / 2 : ℕ))) = p at hab
    rw [div_le_iff₀ (by nlinarith)]
    nlinarith
  linarith

/-- the default test is the model of the other properties with the critical value above -/
theorem default_agrees (ppf : ℝ → Fl ℝ) (hppf : IsChi2Ppf ppf) : ∃ c : ℝ, 384 / 100 < c ∧ c ≤ 38416 / 10000 ∧ ∀ (N M : Nat) (lib : TestLib ℝ N) (s : Fin N → Fin M → ℝ),
    ∃ lib' : TestLib ℝ N, lib'.critVal (5 / 100) = c ∧
      estimateUDGAt ppf lib s (.name "dcov_fast") (5 / 100) = estimateUDG lib' s (.name "dcov_fast") (5 / 100) := by
  obtain ⟨c, hc, h1, h2⟩ := C227_critical_value ppf hppf
  refine ⟨c, h1, h2, fun N M lib s => ⟨{ lib with critVal := fun _ => c }, rfl, ?_⟩⟩
  unfold estimateUDGAt estimateUDG dcovFastAt
  dsimp only
  rw [if_pos rfl, if_pos rfl, hc]
  congr 2
  congr 1
  funext i j
  generalize Fl.div (N * (dcov s).1 i j) ((dcov s).2 i * (dcov s).2 j) = v
  cases v <;> rfl

/-- **C169** With the default arguments of `estimate_UDG` the probability of joining two independent columns ends up below 0.033. -/
theorem C169_default (ppf : ℝ → Fl ℝ) (hppf : IsChi2Ppf ppf) (ν : Measure (Fin M → ℝ)) [IsProbabilityMeasure ν] (i j : Fin M)
    (h2i : MemLp (fun x : Fin M → ℝ => x i) 2 ν) (h2j : MemLp (fun x : Fin M → ℝ => x j) 2 ν)
    (hind : IndepFun (fun x : Fin M → ℝ => x i) (fun x => x j) ν) :
    ∃ n0, ∀ n, n0 ≤ n → ∀ (Ω : Type) [MeasurableSpace Ω] (μ : Measure Ω) [IsProbabilityMeasure μ] (s : Ω → Fin n → Fin M → ℝ), IIDRows μ s ν →
      ∀ lib : TestLib ℝ n,
        μ {ω | ∃ u p, estimateUDGAt ppf lib (s ω) (.name "dcov_fast") (5 / 100) = .ok (u, p) ∧ u i j = true} ≤ ENNReal.ofReal (33 / 1000) := by
  obtain ⟨c, h1, h2, hag⟩ := default_agrees ppf hppf
  have hc : 0 < c := by linarith
  obtain ⟨n0, h⟩ := C169_level ν i j h2i h2j hind (5 / 100) c hc (33 / 1000) (by
    rw [div_lt_iff₀ (by positivity)]
    nlinarith)
  refine ⟨n0, fun n hn Ω _ μ _ s hs lib => ?_⟩
  refine le_trans (le_of_eq ?_) (h n hn Ω μ s hs { lib with critVal := fun _ => c } rfl)
  congr 1
  ext ω
  obtain ⟨lib', hl, he⟩ := hag n M lib (s ω)
  simp only [Set.mem_ofPred_eq]
  rw [he]
  have : ∀ lib₁ lib₂ : TestLib ℝ n, lib₁.critVal (5 / 100) = lib₂.critVal (5 / 100) →
      estimateUDG lib₁ (s ω) (.name "dcov_fast") (5 / 100) = estimateUDG lib₂ (s ω) (.name "dcov_fast") (5 / 100) := by
    intro a b e
    unfold estimateUDG
    dsimp only
    rw [if_pos rfl, if_pos rfl, e]
  rw [this lib' { lib with critVal := fun _ => c } hl]

/-- **C168** With the default arguments, two independent columns of at least 20 independent rows are joined with probability at most
0.138, whatever their law. -/
theorem C168_default (ppf : ℝ → Fl ℝ) (hppf : IsChi2Ppf ppf) (hN : 20 ≤ N) {Ω : Type} [MeasurableSpace Ω] (μ : Measure Ω) [IsProbabilityMeasure μ]
    (ν : Measure (Fin M → ℝ)) [IsProbabilityMeasure ν] (s : Ω → Fin N → Fin M → ℝ) (h : IIDRows μ s ν) (i j : Fin M)
    (hi : IndepFun (fun x : Fin M → ℝ => x i) (fun x => x j) ν) (lib : TestLib ℝ N) :
    μ {ω | ∃ u p, estimateUDGAt ppf lib (s ω) (.name "dcov_fast") (5 / 100) = .ok (u, p) ∧ u i j = true} ≤ ENNReal.ofReal (138 / 1000) := by
  obtain ⟨c, h1, h2, hag⟩ := default_agrees ppf hppf
  have hc : 0 < c := by linarith
  have hN' : (20 : ℝ) ≤ N := by exact_mod_cast hN
  have hb : (N : ℝ) / (2 * c * ((N : ℝ) - 1)) ≤ 138 / 1000 := by
    rw [div_le_iff₀ (by have : (0 : ℝ) < N - 1 := by linarith
                        positivity)]
    nlinarith
  refine le_trans (le_trans (le_of_eq ?_) (C168_independent (by omega) μ ν s h i j hi { lib with critVal := fun _ => c } (5 / 100) hc)) (ENNReal.ofReal_le_ofReal hb)
  congr 1
  ext ω
  obtain ⟨lib', hl, he⟩ := hag N M lib (s ω)
  simp only [Set.mem_ofPred_eq]
  rw [he]
  have : ∀ lib₁ lib₂ : TestLib ℝ N, lib₁.critVal (5 / 100) = lib₂.critVal (5 / 100) →
      estimateUDG lib₁ (s ω) (.name "dcov_fast") (5 / 100) = estimateUDG lib₂ (s ω) (.name "dcov_fast") (5 / 100) := by
    intro a b e
    unfold estimateUDG
    dsimp only
    rw [if_pos rfl, if_pos rfl, e]
  rw [this lib' { lib with critVal := fun _ => c } hl]

end Medil

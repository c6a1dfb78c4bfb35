import Verif.Props.Identify
import Mathlib.Topology.Algebra.Order.Field
import Mathlib.Topology.MetricSpace.ProperSpace
import Mathlib.Topology.Order.Compact
import Mathlib.Analysis.SpecialFunctions.Pow.Continuity
/-
  Stability of the least squares fit: a covariance close to that of a model with three indicators per latent determines the
  weights, up to sign, and the error variances up to a small error, and the minimum is attained.
-/
namespace Medil
open Finset Filter Topology
variable {M : Nat}

/-- weight matrices whose covariances tend to those of a model with three indicators tend to its weights, up to signs -/
theorem weights_tendsto {ι : Type} {l : Filter ι} {B : List (BVec M)} {W : ι → Fin B.length → Fin M → ℝ} {v : ι → Fin M → ℝ}
    {W0 : Fin B.length → Fin M → ℝ} {v0 : Fin M → ℝ} (hW : ∀ᶠ t in l, OnStructure B (W t)) (hW0 : OnStructure B W0)
    (h3 : ThreeIndicators B W0) (h : ∀ i j, Tendsto (fun t => modelCov (W t) (v t) i j) l (𝓝 (modelCov W0 v0 i j))) :
    ∃ s : ι → Fin B.length → ℝ, (∀ t r, s t r = 1 ∨ s t r = -1) ∧
      (∀ r j, Tendsto (fun t => s t r * W t r j) l (𝓝 (W0 r j))) ∧ ∀ j, Tendsto (fun t => v t j) l (𝓝 (v0 j)) := by
  have hrow : ∀ r, ∃ s : ι → ℝ, (∀ t, s t = 1 ∨ s t = -1) ∧ ∀ j, Tendsto (fun t => s t * W t r j) l (𝓝 (W0 r j)) := by
    intro r
    obtain ⟨a, b, c, hab, hac, hbc, pa, pb, na, nb, nc⟩ := h3 r
    have ea : ∀ j, a ≠ j → Tendsto (fun t => W t r a * W t r j) l (𝓝 (W0 r a * W0 r j)) := fun j hj => by
      rw [← pure_cov (v := v0) hW0 pa hj]
      refine (h a j).congr' ?_
      filter_upwards [hW] with t ht
      rw [pure_cov ht pa hj]
    have eb : Tendsto (fun t => W t r b * W t r c) l (𝓝 (W0 r b * W0 r c)) := by
      rw [← pure_cov (v := v0) hW0 pb hbc]
      refine (h b c).congr' ?_
      filter_upwards [hW] with t ht
      rw [pure_cov ht pb hbc]
    have hne : ∀ᶠ t in l, W t r b * W t r c ≠ 0 := eb.eventually_ne (mul_ne_zero nb nc)
    have hsq : Tendsto (fun t => W t r a ^ 2) l (𝓝 (W0 r a ^ 2)) := by
      have e : W0 r a ^ 2 = W0 r a * W0 r b * (W0 r a * W0 r c) / (W0 r b * W0 r c) := by field_simp
      rw [e]
      refine (((ea b hab).mul (ea c hac)).div eb (mul_ne_zero nb nc)).congr' ?_
      filter_upwards [hne] with t ht
      have h1 := left_ne_zero_of_mul ht
      have h2 := right_ne_zero_of_mul ht
      simp only [Pi.div_apply]
      field_simp
    have habs : Tendsto (fun t => |W t r a|) l (𝓝 |W0 r a|) := by
      have := (Real.continuous_sqrt.tendsto _).comp hsq
      simpa [Function.comp_def, Real.sqrt_sq_eq_abs] using this
    -- the sign
    let s : ι → ℝ := fun t => if 0 ≤ W t r a * W0 r a then 1 else -1
    have hs : ∀ t, s t = 1 ∨ s t = -1 := fun t => by simp only [s]; split <;> simp
    have hsa : Tendsto (fun t => s t * W t r a) l (𝓝 (W0 r a)) := by
      have e : W0 r a = |W0 r a| * (W0 r a / |W0 r a|) := by
        have := abs_ne_zero.mpr na
        field_simp
      rw [e]
      refine (habs.mul_const _).congr fun t => ?_
      simp only [s]
      rcases lt_or_gt_of_ne na with hneg | hpos
      · rw [abs_of_neg hneg, div_neg, div_self na]
        split
        · rename_i h0
          have : W t r a ≤ 0 := by by_contra hc; nlinarith
          rw [abs_of_nonpos this]; ring
        · rename_i h0
          have : 0 ≤ W t r a := by by_contra hc; exact h0 (by nlinarith)
          rw [abs_of_nonneg this]; ring
      · rw [abs_of_pos hpos, div_self na]
        split
        · rename_i h0
          have : 0 ≤ W t r a := by by_contra hc; nlinarith
          rw [abs_of_nonneg this]; ring
        · rename_i h0
          have : W t r a ≤ 0 := by by_contra hc; exact h0 (by nlinarith)
          rw [abs_of_nonpos this]; ring
    refine ⟨s, hs, fun j => ?_⟩
    by_cases hj : a = j
    · rw [← hj]; exact hsa
    · have e : W0 r j = W0 r a * W0 r j / W0 r a := by field_simp
      rw [e]
      refine ((ea j hj).div hsa na).congr' ?_
      filter_upwards [hsa.eventually_ne na] with t ht
      have h1 := right_ne_zero_of_mul ht
      simp only [Pi.div_apply]
      rcases hs t with h2 | h2 <;> rw [h2] <;> field_simp
  choose s hs hsj using hrow
  refine ⟨fun t r => s r t, fun t r => hs r t, fun r j => hsj r j, fun j => ?_⟩
  have e : v0 j = modelCov W0 v0 j j - ∑ r, W0 r j ^ 2 := by
    unfold modelCov
    rw [if_pos rfl]
    simp only [pow_two]
    ring
  rw [e]
  refine ((h j j).sub (tendsto_finsetSum _ fun r _ => (hsj r j).pow 2)).congr fun t => ?_
  unfold modelCov
  rw [if_pos rfl]
  have : ∀ r, (s r t * W t r j) ^ 2 = W t r j * W t r j := fun r => by
    rcases hs r t with h2 | h2 <;> rw [h2] <;> ring
  simp only [this]
  ring

/-- the parameters are close if the covariances are -/
theorem weights_near {B : List (BVec M)} {W0 : Fin B.length → Fin M → ℝ} (hW0 : OnStructure B W0) (h3 : ThreeIndicators B W0)
    (v0 : Fin M → ℝ) {ε : ℝ} (hε : 0 < ε) : ∃ δ > 0, ∀ (W : Fin B.length → Fin M → ℝ) (v : Fin M → ℝ), OnStructure B W →
      sqDist (modelCov W v) (modelCov W0 v0) < δ →
      ∃ s : Fin B.length → ℝ, (∀ r, s r = 1 ∨ s r = -1) ∧ (∀ r j, |s r * W r j - W0 r j| < ε) ∧ ∀ j, |v j - v0 j| < ε := by
  let f : (Fin B.length → Fin M → ℝ) × (Fin M → ℝ) → ℝ := fun q => sqDist (modelCov q.1 q.2) (modelCov W0 v0)
  let l : Filter ((Fin B.length → Fin M → ℝ) × (Fin M → ℝ)) := comap f (𝓝 0) ⊓ 𝓟 {q | OnStructure B q.1}
  have hf : Tendsto f l (𝓝 0) := tendsto_comap.mono_left inf_le_left
  have hW : ∀ᶠ q in l, OnStructure B q.1 := (mem_inf_of_right (mem_principal_self _))
  have hC : ∀ i j, Tendsto (fun q : (Fin B.length → Fin M → ℝ) × (Fin M → ℝ) => modelCov q.1 q.2 i j) l (𝓝 (modelCov W0 v0 i j)) := by
    intro i j
    rw [tendsto_iff_dist_tendsto_zero]
    have h1 : Tendsto (fun q => Real.sqrt (f q)) l (𝓝 0) := by
      have := (Real.continuous_sqrt.tendsto 0).comp hf
      simpa [Function.comp_def] using this
    refine squeeze_zero (fun q => dist_nonneg) (fun q => ?_) h1
    rw [Real.dist_eq]
    refine Real.abs_le_sqrt ?_
    show _ ≤ ∑ i', ∑ j', _
    refine le_trans ?_ (single_le_sum (f := fun i' => ∑ j', (modelCov q.1 q.2 i' j' - modelCov W0 v0 i' j') ^ 2)
      (fun i' _ => sum_nonneg fun j' _ => sq_nonneg _) (mem_univ i))
    exact single_le_sum (f := fun j' => (modelCov q.1 q.2 i j' - modelCov W0 v0 i j') ^ 2) (fun j' _ => sq_nonneg _) (mem_univ j)
  obtain ⟨s, hs, hsw, hsv⟩ := weights_tendsto hW hW0 h3 hC
  have hev : ∀ᶠ q in l, (∀ r j, |s q r * q.1 r j - W0 r j| < ε) ∧ ∀ j, |q.2 j - v0 j| < ε := by
    refine (eventually_all.mpr fun r => eventually_all.mpr fun j => ?_).and (eventually_all.mpr fun j => ?_)
    · exact (Metric.tendsto_nhds.mp (hsw r j) ε hε)
    · exact (Metric.tendsto_nhds.mp (hsv j) ε hε)
  rw [eventually_inf_principal, eventually_comap, Metric.eventually_nhds_iff] at hev
  obtain ⟨δ, hδ, hev⟩ := hev
  refine ⟨δ, hδ, fun W v hWs hd => ?_⟩
  have := hev (y := f (W, v)) (by rw [Real.dist_eq, sub_zero, abs_of_nonneg (sqDist_nonneg _ _)]; exact hd) (W, v) rfl hWs
  exact ⟨s (W, v), hs _, this.1, this.2⟩

theorem entryAt_continuous {dim : Nat} (k : Nat) : Continuous fun x : Fin dim → ℝ => entryAt x k := by
  unfold entryAt
  split
  · exact continuous_apply _
  · exact continuous_const

theorem objective_continuous (B : List (BVec M)) (dim : Nat) (S : Fin M → Fin M → ℝ) :
    Continuous fun x : Fin dim → ℝ => sqDist S (modelCov (weightsOf B x) (variancesOf (numOnes B) x)) := by
  have hw : ∀ r j, Continuous fun x : Fin dim → ℝ => weightsOf B x r j := fun r j => by
    unfold weightsOf
    split
    · exact entryAt_continuous _
    · exact continuous_const
  have hv : ∀ j : Fin M, Continuous fun x : Fin dim → ℝ => variancesOf (numOnes B) x j := fun j => entryAt_continuous _
  unfold sqDist modelCov
  refine continuous_finsetSum _ fun i _ => continuous_finsetSum _ fun j _ => (continuous_const.sub
    ((continuous_finsetSum _ fun r _ => (hw r i).mul (hw r j)).add ?_)).pow 2
  split
  · exact hv i
  · exact continuous_const

/-- every entry of the argument of the objective is a weight on the structure or an error variance -/
theorem entry_cases (B : List (BVec M)) {dim : Nat} (hdim : dim = numOnes B + M) (k : Fin dim) :
    (∃ r j, ∀ x : Fin dim → ℝ, weightsOf B x r j = x k) ∨ ∃ j : Fin M, ∀ x : Fin dim → ℝ, variancesOf (numOnes B) x j = x k := by
  have hl := length_maskPositions B
  by_cases hk : k.val < numOnes B
  · left
    have hk' : k.val < (maskPositions B).length := by omega
    obtain ⟨⟨r, j⟩, he⟩ : ∃ q, (maskPositions B)[k.val] = q := ⟨_, rfl⟩
    have hm : B[r] j = true := (mem_maskPositions B r j).mp (he ▸ List.getElem_mem hk')
    have hi : onesBefore B r j = k.val := by
      rw [← idxOf_maskPositions B r j hm, ← he]
      exact (maskPositions_nodup B).idxOf_getElem _ hk'
    refine ⟨r, j, fun x => ?_⟩
    unfold weightsOf entryAt
    rw [if_pos hm, dif_pos (by rw [hi]; exact k.isLt)]
    congr 1
    exact Fin.ext hi
  · right
    refine ⟨⟨k.val - numOnes B, by have := k.isLt; omega⟩, fun x => ?_⟩
    unfold variancesOf entryAt
    rw [dif_pos (by simp only; have := k.isLt; omega)]
    congr 1
    exact Fin.ext (by simp only; omega)

theorem sqDist_triangle (A B C : Fin M → Fin M → ℝ) : sqDist A C ≤ 2 * sqDist A B + 2 * sqDist B C := by
  unfold sqDist
  rw [mul_sum, mul_sum, ← sum_add_distrib]
  refine sum_le_sum fun i _ => ?_
  rw [mul_sum, mul_sum, ← sum_add_distrib]
  refine sum_le_sum fun j _ => ?_
  nlinarith [sq_nonneg (A i j - B i j - (B i j - C i j))]

theorem sqDist_comm (A B : Fin M → Fin M → ℝ) : sqDist A B = sqDist B A := by
  unfold sqDist
  exact sum_congr rfl fun i _ => sum_congr rfl fun j _ => by ring

/-- for a covariance close to that of the model, the least squares objective, over a structure with the same rows in any order, has a
global minimum, and every global minimum is close to the parameters of the model -/
theorem minimum_near {B0 : List (BVec M)} {W0 : Fin B0.length → Fin M → ℝ} (hW0 : OnStructure B0 W0) (h3 : ThreeIndicators B0 W0)
    (v0 : Fin M → ℝ) {ε : ℝ} (hε : 0 < ε) : ∃ δ > 0, ∀ (B : List (BVec M)) (σ : Fin B.length ≃ Fin B0.length)
      (_ : ∀ i j, B0[σ i] j = B[i] j) (dim : Nat) (_ : dim = numOnes B + M) (S : Fin M → Fin M → ℝ),
      sqDist S (modelCov W0 v0) < δ →
      (∃ x : Fin dim → ℝ, ∀ y : Fin dim → ℝ, sqDist S (modelCov (weightsOf B x) (variancesOf (numOnes B) x)) ≤
        sqDist S (modelCov (weightsOf B y) (variancesOf (numOnes B) y))) ∧
      ∀ x : Fin dim → ℝ, (∀ y : Fin dim → ℝ, sqDist S (modelCov (weightsOf B x) (variancesOf (numOnes B) x)) ≤
        sqDist S (modelCov (weightsOf B y) (variancesOf (numOnes B) y))) →
        ∃ s : Fin B.length → ℝ, (∀ r, s r = 1 ∨ s r = -1) ∧ (∀ r j, |s r * weightsOf B x r j - W0 (σ r) j| < ε) ∧
          ∀ j, |variancesOf (numOnes B) x j - v0 j| < ε := by
  obtain ⟨δ, hδ, hnear⟩ := weights_near hW0 h3 v0 hε
  refine ⟨δ / 4, by positivity, fun B σ hσ dim hdim S hS => ?_⟩
  let f : (Fin dim → ℝ) → ℝ := fun x => sqDist S (modelCov (weightsOf B x) (variancesOf (numOnes B) x))
  obtain ⟨x0, hx1, hx2⟩ := params_surj B (fun r => W0 (σ r)) (fun r j h => hW0 (σ r) j (by rw [hσ]; exact h)) v0 hdim
  have hcov0 : modelCov (fun r => W0 (σ r)) v0 = modelCov W0 v0 := by
    funext i j
    unfold modelCov
    congr 1
    exact Equiv.sum_comp σ fun r => W0 r i * W0 r j
  have hf0 : f x0 < δ / 4 := by
    show sqDist S _ < _
    rw [hx1, hx2, hcov0]
    exact hS
  have hclose : ∀ x, f x ≤ f x0 → ∃ s : Fin B.length → ℝ, (∀ r, s r = 1 ∨ s r = -1) ∧ (∀ r j, |s r * weightsOf B x r j - W0 (σ r) j| < ε) ∧
      ∀ j, |variancesOf (numOnes B) x j - v0 j| < ε := by
    intro x hx
    have hcov : modelCov (fun r => weightsOf B x (σ.symm r)) (variancesOf (numOnes B) x) =
        modelCov (weightsOf B x) (variancesOf (numOnes B) x) := by
      funext i j
      unfold modelCov
      congr 1
      exact Equiv.sum_comp σ.symm fun r => weightsOf B x r i * weightsOf B x r j
    obtain ⟨s, hs, h1, h2⟩ := hnear (fun r => weightsOf B x (σ.symm r)) (variancesOf (numOnes B) x) (fun r j h => by
        refine C57_weights_on_structure B x (σ.symm r) j ?_
        rw [← hσ]
        have : ∀ r', r' = r → B0[r'] j = false := by rintro _ rfl; exact h
        exact this _ (σ.apply_symm_apply r)) (by
        rw [hcov]
        refine lt_of_le_of_lt (sqDist_triangle _ S _) ?_
        rw [sqDist_comm _ S]
        have : sqDist S (modelCov (weightsOf B x) (variancesOf (numOnes B) x)) < δ / 4 := lt_of_le_of_lt hx hf0
        linarith)
    refine ⟨fun r => s (σ r), fun r => hs _, fun r j => ?_, h2⟩
    have := h1 (σ r) j
    rwa [σ.symm_apply_apply] at this
  constructor
  · -- the sublevel set is compact
    have hcl : IsClosed {x | f x ≤ f x0} := isClosed_le (objective_continuous B dim S) continuous_const
    have hbd : {x | f x ≤ f x0} ⊆ Metric.closedBall 0 (ε + ∑ r, ∑ j, |W0 r j| + ∑ j, |v0 j|) := by
      intro x hx
      have hs1 : 0 ≤ ∑ r, ∑ j, |W0 r j| := sum_nonneg fun r _ => sum_nonneg fun j _ => abs_nonneg _
      have hs2 : 0 ≤ ∑ j, |v0 j| := sum_nonneg fun j _ => abs_nonneg _
      rw [mem_closedBall_zero_iff, pi_norm_le_iff_of_nonneg (by linarith)]
      intro k
      rw [Real.norm_eq_abs]
      obtain ⟨s, hs, h1, h2⟩ := hclose x hx
      rcases entry_cases B hdim k with ⟨r, j, hk⟩ | ⟨j, hk⟩
      · have h4 := h1 r j
        rw [hk] at h4
        have h5 : |W0 (σ r) j| ≤ ∑ r, ∑ j, |W0 r j| :=
          (single_le_sum (f := fun j => |W0 (σ r) j|) (fun j _ => abs_nonneg _) (mem_univ j)).trans
            (single_le_sum (f := fun r => ∑ j, |W0 r j|) (fun r _ => sum_nonneg fun j _ => abs_nonneg _) (mem_univ (σ r)))
        have h6 : |x k| = |s r * x k| := by rcases hs r with h | h <;> simp [h]
        rw [h6]
        have := abs_sub_abs_le_abs_sub (s r * x k) (W0 (σ r) j)
        linarith
      · have h4 := h2 j
        rw [hk] at h4
        have h5 : |v0 j| ≤ ∑ j, |v0 j| := single_le_sum (f := fun j => |v0 j|) (fun j _ => abs_nonneg _) (mem_univ j)
        have := abs_sub_abs_le_abs_sub (x k) (v0 j)
        linarith
    have hcomp : IsCompact {x | f x ≤ f x0} := (isCompact_closedBall _ _).of_isClosed_subset hcl hbd
    obtain ⟨x, hx, hmin⟩ := hcomp.exists_isMinOn ⟨x0, by simp⟩ (objective_continuous B dim S).continuousOn
    refine ⟨x, fun y => ?_⟩
    by_cases hy : f y ≤ f x0
    · exact hmin hy
    · exact le_trans (b := f x0) hx (le_of_not_ge hy)
  · intro x hx
    exact hclose x (hx x0)

end Medil

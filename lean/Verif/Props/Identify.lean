import Verif.Props.Gaussian
import Verif.Props.Session
import Verif.Props.Evaluate
/-
  C118, C119: when the least squares fit recovers the weights and error variances that generated the covariance.
-/
namespace Medil
open Finset
variable {M : Nat}

/-- every latent has two pure children and a third child (pure or not), all with non-zero weight -/
def ThreeIndicators (B : List (BVec M)) (W : Fin B.length → Fin M → ℝ) : Prop :=
  ∀ r : Fin B.length, ∃ a b c : Fin M, a ≠ b ∧ a ≠ c ∧ b ≠ c ∧ PureChild B r a ∧ PureChild B r b ∧
    W r a ≠ 0 ∧ W r b ≠ 0 ∧ W r c ≠ 0

/-- an optimizer that returns a global minimum of every function that has one -/
def Optimizer.Ideal (opt : Optimizer) : Prop :=
  ∀ (dim : Nat) (f : (Fin dim → ℝ) → ℝ), (∃ x, ∀ y, f x ≤ f y) → ∀ y, f (opt dim f).1 ≤ f y

theorem pure_cov {B : List (BVec M)} {W : Fin B.length → Fin M → ℝ} (hW : OnStructure B W) {v : Fin M → ℝ} {r : Fin B.length}
    {a j : Fin M} (ha : PureChild B r a) (hj : a ≠ j) : modelCov W v a j = W r a * W r j := by
  unfold modelCov
  rw [if_neg hj, add_zero]
  refine sum_eq_single r (fun r' _ hne => ?_) (fun h => absurd (mem_univ _) h)
  have : B[r'] a = false := by
    by_contra hc
    exact hne (Fin.ext ((ha r'.val r'.isLt).mp (by simpa using hc)))
  rw [hW r' a this, zero_mul]

/-- two weight matrices on the same structure with the same covariances -/
theorem weights_identified {B : List (BVec M)} {W W0 : Fin B.length → Fin M → ℝ} (hW : OnStructure B W)
    (hW0 : OnStructure B W0) {v v0 : Fin M → ℝ} (h3 : ThreeIndicators B W0) (h : ∀ i j, modelCov W v i j = modelCov W0 v0 i j) :
    v = v0 ∧ ∀ r, ∃ s : ℝ, (s = 1 ∨ s = -1) ∧ ∀ j, W r j = s * W0 r j := by
  have hrow : ∀ r, ∃ s : ℝ, (s = 1 ∨ s = -1) ∧ ∀ j, W r j = s * W0 r j := by
    intro r
    obtain ⟨a, b, c, hab, hac, hbc, pa, pb, na, nb, nc⟩ := h3 r
    have ea : ∀ j, a ≠ j → W r a * W r j = W0 r a * W0 r j := fun j hj => by
      rw [← pure_cov (v := v) hW pa hj, h, pure_cov hW0 pa hj]
    have eb : W r b * W r c = W0 r b * W0 r c := by
      rw [← pure_cov (v := v) hW pb hbc, h, pure_cov hW0 pb hbc]
    have e1 := ea b hab
    have e2 := ea c hac
    have hne : W r a ≠ 0 := by
      intro h0
      rw [h0, zero_mul] at e1
      exact mul_ne_zero na nb e1.symm
    have hsq : W r a ^ 2 = W0 r a ^ 2 := by
      have hbcne : W0 r b * W0 r c ≠ 0 := mul_ne_zero nb nc
      have : W r a ^ 2 * (W0 r b * W0 r c) = W0 r a ^ 2 * (W0 r b * W0 r c) := by
        rw [← eb]
        calc W r a ^ 2 * (W r b * W r c) = (W r a * W r b) * (W r a * W r c) := by ring
          _ = (W0 r a * W0 r b) * (W0 r a * W0 r c) := by rw [e1, e2]
          _ = W0 r a ^ 2 * (W0 r b * W0 r c) := by ring
          _ = W0 r a ^ 2 * (W r b * W r c) := by rw [eb]
      exact mul_right_cancel₀ hbcne this
    rcases sq_eq_sq_iff_eq_or_eq_neg.mp hsq with hs | hs
    · refine ⟨1, Or.inl rfl, fun j => ?_⟩
      by_cases hj : a = j
      · rw [← hj, hs, one_mul]
      · have := ea j hj
        rw [hs] at this
        rw [one_mul]
        exact mul_left_cancel₀ na this
    · refine ⟨-1, Or.inr rfl, fun j => ?_⟩
      by_cases hj : a = j
      · rw [← hj, hs]; ring
      · have := ea j hj
        rw [hs] at this
        have h4 : W0 r a * (-W r j) = W0 r a * W0 r j := by rw [← this]; ring
        have := mul_left_cancel₀ na h4
        linarith
  refine ⟨?_, hrow⟩
  funext i
  have hi := h i i
  unfold modelCov at hi
  rw [if_pos rfl, if_pos rfl] at hi
  have : ∑ r, W r i * W r i = ∑ r, W0 r i * W0 r i := by
    refine sum_congr rfl fun r _ => ?_
    obtain ⟨s, hs, hj⟩ := hrow r
    rw [hj]
    rcases hs with rfl | rfl <;> ring
  linarith

/-- every weight matrix on the structure is among the arguments of the objective -/
theorem params_surj (B : List (BVec M)) (W : Fin B.length → Fin M → ℝ) (hW : OnStructure B W) (v : Fin M → ℝ) {dim : Nat}
    (hdim : dim = numOnes B + M) : ∃ x : Fin dim → ℝ, weightsOf B x = W ∧ variancesOf (numOnes B) x = v := by
  have hl := length_maskPositions B
  refine ⟨fun k => if h : k.val < (maskPositions B).length then W ((maskPositions B)[k.val]).1 ((maskPositions B)[k.val]).2
    else if h' : k.val - numOnes B < M then v ⟨k.val - numOnes B, h'⟩ else 0, ?_, ?_⟩
  · funext r j
    unfold weightsOf
    by_cases h : B[r] j = true
    · rw [if_pos h, ← idxOf_maskPositions B r j h]
      have hm : (maskPositions B).idxOf (r, j) < (maskPositions B).length :=
        List.idxOf_lt_length_iff.mpr ((mem_maskPositions B r j).mpr h)
      have hg : (maskPositions B)[(maskPositions B).idxOf (r, j)] = (r, j) := List.getElem_idxOf hm
      unfold entryAt
      rw [dif_pos (by omega)]
      simp only [hm, dif_pos, hg]
    · rw [if_neg h]
      exact (hW r j (by simpa using h)).symm
  · funext j
    unfold variancesOf entryAt
    have := j.isLt
    rw [dif_pos (by omega)]
    beta_reduce
    rw [dif_neg (by simp only; omega)]
    simp

/-- **C118** If the sample covariance of the dataset is that of a model with weights `W0` on the structure and error
variances `v0`, every latent has two pure children and a third child with non-zero weights, and the optimizer finds a global minimum, then
`fit` stores the error variances `v0` and the weights `W0`, up to the sign of each row. -/
theorem C118_fit_identifies (opt : Optimizer) (hopt : opt.Ideal) (o : Sched M) (d : Dataset M) (st : GState M) (warned : Bool)
    (h : (gaussianFit opt o d st).2 = .ok warned) (B : List (BVec M)) (hB : (gaussianFit opt o d st).1.biadj = B)
    (W0 : Fin B.length → Fin M → ℝ) (v0 : Fin M → ℝ) (hW0 : OnStructure B W0) (h3 : ThreeIndicators B W0)
    (hcov : ∀ i j, sampleCov (fun k => d.val k i) (fun k => d.val k j) = modelCov W0 v0 i j) :
    ∃ (p : GParams M) (hp : p.weightsOn = B) (s : Fin B.length → ℝ), (gaussianFit opt o d st).1.params = some p ∧
      p.variances = v0 ∧ (∀ r, s r = 1 ∨ s r = -1) ∧
      ∀ r j, p.weights (Fin.cast (by rw [hp]) r) j = s r * W0 r j := by
  obtain ⟨B', dim, f, p, hB', h1, hdim, hf, hp, hw, hv, -, -⟩ := C57_fitted_parameters opt o d st warned h
  have e : B' = B := h1.symm.trans hB
  subst e
  obtain ⟨x0, hx1, hx2⟩ := params_surj B' W0 hW0 v0 hdim
  have hC : (fun i j => sampleCov (fun k => d.val k i) fun k => d.val k j) = modelCov W0 v0 := by funext i j; exact hcov i j
  have hx0 : f x0 = 0 := by rw [hf, hx1, hx2, hC]; exact (sqDist_eq_zero _ _).mpr rfl
  have hmin := hopt dim f ⟨x0, fun y => by rw [hx0, hf]; exact sqDist_nonneg _ _⟩ x0
  rw [hx0, hf] at hmin
  have h0 := (sqDist_eq_zero _ _).mp (le_antisymm hmin (sqDist_nonneg _ _))
  rw [hC] at h0
  obtain ⟨hvv, hrow⟩ := weights_identified (C57_weights_on_structure B' (opt dim f).1) hW0 h3
    (fun i j => (congrFun (congrFun h0 i) j).symm)
  choose s hs hsj using hrow
  exact ⟨p, hB', s, hp, hv.trans hvv, hs, fun r j => (hw r j).trans (hsj r j)⟩

/-- two children are not enough: one latent with two children and two positive definite solutions with different weights and
positive error variances -/
theorem C118_two_children : ∃ (C : Fin 2 → Fin 2 → ℝ) (W W' : Fin [BVec.full (n := 2)].length → Fin 2 → ℝ) (v v' : Fin 2 → ℝ),
    (∀ r j, W r j ≠ 0 ∧ PureChild [BVec.full (n := 2)] r j) ∧ (∀ j, 0 < v j ∧ 0 < v' j) ∧
    (∀ i j, C i j = modelCov W v i j) ∧ (∀ i j, C i j = modelCov W' v' i j) ∧ ∀ r j, |W r j| ≠ |W' r j| := by
  refine ⟨![![2, 1], ![1, 2]], fun _ _ => 1, fun _ => ![5 / 4, 4 / 5], fun _ => 1, ![2 - 25 / 16, 2 - 16 / 25], ?_, ?_, ?_, ?_, ?_⟩
  · intro r j
    refine ⟨one_ne_zero, fun i hi => ?_⟩
    have h1 : i = 0 := by simpa using hi
    have h2 : r.val = 0 := by have := r.isLt; simp at this ⊢
    subst h1
    rw [h2]
    simp
  · intro j; fin_cases j <;> norm_num
  · intro i j
    show _ = (∑ _r : Fin 1, (1 : ℝ) * 1) + _
    rw [Fin.sum_univ_one]
    fin_cases i <;> fin_cases j <;> norm_num
  · intro i j
    show _ = (∑ _r : Fin 1, _) + _
    rw [Fin.sum_univ_one]
    fin_cases i <;> fin_cases j <;> norm_num
  · intro r j
    show |(1 : ℝ)| ≠ _
    fin_cases j <;> norm_num [abs_of_pos]

/-- lists that are permutations of each other have the same entries up to a bijection of the indices -/
theorem perm_index {α : Type} {l l' : List α} (h : l.Perm l') :
    ∃ f : Fin l.length → Fin l'.length, Function.Injective f ∧ ∀ i, l'[f i] = l[i] := by
  induction h with
  | nil => exact ⟨id, Function.injective_id, fun i => rfl⟩
  | @cons x l l' h ih =>
    obtain ⟨f, hf, he⟩ := ih
    refine ⟨Fin.cases (0 : Fin (l'.length + 1)) fun i => (f i).succ, ?_, ?_⟩
    · intro a b
      refine Fin.cases ?_ (fun a => ?_) a <;> refine Fin.cases ?_ (fun b => ?_) b
      · exact fun _ => rfl
      · intro hab; exact absurd hab.symm (Fin.succ_ne_zero _)
      · intro hab; exact absurd hab (Fin.succ_ne_zero _)
      · intro hab
        exact congrArg Fin.succ (hf (Fin.succ_injective _ hab))
    · intro a
      refine Fin.cases rfl (fun a => ?_) a
      exact he a
  | swap x y l =>
    refine ⟨fun i => if i.val = 0 then ⟨1, by simp⟩ else if i.val = 1 then ⟨0, by simp⟩ else i, ?_, ?_⟩
    · intro a b hab
      by_cases h1 : a.val = 0 <;> by_cases h2 : a.val = 1 <;> by_cases h3 : b.val = 0 <;> by_cases h4 : b.val = 1 <;>
        simp [h1, h2, h3, h4, Fin.ext_iff] at hab ⊢ <;> omega
    · intro i
      obtain ⟨i, hi⟩ := i
      match i, hi with
      | 0, _ => rfl
      | 1, _ => rfl
      | i + 2, _ => rfl
  | trans _ _ ih1 ih2 =>
    obtain ⟨f, hf, he⟩ := ih1
    obtain ⟨g, hg, hge⟩ := ih2
    exact ⟨g ∘ f, hg.comp hf, fun i => (hge (f i)).trans (he i)⟩

/-- **C119** From data to weights: no structure is given, the graph used (given, or estimated from the dataset) is the dependence
graph of a one-pure-child structure `B0`, the sample covariance is that of a model with weights `W0` on `B0` and error variances
`v0`, every latent has two pure children and a third child with non-zero weights, and the optimizer finds a global minimum.  Then `fit` returns, for every
set order, the error variances are `v0`, and `min_perm_squared_l2_dist_abs` of the fitted weights and `W0` is 0. -/
theorem C119_pipeline (hM : 2 ≤ M) (opt : Optimizer) (hopt : opt.Ideal) (o : Sched M) (d : Dataset M) (st : GState M)
    (hst : st.biadj = []) (U : BMat M) (hU : GraphUsed d st.udg U) (B0 : List (BVec M)) (hB : OnePureChild B0) (hUB : IsUDGOf U B0)
    (W0 : Fin B0.length → Fin M → ℝ) (v0 : Fin M → ℝ) (hW0 : OnStructure B0 W0) (h3 : ThreeIndicators B0 W0)
    (hcov : ∀ i j, sampleCov (fun k => d.val k i) (fun k => d.val k j) = modelCov W0 v0 i j) :
    ∃ (warned : Bool) (p : GParams M) (q : List (Fin p.weightsOn.length)), (gaussianFit opt o d st).2 = .ok warned ∧
      (gaussianFit opt o d st).1.params = some p ∧ p.weightsOn.length = B0.length ∧ p.variances = v0 ∧
      minPermSquaredL2DistAbs p.weights W0 = .ok (q, 0) := by
  obtain ⟨⟨warned, hw⟩, hsame, -⟩ := C77_fit_recovers hM opt o d st hst U hU B0 hB hUB
  obtain ⟨B, hBdef⟩ : ∃ B, (gaussianFit opt o d st).1.biadj = B := ⟨_, rfl⟩
  rw [hBdef] at hsame
  obtain ⟨f, hf, hfe⟩ := perm_index hsame
  have hlen : B.length = B0.length := by simpa using hsame.length_eq
  -- the bijection of the rows
  let σ : Fin B.length → Fin B0.length := fun i => Fin.cast (by simp) (f (Fin.cast (by simp) i))
  have hσ : Function.Injective σ := by
    intro a b hab
    have h1 := congrArg Fin.val hab
    have h2 := hf (Fin.ext h1)
    exact Fin.ext (by simpa using congrArg Fin.val h2)
  have hrow : ∀ i j, B0[σ i] j = B[i] j := by
    intro i j
    have h1 := hfe (Fin.cast (by simp) i)
    simp only [Fin.getElem_fin, List.getElem_map] at h1
    have h2 := Finset.ext_iff.mp h1 j
    simp only [mem_children] at h2
    exact Bool.eq_iff_iff.mpr h2
  have hbij : Function.Bijective σ := (Fintype.bijective_iff_injective_and_card σ).mpr ⟨hσ, by simp [hlen]⟩
  have hpure : ∀ r a, PureChild B0 (σ r) a → PureChild B r a := by
    intro r a h j hj
    have h1 := h (σ ⟨j, hj⟩).val (σ ⟨j, hj⟩).isLt
    have h2 : B0[(σ ⟨j, hj⟩).val] a = B[j] a := hrow ⟨j, hj⟩ a
    rw [h2] at h1
    rw [h1]
    constructor
    · intro h3
      exact congrArg Fin.val (hσ (Fin.ext h3))
    · intro h3
      subst h3; rfl
  obtain ⟨p, hp, s, hpar, hv, hs, hws⟩ := C118_fit_identifies opt hopt o d st warned hw B hBdef (fun r => W0 (σ r)) v0
    (fun r j h => hW0 (σ r) j (by rw [hrow]; exact h))
    (fun r => by
      obtain ⟨a, b, c, h1, h2, h3, h4, h5, h6⟩ := h3 (σ r)
      exact ⟨a, b, c, h1, h2, h3, hpure r a h4, hpure r b h5, h6⟩)
    (fun i j => by
      rw [hcov]
      unfold modelCov
      congr 1
      exact (Function.Bijective.sum_comp hbij fun r => W0 r i * W0 r j).symm)
  have hpl : p.weightsOn.length = B0.length := by rw [hp, hlen]
  have hpos : 0 < p.weightsOn.length := by
    rw [hpl]
    obtain ⟨r, hr, -⟩ := hB.2 ⟨0, by omega⟩
    exact List.length_pos_of_mem hr
  obtain ⟨τ, hτ, hmin, -⟩ := minPermDist_spec abs id p.weights W0 (le_of_eq hpl.symm) hpos
  refine ⟨warned, p, List.ofFn τ, hw, hpar, hpl, hv, ?_⟩
  -- the matching given by the bijection
  let ρ := (Equiv.ofBijective σ hbij).symm
  let π : Equiv.Perm (Fin p.weightsOn.length) := (finCongr hpl).trans (ρ.trans (finCongr (by rw [hp])))
  have hzero : matchDist abs p.weights (padded id W0) π = 0 := by
    refine (matchDist_eq_zero abs p.weights (padded id W0) π).mpr fun i j => ?_
    have hi : i.val < B0.length := by rw [← hpl]; exact i.isLt
    have h1 : p.weights (π i) j = s (ρ ⟨i, hi⟩) * W0 ⟨i, hi⟩ j := by
      have := hws (ρ ⟨i, hi⟩) j
      have h2 : σ (ρ ⟨i, hi⟩) = ⟨i, hi⟩ := (Equiv.ofBijective σ hbij).apply_symm_apply _
      rw [h2] at this
      exact this
    rw [h1]
    unfold padded
    rw [dif_pos hi]
    rcases hs (ρ ⟨i, hi⟩) with h2 | h2 <;> rw [h2] <;> simp
  have h0 : matchDist abs p.weights (padded id W0) τ = 0 :=
    le_antisymm (hzero ▸ hmin π) (matchDist_nonneg _ _ _ _)
  unfold minPermSquaredL2DistAbs
  rw [hτ, h0]

/-- an ideal optimizer exists -/
theorem exists_ideal : ∃ opt : Optimizer, opt.Ideal := by
  classical
  refine ⟨fun dim f => (if h : ∃ x, ∀ y, f x ≤ f y then h.choose else 0, true), fun dim f h y => ?_⟩
  simp only [dif_pos h]
  exact h.choose_spec y

/-- four observations of three measurements; the sample covariance is `[[2, 1, 1], [1, 2, 1], [1, 1, 1]]` -/
noncomputable def threeChildren : Dataset 3 :=
  { size := 4, two_le := by omega,
    val := fun k j => Real.sqrt 3 / 2 * (![![2, 2, 1], ![0, 0, 1], ![0, -2, -1], ![-2, 0, -1]] k j) }

theorem threeChildren_cov (i j : Fin 3) : sampleCov (fun k => threeChildren.val k i) (fun k => threeChildren.val k j) =
    modelCov (fun (_ : Fin 1) (_ : Fin 3) => 1) ![1, 1, 0] i j := by
  have h3 : Real.sqrt 3 ^ 2 = 3 := Real.sq_sqrt (by norm_num)
  unfold sampleCov sampleMean modelCov
  show (∑ k : Fin 4, _) / (((4 : ℕ) : ℝ) - 1) = _
  unfold threeChildren
  fin_cases i <;> fin_cases j <;> simp [Fin.sum_univ_four] <;> ring_nf <;> norm_num [h3]

/-- **non-vacuity of C118 and C119**: with this dataset, the complete graph, no structure and one latent with three children
every hypothesis holds, so the fitted variances are 1, 1, 0 and the weights are 1, 1, 1 up to sign -/
example : ∃ opt : Optimizer, opt.Ideal ∧ ∀ o : Sched 3,
    ∃ (warned : Bool) (p : GParams 3) (q : List (Fin p.weightsOn.length)),
      (gaussianFit opt o threeChildren { udg := some (BMat.of fun _ _ => true) }).2 = .ok warned ∧
      (gaussianFit opt o threeChildren { udg := some (BMat.of fun _ _ => true) }).1.params = some p ∧ p.weightsOn.length = 1 ∧
      p.variances = ![1, 1, 0] ∧ minPermSquaredL2DistAbs p.weights (fun (_ : Fin 1) (_ : Fin 3) => (1 : ℝ)) = .ok (q, 0) := by
  obtain ⟨opt, h⟩ := exists_ideal
  have hpure : ∀ (r : Fin [BVec.full (n := 3)].length) j, PureChild [BVec.full (n := 3)] r j := by
    intro r j i hi
    have h1 : i = 0 := by simpa using hi
    have h2 : r.val = 0 := by have := r.isLt; simp at this ⊢
    subst h1
    rw [h2]
    simp
  refine ⟨opt, h, fun o => C119_pipeline (by omega) opt h o threeChildren _ rfl (BMat.of fun _ _ => true) (Or.inl rfl) [BVec.full]
    ⟨fun i hi => ⟨0, hpure ⟨i, hi⟩ 0⟩, fun j => ⟨BVec.full, by simp⟩⟩ (fun i j _ => by simp) (fun _ _ => 1) ![1, 1, 0]
    (fun r j h => ?_) (fun r => ⟨0, 1, 2, by decide, by decide, by decide, hpure r 0, hpure r 1, one_ne_zero, one_ne_zero, one_ne_zero⟩)
    threeChildren_cov⟩
  have h2 : r = ⟨0, by simp⟩ := Fin.ext (by have := r.isLt; simp at this ⊢)
  subst h2
  simp at h

end Medil

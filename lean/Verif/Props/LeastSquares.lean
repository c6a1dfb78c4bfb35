import Verif.Spec.LeastSquares
import Verif.Props.ConsistentParams
/-
  Property theorem C182: does the least squares problem of `GaussianMCM.fit` have a solution?
-/
namespace Medil
open Finset Filter Topology
variable {M : Nat}

/-- **C182** (as stated; false) for every dataset with positive definite sample covariance and every structure there are weights and error
variances that minimise the objective of `fit`. -/
def C182_statement : Prop :=
  ∀ (M : Nat) (d : Dataset M) (B : List (BVec M)), PosDefinite (fun i j => sampleCov (fun k => d.val k i) fun k => d.val k j) →
    ∃ (W : Fin B.length → Fin M → ℝ) (v : Fin M → ℝ), LeastSquares (fun i j => sampleCov (fun k => d.val k i) fun k => d.val k j) B W v

/-- no weights and error variances explain the covariance of two measurements without a common parent -/
theorem unexplained_le (S : Fin M → Fin M → ℝ) (B : List (BVec M)) (W : Fin B.length → Fin M → ℝ) (v : Fin M → ℝ) (hW : OnStructure B W) :
    unexplained S B ≤ sqDist S (modelCov W v) := by
  unfold unexplained sqDist
  refine sum_le_sum fun i _ => sum_le_sum fun j _ => ?_
  split_ifs with h
  · refine le_of_eq ?_
    have h0 : modelCov W v i j = 0 := by
      unfold modelCov
      rw [if_neg h.1, add_zero]
      refine sum_eq_zero fun r _ => ?_
      by_cases h1 : B[r] i = true
      · have h2 : B[r] j = false := by
          by_contra h2
          exact h.2 ⟨r, h1, by simpa using h2⟩
        rw [hW r j h2, mul_zero]
      · rw [hW r i (by simpa using h1), zero_mul]
    rw [h0, sub_zero]
  · exact sq_nonneg _

/-- with at most two children for each latent the bound is attained -/
theorem unexplained_attained (S : Fin M → Fin M → ℝ) (hS : ∀ i j, S i j = S j i) (B : List (BVec M))
    (h2 : ∀ r : Fin B.length, (univ.filter fun j => B[r] j = true).card ≤ 2) :
    ∃ (W : Fin B.length → Fin M → ℝ) (v : Fin M → ℝ), OnStructure B W ∧ sqDist S (modelCov W v) = unexplained S B := by
  classical
  -- the latent used for a pair of measurements
  let used : Fin B.length → Prop := fun r => ∃ i j, i < j ∧ B[r] i = true ∧ B[r] j = true ∧ ∀ r', r' < r → ¬ (B[r'] i = true ∧ B[r'] j = true)
  -- weight 1 for the smaller child, the covariance for the larger child
  let W : Fin B.length → Fin M → ℝ := fun r j =>
    if used r ∧ B[r] j = true then (if h : ∃ i, i < j ∧ B[r] i = true then S h.choose j else 1) else 0
  have hon : OnStructure B W := fun r j h => by
    show (if _ then _ else _) = _
    rw [if_neg]
    rintro ⟨-, h'⟩
    rw [h] at h'
    exact absurd h' (by decide)
  have hthree : ∀ (r : Fin B.length) (a b c : Fin M), B[r] a = true → B[r] b = true → B[r] c = true → a ≠ b → c = a ∨ c = b := by
    intro r a b c ha hb hc hab
    by_contra hn
    push Not at hn
    have : ({a, b, c} : Finset (Fin M)).card ≤ (univ.filter fun j => B[r] j = true).card := by
      refine card_le_card fun x hx => ?_
      simp only [mem_insert, mem_singleton] at hx
      rw [mem_filter]
      refine ⟨mem_univ _, ?_⟩
      rcases hx with rfl | rfl | rfl <;> assumption
    rw [card_eq_three.mpr ⟨a, b, c, hab, (Ne.symm hn.1), (Ne.symm hn.2), rfl⟩] at this
    have := h2 r
    omega
  have hprod : ∀ (r : Fin B.length) (i j : Fin M), i < j → B[r] i = true → B[r] j = true →
      W r i * W r j = if used r then S i j else 0 := by
    intro r i j hij hi hj
    show (if _ then _ else _) * (if _ then _ else _) = _
    by_cases hu : used r
    · rw [if_pos ⟨hu, hi⟩, if_pos ⟨hu, hj⟩, if_pos hu]
      have e1 : ¬ ∃ k, k < i ∧ B[r] k = true := by
        rintro ⟨k, hk, hb⟩
        rcases hthree r i j k hi hj hb (ne_of_lt hij) with rfl | rfl
        · exact lt_irrefl _ hk
        · exact absurd (hk.trans hij) (lt_irrefl _)
      have e2 : ∃ k, k < j ∧ B[r] k = true := ⟨i, hij, hi⟩
      rw [dif_neg e1, dif_pos e2, one_mul]
      have h3 := e2.choose_spec
      rcases hthree r i j e2.choose hi hj h3.2 (ne_of_lt hij) with h | h
      · rw [h]
      · rw [h] at h3
        exact absurd h3.1 (lt_irrefl _)
    · rw [if_neg (fun h => hu h.1), zero_mul, if_neg hu]
  have hoff : ∀ i j : Fin M, i < j → ∑ r, W r i * W r j = if CommonParent B i j then S i j else 0 := by
    intro i j hij
    by_cases hc : CommonParent B i j
    · rw [if_pos hc]
      let P : Finset (Fin B.length) := univ.filter fun r => B[r] i = true ∧ B[r] j = true
      have hne : P.Nonempty := by
        obtain ⟨r, hr⟩ := hc
        exact ⟨r, by simp only [P, mem_filter]; exact ⟨mem_univ _, hr⟩⟩
      have hm := mem_filter.mp (P.min'_mem hne)
      have hmu : used (P.min' hne) := ⟨i, j, hij, hm.2.1, hm.2.2, fun r' hr' h => by
        have := P.min'_le r' (mem_filter.mpr ⟨mem_univ _, h⟩)
        exact absurd (lt_of_lt_of_le hr' this) (lt_irrefl _)⟩
      rw [sum_eq_single (P.min' hne)]
      · rw [hprod _ _ _ hij hm.2.1 hm.2.2, if_pos hmu]
      · intro r _ hr
        by_cases h1 : B[r] i = true ∧ B[r] j = true
        · rw [hprod _ _ _ hij h1.1 h1.2, if_neg]
          rintro ⟨a, b, hab, ha, hb, hmin⟩
          have hlt : P.min' hne < r := lt_of_le_of_ne (P.min'_le r (mem_filter.mpr ⟨mem_univ _, h1⟩)) (Ne.symm hr)
          have ea := hthree r i j a h1.1 h1.2 ha (ne_of_lt hij)
          have eb := hthree r i j b h1.1 h1.2 hb (ne_of_lt hij)
          have : a = i ∧ b = j := by
            rcases ea with rfl | rfl <;> rcases eb with rfl | rfl
            · exact absurd hab (lt_irrefl _)
            · exact ⟨rfl, rfl⟩
            · exact absurd (hab.trans hij) (lt_irrefl _)
            · exact absurd hab (lt_irrefl _)
          rw [this.1, this.2] at hmin
          exact hmin _ hlt hm.2
        · by_cases h3 : B[r] i = true
          · rw [hon r j (by by_contra h4; exact h1 ⟨h3, by simpa using h4⟩), mul_zero]
          · rw [hon r i (by simpa using h3), zero_mul]
      · intro h; exact absurd (mem_univ _) h
    · rw [if_neg hc]
      refine sum_eq_zero fun r _ => ?_
      by_cases h3 : B[r] i = true
      · rw [hon r j (by by_contra h4; exact hc ⟨r, h3, by simpa using h4⟩), mul_zero]
      · rw [hon r i (by simpa using h3), zero_mul]
  refine ⟨W, fun j => S j j - ∑ r, W r j * W r j, hon, ?_⟩
  unfold sqDist unexplained
  refine sum_congr rfl fun i _ => sum_congr rfl fun j _ => ?_
  unfold modelCov
  by_cases hij : i = j
  · subst hij
    simp
  · rw [if_neg hij, add_zero]
    have hcs : CommonParent B i j ↔ CommonParent B j i := ⟨fun ⟨r, a, b⟩ => ⟨r, b, a⟩, fun ⟨r, a, b⟩ => ⟨r, b, a⟩⟩
    have hval : ∑ r, W r i * W r j = if CommonParent B i j then S i j else 0 := by
      rcases lt_or_gt_of_ne hij with h | h
      · exact hoff i j h
      · rw [hS i j]
        simp only [hcs]
        rw [← hoff j i h]
        exact sum_congr rfl fun r _ => mul_comm _ _
    rw [hval]
    by_cases hc : CommonParent B i j
    · simp [hc]
    · simp [hc, hij]

/-- with an optimizer that finds global minima, `fit` stores a least squares solution, if there is one -/
theorem fit_leastSquares (opt : Optimizer) (hopt : opt.Ideal) (o : Sched M) (d : Dataset M) (st : GState M) (warned : Bool)
    (h : (gaussianFit opt o d st).2 = .ok warned)
    (hex : ∃ (W : Fin (gaussianFit opt o d st).1.biadj.length → Fin M → ℝ) (v : Fin M → ℝ),
      LeastSquares (fun i j => sampleCov (fun k => d.val k i) fun k => d.val k j) (gaussianFit opt o d st).1.biadj W v) :
    ∃ p : GParams M, (gaussianFit opt o d st).1.params = some p ∧ p.weightsOn = (gaussianFit opt o d st).1.biadj ∧
      LeastSquares (fun i j => sampleCov (fun k => d.val k i) fun k => d.val k j) p.weightsOn p.weights p.variances := by
  obtain ⟨B, dim, f, p, hB, h1, hdim, hf, hp, hw, hv, -, -⟩ := C57_fitted_parameters opt o d st warned h
  rw [h1] at hex
  obtain ⟨W, v, hW, hmin⟩ := hex
  obtain ⟨x0, hx1, hx2⟩ := params_surj B W hW v hdim
  have hall : ∀ y, f x0 ≤ f y := fun y => by
    rw [hf, hf, hx1, hx2]
    exact hmin _ _ (C57_weights_on_structure B y)
  have hbest := hopt dim f ⟨x0, hall⟩
  refine ⟨p, hp, hB.trans h1.symm, ?_⟩
  obtain ⟨pv, pB, pw⟩ := p
  have hB' : pB = B := hB
  subst hB'
  have ew : pw = weightsOf pB (opt dim f).1 := by funext r j; exact hw r j
  have ev : pv = variancesOf (numOnes pB) (opt dim f).1 := hv
  refine ⟨?_, fun W' v' hW' => ?_⟩
  · show OnStructure pB pw
    rw [ew]; exact C57_weights_on_structure pB _
  · show sqDist _ (modelCov pw pv) ≤ _
    rw [ew, ev, ← hf]
    refine (hbest x0).trans ?_
    rw [hf, hx1, hx2]
    exact hmin W' v' hW'

/-- **C182** the part of the claim that holds, 1: on every structure, no weights and error variances have an objective below the sum of
the squared sample covariances of the pairs without a common parent; if every latent has at most two children this is the minimum, and `fit`, with an
optimizer that finds global minima, attains it.

Missing from the full claim: structures with a latent with three or more children, where there may be no minimum (`C182_false`). -/
theorem C182_two_children_partial (opt : Optimizer) (hopt : opt.Ideal) (o : Sched M) (d : Dataset M) (st : GState M) (warned : Bool)
    (h : (gaussianFit opt o d st).2 = .ok warned)
    (h2 : ∀ r : Fin (gaussianFit opt o d st).1.biadj.length, (univ.filter fun j => (gaussianFit opt o d st).1.biadj[r] j = true).card ≤ 2) :
    ∃ p : GParams M, (gaussianFit opt o d st).1.params = some p ∧ p.weightsOn = (gaussianFit opt o d st).1.biadj ∧
      LeastSquares (fun i j => sampleCov (fun k => d.val k i) fun k => d.val k j) p.weightsOn p.weights p.variances ∧
      sqDist (fun i j => sampleCov (fun k => d.val k i) fun k => d.val k j) (modelCov p.weights p.variances) =
        unexplained (fun i j => sampleCov (fun k => d.val k i) fun k => d.val k j) (gaussianFit opt o d st).1.biadj := by
  obtain ⟨W, v, hW, he⟩ := unexplained_attained (fun i j => sampleCov (fun k => d.val k i) fun k => d.val k j)
    (fun i j => by unfold sampleCov; simp only [mul_comm]) _ h2
  obtain ⟨p, h3, h4, h5⟩ := fit_leastSquares opt hopt o d st warned h ⟨W, v, hW, fun W' v' hW' => by
    rw [he]; exact unexplained_le _ _ _ _ hW'⟩
  refine ⟨p, h3, h4, h5, ?_⟩
  have key : ∀ (B : List (BVec M)) (_ : B = p.weightsOn) (W : Fin B.length → Fin M → ℝ), OnStructure B W →
      sqDist (fun i j => sampleCov (fun k => d.val k i) fun k => d.val k j) (modelCov W v) =
        unexplained (fun i j => sampleCov (fun k => d.val k i) fun k => d.val k j) B →
      sqDist (fun i j => sampleCov (fun k => d.val k i) fun k => d.val k j) (modelCov p.weights p.variances) =
        unexplained (fun i j => sampleCov (fun k => d.val k i) fun k => d.val k j) B := by
    rintro _ rfl W hW he
    exact le_antisymm ((h5.2 W v hW).trans he.le) (unexplained_le _ _ _ _ h5.1)
  exact key _ h4.symm W hW he

/-- **C182** the bound of part 1 for every structure and every optimizer -/
theorem C182_bound_partial (opt : Optimizer) (o : Sched M) (d : Dataset M) (st : GState M) (warned : Bool)
    (h : (gaussianFit opt o d st).2 = .ok warned) :
    ∃ p : GParams M, (gaussianFit opt o d st).1.params = some p ∧
      unexplained (fun i j => sampleCov (fun k => d.val k i) fun k => d.val k j) (gaussianFit opt o d st).1.biadj ≤
        sqDist (fun i j => sampleCov (fun k => d.val k i) fun k => d.val k j) (modelCov p.weights p.variances) := by
  obtain ⟨B, dim, f, p, hB, h1, hdim, hf, hp, hw, hv, -, -⟩ := C57_fitted_parameters opt o d st warned h
  refine ⟨p, hp, ?_⟩
  rw [h1, ← hB]
  refine unexplained_le _ _ _ _ fun r j hr => ?_
  subst hB
  rw [show p.weights r j = _ from hw r j]
  exact C57_weights_on_structure p.weightsOn _ r j hr

/-- **C182** part 2: near a model with two pure children and a third child for every latent there is a least squares solution, and `fit`, with an
optimizer that finds global minima, stores one. -/
theorem C182_near_partial (B0 : List (BVec M)) (W0 : Fin B0.length → Fin M → ℝ) (v0 : Fin M → ℝ) (hW0 : OnStructure B0 W0)
    (h3 : ThreeIndicators B0 W0) :
    ∃ δ > 0, ∀ (opt : Optimizer), opt.Ideal → ∀ (o : Sched M) (d : Dataset M) (st : GState M) (warned : Bool),
      (gaussianFit opt o d st).2 = .ok warned → SameRows (gaussianFit opt o d st).1.biadj B0 →
      sqDist (fun i j => sampleCov (fun k => d.val k i) fun k => d.val k j) (modelCov W0 v0) < δ →
      ∃ p : GParams M, (gaussianFit opt o d st).1.params = some p ∧ p.weightsOn = (gaussianFit opt o d st).1.biadj ∧
        LeastSquares (fun i j => sampleCov (fun k => d.val k i) fun k => d.val k j) p.weightsOn p.weights p.variances := by
  obtain ⟨δ, hδ, hmin⟩ := minimum_near hW0 h3 v0 one_pos
  refine ⟨δ, hδ, fun opt hopt o d st warned h hsame hS => fit_leastSquares opt hopt o d st warned h ?_⟩
  obtain ⟨σ, hσ⟩ := sameRows_equiv hsame
  obtain ⟨⟨x, hx⟩, -⟩ := hmin _ σ hσ _ rfl _ hS
  refine ⟨_, variancesOf (numOnes (gaussianFit opt o d st).1.biadj) x, C57_weights_on_structure _ x, fun W' v' hW' => ?_⟩
  obtain ⟨y, hy1, hy2⟩ := params_surj _ W' hW' v' rfl
  rw [← hy1, ← hy2]
  exact hx y

/-- **C182** part 3: if the sample covariance is that of a model on the structure, there is a least squares solution, with objective 0, and `fit`, with an
optimizer that finds global minima, stores one. -/
theorem C182_exact_partial (opt : Optimizer) (hopt : opt.Ideal) (o : Sched M) (d : Dataset M) (st : GState M) (warned : Bool)
    (h : (gaussianFit opt o d st).2 = .ok warned) (B : List (BVec M)) (hB : (gaussianFit opt o d st).1.biadj = B)
    (W0 : Fin B.length → Fin M → ℝ) (v0 : Fin M → ℝ) (hW0 : OnStructure B W0)
    (hcov : ∀ i j, sampleCov (fun k => d.val k i) (fun k => d.val k j) = modelCov W0 v0 i j) :
    ∃ p : GParams M, (gaussianFit opt o d st).1.params = some p ∧
      ∀ i j, modelCov p.weights p.variances i j = sampleCov (fun k => d.val k i) fun k => d.val k j := by
  subst hB
  have e : (fun i j => sampleCov (fun k => d.val k i) fun k => d.val k j) = modelCov W0 v0 := by funext i j; exact hcov i j
  have h0 : sqDist (fun i j => sampleCov (fun k => d.val k i) fun k => d.val k j) (modelCov W0 v0) = 0 := by
    rw [e]; exact (sqDist_eq_zero _ _).mpr rfl
  obtain ⟨p, h3, h4, h5⟩ := fit_leastSquares opt hopt o d st warned h ⟨W0, v0, hW0, fun W' v' _ => by
    rw [h0]; exact sqDist_nonneg _ _⟩
  refine ⟨p, h3, ?_⟩
  have key : ∀ (B : List (BVec M)) (_ : B = p.weightsOn) (W : Fin B.length → Fin M → ℝ), OnStructure B W →
      sqDist (fun i j => sampleCov (fun k => d.val k i) fun k => d.val k j) (modelCov W v0) = 0 →
      sqDist (fun i j => sampleCov (fun k => d.val k i) fun k => d.val k j) (modelCov p.weights p.variances) = 0 := by
    rintro _ rfl W hW he
    exact le_antisymm ((h5.2 W v0 hW).trans he.le) (sqDist_nonneg _ _)
  have := (sqDist_eq_zero _ _).mp (key _ h4.symm W0 hW0 h0)
  intro i j
  exact (congrFun (congrFun this i) j).symm

/-! ### the counterexample -/

/-- four observations of three measurements; the first is correlated with the other two, which are uncorrelated -/
noncomputable def collider : Dataset 3 :=
  { size := 4, two_le := by omega, val := fun k j => ![![3, 1, 1], ![-1, 1, -1], ![-1, -1, 1], ![-1, -1, -1]] k j }

theorem collider_cov (i j : Fin 3) : sampleCov (fun k => collider.val k i) (fun k => collider.val k j) =
    ![![4, 4 / 3, 4 / 3], ![4 / 3, 4 / 3, 0], ![4 / 3, 0, 4 / 3]] i j := by
  unfold sampleCov sampleMean
  show (∑ k : Fin 4, _) / (((4 : ℕ) : ℝ) - 1) = _
  unfold collider
  fin_cases i <;> fin_cases j <;> simp [Fin.sum_univ_four] <;> norm_num

theorem collider_posDef : PosDefinite fun i j => sampleCov (fun k => collider.val k i) fun k => collider.val k j := by
  simp only [collider_cov]
  constructor
  · intro i j; fin_cases i <;> fin_cases j <;> rfl
  · intro x hx
    simp only [Fin.sum_univ_three, Matrix.cons_val_zero, Matrix.cons_val_one, Matrix.cons_val_two, Matrix.head_cons, Matrix.tail_cons]
    have e : x 0 * 4 * x 0 + x 0 * (4 / 3) * x 1 + x 0 * (4 / 3) * x 2 + (x 1 * (4 / 3) * x 0 + x 1 * (4 / 3) * x 1 + x 1 * 0 * x 2) +
        (x 2 * (4 / 3) * x 0 + x 2 * 0 * x 1 + x 2 * (4 / 3) * x 2) =
        4 / 3 * ((x 0 + x 1) ^ 2 + (x 0 + x 2) ^ 2 + x 0 ^ 2) := by ring
    rw [e]
    have s1 := sq_nonneg (x 0 + x 1)
    have s2 := sq_nonneg (x 0 + x 2)
    have s3 := sq_nonneg (x 0)
    rcases (add_nonneg (add_nonneg s1 s2) s3).lt_or_eq with h | h
    · positivity
    · exfalso
      have h0 : x 0 = 0 := by nlinarith
      have h1 : x 1 = 0 := by nlinarith
      have h2 : x 2 = 0 := by nlinarith
      refine hx (funext fun i => ?_)
      fin_cases i
      · exact h0
      · exact h1
      · exact h2

theorem collider_objective (W : Fin oneLatent.length → Fin 3 → ℝ) (v : Fin 3 → ℝ) :
    sqDist (fun i j => sampleCov (fun k => collider.val k i) fun k => collider.val k j) (modelCov W v) =
      (4 - W r0 0 ^ 2 - v 0) ^ 2 + (4 / 3 - W r0 1 ^ 2 - v 1) ^ 2 + (4 / 3 - W r0 2 ^ 2 - v 2) ^ 2 +
      2 * ((4 / 3 - W r0 0 * W r0 1) ^ 2 + (4 / 3 - W r0 0 * W r0 2) ^ 2 + (W r0 1 * W r0 2) ^ 2) := by
  have hs : ∀ i j : Fin 3, (∑ r : Fin oneLatent.length, W r i * W r j) = W r0 i * W r0 j :=
    fun i j => Fin.sum_univ_one (fun r : Fin 1 => W r i * W r j)
  unfold sqDist modelCov
  simp only [collider_cov, hs, Fin.sum_univ_three]
  simp
  ring

/-- the weights on the single latent may be chosen with an objective as small as wanted -/
theorem collider_inf {ε : ℝ} (hε : 0 < ε) : ∃ (W : Fin oneLatent.length → Fin 3 → ℝ) (v : Fin 3 → ℝ), OnStructure oneLatent W ∧
    sqDist (fun i j => sampleCov (fun k => collider.val k i) fun k => collider.val k j) (modelCov W v) < ε := by
  obtain ⟨n, hn⟩ := exists_nat_gt (max 1 (2 * (4 / 3) ^ 4 / ε))
  have h1 : (1 : ℝ) < n := lt_of_le_of_lt (le_max_left _ _) hn
  have h2 : 2 * (4 / 3) ^ 4 / ε < n := lt_of_le_of_lt (le_max_right _ _) hn
  have h0 : (0 : ℝ) < n := by linarith
  refine ⟨fun _ => ![n, 4 / 3 / n, 4 / 3 / n], ![4 - n ^ 2, 4 / 3 - (4 / 3 / n) ^ 2, 4 / 3 - (4 / 3 / n) ^ 2], fun r j h => ?_, ?_⟩
  · have : ∀ (r : Fin oneLatent.length) j, oneLatent[r] j = true := by decide +kernel
    rw [this] at h
    exact absurd h (by decide)
  · rw [collider_objective]
    have e : (n : ℝ) * (4 / 3 / n) = 4 / 3 := by field_simp
    simp only [Matrix.cons_val_zero, Matrix.cons_val_one, Matrix.cons_val_two, Matrix.head_cons, Matrix.tail_cons]
    rw [e]
    have e2 : (4 / 3 / (n : ℝ) * (4 / 3 / n)) ^ 2 = (4 / 3) ^ 4 / n ^ 4 := by field_simp
    rw [e2]
    have h3 : (n : ℝ) ≤ n ^ 4 := by nlinarith [pow_pos h0 2, pow_pos h0 3]
    rw [div_lt_iff₀ hε] at h2
    have h4 : 2 * ((4 / 3 : ℝ) ^ 4 / n ^ 4) < ε := by
      rw [← mul_div_assoc, div_lt_iff₀ (by positivity)]
      nlinarith
    linarith [h4]

/-- a small objective needs a large weight -/
theorem collider_large (K : ℝ) : ∃ ε > 0, ∀ (W : Fin oneLatent.length → Fin 3 → ℝ) (v : Fin 3 → ℝ),
    sqDist (fun i j => sampleCov (fun k => collider.val k i) fun k => collider.val k j) (modelCov W v) < ε → K < |W r0 0| := by
  refine ⟨min (1 / 2) (1 / (2 * (K ^ 2 + 1) ^ 2)), lt_min (by norm_num) (by positivity), fun W v h => ?_⟩
  rw [collider_objective] at h
  by_contra hn
  push Not at hn
  set a := W r0 0
  set b := W r0 1
  set c := W r0 2
  have g1 : 2 * ((4 / 3 - a * b) ^ 2 + (4 / 3 - a * c) ^ 2 + (b * c) ^ 2) < min (1 / 2) (1 / (2 * (K ^ 2 + 1) ^ 2)) := by
    nlinarith [sq_nonneg (4 - a ^ 2 - v 0), sq_nonneg (4 / 3 - b ^ 2 - v 1), sq_nonneg (4 / 3 - c ^ 2 - v 2)]
  have g2 := lt_of_lt_of_le g1 (min_le_left _ _)
  have g3 := lt_of_lt_of_le g1 (min_le_right _ _)
  have hab : 5 / 6 < a * b := by nlinarith [sq_nonneg (4 / 3 - a * c), sq_nonneg (b * c)]
  have hac : 5 / 6 < a * c := by nlinarith [sq_nonneg (4 / 3 - a * b), sq_nonneg (b * c)]
  have hK : a ^ 2 < K ^ 2 + 1 := by
    have : a ^ 2 ≤ K ^ 2 := by rw [← sq_abs a]; exact pow_le_pow_left₀ (abs_nonneg _) hn 2
    linarith
  have hbc : 2 * (b * c) ^ 2 < 1 / (2 * (K ^ 2 + 1) ^ 2) := by nlinarith [sq_nonneg (4 / 3 - a * b), sq_nonneg (4 / 3 - a * c)]
  rw [lt_div_iff₀ (by positivity)] at hbc
  have hprod : a ^ 2 * (b * c) = (a * b) * (a * c) := by ring
  have h25 : 25 / 36 < a ^ 2 * (b * c) := by rw [hprod]; nlinarith
  have hbc0 : 0 < b * c := by
    by_contra h6
    push Not at h6
    nlinarith [sq_nonneg a]
  have h7 : 25 / 36 < (K ^ 2 + 1) * (b * c) := by nlinarith
  nlinarith

/-- **C182** fails: the sample covariance of these four observations of three measurements is positive definite, but with a single latent no weights
and error variances minimise the objective: it comes as close to 0 as wanted, with weights that grow without bound.  So whatever the
optimizer returns can be improved, and a more accurate optimizer returns larger weights: for every bound `K` there is an accuracy
`ε` so that every `fit` with an objective below `ε` stores a weight above `K`. -/
theorem C182_no_minimum (o : Sched 3) :
    (∀ opt : Optimizer, ∃ (warned : Bool) (p : GParams 3), (gaussianFit opt o collider { biadj := oneLatent }).2 = .ok warned ∧
      (gaussianFit opt o collider { biadj := oneLatent }).1.params = some p ∧ p.weightsOn = oneLatent ∧
      ¬ LeastSquares (fun i j => sampleCov (fun k => collider.val k i) fun k => collider.val k j) p.weightsOn p.weights p.variances) ∧
    (∀ ε > 0, ∃ (opt : Optimizer) (p : GParams 3), (gaussianFit opt o collider { biadj := oneLatent }).1.params = some p ∧
      sqDist (fun i j => sampleCov (fun k => collider.val k i) fun k => collider.val k j) (modelCov p.weights p.variances) < ε) ∧
    ∀ K : ℝ, ∃ ε > 0, ∀ (opt : Optimizer) (p : GParams 3), (gaussianFit opt o collider { biadj := oneLatent }).1.params = some p →
      sqDist (fun i j => sampleCov (fun k => collider.val k i) fun k => collider.val k j) (modelCov p.weights p.variances) < ε →
      ∃ r, K < |p.weights r 0| := by
  have hfit : ∀ opt : Optimizer, gaussianFit opt o collider { biadj := oneLatent } =
      ((fitParams opt collider { biadj := oneLatent, dataset := some collider }).1,
        .ok (fitParams opt collider { biadj := oneLatent, dataset := some collider }).2) := fun opt => rfl
  have hpos : ∀ (W : Fin oneLatent.length → Fin 3 → ℝ) (v : Fin 3 → ℝ),
      0 < sqDist (fun i j => sampleCov (fun k => collider.val k i) fun k => collider.val k j) (modelCov W v) := by
    intro W v
    refine lt_of_le_of_ne (sqDist_nonneg _ _) fun h0 => ?_
    obtain ⟨ε, hε, hK⟩ := collider_large (|W r0 0|)
    exact lt_irrefl _ (hK W v (by rw [← h0]; exact hε))
  refine ⟨fun opt => ?_, fun ε hε => ?_, fun K => ?_⟩
  · refine ⟨_, _, by rw [hfit], by rw [hfit]; rfl, rfl, fun hls => ?_⟩
    obtain ⟨W, v, hW, hlt⟩ := collider_inf (hpos _ _)
    exact absurd (hls.2 W v hW) (not_le.mpr hlt)
  · obtain ⟨W, v, hW, hlt⟩ := collider_inf hε
    obtain ⟨x, hx1, hx2⟩ := params_surj oneLatent W hW v rfl
    obtain ⟨opt, hopt⟩ : ∃ opt : Optimizer, ∀ f, (opt (numOnes oneLatent + 3) f).1 = x :=
      ⟨fun dim _ => (if h : dim = numOnes oneLatent + 3 then fun k => x (Fin.cast h k) else 0, true), fun f => by simp⟩
    obtain ⟨B, dim, f, p, hB, h1, hdim, hf, hp, hw, hv, -, -⟩ :=
      C57_fitted_parameters opt o collider { biadj := oneLatent } _ (by rw [hfit])
    have hB1 : B = oneLatent := by rw [← h1, hfit]; rfl
    refine ⟨opt, p, hp, ?_⟩
    subst hB1
    subst hdim
    obtain ⟨pv, pB, pw⟩ := p
    have hB' : pB = oneLatent := hB
    subst hB'
    have ew : pw = weightsOf oneLatent x := by
      funext r j
      have := hw r j
      rw [hopt] at this
      exact this
    have ev : pv = variancesOf (numOnes oneLatent) x := by
      rw [hopt] at hv
      exact hv
    show sqDist _ (modelCov pw pv) < ε
    rw [ew, ev, hx1, hx2]
    exact hlt
  · obtain ⟨ε, hε, hK⟩ := collider_large K
    refine ⟨ε, hε, fun opt p hp hlt => ?_⟩
    rw [hfit] at hp
    obtain rfl := Option.some.inj hp
    exact ⟨r0, hK _ _ hlt⟩

theorem C182_false : ¬ C182_statement := by
  intro h
  obtain ⟨W, v, hW, hls⟩ := h 3 collider oneLatent collider_posDef
  obtain ⟨ε, hε, hK⟩ := collider_large (|W r0 0|)
  have h0 : 0 < sqDist (fun i j => sampleCov (fun k => collider.val k i) fun k => collider.val k j) (modelCov W v) := by
    refine lt_of_le_of_ne (sqDist_nonneg _ _) fun h0 => ?_
    exact lt_irrefl _ (hK W v (by rw [← h0]; exact hε))
  obtain ⟨W', v', hW', hlt⟩ := collider_inf h0
  exact absurd (hls W' v' hW') (not_le.mpr hlt)

/-- **non-vacuity of part 1**: two latents with two children each, on the same data: the covariances of measurements 0, 1 and 0, 2 are explained, that
of 1, 2, which is zero, needs no explanation; the objective is 0 -/
def twoLatents : List (BVec 3) := [BVec.of fun j => j.val ≤ 1, BVec.of fun j => j.val ≠ 1]

example : ∃ opt : Optimizer, opt.Ideal ∧ ∀ o : Sched 3, ∃ p : GParams 3, (gaussianFit opt o collider { biadj := twoLatents }).1.params = some p ∧
    ∀ i j, modelCov p.weights p.variances i j = sampleCov (fun k => collider.val k i) fun k => collider.val k j := by
  obtain ⟨opt, hopt⟩ := exists_ideal
  refine ⟨opt, hopt, fun o => ?_⟩
  have hfit : gaussianFit opt o collider { biadj := twoLatents } =
      ((fitParams opt collider { biadj := twoLatents, dataset := some collider }).1,
        .ok (fitParams opt collider { biadj := twoLatents, dataset := some collider }).2) := rfl
  obtain ⟨p, hp, -, -, h0⟩ := C182_two_children_partial opt hopt o collider { biadj := twoLatents } _ (by rw [hfit]) (by
    show ∀ r : Fin twoLatents.length, (univ.filter fun j => twoLatents[r] j = true).card ≤ 2
    decide +kernel)
  refine ⟨p, hp, ?_⟩
  have hz : unexplained (fun i j => sampleCov (fun k => collider.val k i) fun k => collider.val k j) twoLatents = 0 := by
    unfold unexplained
    refine sum_eq_zero fun i _ => sum_eq_zero fun j _ => ?_
    split_ifs with h
    · have hc : ∀ i j : Fin 3, i ≠ j → (¬ ∃ r : Fin twoLatents.length, twoLatents[r] i = true ∧ twoLatents[r] j = true) →
          (i = 1 ∧ j = 2) ∨ (i = 2 ∧ j = 1) := by decide +kernel
      simp only [collider_cov]
      rcases hc i j h.1 h.2 with ⟨rfl, rfl⟩ | ⟨rfl, rfl⟩ <;> simp
    · rfl
  have h1 : (gaussianFit opt o collider { biadj := twoLatents }).1.biadj = twoLatents := by rw [hfit]; rfl
  rw [h1, hz] at h0
  intro i j
  exact (congrFun (congrFun ((sqDist_eq_zero _ _).mp h0) i) j).symm

/-- **non-vacuity of parts 2 and 3**: one latent with three children, given as the structure, and a dataset with the covariance of that model -/
example : ∃ opt : Optimizer, opt.Ideal ∧ ∀ o : Sched 3,
    (∃ warned, (gaussianFit opt o threeChildren { biadj := oneLatent }).2 = .ok warned) ∧
    SameRows (gaussianFit opt o threeChildren { biadj := oneLatent }).1.biadj oneLatent ∧
    OnStructure oneLatent (fun _ _ => 1) ∧ ThreeIndicators oneLatent (fun _ _ => 1) ∧
    sqDist (fun i j => sampleCov (fun k => threeChildren.val k i) fun k => threeChildren.val k j) (modelCov (fun (_ : Fin 1) _ => 1) ![1, 1, 0]) = 0 := by
  obtain ⟨opt, h⟩ := exists_ideal
  have hpure : ∀ (r : Fin oneLatent.length) j, PureChild oneLatent r j := by
    intro r j i hi
    have h1 : i = 0 := by simpa [oneLatent] using hi
    have h2 : r.val = 0 := by have := r.isLt; simpa [oneLatent] using this
    subst h1
    rw [h2]
    simp [oneLatent]
  refine ⟨opt, h, fun o => ⟨⟨_, rfl⟩, List.Perm.refl _, fun r j h => ?_,
    fun r => ⟨0, 1, 2, by decide, by decide, by decide, hpure r 0, hpure r 1, one_ne_zero, one_ne_zero, one_ne_zero⟩, ?_⟩⟩
  · have : ∀ (r : Fin oneLatent.length) j, oneLatent[r] j = true := by decide +kernel
    rw [this] at h
    exact absurd h (by decide)
  · refine (sqDist_eq_zero _ _).mpr ?_
    funext i j
    exact threeChildren_cov i j

end Medil

import Verif.Proofs.Likelihood
import Verif.Proofs.Nuclear
import Verif.Props.Dev
import Mathlib.Topology.Order.Compact
import Mathlib.Topology.Algebra.Order.LiminfLimsup
import Mathlib.Topology.MetricSpace.Bounded
import Mathlib.Topology.MetricSpace.ProperSpace.Real
/-
  Properties of the losses of `DevMedil` (C105-C108).
-/
namespace Medil
open Finset Matrix
variable {G : Type}

/-- the sample covariance matrix of a dataset -/
noncomputable def covOf (d : AnyData) (i j : Fin d.cols) : ℝ :=
  sampleCov (fun n => d.data.val n i) fun n => d.data.val n j

theorem posDef_of {m : Nat} {C : Fin m → Fin m → ℝ} (h : PosDefinite C) : (of C : Matrix (Fin m) (Fin m) ℝ).PosDef := by
  refine PosDef.of_dotProduct_mulVec_pos (Matrix.IsHermitian.ext fun i j => ?_) fun {x} hx => ?_
  · simpa using h.1 j i
  · have := h.2 x hx
    refine lt_of_lt_of_eq this ?_
    simp only [dotProduct, mulVec, Pi.star_apply, star_trivial, of_apply, mul_sum]
    exact sum_congr rfl fun i _ => sum_congr rfl fun j _ => by ring

/-- the value of `validation_mle` for a stored estimate -/
theorem validationMle_value (env : DevEnv G) (st : DevState G) (d : AnyData) {k : Nat} (W : Fin k → Fin d.cols → ℝ)
    (v : Fin d.cols → ℝ) (h : st.est = some ⟨k, d.cols, of W, diagonal v⟩) (lam mu : ℝ)
    (hd : 0 < (of (modelCov W v) : Matrix (Fin d.cols) (Fin d.cols) ℝ).det) :
    validationMle env st lam mu d = .ok (.fin ((of (covOf d) * (of (modelCov W v))⁻¹).trace +
      Real.log (of (modelCov W v) : Matrix (Fin d.cols) (Fin d.cols) ℝ).det + (lam * env.nuc (of W) + mu * sumAbs W))) := by
  unfold validationMle
  rw [h]
  dsimp only
  rw [dif_pos rfl]
  unfold mleLoss
  simp only [computeSigma_eq]
  have e0 : (fun (r : Fin k) (j : Fin d.cols) => (of W : Matrix _ _ ℝ) r j) = W := rfl
  have hi : ((of (modelCov W v) : Matrix (Fin d.cols) (Fin d.cols) ℝ)⁻¹).det =
      (of (modelCov W v) : Matrix (Fin d.cols) (Fin d.cols) ℝ).det⁻¹ := by
    rw [Matrix.det_nonsing_inv, Ring.inverse_eq_inv']
  have hp := inv_pos.mpr hd
  rw [e0, if_neg hd.ne', hi, if_neg (not_le.mpr hp), abs_of_pos hp, Real.log_inv, sub_neg_eq_add]
  rfl

/-! ### C105 -/

/-- **C105** (as stated; false) for every dataset and all non-negative penalties, the maximum likelihood loss is bounded
below -/
def C105_statement : Prop :=
  ∀ (G : Type) (env : DevEnv G), (∀ k m, env.nuc (0 : Matrix (Fin k) (Fin m) ℝ) = 0) → ∀ (d : AnyData) (lam mu : ℝ),
    0 ≤ lam → 0 ≤ mu → ∃ b, ∀ (st : DevState G) (k : Nat) (W : Fin k → Fin d.cols → ℝ) (v : Fin d.cols → ℝ) (z : ℝ),
      st.est = some ⟨k, d.cols, of W, diagonal v⟩ → validationMle env st lam mu d = .ok (.fin z) → b ≤ z

/-- the error variances of the counterexample: two small negative ones, the others 1 -/
def badVariances {m : Nat} (t : ℝ) (j : Fin m) : ℝ := if j.val < 2 then -t else 1

theorem modelCov_zero {k m : Nat} (v : Fin m → ℝ) :
    (of (modelCov (fun (_ : Fin k) _ => 0) v) : Matrix (Fin m) (Fin m) ℝ) = diagonal v := by
  ext i j
  simp [modelCov, diagonal_apply]

theorem prod_bad {m : Nat} (t : ℝ) : ∏ j : Fin (m + 2), badVariances t j = t ^ 2 := by
  rw [Fin.prod_univ_succ, Fin.prod_univ_succ, Finset.prod_eq_one]
  · simp [badVariances]; ring
  · intro j _; simp [badVariances]

theorem sum_bad {m : Nat} (t : ℝ) (c : Fin (m + 2) → ℝ) :
    ∑ j : Fin (m + 2), c j * (badVariances t j)⁻¹ = -(c 0 + c 1) * t⁻¹ + ∑ j : Fin m, c j.succ.succ := by
  rw [Fin.sum_univ_succ, Fin.sum_univ_succ]
  have : ∀ j : Fin m, c j.succ.succ * (badVariances t j.succ.succ)⁻¹ = c j.succ.succ := by
    intro j; rw [badVariances, if_neg (by simp)]; simp
  simp only [this]
  simp [badVariances, inv_neg]
  ring

/-- **C105** What is true: for every dataset with at least two measurements, every number of latents and all
penalties, the maximum likelihood loss takes arbitrarily small values at zero weights (the error
variances are not constrained, and a covariance "matrix" with two negative eigenvalues has a positive
determinant). -/
theorem C105_unbounded (env : DevEnv G) (k : Nat) (d : AnyData) (h2 : 2 ≤ d.cols)
    (hnuc : env.nuc (of fun (_ : Fin k) (_ : Fin d.cols) => (0 : ℝ)) = 0) (lam mu b : ℝ) :
    ∃ (v : Fin d.cols → ℝ) (z : ℝ), z < b ∧ ∀ st : DevState G,
      st.est = some ⟨k, d.cols, of fun _ _ => 0, diagonal v⟩ → validationMle env st lam mu d = .ok (.fin z) := by
  obtain ⟨m, data⟩ := d
  obtain ⟨m, rfl⟩ : ∃ m', m = m' + 2 := ⟨m - 2, by simp at h2; omega⟩
  have hcc : ∀ j : Fin (m + 2), 0 ≤ covOf ⟨m + 2, data⟩ j j := by
    intro j
    have h1 : (1 : ℝ) ≤ data.size := by exact_mod_cast (by have := data.two_le; omega : 1 ≤ data.size)
    unfold covOf sampleCov
    exact div_nonneg (sum_nonneg fun n _ => mul_self_nonneg _) (by simpa using h1)
  set c : ℝ := ∑ j : Fin m, covOf ⟨m + 2, data⟩ j.succ.succ j.succ.succ with hc
  obtain ⟨t, ht, hlog⟩ : ∃ t : ℝ, 0 < t ∧ Real.log (t ^ 2) < b - c :=
    ⟨Real.exp ((b - c - 1) / 2), Real.exp_pos _, by rw [Real.log_pow, Real.log_exp]; push_cast; linarith⟩
  have hdet : (of (modelCov (fun (_ : Fin k) _ => 0) (badVariances (m := m + 2) t)) :
      Matrix (Fin (m + 2)) (Fin (m + 2)) ℝ).det = t ^ 2 := by
    rw [modelCov_zero, det_diagonal, prod_bad]
  refine ⟨badVariances t, _, ?_, fun st hst => validationMle_value env st ⟨m + 2, data⟩ _ _ hst lam mu ?_⟩
  · rw [hdet, modelCov_zero]
    have hinv : (diagonal (badVariances (m := m + 2) t))⁻¹ = diagonal fun j => (badVariances (m := m + 2) t j)⁻¹ := by
      apply Matrix.inv_eq_right_inv
      rw [diagonal_mul_diagonal, ← diagonal_one]
      congr 1
      funext j
      apply mul_inv_cancel₀
      unfold badVariances
      split
      · exact neg_ne_zero.mpr ht.ne'
      · exact one_ne_zero
    have htr : (of (covOf ⟨m + 2, data⟩) * diagonal fun j => (badVariances (m := m + 2) t j)⁻¹).trace =
        -(covOf ⟨m + 2, data⟩ 0 0 + covOf ⟨m + 2, data⟩ 1 1) * t⁻¹ + c := by
      rw [← sum_bad t fun j => covOf ⟨m + 2, data⟩ j j]
      simp [Matrix.trace, Matrix.mul_apply, diagonal_apply]
    have hs : sumAbs (fun (_ : Fin k) (_ : Fin (m + 2)) => (0 : ℝ)) = 0 := by simp [sumAbs]
    show (of (covOf ⟨m + 2, data⟩) * (diagonal (badVariances (m := m + 2) t))⁻¹).trace + _ + (lam * env.nuc _ + _) < b
    rw [hinv, htr, hnuc, hs]
    have := mul_nonneg (add_nonneg (hcc 0) (hcc 1)) (inv_pos.mpr ht).le
    linarith
  · show 0 < _
    rw [hdet]; positivity

/-- two observations of two variables -/
def twoCols : AnyData := ⟨2, 2, le_refl _, fun k j => if k = j then 0 else 1⟩

theorem C105_false : ¬ C105_statement := by
  intro h
  obtain ⟨b, hb⟩ := h Unit idEnv (fun _ _ => rfl) twoCols 0 0 le_rfl le_rfl
  obtain ⟨v, z, hz, hv⟩ := C105_unbounded idEnv 0 twoCols (by decide) rfl 0 0 b
  exact absurd (hb { newDev true () with est := some ⟨0, 2, of fun _ _ => 0, diagonal v⟩ } 0 _ v z rfl (hv _ rfl))
    (not_le.mpr hz)

/-- **C105** the part of the claim that holds: among the estimates whose implied covariance `W'W + diag v` is
positive definite (for instance all with positive error variances), the unpenalised loss on every dataset with positive
definite sample covariance `S` is at least `m + log det S`, with equality exactly when the implied covariance
is `S`; non-negative penalties only add to it.

Missing from the full claim: a bound on the whole domain of the optimizer (`C105_false`). -/
theorem C105_likelihood_partial (env : DevEnv G) (st : DevState G) (d : AnyData) {k : Nat} (W : Fin k → Fin d.cols → ℝ)
    (v : Fin d.cols → ℝ) (h : st.est = some ⟨k, d.cols, of W, diagonal v⟩) (hS : PosDefinite (covOf d))
    (hC : PosDefinite (modelCov W v)) (lam mu : ℝ) :
    ∃ z z0, validationMle env st lam mu d = .ok (.fin z) ∧ validationMle env st 0 0 d = .ok (.fin z0) ∧
      z = z0 + lam * env.nuc (of W) + mu * sumAbs W ∧
      (d.cols : ℝ) + Real.log (of (covOf d) : Matrix (Fin d.cols) (Fin d.cols) ℝ).det ≤ z0 ∧
      (z0 = (d.cols : ℝ) + Real.log (of (covOf d) : Matrix (Fin d.cols) (Fin d.cols) ℝ).det ↔ modelCov W v = covOf d) := by
  have hC' := posDef_of hC
  obtain ⟨h1, h2⟩ := likelihood_max _ _ (posDef_of hS) hC'
  have e0 := validationMle_value env st d W v h 0 0 hC'.det_pos
  rw [zero_mul, zero_mul, add_zero, add_zero] at e0
  refine ⟨_, _, validationMle_value env st d W v h lam mu hC'.det_pos, e0, (add_assoc _ _ _).symm, h1, h2.trans ?_⟩
  exact (Matrix.of (m := Fin d.cols) (n := Fin d.cols) (α := ℝ)).injective.eq_iff

/-- the hypotheses of C105 are met -/
example : PosDefinite (covOf ⟨1, 2, le_refl _, fun k _ => if k = 0 then 0 else 1⟩) ∧
    PosDefinite (modelCov (fun (_ : Fin 1) (_ : Fin 1) => (1 : ℝ)) fun _ => 1) := by
  constructor
  · refine ⟨fun i j => by rw [Subsingleton.elim i j], fun x hx => ?_⟩
    have h0 : x 0 ≠ 0 := fun h => hx (funext fun i => by rw [Subsingleton.elim i 0, h]; rfl)
    simp only [covOf, sampleCov, sampleMean]
    show 0 < ∑ i : Fin 1, ∑ j : Fin 1, _
    simp
    norm_num [Fin.sum_univ_two]
    have : 0 < x 0 ^ 2 := by positivity
    nlinarith
  · refine ⟨fun i j => by rw [Subsingleton.elim i j], fun x hx => ?_⟩
    have h0 : x 0 ≠ 0 := fun h => hx (funext fun i => by rw [Subsingleton.elim i 0, h]; rfl)
    have : 0 < x 0 ^ 2 := by positivity
    simp [modelCov]
    nlinarith

/-! ### C106, C107: the least squares objective and its minimum -/

/-- `x` is a global minimum of an objective, which may also raise or return special values -/
def IsMinOf {dim : Nat} (f : (Fin dim → ℝ) → Except PyErr (Fl ℝ)) (x : Fin dim → ℝ) : Prop :=
  ∃ a, f x = .ok (.fin a) ∧ ∀ y b, f y = .ok (.fin b) → a ≤ b

/-- the parameter vector of weights and variances -/
theorem exists_vec {k m : Nat} (W : Fin k → Fin m → ℝ) (v : Fin m → ℝ) :
    ∃ x : Fin (k * m + m) → ℝ, fullWeights k m x = W ∧ variancesOf (k * m) x = v := by
  refine ⟨devStart (fun i => W (finProdFinEquiv.symm i).1 (finProdFinEquiv.symm i).2) v, ?_, ?_⟩
  · rw [← devW_eq]
    funext r j
    simp only [devW, devStart, Fin.append_left, Equiv.symm_apply_apply]
  · rw [← devD_eq]
    funext j
    simp [devD, devStart]

theorem covOf_posSemidef (d : AnyData) : (of (covOf d) : Matrix (Fin d.cols) (Fin d.cols) ℝ).PosSemidef := by
  have h1 : (0 : ℝ) < (d.data.size : ℝ) - 1 := by
    have : (2 : ℝ) ≤ d.data.size := by exact_mod_cast d.data.two_le
    linarith
  have e : (of (covOf d) : Matrix (Fin d.cols) (Fin d.cols) ℝ) = ((d.data.size : ℝ) - 1)⁻¹ •
      ((of fun n i => d.data.val n i - sampleMean fun n => d.data.val n i)ᴴ *
        of fun n i => d.data.val n i - sampleMean fun n => d.data.val n i) := by
    ext i j
    simp [covOf, sampleCov, Matrix.mul_apply]
    rw [div_eq_inv_mul]
  rw [e]
  exact (posSemidef_conjTranspose_mul_self _).smul (inv_pos.mpr h1).le

theorem covOf_symm (d : AnyData) (i j : Fin d.cols) : covOf d i j = covOf d j i := by
  simpa using (covOf_posSemidef d).isHermitian.apply j i

/-- off-diagonal entries suffice: the error variances are free -/
theorem fit_of_offDiag {k m : Nat} (S : Fin m → Fin m → ℝ) (W : Fin k → Fin m → ℝ)
    (h : ∀ i j, i ≠ j → ∑ r, W r i * W r j = S i j) : ∃ v, modelCov W v = S := by
  refine ⟨fun j => S j j - ∑ r, W r j * W r j, ?_⟩
  funext i j
  unfold modelCov
  by_cases hij : i = j
  · subst hij; simp
  · rw [if_neg hij, add_zero, h i j hij]

theorem exists_fit (opc : Bool) (d : AnyData) :
    ∃ (W : Fin (devLatents opc d.cols) → Fin d.cols → ℝ) (v : Fin d.cols → ℝ), modelCov W v = covOf d := by
  have hsym := covOf_symm d
  by_cases hk : d.cols ≤ devLatents opc d.cols
  · obtain ⟨B, hB⟩ := posSemidef_factor (covOf_posSemidef d)
    refine ⟨fun r j => if h : r.val < d.cols then B ⟨r, h⟩ j else 0, fit_of_offDiag _ _ fun i j _ => ?_⟩
    have e : covOf d i j = ∑ r, B r i * B r j := by
      have := congrFun (congrFun hB i) j
      simpa [Matrix.mul_apply] using this
    rw [e]
    obtain ⟨n, hn⟩ := Nat.exists_eq_add_of_le hk
    generalize devLatents opc d.cols = k at *
    subst hn
    rw [Fin.sum_univ_add]
    simp
  · obtain ⟨m, data⟩ := d
    simp only at hk hsym ⊢
    have hopc : opc = false := by
      cases opc
      · rfl
      · exact absurd (by simp [devLatents]) hk
    subst hopc
    have hm : m < 4 := by
      by_contra h
      have h4 : 4 ≤ m := by omega
      have : 4 * m ≤ m ^ 2 := by nlinarith
      exact hk (by simp only [devLatents, Bool.false_eq_true, if_false]; omega)
    interval_cases m
    · exact ⟨fun _ _ => 0, fit_of_offDiag _ _ fun i => i.elim0⟩
    · exact ⟨fun _ _ => 0, fit_of_offDiag _ _ fun i j h => absurd (Subsingleton.elim i j) h⟩
    · refine ⟨fun _ j => if j = 0 then 1 else covOf ⟨2, data⟩ 0 1, fit_of_offDiag _ _ fun i j h => ?_⟩
      have h10 := hsym 1 0
      show ∑ r : Fin 1, _ = _
      fin_cases i <;> fin_cases j <;> simp_all
    · refine ⟨fun r j => if r.val = 0 then ![1, covOf ⟨3, data⟩ 0 1, covOf ⟨3, data⟩ 0 2] j
        else ![0, 1, covOf ⟨3, data⟩ 1 2 - covOf ⟨3, data⟩ 0 1 * covOf ⟨3, data⟩ 0 2] j,
        fit_of_offDiag _ _ fun i j h => ?_⟩
      have h10 := hsym 1 0
      have h20 := hsym 2 0
      have h21 := hsym 2 1
      clear hsym
      show ∑ r : Fin 2, _ = _
      rw [Fin.sum_univ_two]
      fin_cases i <;> fin_cases j <;> simp_all
      ring

/-- the optimizer returns a global minimum whenever it returns -/
def DevEnv.Ideal (env : DevEnv G) : Prop :=
  ∀ {dim : Nat} (f : (Fin dim → ℝ) → Except PyErr (Fl ℝ)) (x0 x : Fin dim → ℝ) (s : Bool),
    env.minimize f x0 = .ok (x, s) → IsMinOf f x

theorem sqDist_zero {m : Nat} {A B : Fin m → Fin m → ℝ} (h : sqDist A B ≤ 0) : A = B := by
  have h0 : sqDist A B = 0 := le_antisymm h (sum_nonneg fun _ _ => sum_nonneg fun _ _ => sq_nonneg _)
  unfold sqDist at h0
  funext i j
  have h1 := (sum_eq_zero_iff_of_nonneg fun i _ => sum_nonneg fun j _ => sq_nonneg (A i j - B i j)).mp h0 i (mem_univ _)
  have h2 := (sum_eq_zero_iff_of_nonneg fun j _ => sq_nonneg (A i j - B i j)).mp h1 j (mem_univ _)
  nlinarith [sq_nonneg (A i j - B i j)]

/-- what the least squares fit stores -/
theorem fitLse_stores (env : DevEnv G) (st : DevState G) (d : AnyData) (lam mu : ℝ)
    (h : (devFit env st d "lse" lam mu).2 = .ok ()) :
    ∃ (f : (Fin (devLatents st.onePureChild d.cols * d.cols + d.cols) → ℝ) → Except PyErr (Fl ℝ))
      (x0 x : Fin (devLatents st.onePureChild d.cols * d.cols + d.cols) → ℝ) (success : Bool),
      env.minimize f x0 = .ok (x, success) ∧
      (∀ y, f y = .ok (.fin (lseValue env.nuc lam mu (covOf d) (fullWeights (devLatents st.onePureChild d.cols) d.cols y)
        (variancesOf (devLatents st.onePureChild d.cols * d.cols) y)))) ∧
      (devFit env st d "lse" lam mu).1.est = some ⟨devLatents st.onePureChild d.cols, d.cols,
        of (fullWeights (devLatents st.onePureChild d.cols) d.cols x),
        diagonal fun j => |variancesOf (devLatents st.onePureChild d.cols * d.cols) x j|⟩ := by
  have hd : devFit env st d "lse" lam mu = fitLse env st d lam mu := by unfold devFit; simp
  rw [hd] at h ⊢
  unfold fitLse at h ⊢
  dsimp only at h ⊢
  split at h
  · cases h
  rename_i x success hm
  refine ⟨_, _, x, success, hm, fun y => ?_, ?_⟩
  · rw [lseLoss_eq, devW_eq, devD_eq]
    rfl
  · simp only [devW_eq, devD_eq]
    rfl

/-- **C106** Without penalties, for every dataset and both settings of `one_pure_child`, the least squares objective has
minimum 0; if the optimizer returns a global minimum, the optimised weights and error variances reproduce the
sample covariance exactly, and the stored model (with the error variances replaced by their absolute values)
reproduces all covariances of different measurements and does not underestimate a variance. -/
theorem C106_unpenalised_partial (env : DevEnv G) (hopt : env.Ideal) (st : DevState G) (d : AnyData)
    (h : (devFit env st d "lse" 0 0).2 = .ok ()) :
    ∃ (W : Fin (devLatents st.onePureChild d.cols) → Fin d.cols → ℝ) (v : Fin d.cols → ℝ),
      (devFit env st d "lse" 0 0).1.est = some ⟨_, d.cols, of W, diagonal fun j => |v j|⟩ ∧
      modelCov W v = covOf d ∧
      (∀ i j, i ≠ j → modelCov W (fun j => |v j|) i j = covOf d i j) ∧
      (∀ i, covOf d i i ≤ modelCov W (fun j => |v j|) i i) ∧
      ((∀ j, 0 ≤ v j) → validationLse env (devFit env st d "lse" 0 0).1 0 0 d = .ok 0) := by
  obtain ⟨f, x0, x, s, hm, hf, he⟩ := fitLse_stores env st d 0 0 h
  obtain ⟨a, ha, hmin⟩ := hopt f x0 x s hm
  obtain ⟨W, v, hWv⟩ := exists_fit st.onePureChild d
  obtain ⟨y, hy1, hy2⟩ := exists_vec W v
  have h0 := hmin y _ (hf y)
  rw [hf x] at ha
  have ha' : lseValue env.nuc 0 0 (covOf d) (fullWeights (devLatents st.onePureChild d.cols) d.cols x)
    (variancesOf (devLatents st.onePureChild d.cols * d.cols) x) = a := by
    injection ha with ha; injection ha
  rw [← ha', hy1, hy2] at h0
  simp only [lseValue, zero_mul, add_zero, hWv] at h0
  have hz : sqDist (covOf d) (covOf d) = 0 := by simp [sqDist]
  rw [hz] at h0
  have hmc := (sqDist_zero h0).symm
  refine ⟨_, _, he, hmc, fun i j hij => ?_, fun i => ?_, fun hv => ?_⟩
  · rw [← hmc]; simp [modelCov, hij]
  · rw [← hmc]
    simp only [modelCov, if_true]
    linarith [le_abs_self (variancesOf (devLatents st.onePureChild d.cols * d.cols) x i)]
  · unfold validationLse
    rw [he]
    dsimp only
    rw [dif_pos rfl]
    have := lseLoss_eq env.nuc 0 0 (covOf d) (of (fullWeights (devLatents st.onePureChild d.cols) d.cols x))
      (fun j => |variancesOf (devLatents st.onePureChild d.cols * d.cols) x j|)
    refine congrArg _ (this.trans ?_)
    simp only [abs_of_nonneg (hv _), zero_mul, add_zero, of_apply]
    exact (congrArg _ hmc).trans hz

/-- an ideal optimizer: it raises when there is no minimum -/
noncomputable def idealEnv : DevEnv Unit where
  minimize f _ := by
    classical
    exact if h : ∃ x, IsMinOf f x then .ok (h.choose, true) else .error .valueError
  normal _ g := (fun _ => 0, g)
  uniform _ g := (fun _ => 1, g)
  mvn := ⟨fun _ _ _ g => (fun _ _ => 0, g)⟩
  nuc _ := 0

theorem idealEnv_ideal : idealEnv.Ideal := by
  intro dim f x0 x s h
  unfold idealEnv at h
  dsimp only at h
  split at h
  · rename_i hx
    injection h with h
    injection h with h1 h2
    subst h1
    exact hx.choose_spec
  · cases h

/-- the hypotheses of C106 are met on every dataset -/
example (opc : Bool) (d : AnyData) :
    idealEnv.Ideal ∧ (devFit idealEnv (newDev opc ()) d "lse" 0 0).2 = .ok () := by
  refine ⟨idealEnv_ideal, ?_⟩
  have hd : devFit idealEnv (newDev opc ()) d "lse" 0 0 = fitLse idealEnv (newDev opc ()) d 0 0 := by
    unfold devFit; simp
  rw [hd]
  unfold fitLse
  dsimp only
  split
  · rename_i e he
    exfalso
    simp only [idealEnv] at he
    split at he
    · cases he
    · rename_i hno
      apply hno
      obtain ⟨W, v, hWv⟩ := exists_fit opc d
      obtain ⟨y, hy1, hy2⟩ := exists_vec W v
      refine ⟨y, 0, ?_, fun z b hz => ?_⟩
      · have e1 := lseLoss_eq (fun _ => 0) 0 0 (covOf d) (devW y) (devD y)
        rw [devW_eq, devD_eq, hy1, hy2, hWv] at e1
        refine congrArg (fun z => Except.ok (Fl.fin z)) ?_
        show lseLoss (fun _ => 0) 0 0 (of (covOf d)) (devW (k := devLatents opc d.cols) y)
          (diagonal (devD (k := devLatents opc d.cols) y)) = 0
        rw [devW_eq, devD_eq, hy1, hy2]
        exact e1.trans (by simp [sqDist])
      · injection hz with hz
        injection hz with hz
        rw [← hz]
        exact (lseLoss_eq _ 0 0 _ _ _).symm ▸ by
          simp only [zero_mul, add_zero]
          exact sum_nonneg fun _ _ => sum_nonneg fun _ _ => sq_nonneg _
  · rfl

/-- the claim: the stored model reproduces the sample covariance -/
def C106_statement : Prop :=
  ∀ (G : Type) (env : DevEnv G), env.Ideal → ∀ (st : DevState G) (d : AnyData), (devFit env st d "lse" 0 0).2 = .ok () →
    ∃ e, (devFit env st d "lse" 0 0).1.est = some e ∧ ∃ hm : e.meas = d.cols, ∀ i j,
      (∑ r, e.W r i * e.W r j) + e.D i j = sampleCov (fun k => d.data.val k (i.cast hm)) fun k => d.data.val k (j.cast hm)

/-- an optimizer that returns weights 1 and error variances -1/2 if this is a global minimum, and raises otherwise -/
noncomputable def negEnv : DevEnv Unit where
  minimize f _ := by
    classical
    exact if IsMinOf f (fun i => if i.val = 0 then 1 else -(1 / 2)) then .ok (fun i => if i.val = 0 then 1 else -(1 / 2), true) else .error .valueError
  normal _ g := (fun _ => 0, g)
  uniform _ g := (fun _ => 1, g)
  mvn := ⟨fun _ _ _ g => (fun _ _ => 0, g)⟩
  nuc _ := 0

theorem negEnv_ideal : negEnv.Ideal := by
  intro dim f x0 x s h
  unfold negEnv at h
  dsimp only at h
  split at h
  · rename_i hx
    injection h with h
    injection h with h1 h2
    subst h1
    exact hx
  · cases h

/-- **C106** the claim is false of the code: the absolute value of the error variances is taken after the optimisation, not in the objective, so a global
minimum of the objective with a negative error variance is stored as a model with other variances than the sample's -/
theorem C106_false : ¬ C106_statement := by
  intro h
  have hc : covOf smallData = fun _ _ => 1 / 2 := by
    funext a b
    show sampleCov (fun k : Fin 2 => if k = 0 then (0 : ℝ) else 1) (fun k : Fin 2 => if k = 0 then (0 : ℝ) else 1) = 1 / 2
    simp [sampleCov, sampleMean, Fin.sum_univ_two]
    norm_num
  have hone : ∀ a b : Fin smallData.cols, a = b := fun a b => Subsingleton.elim (α := Fin 1) a b
  let x : Fin (devLatents true smallData.cols * smallData.cols + smallData.cols) → ℝ := fun i => if i.val = 0 then 1 else -(1 / 2)
  have hW : ∀ (r : Fin (devLatents true smallData.cols)) (j : Fin smallData.cols), devW x r j = 1 := fun r j => by
    refine if_pos ?_
    have h1 : (finProdFinEquiv (r, j)).val < 1 := (finProdFinEquiv (r, j)).isLt
    show (finProdFinEquiv (r, j)).val = 0
    omega
  have hD : ∀ j : Fin smallData.cols, devD (k := devLatents true smallData.cols) x j = -(1 / 2) := fun j => by
    refine if_neg ?_
    show ¬ 1 + j.val = 0
    omega
  have hmc : modelCov (fullWeights (devLatents true smallData.cols) smallData.cols x) (variancesOf (devLatents true smallData.cols * smallData.cols) x) = covOf smallData := by
    rw [hc]
    funext a b
    rw [modelCov, if_pos (hone a b)]
    rw [← devW_eq, ← devD_eq, hD]
    simp only [hW, sum_const, card_univ, Fintype.card_fin, show devLatents true smallData.cols = 1 from rfl]
    norm_num
  have hok : (devFit negEnv (newDev true ()) smallData "lse" 0 0).2 = .ok () := by
    have hd : devFit negEnv (newDev true ()) smallData "lse" 0 0 = fitLse negEnv (newDev true ()) smallData 0 0 := by
      unfold devFit; simp
    rw [hd]
    unfold fitLse
    dsimp only
    split
    · rename_i e he
      exfalso
      simp only [negEnv] at he
      split at he
      · cases he
      · rename_i hno
        apply hno
        refine ⟨0, ?_, fun z b hz => ?_⟩
        · refine congrArg (fun z => Except.ok (Fl.fin z)) ?_
          have e1 := lseLoss_eq (fun _ => 0) 0 0 (covOf smallData) (devW (k := devLatents true smallData.cols) x) (devD x)
          refine e1.trans ?_
          rw [devW_eq, devD_eq, hmc]
          simp [sqDist]
        · injection hz with hz
          injection hz with hz
          rw [← hz]
          exact (lseLoss_eq _ 0 0 _ _ _).symm ▸ by
            simp only [zero_mul, add_zero]
            exact sum_nonneg fun _ _ => sum_nonneg fun _ _ => sq_nonneg _
    · rfl
  obtain ⟨e, he, hm, heq⟩ := h Unit negEnv negEnv_ideal _ _ hok
  obtain ⟨f, x0, y, s, hy, -, he'⟩ := fitLse_stores negEnv (newDev true ()) smallData 0 0 hok
  have hyx : y = x := by
    unfold negEnv at hy
    dsimp only at hy
    split at hy
    · injection hy with hy
      injection hy with hy _
      exact hy.symm
    · cases hy
  rw [he] at he'
  injection he' with he'
  subst hyx
  subst he'
  let z : Fin smallData.cols := ⟨0, Nat.one_pos⟩
  have h1 := heq z z
  have h2 := congrFun (congrFun hmc z) z
  replace h2 : (∑ r, fullWeights (devLatents true smallData.cols) smallData.cols x r z * fullWeights (devLatents true smallData.cols) smallData.cols x r z) +
      variancesOf (devLatents true smallData.cols * smallData.cols) x z = covOf smallData z z := by
    rw [← h2]; simp [modelCov]
  have h3 : variancesOf (devLatents true smallData.cols * smallData.cols) x z = -(1 / 2) := by
    exact (congrFun (devD_eq (k := devLatents true smallData.cols) x) z).symm.trans (hD _)
  have h4 : |variancesOf (devLatents true smallData.cols * smallData.cols) x z| = variancesOf (devLatents true smallData.cols * smallData.cols) x z := by
    have : (diagonal fun j => |variancesOf (devLatents true smallData.cols * smallData.cols) x j|) z z = |variancesOf (devLatents true smallData.cols * smallData.cols) x z| :=
      diagonal_apply_eq _ _
    have h5 := h1.trans h2.symm
    have h6 := add_left_cancel h5
    exact this.symm.trans h6
  rw [h3] at h4
  norm_num [abs_of_neg] at h4

/-! ### C107 -/

/-- the sum of the squared covariances of different measurements -/
noncomputable def offDiagSq (d : AnyData) : ℝ := ∑ i, ∑ j, if i = j then 0 else covOf d i j ^ 2

theorem lse_at_zero (nuc : Matrix (Fin k) (Fin m) ℝ → ℝ) (hnuc : nuc (of fun _ _ => 0) = 0) (lam mu : ℝ)
    (S : Fin m → Fin m → ℝ) :
    lseValue nuc lam mu S (fun _ _ => 0) (fun j => S j j) = ∑ i, ∑ j, if i = j then 0 else S i j ^ 2 := by
  unfold lseValue
  rw [hnuc]
  simp only [sumAbs, abs_zero, sum_const_zero, mul_zero, add_zero, sqDist, modelCov, zero_add]
  refine sum_congr rfl fun i _ => sum_congr rfl fun j _ => ?_
  by_cases h : i = j
  · subst h; simp
  · simp [h]

theorem entryAt_continuous {dim : Nat} (n : Nat) : Continuous fun y : Fin dim → ℝ => entryAt y n := by
  unfold entryAt
  split
  · exact continuous_apply _
  · exact continuous_const

theorem lseValue_continuous {dim k m : Nat} (nuc : Matrix (Fin k) (Fin m) ℝ → ℝ) (hn : Continuous nuc) (lam mu : ℝ)
    (S : Fin m → Fin m → ℝ) : Continuous fun y : Fin dim → ℝ =>
      lseValue nuc lam mu S (fullWeights k m y) (variancesOf (k * m) y) := by
  have h1 : ∀ (r : Fin k) (j : Fin m), Continuous fun y : Fin dim → ℝ => fullWeights k m y r j :=
    fun r j => entryAt_continuous _
  have h2 : ∀ j : Fin m, Continuous fun y : Fin dim → ℝ => variancesOf (k * m) y j := fun j => entryAt_continuous _
  unfold lseValue sqDist modelCov sumAbs
  refine ((continuous_finsetSum _ fun i _ => continuous_finsetSum _ fun j _ => ?_).add
    (continuous_const.mul (hn.comp ?_))).add
    (continuous_const.mul (continuous_finsetSum _ fun r _ => continuous_finsetSum _ fun j _ => (h1 r j).abs))
  · refine (continuous_const.sub ((continuous_finsetSum _ fun r _ => (h1 r i).mul (h1 r j)).add ?_)).pow 2
    by_cases h : i = j
    · simp only [h, if_true]; exact h2 j
    · simp only [h, if_false]; exact continuous_const
  · exact continuous_pi fun r => continuous_pi fun j => h1 r j

/-- bounds on the parameters from a bound on the loss -/
theorem lse_bounds {k m : Nat} (nuc : Matrix (Fin k) (Fin m) ℝ → ℝ) (hn : ∀ W, 0 ≤ nuc W) (lam mu : ℝ) (hl : 0 ≤ lam)
    (hm : 0 < mu) (S : Fin m → Fin m → ℝ) (W : Fin k → Fin m → ℝ) (v : Fin m → ℝ) (c : ℝ)
    (h : lseValue nuc lam mu S W v ≤ c) :
    mu * sumAbs W ≤ c ∧ (∀ r j, |W r j| ≤ c / mu) ∧ ∀ j, |v j| ≤ |S j j| + k * (c / mu) ^ 2 + (c + 1) := by
  have hsq : 0 ≤ sqDist S (modelCov W v) := sum_nonneg fun _ _ => sum_nonneg fun _ _ => sq_nonneg _
  have hab : 0 ≤ sumAbs W := sum_nonneg fun _ _ => sum_nonneg fun _ _ => abs_nonneg _
  have hln := mul_nonneg hl (hn (of W))
  have hma := mul_nonneg hm.le hab
  unfold lseValue at h
  have h1 : mu * sumAbs W ≤ c := by linarith
  have h2 : ∀ r j, |W r j| ≤ c / mu := by
    intro r j
    rw [le_div_iff₀ hm, mul_comm]
    refine le_trans (mul_le_mul_of_nonneg_left ?_ hm.le) h1
    unfold sumAbs
    exact le_trans (single_le_sum (f := fun j => |W r j|) (fun j _ => abs_nonneg _) (mem_univ j))
      (single_le_sum (f := fun r => ∑ j, |W r j|) (fun r _ => sum_nonneg fun _ _ => abs_nonneg _) (mem_univ r))
  refine ⟨h1, h2, fun j => ?_⟩
  have h3 : (S j j - modelCov W v j j) ^ 2 ≤ c := by
    refine le_trans ?_ (show sqDist S (modelCov W v) ≤ c by linarith)
    unfold sqDist
    exact le_trans (single_le_sum (f := fun j' => (S j j' - modelCov W v j j') ^ 2) (fun j _ => sq_nonneg _) (mem_univ j))
      (single_le_sum (f := fun i => ∑ j', (S i j' - modelCov W v i j') ^ 2)
        (fun r _ => sum_nonneg fun _ _ => sq_nonneg _) (mem_univ j))
  have h4 : |S j j - modelCov W v j j| ≤ c + 1 := by
    rw [abs_le]
    constructor <;> nlinarith
  have h5 : 0 ≤ ∑ r, W r j * W r j := sum_nonneg fun _ _ => mul_self_nonneg _
  have h6 : ∑ r, W r j * W r j ≤ k * (c / mu) ^ 2 := by
    have : ∀ r ∈ (univ : Finset (Fin k)), W r j * W r j ≤ (c / mu) ^ 2 := fun r _ => by
      rw [← abs_mul_abs_self, ← sq]
      exact pow_le_pow_left₀ (abs_nonneg _) (h2 r j) 2
    simpa using sum_le_card_nsmul univ _ _ this
  have h7 : v j = (S j j - (S j j - modelCov W v j j)) - ∑ r, W r j * W r j := by
    simp [modelCov]
  rw [h7]
  calc _ ≤ |S j j - (S j j - modelCov W v j j)| + |∑ r, W r j * W r j| := abs_sub _ _
    _ ≤ |S j j| + |S j j - modelCov W v j j| + |∑ r, W r j * W r j| := by gcongr; exact abs_sub _ _
    _ ≤ _ := by rw [abs_of_nonneg h5]; linarith

/-- C107 for every continuous non-negative function in place of the nuclear norm that is 0 at 0 -/
theorem penalised_of_continuous (env : DevEnv G) (hc : ∀ k m, Continuous (env.nuc (k := k) (m := m)))
    (hn : ∀ k m (W : Matrix (Fin k) (Fin m) ℝ), 0 ≤ env.nuc W) (hz : ∀ k m, env.nuc (of fun (_ : Fin k) (_ : Fin m) => 0) = 0)
    (st : DevState G) (d : AnyData) (lam mu : ℝ) (hl : 0 ≤ lam) (hm : 0 < mu)
    (h : (devFit env st d "lse" lam mu).2 = .ok ()) :
    ∃ (f : (Fin (devLatents st.onePureChild d.cols * d.cols + d.cols) → ℝ) → Except PyErr (Fl ℝ))
      (x0 x : Fin (devLatents st.onePureChild d.cols * d.cols + d.cols) → ℝ) (success : Bool),
      env.minimize f x0 = .ok (x, success) ∧
      (devFit env st d "lse" lam mu).1.est = some ⟨devLatents st.onePureChild d.cols, d.cols,
        of (fullWeights (devLatents st.onePureChild d.cols) d.cols x),
        diagonal fun j => |variancesOf (devLatents st.onePureChild d.cols * d.cols) x j|⟩ ∧
      (∃ y, IsMinOf f y) ∧
      ∀ y, IsMinOf f y → mu * sumAbs (fullWeights (devLatents st.onePureChild d.cols) d.cols y) ≤ offDiagSq d := by
  obtain ⟨f, x0, x, s, hmin, hf, he⟩ := fitLse_stores env st d lam mu h
  generalize devLatents st.onePureChild d.cols = k at *
  obtain ⟨y0, hy1, hy2⟩ := exists_vec (k := k) (fun _ _ => 0) fun j => covOf d j j
  have h0 : lseValue env.nuc lam mu (covOf d) (fullWeights k d.cols y0) (variancesOf (k * d.cols) y0) = offDiagSq d := by
    rw [hy1, hy2]; exact lse_at_zero _ (hz _ _) _ _ _
  refine ⟨f, x0, x, s, hmin, he, ?_, fun y hy => ?_⟩
  · set g := fun y : Fin (k * d.cols + d.cols) → ℝ => lseValue env.nuc lam mu (covOf d) (fullWeights k d.cols y)
      (variancesOf (k * d.cols) y) with hg
    have hgc : Continuous g := lseValue_continuous _ (hc _ _) _ _ _
    set c := offDiagSq d with hcdef
    set R : ℝ := max (c / mu) (∑ j, (|covOf d j j| + k * (c / mu) ^ 2 + (c + 1))) with hR
    have hc0 : 0 ≤ c := sum_nonneg fun i _ => sum_nonneg fun j _ => by split; exacts [le_rfl, sq_nonneg _]
    have hin : ∀ y, g y ≤ c → y ∈ Metric.closedBall (0 : Fin (k * d.cols + d.cols) → ℝ) R := by
      intro y hy
      obtain ⟨-, b1, b2⟩ := lse_bounds env.nuc (hn _ _) lam mu hl hm (covOf d) _ _ c hy
      have hR0 : 0 ≤ R := le_max_of_le_left (div_nonneg hc0 hm.le)
      rw [mem_closedBall_zero_iff, pi_norm_le_iff_of_nonneg hR0]
      intro i
      rw [Real.norm_eq_abs]
      refine Fin.addCases (fun i => ?_) (fun j => ?_) i
      · have e1 := b1 (finProdFinEquiv.symm i).1 (finProdFinEquiv.symm i).2
        rw [← devW_eq] at e1
        simp only [devW, Prod.mk.eta, Equiv.apply_symm_apply] at e1
        exact le_trans e1 (le_max_left _ _)
      · have e1 := b2 j
        rw [← devD_eq] at e1
        refine le_trans (le_trans e1 ?_) (le_max_right _ _)
        exact single_le_sum (f := fun j => |covOf d j j| + k * (c / mu) ^ 2 + (c + 1))
          (fun j _ => by positivity) (mem_univ j)
    obtain ⟨y, hyb, hymin⟩ := (isCompact_closedBall (0 : Fin (k * d.cols + d.cols) → ℝ) R).exists_isMinOn
      ⟨y0, hin y0 h0.le⟩ hgc.continuousOn
    refine ⟨y, g y, hf y, fun z b hzb => ?_⟩
    rw [hf z] at hzb
    injection hzb with hzb
    injection hzb with hzb
    rw [← hzb]
    by_cases hzc : g z ≤ c
    · exact hymin (hin z hzc)
    · exact le_trans (hymin (hin y0 h0.le)) (le_trans h0.le (not_le.mp hzc).le)
  · obtain ⟨a, ha, hy⟩ := hy
    have h1 := hy y0 _ (hf y0)
    rw [hf y] at ha
    injection ha with ha
    injection ha with ha
    rw [h0, ← ha] at h1
    exact (lse_bounds env.nuc (hn _ _) lam mu hl hm (covOf d) _ _ _ h1).1

/-- **C107** With a positive L1 penalty, the penalised least squares objective `f` given to the optimizer has a global
minimum on every dataset, and at every global minimum the weights obey
`mu * Σ|W| ≤ Σ_{i≠j} cov(i,j)²`: they shrink to 0 as the penalty grows. -/
theorem C107_penalised (env : DevEnv G) (hnuc : ∀ k m (W : Matrix (Fin k) (Fin m) ℝ), env.nuc W = nuclearNorm W)
    (st : DevState G) (d : AnyData) (lam mu : ℝ) (hl : 0 ≤ lam) (hm : 0 < mu)
    (h : (devFit env st d "lse" lam mu).2 = .ok ()) :
    ∃ (f : (Fin (devLatents st.onePureChild d.cols * d.cols + d.cols) → ℝ) → Except PyErr (Fl ℝ))
      (x0 x : Fin (devLatents st.onePureChild d.cols * d.cols + d.cols) → ℝ) (success : Bool),
      env.minimize f x0 = .ok (x, success) ∧
      (devFit env st d "lse" lam mu).1.est = some ⟨devLatents st.onePureChild d.cols, d.cols,
        of (fullWeights (devLatents st.onePureChild d.cols) d.cols x),
        diagonal fun j => |variancesOf (devLatents st.onePureChild d.cols * d.cols) x j|⟩ ∧
      (∃ y, IsMinOf f y) ∧
      ∀ y, IsMinOf f y → mu * sumAbs (fullWeights (devLatents st.onePureChild d.cols) d.cols y) ≤ offDiagSq d :=
  penalised_of_continuous env
    (fun k m => by rw [show (env.nuc (k := k) (m := m)) = nuclearNorm from funext (hnuc k m)]; exact nuclearNorm_continuous)
    (fun k m W => by rw [hnuc]; exact nuclearNorm_nonneg W)
    (fun k m => by rw [hnuc]; exact (nuclearNorm_eq_zero _).mpr rfl) st d lam mu hl hm h

/-- an environment with the nuclear norm -/
noncomputable def nucEnv : DevEnv Unit := { idEnv with nuc := nuclearNorm }

/-- the hypotheses of C107 are met -/
example : (∀ k m (W : Matrix (Fin k) (Fin m) ℝ), nucEnv.nuc W = nuclearNorm W) ∧
    (devFit nucEnv (newDev false ()) twoCols "lse" 1 1).2 = .ok () :=
  ⟨fun _ _ _ => rfl, rfl⟩

/-! ### C105: the objective of the maximum likelihood fit has no minimum -/

/-- **C105** the objective `f` that `fit` with `"mle"` gives to the optimizer has no global minimum on any dataset with at
least two measurements, whatever the penalties -/
theorem C105_no_minimum (env : DevEnv G) (hz : ∀ k m, env.nuc (of fun (_ : Fin k) (_ : Fin m) => 0) = 0)
    (st : DevState G) (d : AnyData) (h2 : 2 ≤ d.cols) (lam mu : ℝ) (h : (devFit env st d "mle" lam mu).2 = .ok ()) :
    ∃ (dim : Nat) (f : (Fin dim → ℝ) → Except PyErr (Fl ℝ)) (x0 x : Fin dim → ℝ) (success : Bool),
      env.minimize f x0 = .ok (x, success) ∧ validationMle env (devFit env st d "mle" lam mu).1 lam mu d = f x ∧
      ∀ y, ¬ IsMinOf f y := by
  obtain ⟨k, dim, f, x0, x, s, hk, rfl, hmin, hval, hf⟩ := C65_validation_mle env st d lam mu h
  refine ⟨_, f, x0, x, s, hmin, hval, fun y hy => ?_⟩
  obtain ⟨a, ha, hy⟩ := hy
  obtain ⟨v, z, hz1, hz2⟩ := C105_unbounded env k d h2 (hz _ _) lam mu a
  obtain ⟨y', hy1, hy2⟩ := exists_vec (k := k) (fun _ _ => 0) v
  have h3 := hz2 { st with est := some ⟨k, d.cols, of fun _ _ => 0, diagonal v⟩ } rfl
  have hd : 0 < (of (modelCov (fullWeights k d.cols y') (variancesOf (k * d.cols) y')) :
      Matrix (Fin d.cols) (Fin d.cols) ℝ).det := by
    rw [hy1, hy2]
    by_contra hle
    unfold validationMle at h3
    dsimp only at h3
    rw [dif_pos rfl] at h3
    unfold mleLoss at h3
    simp only [computeSigma_eq] at h3
    have e0 : (fun (r : Fin k) (j : Fin d.cols) => (of (fun _ _ => 0) : Matrix (Fin k) (Fin d.cols) ℝ) r j) = fun _ _ => 0 := rfl
    rw [e0] at h3
    split at h3
    · cases h3
    · rw [if_pos] at h3
      · cases h3
      · rw [Matrix.det_nonsing_inv, Ring.inverse_eq_inv', inv_nonpos]
        exact not_lt.mp hle
  have h4 := validationMle_value env { st with est := some ⟨k, d.cols, of fun _ _ => 0, diagonal v⟩ } d _ v rfl lam mu
    (by rw [hy1, hy2] at hd; exact hd)
  rw [h3] at h4
  injection h4 with h4
  injection h4 with h4
  have h5 := (hf y' _ rfl).2.2 hd
  have h6 := hy y' _ h5
  rw [hy1, hy2] at h6
  change a ≤ ((of (covOf d)) * _).trace + _ + _ + _ at h6
  rw [add_assoc, ← h4] at h6
  linarith

/-! ### C108: symmetries of the losses -/

theorem losses_congr (env : DevEnv G) (hnuc : ∀ k m (W : Matrix (Fin k) (Fin m) ℝ), env.nuc W = nuclearNorm W)
    (st st' : DevState G) (d : AnyData) {k : Nat} (W W' : Matrix (Fin k) (Fin d.cols) ℝ)
    (D : Matrix (Fin d.cols) (Fin d.cols) ℝ) (h : st.est = some ⟨k, d.cols, W, D⟩)
    (h' : st'.est = some ⟨k, d.cols, W', D⟩) (hg : Wᵀ * W = W'ᵀ * W') (lam mu : ℝ) (hs : mu * sigmaL1 W = mu * sigmaL1 W') :
    validationMle env st' lam mu d = validationMle env st lam mu d ∧
    validationLse env st' lam mu d = validationLse env st lam mu d := by
  unfold validationMle validationLse
  rw [h, h']
  dsimp only
  rw [dif_pos rfl, dif_pos rfl, dif_pos rfl, dif_pos rfl]
  unfold mleLoss lseLoss computeSigma
  simp only [hg, hnuc, nuclearNorm_congr W W' hg, hs]
  exact ⟨trivial, trivial⟩

/-- **C108** The latents of an estimate have no order and no sign: renumbering them and flipping the signs of all weights
of some of them changes neither loss, on any data and for all penalties (nor whether it raises). -/
theorem C108_latents (env : DevEnv G) (hnuc : ∀ k m (W : Matrix (Fin k) (Fin m) ℝ), env.nuc W = nuclearNorm W)
    (st st' : DevState G) (d : AnyData) {k : Nat} (W : Matrix (Fin k) (Fin d.cols) ℝ)
    (D : Matrix (Fin d.cols) (Fin d.cols) ℝ) (p : Equiv.Perm (Fin k)) (sgn : Fin k → Bool)
    (h : st.est = some ⟨k, d.cols, W, D⟩)
    (h' : st'.est = some ⟨k, d.cols, of fun r j => if sgn r then -W (p r) j else W (p r) j, D⟩) (lam mu : ℝ) :
    validationMle env st' lam mu d = validationMle env st lam mu d ∧
    validationLse env st' lam mu d = validationLse env st lam mu d := by
  refine losses_congr env hnuc st st' d W _ D h h' ?_ lam mu (congrArg _ ?_)
  · ext i j
    simp only [Matrix.mul_apply, transpose_apply, of_apply]
    rw [← Equiv.sum_comp p]
    exact sum_congr rfl fun r _ => by split <;> ring
  · unfold sigmaL1
    rw [← Equiv.sum_comp p]
    refine sum_congr rfl fun r _ => sum_congr rfl fun j _ => ?_
    rw [of_apply]
    split
    · rw [abs_neg]
    · rfl

/-- **C108** Without the L1 penalty the latents can be rotated: for every orthogonal matrix `Q` the weights `QW` have
the same losses, on any data — so only the L1 penalty selects among rotations of an estimate. -/
theorem C108_rotation (env : DevEnv G) (hnuc : ∀ k m (W : Matrix (Fin k) (Fin m) ℝ), env.nuc W = nuclearNorm W)
    (st st' : DevState G) (d : AnyData) {k : Nat} (W : Matrix (Fin k) (Fin d.cols) ℝ)
    (D : Matrix (Fin d.cols) (Fin d.cols) ℝ) (Q : Matrix (Fin k) (Fin k) ℝ) (hQ : Qᵀ * Q = 1)
    (h : st.est = some ⟨k, d.cols, W, D⟩) (h' : st'.est = some ⟨k, d.cols, Q * W, D⟩) (lam : ℝ) :
    validationMle env st' lam 0 d = validationMle env st lam 0 d ∧
    validationLse env st' lam 0 d = validationLse env st lam 0 d := by
  refine losses_congr env hnuc st st' d W _ D h h' ?_ lam 0 (by rw [zero_mul, zero_mul])
  rw [Matrix.transpose_mul, Matrix.mul_assoc, ← Matrix.mul_assoc Qᵀ, hQ, Matrix.one_mul]

/-- with the L1 penalty a rotation does change the loss, so the hypothesis is needed -/
theorem C108_rotation_l1 : ∃ (Q W : Matrix (Fin 2) (Fin 2) ℝ), Qᵀ * Q = 1 ∧ sumAbs (fun r j => (Q * W) r j) ≠ sumAbs fun r j => W r j := by
  refine ⟨!![3/5, -(4/5); 4/5, 3/5], 1, ?_, ?_⟩
  · ext i j
    fin_cases i <;> fin_cases j <;> norm_num [Matrix.mul_apply, Fin.sum_univ_two]
  · rw [Matrix.mul_one]
    simp [sumAbs, Fin.sum_univ_two, Matrix.one_apply]
    norm_num [abs_of_pos]

/-- the hypotheses of C105 and C108 on the nuclear norm are met -/
example : (∀ k m, nucEnv.nuc (of fun (_ : Fin k) (_ : Fin m) => 0) = 0) ∧
    ∀ k m (W : Matrix (Fin k) (Fin m) ℝ), nucEnv.nuc W = nuclearNorm W :=
  ⟨fun _ _ => (nuclearNorm_eq_zero _).mpr rfl, fun _ _ _ => rfl⟩

end Medil

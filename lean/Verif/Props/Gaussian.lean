import Verif.Proofs.Gaussian
import Verif.Props.Heuristic
import Mathlib.Analysis.SpecialFunctions.Log.Basic
/-
  Properties of `MedilCausalModel` and `GaussianMCM`.
-/
namespace Medil
open Finset
variable {M : Nat}

/-! ### C54 -/

/-- **C54** -/
theorem C54_base_class {β υ ρ δ : Type} (b : β) (u : υ) (opc : Bool) (rng : ρ) (d : δ) (size : Nat) :
    let m := BaseModel.init b u opc rng
    m.biadj = b ∧ m.udg = u ∧ m.onePureChild = opc ∧ m.rng = rng ∧
    m.fit d = (m, .error .notImplemented) ∧ m.sample size = (m, .error .notImplemented) :=
  ⟨rfl, rfl, rfl, rfl, rfl, rfl⟩

/-! ### C60 (used below) -/

theorem Dataset.mean_eq (d : Dataset M) (j : Fin M) : d.mean j = sampleMean fun k => d.val k j := rfl

theorem Dataset.cov_eq (d : Dataset M) (i j : Fin M) :
    d.cov i j = sampleCov (fun k => d.val k i) fun k => d.val k j := rfl

theorem size_pos (d : Dataset M) : (0 : ℝ) < d.size := by
  have := d.two_le; exact_mod_cast (by omega : 0 < d.size)

theorem size_sub_pos (d : Dataset M) : (0 : ℝ) < (d.size : ℝ) - 1 := by
  have := d.two_le
  have : (2 : ℝ) ≤ d.size := by exact_mod_cast this
  linarith

theorem Dataset.cov_symm (d : Dataset M) (i j : Fin M) : d.cov i j = d.cov j i := by
  unfold Dataset.cov
  congr 1
  exact sum_congr rfl fun k _ => mul_comm _ _

theorem Dataset.cov_self_nonneg (d : Dataset M) (i : Fin M) : 0 ≤ d.cov i i :=
  div_nonneg (sum_nonneg fun _ _ => mul_self_nonneg _) (size_sub_pos d).le

theorem Dataset.cov_self_eq_zero (d : Dataset M) (i : Fin M) :
    d.cov i i = 0 ↔ Constant fun k => d.val k i := by
  constructor
  · intro h
    unfold Dataset.cov at h
    rw [div_eq_zero_iff, or_iff_left (size_sub_pos d).ne', sum_eq_zero_iff_of_nonneg (fun _ _ => mul_self_nonneg _)] at h
    have h' : ∀ k, d.val k i = d.mean i := fun k => by
      have := h k (mem_univ _)
      have := mul_self_eq_zero.mp this
      linarith
    intro k l
    show d.val k i = d.val l i
    rw [h' k, h' l]
  · intro h
    have h' : ∀ k, d.val k i = d.mean i := fun k => by
      have hs : ∑ l, d.val l i = d.size * d.val k i := by
        rw [sum_congr rfl fun l _ => h l k]; simp
      unfold Dataset.mean
      rw [hs]; field_simp [(size_pos d).ne']
    unfold Dataset.cov
    rw [sum_eq_zero fun k _ => by rw [h' k, sub_self, zero_mul], zero_div]

theorem udgTriu_le (d : Dataset M) (i j : Fin M) (h : j ≤ i) : udgTriu d i j = false := by
  unfold udgTriu
  rw [if_pos h, decide_eq_false_iff_not, Real.log_one, not_lt]
  have h1 : 0 ≤ Real.log d.size := Real.log_natCast_nonneg _
  have := div_nonneg h1 (size_pos d).le
  rw [neg_div]; linarith

/-- the decision for a pair of non-constant columns -/
theorem udgTriu_lt (d : Dataset M) (i j : Fin M) (h : i < j) (hi : ¬ Constant fun k => d.val k i)
    (hj : ¬ Constant fun k => d.val k j) : udgTriu d i j = true ↔
      Real.log (max (1 - d.cov i j * (d.cov i j / (Real.sqrt (d.cov i i) * Real.sqrt (d.cov j j)))) (1 / 100000))
        < -Real.log d.size / d.size := by
  unfold udgTriu
  rw [if_neg (not_le.mpr h)]
  have hi' : Real.sqrt (d.cov i i) ≠ 0 := by
    rw [Real.sqrt_ne_zero (d.cov_self_nonneg i), Ne, d.cov_self_eq_zero]; exact hi
  have hj' : Real.sqrt (d.cov j j) ≠ 0 := by
    rw [Real.sqrt_ne_zero (d.cov_self_nonneg j), Ne, d.cov_self_eq_zero]; exact hj
  unfold Dataset.corr Fl.div
  rw [if_neg (mul_ne_zero hi' hj')]
  exact decide_eq_true_iff

theorem udgTriu_const (d : Dataset M) (i j : Fin M) (h : i < j)
    (hc : (Constant fun k => d.val k i) ∨ Constant fun k => d.val k j) : udgTriu d i j = false := by
  unfold udgTriu
  rw [if_neg (not_le.mpr h)]
  have h0 : Real.sqrt (d.cov i i) * Real.sqrt (d.cov j j) = 0 := by
    rcases hc with hc | hc
    · rw [(d.cov_self_eq_zero i).mpr hc]; simp
    · rw [(d.cov_self_eq_zero j).mpr hc]; simp
  unfold Dataset.corr Fl.div
  rw [if_pos h0]
  split
  · rename_i heq
    split at heq
    · cases heq
    · split at heq <;> cases heq
  · rfl

/-- **C60** The graph estimated from a dataset with at least two columns: symmetric, without loops, and
with an edge `i — j`, `i < j`, exactly when both columns vary and
`log(max(1 - cov_ij * corr_ij, 1e-5)) < -log(N)/N`.  (One column: `ValueError`.) -/
theorem C60_estimated_graph (d : Dataset M) :
    (M = 1 → estimateUdgCov d = .error .valueError) ∧
    (M ≠ 1 → ∃ U, estimateUdgCov d = .ok U ∧ Symm U ∧ (∀ i, U i i = false) ∧
      ∀ i j, i < j → (U i j = true ↔
        (¬ Constant fun k => d.val k i) ∧ (¬ Constant fun k => d.val k j) ∧
        Real.log (max (1 - sampleCov (fun k => d.val k i) (fun k => d.val k j) *
            sampleCorr (fun k => d.val k i) fun k => d.val k j) (1 / 100000)) < -Real.log d.size / d.size)) := by
  unfold estimateUdgCov
  refine ⟨fun h => if_pos h, fun h => ⟨_, if_neg h, ?_, ?_, ?_⟩⟩
  · intro i j; simp [Bool.or_comm]
  · intro i; simp [udgTriu_le]
  · intro i j hij
    rw [BMat.get_of, udgTriu_le d j i hij.le, Bool.or_false]
    by_cases hi : Constant fun k => d.val k i
    · simp [udgTriu_const d i j hij (Or.inl hi), hi]
    by_cases hj : Constant fun k => d.val k j
    · simp [udgTriu_const d i j hij (Or.inr hj), hj]
    · rw [udgTriu_lt d i j hij hi hj]
      simp only [hi, hj, not_false_eq_true, true_and]
      rfl

/-- the dataset with rows `(0,0)` and `(a,b)` -/
def twoPoints (a b : ℝ) : Dataset 2 :=
  ⟨2, le_refl _, fun k j => if k = 0 then 0 else if j = 0 then a else b⟩

theorem twoPoints_cov (a b : ℝ) (i j : Fin 2) : (twoPoints a b).cov i j =
    (if i = 0 then a else b) * (if j = 0 then a else b) / 2 := by
  unfold Dataset.cov Dataset.mean twoPoints
  simp only [Fin.sum_univ_two]
  by_cases hi : i = 0 <;> by_cases hj : j = 0 <;> simp [hi, hj] <;> ring

theorem twoPoints_udg (a b : ℝ) (ha : 0 < a) (hb : 0 < b) : ∃ U, estimateUdgCov (twoPoints a b) = .ok U ∧
    U = (BMat.of fun i j => decide (i ≠ j ∧ Real.log (max (1 - a * b / 2) (1 / 100000)) < -Real.log 2 / 2)) := by
  refine ⟨_, rfl, ?_⟩
  have hc : ∀ i : Fin 2, ¬ Constant fun k => (twoPoints a b).val k i := by
    intro i h
    have : (0 : ℝ) = if i = 0 then a else b := h (0 : Fin 2) (1 : Fin 2)
    split at this <;> linarith
  have h01 : udgTriu (twoPoints a b) 0 1 =
      decide (Real.log (max (1 - a * b / 2) (1 / 100000)) < -Real.log 2 / 2) := by
    rw [Bool.eq_iff_iff, udgTriu_lt _ 0 1 (by decide) (hc 0) (hc 1), decide_eq_true_iff]
    simp only [twoPoints_cov]
    have e1 : Real.sqrt (a * a / 2) * Real.sqrt (b * b / 2) = a * b / 2 := by
      rw [← Real.sqrt_mul (by positivity)]
      rw [show a * a / 2 * (b * b / 2) = (a * b / 2) ^ 2 by ring, Real.sqrt_sq (by positivity)]
    simp only [if_true, one_ne_zero, if_false]
    rw [e1, div_self (by positivity), mul_one]
    show _ < -Real.log ((2 : ℕ) : ℝ) / ((2 : ℕ) : ℝ) ↔ _
    push_cast
    rfl
  congr 1
  funext i j
  fin_cases i <;> fin_cases j
  · simp [udgTriu_le]
  · rw [show udgTriu (twoPoints a b) ⟨1, by decide⟩ ⟨0, by decide⟩ = false from udgTriu_le _ _ _ (by decide)]
    simpa using h01
  · rw [show udgTriu (twoPoints a b) ⟨1, by decide⟩ ⟨0, by decide⟩ = false from udgTriu_le _ _ _ (by decide)]
    simpa using h01
  · simp [udgTriu_le]

theorem log_half : Real.log (1 / 2) = - Real.log 2 := by rw [one_div, Real.log_inv]

/-- perfectly correlated columns with a large covariance are adjacent -/
theorem twoPoints_edge (a b : ℝ) (ha : 0 < a) (hb : 0 < b) (h : 2 ≤ a * b) :
    estimateUdgCov (twoPoints a b) = .ok (BMat.of fun i j => decide (i ≠ j)) := by
  obtain ⟨U, h1, rfl⟩ := twoPoints_udg a b ha hb
  rw [h1]
  have : Real.log (max (1 - a * b / 2) (1 / 100000)) < -Real.log 2 / 2 := by
    rw [max_eq_right (by linarith)]
    have h1 : Real.log (1 / 100000) < Real.log (1 / 2) := Real.log_lt_log (by norm_num) (by norm_num)
    rw [log_half] at h1
    have h2 : 0 < Real.log 2 := Real.log_pos (by norm_num)
    linarith
  simp only [this, and_true]

/-- perfectly correlated columns with a small covariance are not adjacent -/
theorem twoPoints_no_edge (a b : ℝ) (ha : 0 < a) (hb : 0 < b) (h : a * b ≤ 1 / 10) :
    estimateUdgCov (twoPoints a b) = .ok (BMat.of fun _ _ => false) := by
  obtain ⟨U, h1, rfl⟩ := twoPoints_udg a b ha hb
  rw [h1]
  have : ¬ Real.log (max (1 - a * b / 2) (1 / 100000)) < -Real.log 2 / 2 := by
    rw [max_eq_left (by linarith), not_lt]
    have h1 : Real.log (1 / 2) ≤ Real.log ((1 - a * b / 2) ^ 2) :=
      Real.log_le_log (by norm_num) (by nlinarith)
    rw [log_half, Real.log_pow] at h1
    push_cast at h1
    linarith
  simp only [this, and_false, decide_false]

/-- both outcomes occur -/
example : (∃ U, estimateUdgCov (twoPoints 1 2) = .ok U ∧ U 0 1 = true) ∧
    ∃ U, estimateUdgCov (twoPoints (1 / 10) 1) = .ok U ∧ U 0 1 = false :=
  ⟨⟨_, twoPoints_edge 1 2 (by norm_num) (by norm_num) (by norm_num), by simp⟩,
   ⟨_, twoPoints_no_edge (1 / 10) 1 (by norm_num) (by norm_num) (by norm_num), by simp⟩⟩

/-! ### C61 -/

/-- the dataset after column `j` was multiplied by `c j` and shifted by `b j` -/
def Dataset.affine (d : Dataset M) (c b : Fin M → ℝ) : Dataset M :=
  { d with val := fun k j => c j * d.val k j + b j }

/-- **C61** (as stated; false) -/
def C61_statement : Prop :=
  ∀ (M : Nat) (d : Dataset M) (c : Fin M → ℝ), (∀ j, 0 < c j) →
    estimateUdgCov (d.affine c 0) = estimateUdgCov d

/-- two perfectly correlated columns: after multiplying one by 400 they become adjacent -/
theorem C61_false : ¬ C61_statement := by
  intro h
  have h1 := h 2 (twoPoints (1 / 10) (1 / 10)) (fun j => if j = 0 then 1 else 400)
    (fun j => by split <;> norm_num)
  have h2 : (twoPoints (1 / 10) (1 / 10)).affine (fun j => if j = 0 then 1 else 400) 0 = twoPoints (1 / 10) 40 := by
    unfold Dataset.affine twoPoints
    congr 1
    funext k j
    by_cases hk : k = 0 <;> by_cases hj : j = 0 <;> simp [hk, hj]
    norm_num
  rw [h2, twoPoints_edge _ _ (by norm_num) (by norm_num) (by norm_num),
    twoPoints_no_edge _ _ (by norm_num) (by norm_num) (by norm_num)] at h1
  have h3 := congrArg (fun U : Except PyErr (BMat 2) => U.toOption.map fun U => U 0 1) h1
  simp [Except.toOption] at h3

theorem Dataset.affine_mean (d : Dataset M) (c b : Fin M → ℝ) (j : Fin M) :
    (d.affine c b).mean j = c j * d.mean j + b j := by
  unfold Dataset.mean Dataset.affine
  have := (size_pos d).ne'
  simp only [sum_add_distrib, ← mul_sum, sum_const, card_univ, Fintype.card_fin, nsmul_eq_mul]
  field_simp

theorem Dataset.affine_cov (d : Dataset M) (c b : Fin M → ℝ) (i j : Fin M) :
    (d.affine c b).cov i j = c i * c j * d.cov i j := by
  unfold Dataset.cov
  rw [← mul_div_assoc, mul_sum]
  show _ / ((d.size : ℝ) - 1) = _
  congr 1
  refine sum_congr rfl fun k _ => ?_
  rw [affine_mean, affine_mean]
  show (c i * d.val k i + b i - _) * (c j * d.val k j + b j - _) = _
  ring

theorem Dataset.affine_constant (d : Dataset M) (c b : Fin M → ℝ) (j : Fin M) (hc : c j ≠ 0) :
    (Constant fun k => (d.affine c b).val k j) ↔ Constant fun k => d.val k j := by
  constructor
  · intro h k l
    have : c j * d.val k j + b j = c j * d.val l j + b j := h k l
    exact mul_left_cancel₀ hc (by linarith)
  · intro h k l
    show c j * d.val k j + b j = c j * d.val l j + b j
    rw [show d.val k j = d.val l j from h k l]

theorem Dataset.affine_stat (d : Dataset M) (c b : Fin M → ℝ) (i j : Fin M) (hi : c i ≠ 0) (hj : c j ≠ 0) :
    (d.affine c b).cov i j * ((d.affine c b).cov i j /
      (Real.sqrt ((d.affine c b).cov i i) * Real.sqrt ((d.affine c b).cov j j))) =
    |c i * c j| * (d.cov i j * (d.cov i j / (Real.sqrt (d.cov i i) * Real.sqrt (d.cov j j)))) := by
  simp only [affine_cov]
  rw [← pow_two (c i), ← pow_two (c j), Real.sqrt_mul (sq_nonneg _), Real.sqrt_mul (sq_nonneg _),
    Real.sqrt_sq_eq_abs, Real.sqrt_sq_eq_abs]
  have h0 : |c i| ≠ 0 := abs_ne_zero.mpr hi
  have h1 : |c j| ≠ 0 := abs_ne_zero.mpr hj
  have h2 : (c i * c j) * (c i * c j) = |c i| * |c j| * (|c i| * |c j|) := by
    rw [← abs_mul, abs_mul_abs_self]
  rw [abs_mul]
  rcases eq_or_ne (Real.sqrt (d.cov i i) * Real.sqrt (d.cov j j)) 0 with h | h
  · rw [show |c i| * Real.sqrt (d.cov i i) * (|c j| * Real.sqrt (d.cov j j)) =
      |c i| * |c j| * (Real.sqrt (d.cov i i) * Real.sqrt (d.cov j j)) by ring, h]
    simp
  · have h3 := left_ne_zero_of_mul h
    have h4 := right_ne_zero_of_mul h
    field_simp
    linear_combination (d.cov i j) ^ 2 * h2

/-- the scaled edge criterion -/
theorem udgTriu_affine (d : Dataset M) (c b : Fin M → ℝ) (hc : ∀ j, c j ≠ 0) (i j : Fin M) (h : i < j) :
    (udgTriu (d.affine c b) i j = true ↔
      (¬ Constant fun k => d.val k i) ∧ (¬ Constant fun k => d.val k j) ∧
      Real.log (max (1 - |c i * c j| *
        (d.cov i j * (d.cov i j / (Real.sqrt (d.cov i i) * Real.sqrt (d.cov j j))))) (1 / 100000))
        < -Real.log d.size / d.size) := by
  by_cases hi : Constant fun k => d.val k i
  · rw [udgTriu_const _ i j h (Or.inl ((d.affine_constant c b i (hc i)).mpr hi))]; simp [hi]
  by_cases hj : Constant fun k => d.val k j
  · rw [udgTriu_const _ i j h (Or.inr ((d.affine_constant c b j (hc j)).mpr hj))]; simp [hj]
  rw [udgTriu_lt _ i j h ((d.affine_constant c b i (hc i)).not.mpr hi) ((d.affine_constant c b j (hc j)).not.mpr hj),
    d.affine_stat c b i j (hc i) (hc j)]
  simp only [hi, hj, not_false_eq_true, true_and]
  rfl

theorem affine_id (d : Dataset M) : d.affine 1 0 = d := by
  unfold Dataset.affine; simp

theorem cov_corr_nonneg (d : Dataset M) (i j : Fin M) :
    0 ≤ d.cov i j * (d.cov i j / (Real.sqrt (d.cov i i) * Real.sqrt (d.cov j j))) := by
  rw [← mul_div_assoc]
  exact div_nonneg (mul_self_nonneg _) (mul_nonneg (Real.sqrt_nonneg _) (Real.sqrt_nonneg _))

theorem udgTriu_mono (d : Dataset M) (c b : Fin M → ℝ) (hc : ∀ j, 1 ≤ |c j|) (i j : Fin M)
    (h : udgTriu d i j = true) : udgTriu (d.affine c b) i j = true := by
  have hij : i < j := by
    by_contra hn
    rw [udgTriu_le d i j (not_lt.mp hn)] at h; cases h
  have hc0 : ∀ j, c j ≠ 0 := fun j h0 => by have := hc j; rw [h0, abs_zero] at this; linarith
  have h1 : udgTriu (d.affine 1 0) i j = true := by rwa [affine_id]
  rw [udgTriu_affine d 1 0 (fun _ => one_ne_zero) i j hij] at h1
  rw [udgTriu_affine d c b hc0 i j hij]
  refine ⟨h1.1, h1.2.1, lt_of_le_of_lt (Real.log_le_log (by positivity) (max_le_max_right _ ?_)) h1.2.2⟩
  have h2 : 1 ≤ |c i * c j| := by
    rw [abs_mul]; nlinarith [hc i, hc j]
  have := cov_corr_nonneg d i j
  simp only [Pi.one_apply, mul_one, abs_one, one_mul]
  nlinarith

/-- **C61** What is true.  The estimated graph is unchanged by adding constants to columns and by changing
their signs; multiplying columns by factors of absolute value at least 1 only adds edges (so factors of
absolute value at most 1 only remove them).

Missing from the full claim: factors other than `±1` do change the graph in general (`C61_false`), because
the test uses `cov_ij * corr_ij` where the likelihood ratio test has `corr_ij ^ 2`. -/
theorem C61_units_partial (d : Dataset M) (c b : Fin M → ℝ) :
    ((∀ j, |c j| = 1) → estimateUdgCov (d.affine c b) = estimateUdgCov d) ∧
    ((∀ j, 1 ≤ |c j|) → ∀ U U', estimateUdgCov d = .ok U → estimateUdgCov (d.affine c b) = .ok U' →
      ∀ i j, U i j = true → U' i j = true) := by
  constructor
  · intro hc
    have hc0 : ∀ j, c j ≠ 0 := fun j h0 => by have := hc j; rw [h0, abs_zero] at this; norm_num at this
    have ht : ∀ i j, udgTriu (d.affine c b) i j = udgTriu d i j := by
      intro i j
      by_cases hij : i < j
      · rw [Bool.eq_iff_iff, udgTriu_affine d c b hc0 i j hij]
        conv_rhs => rw [← affine_id d]
        rw [udgTriu_affine d 1 0 (fun _ => one_ne_zero) i j hij]
        rw [abs_mul, hc, hc]; simp
      · rw [udgTriu_le _ i j (not_lt.mp hij), udgTriu_le _ i j (not_lt.mp hij)]
    unfold estimateUdgCov
    simp only [ht]
  · intro hc U U' hU hU' i j hij
    unfold estimateUdgCov at hU hU'
    split at hU
    · cases hU
    · rename_i hM
      rw [if_neg hM] at hU'
      cases hU; cases hU'
      rw [BMat.get_of, Bool.or_eq_true] at hij ⊢
      exact hij.imp (udgTriu_mono d c b hc i j) (udgTriu_mono d c b hc j i)

/-- a case with an edge that stays -/
example : ∃ U, estimateUdgCov ((twoPoints 1 2).affine (fun _ => -1) (fun _ => 5)) = .ok U ∧ U 0 1 = true :=
  ⟨_, ((C61_units_partial _ _ _).1 (by simp)).trans
    (twoPoints_edge 1 2 (by norm_num) (by norm_num) (by norm_num)), by simp⟩

/-! ### C55 -/

/-- the graph that `fit` passes to `find_heuristic_1pc`: the given one, or the one estimated from the data -/
def GraphUsed (d : Dataset M) (given : Option (BMat M)) (U : BMat M) : Prop :=
  given = some U ∨ given = none ∧ estimateUdgCov d = .ok U

theorem fit_given (opt : Optimizer) (o : Sched M) (d : Dataset M) (st : GState M) (h : st.biadj.length * M ≠ 0) :
    gaussianFit opt o d st = ((fitParams opt d { st with dataset := some d }).1,
      .ok (fitParams opt d { st with dataset := some d }).2) := by
  unfold gaussianFit; exact if_neg h

theorem fit_learn (opt : Optimizer) (o : Sched M) (d : Dataset M) (st : GState M) (h : st.biadj.length * M = 0)
    (U : BMat M) (hU : udgOr d st.udg = .ok U) :
    gaussianFit opt o d st = match findHeuristic1pc o U with
      | .error e => ({ st with dataset := some d, udg := some U }, .error e)
      | .ok B => ((fitParams opt d { st with dataset := some d, udg := some U, biadj := B }).1,
        .ok (fitParams opt d { st with dataset := some d, udg := some U, biadj := B }).2) := by
  unfold gaussianFit computeBiadj
  simp only [h, if_true, hU]
  split <;> rename_i heq <;> split at heq <;> simp_all

theorem udgOr_used (hM : 2 ≤ M) (d : Dataset M) (given : Option (BMat M)) (U : BMat M) (h : GraphUsed d given U) :
    udgOr d given = .ok U := by
  rcases h with rfl | ⟨rfl, h⟩
  · unfold udgOr
    have : M * M ≠ 0 := by positivity
    simp [this]
  · exact h

/-- **C55** For measurements `M ≥ 2`:
* a given structure (non-empty `biadj`) and graph are left unchanged, whatever the dataset and the optimizer,
  and the call returns;
* otherwise the graph used is the given one, or the estimated one if none was given; afterwards `udg` is that
  graph and the structure is `find_heuristic_1pc` of it, or, when that raises, the call raises the same
  exception. -/
theorem C55_fit_structure (hM : 2 ≤ M) (opt : Optimizer) (o : Sched M) (d : Dataset M) (st : GState M) :
    (st.biadj ≠ [] → (gaussianFit opt o d st).1.biadj = st.biadj ∧ (gaussianFit opt o d st).1.udg = st.udg ∧
      ∃ warned, (gaussianFit opt o d st).2 = .ok warned) ∧
    (st.biadj = [] → ∃ U, GraphUsed d st.udg U ∧ (gaussianFit opt o d st).1.udg = some U ∧
      (∀ B, findHeuristic1pc o U = .ok B → (gaussianFit opt o d st).1.biadj = B ∧
        ∃ warned, (gaussianFit opt o d st).2 = .ok warned) ∧
      (∀ e, findHeuristic1pc o U = .error e → (gaussianFit opt o d st).1.biadj = [] ∧
        (gaussianFit opt o d st).1.params = st.params ∧ (gaussianFit opt o d st).2 = .error e)) := by
  constructor
  · intro h
    have h' : st.biadj.length * M ≠ 0 := by
      have := List.length_pos_iff.mpr h
      positivity
    rw [fit_given opt o d st h']
    exact ⟨rfl, rfl, _, rfl⟩
  · intro h
    have hU : ∃ U, GraphUsed d st.udg U := by
      cases hu : st.udg with
      | some U => exact ⟨U, Or.inl rfl⟩
      | none =>
        obtain ⟨U, hU, -⟩ := (C60_estimated_graph d).2 (by omega)
        exact ⟨U, Or.inr ⟨rfl, hU⟩⟩
    obtain ⟨U, hU⟩ := hU
    have hl : st.biadj.length * M = 0 := by rw [h]; simp
    rw [fit_learn opt o d st hl U (udgOr_used hM d _ U hU)]
    refine ⟨U, hU, ?_, ?_, ?_⟩
    · split <;> rfl
    · intro B hB; rw [hB]; exact ⟨rfl, _, rfl⟩
    · intro e he; rw [he]; exact ⟨h, rfl, rfl⟩

theorem heuristic_empty2 : findHeuristic1pc (fun _ _ => 0) (BMat.of fun _ _ : Fin 2 => false) =
    .ok [BVec.single 0, BVec.single 1] := by decide +kernel

theorem heuristic_edge2 : findHeuristic1pc (fun _ _ => 0) (BMat.of fun i j : Fin 2 => decide (i ≠ j)) =
    .ok [BVec.full] := by decide +kernel

/-- a dataset from which one latent is learned, and one from which two are -/
example (opt : Optimizer) : (gaussianFit opt (fun _ _ => 0) (twoPoints 1 2) {}).1.biadj = [BVec.full] ∧
    (gaussianFit opt (fun _ _ => 0) (twoPoints (1 / 10) 1) {}).1.biadj = [BVec.single 0, BVec.single 1] := by
  constructor
  · obtain ⟨U, hU, -, h, -⟩ := (C55_fit_structure (le_refl _) opt (fun _ _ => 0) (twoPoints 1 2) {}).2 rfl
    rcases hU with hU | ⟨-, hU⟩
    · cases hU
    · rw [twoPoints_edge 1 2 (by norm_num) (by norm_num) (by norm_num)] at hU
      cases hU
      exact (h _ heuristic_edge2).1
  · obtain ⟨U, hU, -, h, -⟩ := (C55_fit_structure (le_refl _) opt (fun _ _ => 0) (twoPoints (1 / 10) 1) {}).2 rfl
    rcases hU with hU | ⟨-, hU⟩
    · cases hU
    · rw [twoPoints_no_edge (1 / 10) 1 (by norm_num) (by norm_num) (by norm_num)] at hU
      cases hU
      exact (h _ heuristic_empty2).1

/-! ### C56 -/

/-- **C56** (as stated; false): a second `fit` learns the structure of the second dataset -/
def C56_statement : Prop :=
  ∀ (M : Nat) (opt : Optimizer) (o1 o2 : Sched M) (d1 d2 : Dataset M),
    (gaussianFit opt o2 d2 (gaussianFit opt o1 d1 {}).1).1.biadj = (gaussianFit opt o2 d2 {}).1.biadj

/-- **C56** What a refit does.  After a first `fit(d1)` of an object without structure and graph, whatever
datasets are fitted afterwards:
* `udg` is the graph estimated from `d1`, even when the first call raised;
* if the first call returned, the structure is the one learned from `d1`;
* the second call does re-estimate the error means from its own dataset whenever it returns.
So the claim holds for `d2` if its graph leads to the same structure as `d1`'s.

Missing from the full claim: the structure of the new dataset is never learned (`C56_false`). -/
theorem C56_refit_partial (hM : 2 ≤ M) (opt : Optimizer) (o1 : Sched M) (d1 : Dataset M)
    (hist : List (Sched M × Dataset M)) :
    ∃ U, estimateUdgCov d1 = .ok U ∧ (fitAll opt (gaussianFit opt o1 d1 {}).1 hist).udg = some U ∧
      (∀ B, findHeuristic1pc o1 U = .ok B → (fitAll opt (gaussianFit opt o1 d1 {}).1 hist).biadj = B) ∧
      (∀ o d w, (gaussianFit opt o d (fitAll opt (gaussianFit opt o1 d1 {}).1 hist)).2 = .ok w →
        (gaussianFit opt o d (fitAll opt (gaussianFit opt o1 d1 {}).1 hist)).1.means =
          some fun j => sampleMean fun k => d.val k j) := by
  obtain ⟨U, hU, hu, hok, herr⟩ := (C55_fit_structure hM opt o1 d1 {}).2 rfl
  have hU' : estimateUdgCov d1 = .ok U := by
    rcases hU with hU | ⟨-, hU⟩
    · cases hU
    · exact hU
  obtain ⟨U', hU2, hsym, -⟩ := (C60_estimated_graph d1).2 (by omega)
  rw [hU'] at hU2; cases hU2
  have key : ∀ (hist : List (Sched M × Dataset M)) (st : GState M), st.udg = some U →
      (fitAll opt st hist).udg = some U ∧ (st.biadj ≠ [] → (fitAll opt st hist).biadj = st.biadj) := by
    intro hist
    induction hist with
    | nil => intro st h; exact ⟨h, fun _ => rfl⟩
    | cons a rest ih =>
      intro st h
      have hstep : (gaussianFit opt a.1 a.2 st).1.udg = some U ∧
          (st.biadj ≠ [] → (gaussianFit opt a.1 a.2 st).1.biadj = st.biadj) := by
        by_cases hb : st.biadj = []
        · obtain ⟨V, hV, hv, -, -⟩ := (C55_fit_structure hM opt a.1 a.2 st).2 hb
          rw [h] at hV
          rcases hV with hV | ⟨hV, -⟩
          · exact ⟨by rw [hv, hV], fun h => absurd hb h⟩
          · cases hV
        · have := (C55_fit_structure hM opt a.1 a.2 st).1 hb
          exact ⟨this.2.1.trans h, fun _ => this.1⟩
      have := ih _ hstep.1
      refine ⟨this.1, fun hb => ?_⟩
      rw [← hstep.2 hb]
      exact this.2 (by rw [hstep.2 hb]; exact hb)
  refine ⟨U, hU', (key hist _ hu).1, fun B hB => ?_, ?_⟩
  · have hb := (hok B hB).1
    rw [← hb]
    refine (key hist _ hu).2 ?_
    rw [hb]
    obtain ⟨r, hr, -⟩ := (C06_heuristic_parents U hsym o1 B hB).1 ⟨0, by omega⟩
    exact List.ne_nil_of_mem hr
  · intro o d w hw
    have hst := (key hist _ hu).1
    generalize fitAll opt (gaussianFit opt o1 d1 {}).1 hist = st at hw hst
    by_cases hb : st.biadj.length * M = 0
    · rw [fit_learn opt o d st hb U (udgOr_used hM d _ U (Or.inl hst))] at hw ⊢
      cases hf : findHeuristic1pc o U with
      | error e => rw [hf] at hw; cases hw
      | ok B => rfl
    · rw [fit_given opt o d st hb]; rfl

theorem C56_false : ¬ C56_statement := by
  intro h
  have h1 := h 2 (fun _ _ => (0, true)) (fun _ _ => 0) (fun _ _ => 0) (twoPoints (1 / 10) 1) (twoPoints 1 2)
  obtain ⟨U, hU, -, h2, -⟩ := C56_refit_partial (le_refl _) (fun _ _ => (0, true)) (fun _ _ => 0)
    (twoPoints (1 / 10) 1) [(fun _ _ => 0, twoPoints 1 2)]
  rw [twoPoints_no_edge (1 / 10) 1 (by norm_num) (by norm_num) (by norm_num)] at hU
  cases hU
  have h3 := h2 _ heuristic_empty2
  obtain ⟨V, hV, -, h4, -⟩ := (C55_fit_structure (le_refl _) (fun _ _ => (0, true)) (fun _ _ => 0) (twoPoints 1 2) {}).2 rfl
  rcases hV with hV | ⟨-, hV⟩
  · cases hV
  · rw [twoPoints_edge 1 2 (by norm_num) (by norm_num) (by norm_num)] at hV
    cases hV
    have h5 := (h4 _ heuristic_edge2).1
    simp only [fitAll] at h3
    rw [h3, h5] at h1
    exact absurd (congrArg List.length h1) (by decide)

/-! ### C57, C58 -/

/-- **C57** After a `fit` that returns, on the structure `B` then stored: the optimizer was given a function
`f` of `|B| + M` variables, which maps `x` to the squared distance of the sample covariance to
`W'W + diag(v)`, where the weights `W` are the first `|B|` entries of `x`, written row by row to the ones of `B`
(zeros elsewhere), and `v` the other `M` entries; the stored weights and error variances are those of the
optimizer's result, the error means are the column means, and a warning is issued iff the optimizer did not
report success. -/
theorem C57_fitted_parameters (opt : Optimizer) (o : Sched M) (d : Dataset M) (st : GState M)
    (warned : Bool) (h : (gaussianFit opt o d st).2 = .ok warned) :
    ∃ (B : List (BVec M)) (dim : Nat) (f : (Fin dim → ℝ) → ℝ) (p : GParams M) (hB : p.weightsOn = B),
      (gaussianFit opt o d st).1.biadj = B ∧
      dim = numOnes B + M ∧
      (∀ x, f x = sqDist (fun i j => sampleCov (fun k => d.val k i) fun k => d.val k j)
        (modelCov (weightsOf B x) (variancesOf (numOnes B) x))) ∧
      (gaussianFit opt o d st).1.params = some p ∧
      (∀ r j, p.weights (Fin.cast (by rw [hB]) r) j = weightsOf B (opt dim f).1 r j) ∧
      p.variances = variancesOf (numOnes B) (opt dim f).1 ∧
      (gaussianFit opt o d st).1.means = some (fun j => sampleMean fun k => d.val k j) ∧
      warned = !(opt dim f).2 := by
  have key : ∀ st' : GState M, ∃ (B : List (BVec M)) (dim : Nat) (f : (Fin dim → ℝ) → ℝ) (p : GParams M) (hB : p.weightsOn = B),
      (fitParams opt d st').1.biadj = B ∧
      dim = numOnes B + M ∧
      (∀ x, f x = sqDist (fun i j => sampleCov (fun k => d.val k i) fun k => d.val k j)
        (modelCov (weightsOf B x) (variancesOf (numOnes B) x))) ∧
      (fitParams opt d st').1.params = some p ∧
      (∀ r j, p.weights (Fin.cast (by rw [hB]) r) j = weightsOf B (opt dim f).1 r j) ∧
      p.variances = variancesOf (numOnes B) (opt dim f).1 ∧
      (fitParams opt d st').1.means = some (fun j => sampleMean fun k => d.val k j) ∧
      (fitParams opt d st').2 = !(opt dim f).2 := by
    intro st'
    refine ⟨st'.biadj, (maskPositions st'.biadj).length + M, objective d.cov st'.biadj, _, rfl, rfl, ?_, ?_, rfl, ?_, ?_, rfl, rfl⟩
    · rw [length_maskPositions]
    · intro x
      exact objective_eq _ _ x
    · intro r j
      show placeWeights _ _ _ _ = _
      rw [placeWeights_eq]; rfl
    · exact tailPart_eq _ _
  by_cases hb : st.biadj.length * M = 0
  · cases hu : udgOr d st.udg with
    | error e =>
      unfold gaussianFit computeBiadj at h
      simp [hb, hu] at h
    | ok U =>
      rw [fit_learn opt o d st hb U hu] at h ⊢
      cases hf : findHeuristic1pc o U with
      | error e => rw [hf] at h; cases h
      | ok B =>
        rw [hf] at h
        simp only at h ⊢
        cases h
        exact key _
  · rw [fit_given opt o d st hb] at h ⊢
    cases h
    exact key _

/-- the stored weights vanish outside the structure (part of C57) -/
theorem C57_weights_on_structure {dim : Nat} (B : List (BVec M)) (x : Fin dim → ℝ) : OnStructure B (weightsOf B x) := by
  intro r j h
  unfold weightsOf
  rw [h]; rfl

/-- reading `(1,2,3,…)` into a 2 × 3 structure with three ones -/
example : let B : List (BVec 3) := [BVec.of fun j => decide (j ≠ 1), BVec.single 1]
    onesBefore B ⟨0, by decide⟩ 0 = 0 ∧ onesBefore B ⟨0, by decide⟩ 2 = 1 ∧ onesBefore B ⟨1, by decide⟩ 1 = 2 ∧
    numOnes B = 3 := by decide +kernel

theorem sqDist_nonneg (A B : Fin M → Fin M → ℝ) : 0 ≤ sqDist A B :=
  sum_nonneg fun _ _ => sum_nonneg fun _ _ => sq_nonneg _

theorem sqDist_eq_zero (A B : Fin M → Fin M → ℝ) : sqDist A B = 0 ↔ A = B := by
  unfold sqDist
  rw [sum_eq_zero_iff_of_nonneg fun _ _ => sum_nonneg fun _ _ => sq_nonneg _]
  constructor
  · intro h
    funext i j
    have h1 := h i (mem_univ _)
    rw [sum_eq_zero_iff_of_nonneg fun _ _ => sq_nonneg _] at h1
    have := pow_eq_zero_iff (two_ne_zero) |>.mp (h1 j (mem_univ _))
    linarith
  · rintro rfl
    simp

/-- **C58** the objective that `fit` minimises: non-negative, zero iff `W'W + diag(v)` is the covariance
matrix, and unchanged when all weights of some latents change sign -/
theorem C58_objective (C : Fin M → Fin M → ℝ) (B : List (BVec M)) :
    (∀ x, 0 ≤ objective C B x) ∧
    (∀ x, objective C B x = 0 ↔ ∀ i j, (∑ r, weightsOf B x r i * weightsOf B x r j) +
      (if i = j then variancesOf (numOnes B) x i else 0) = C i j) ∧
    (∀ x x' (s : Fin B.length → ℝ), (∀ r, s r = 1 ∨ s r = -1) →
      (∀ r j, weightsOf B x' r j = s r * weightsOf B x r j) →
      (∀ j : Fin M, variancesOf (numOnes B) x' j = variancesOf (numOnes B) x j) →
      objective C B x' = objective C B x) := by
  refine ⟨fun x => ?_, fun x => ?_, fun x x' s hs hw hv => ?_⟩
  · rw [objective_eq]; exact sqDist_nonneg _ _
  · rw [objective_eq, sqDist_eq_zero]
    constructor
    · intro h i j
      have := congrFun (congrFun h i) j
      rw [this]; rfl
    · intro h
      funext i j
      exact (h i j).symm
  · rw [objective_eq, objective_eq]
    congr 1
    funext i j
    unfold modelCov
    rw [hv i]
    congr 1
    refine sum_congr rfl fun r _ => ?_
    rw [hw, hw]
    rcases hs r with h | h <;> rw [h] <;> ring

/-- every sign pattern is realised -/
theorem C58_signs (B : List (BVec M)) (x : Fin ((maskPositions B).length + M) → ℝ) (s : Fin B.length → ℝ) :
    ∃ x' : Fin ((maskPositions B).length + M) → ℝ, (∀ r j, weightsOf B x' r j = s r * weightsOf B x r j) ∧
      ∀ j : Fin M, variancesOf (numOnes B) x' j = variancesOf (numOnes B) x j := by
  refine ⟨fun k => if h : k.val < (maskPositions B).length then s ((maskPositions B)[k.val]).1 * x k else x k, ?_, ?_⟩
  · intro r j
    unfold weightsOf
    by_cases h : B[r] j = true
    · rw [if_pos h, if_pos h]
      have hm : (maskPositions B).idxOf (r, j) < (maskPositions B).length :=
        List.idxOf_lt_length_iff.mpr ((mem_maskPositions B r j).mpr h)
      have hg : (maskPositions B)[(maskPositions B).idxOf (r, j)] = (r, j) := List.getElem_idxOf hm
      rw [← idxOf_maskPositions B r j h]
      unfold entryAt
      have hm' : (maskPositions B).idxOf (r, j) < (maskPositions B).length + M := by omega
      rw [dif_pos hm', dif_pos hm']
      simp only [hm, dif_pos, hg]
    · rw [if_neg h, if_neg h, mul_zero]
  · intro j
    unfold variancesOf entryAt
    rw [← length_maskPositions]
    have : (maskPositions B).length + j.val < (maskPositions B).length + M := by omega
    rw [dif_pos this, dif_pos this]
    simp

/-! ### C59 -/

/-- a global minimiser of the objective -/
def IsMinimiser (C : Fin M → Fin M → ℝ) (B : List (BVec M)) (x : Fin ((maskPositions B).length + M) → ℝ) : Prop :=
  ∀ y, objective C B x ≤ objective C B y

/-- **C59** (as stated; false) -/
def C59_statement : Prop :=
  ∀ (M : Nat) (C : Fin M → Fin M → ℝ) (B : List (BVec M)) (x : Fin ((maskPositions B).length + M) → ℝ),
    PosDefinite C → IsMinimiser C B x → ∀ j : Fin M, 0 ≤ variancesOf (numOnes B) x j

/-- a positive definite covariance matrix of three measurements -/
noncomputable def heywood : Fin 3 → Fin 3 → ℝ := ![![3 / 4, 1 / 2, 1 / 2], ![1 / 2, 1, 1 / 4], ![1 / 2, 1 / 4, 1]]

theorem heywood_posDef : PosDefinite heywood := by
  constructor
  · intro i j; fin_cases i <;> fin_cases j <;> rfl
  · intro x hx
    simp only [Fin.sum_univ_three, heywood, Matrix.cons_val_zero, Matrix.cons_val_one, Matrix.cons_val_two,
      Matrix.head_cons, Matrix.tail_cons]
    have h : x 0 ≠ 0 ∨ x 1 ≠ 0 ∨ x 2 ≠ 0 := by
      by_contra hn
      push Not at hn
      refine hx (funext fun i => ?_)
      fin_cases i
      · exact hn.1
      · exact hn.2.1
      · exact hn.2.2
    have e : x 0 * (3 / 4) * x 0 + x 0 * (1 / 2) * x 1 + x 0 * (1 / 2) * x 2 +
        (x 1 * (1 / 2) * x 0 + x 1 * 1 * x 1 + x 1 * (1 / 4) * x 2) +
        (x 2 * (1 / 2) * x 0 + x 2 * (1 / 4) * x 1 + x 2 * 1 * x 2) =
        (1 / 2 * x 0 + x 1 + 1 / 4 * x 2) ^ 2 + 1 / 2 * (x 0 + 3 / 4 * x 2) ^ 2 + (21 / 32) * x 2 ^ 2 := by ring
    rw [e]
    have s1 := sq_nonneg (1 / 2 * x 0 + x 1 + 1 / 4 * x 2)
    have s2 := sq_nonneg (x 0 + 3 / 4 * x 2)
    by_cases h2 : x 2 = 0
    · rw [h2] at s1 s2 ⊢
      by_cases h0 : x 0 = 0
      · rw [h0] at s1 s2 ⊢
        have h1 : x 1 ≠ 0 := by rcases h with h | h | h <;> [exact absurd h0 h; exact h; exact absurd h2 h]
        have := sq_pos_of_ne_zero h1
        nlinarith
      · have := sq_pos_of_ne_zero h0
        nlinarith
    · have := sq_pos_of_ne_zero h2
      nlinarith

/-- one latent with three children -/
def oneLatent : List (BVec 3) := [BVec.full]

def r0 : Fin oneLatent.length := ⟨0, by decide⟩

/-- with one latent, every global minimiser of the objective gives the first measurement the error
"variance" `-1/4`; and there are global minimisers -/
theorem heywood_minimisers : (∃ x, IsMinimiser heywood oneLatent x) ∧
    ∀ x, IsMinimiser heywood oneLatent x → variancesOf (numOnes oneLatent) x (0 : Fin 3) = -1 / 4 := by
  have hn : numOnes oneLatent = 3 := by decide +kernel
  have hl : (maskPositions oneLatent).length = 3 := by rw [length_maskPositions, hn]
  have hb : ∀ j : Fin 3, oneLatent[r0] j = true ∧ onesBefore oneLatent r0 j = j.val := by decide +kernel
  have hw : ∀ (x : Fin ((maskPositions oneLatent).length + 3) → ℝ) (j : Fin 3),
      weightsOf oneLatent x r0 j = entryAt x j.val := by
    intro x j
    unfold weightsOf
    rw [if_pos (hb j).1, (hb j).2]
  -- the zero of the objective
  let x0 : Fin ((maskPositions oneLatent).length + 3) → ℝ := fun k =>
    if k.val = 0 then 1 else if k.val < 3 then 1 / 2 else if k.val = 3 then -1 / 4 else 3 / 4
  have hx0 : ∀ k, k < 6 → entryAt x0 k = if k = 0 then 1 else if k < 3 then 1 / 2 else if k = 3 then -1 / 4 else 3 / 4 := by
    intro k hk
    unfold entryAt
    rw [dif_pos (by rw [hl]; omega)]
  have hz : objective heywood oneLatent x0 = 0 := by
    rw [(C58_objective heywood oneLatent).2.1 x0]
    have hs : ∀ i j : Fin 3, (∑ r : Fin oneLatent.length, weightsOf oneLatent x0 r i * weightsOf oneLatent x0 r j) =
        entryAt x0 i.val * entryAt x0 j.val := by
      intro i j
      rw [← hw x0 i, ← hw x0 j]
      exact Fin.sum_univ_one (fun r : Fin 1 => weightsOf oneLatent x0 r i * weightsOf oneLatent x0 r j)
    intro i j
    rw [hs, hn]
    unfold variancesOf
    rw [hx0 _ (by omega), hx0 _ (by omega), hx0 _ (by omega)]
    fin_cases i <;> fin_cases j <;> simp [heywood] <;> norm_num
  refine ⟨⟨x0, fun y => ?_⟩, fun x hx => ?_⟩
  · rw [hz]; exact (C58_objective heywood oneLatent).1 y
  · have h0 : objective heywood oneLatent x = 0 :=
      le_antisymm ((hx x0).trans hz.le) ((C58_objective heywood oneLatent).1 x)
    rw [(C58_objective heywood oneLatent).2.1 x] at h0
    have hs : ∀ i j : Fin 3, (∑ r : Fin oneLatent.length, weightsOf oneLatent x r i * weightsOf oneLatent x r j) =
        entryAt x i.val * entryAt x j.val := by
      intro i j
      rw [← hw x i, ← hw x j]
      exact Fin.sum_univ_one (fun r : Fin 1 => weightsOf oneLatent x r i * weightsOf oneLatent x r j)
    have h00 := h0 0 0
    have h01 := h0 0 1
    have h02 := h0 0 2
    have h12 := h0 1 2
    rw [hs] at h00 h01 h02 h12
    simp [heywood] at h00 h01 h02 h12
    generalize variancesOf (numOnes oneLatent) x (0 : Fin 3) = v at *
    generalize entryAt x 0 = a at *
    generalize entryAt x 1 = b at *
    generalize entryAt x 2 = c at *
    have : a * a * (b * c) = (a * b) * (a * c) := by ring
    rw [h01, h02, h12] at this
    linarith

theorem C59_false : ¬ C59_statement := by
  intro h
  obtain ⟨⟨x, hx⟩, h2⟩ := heywood_minimisers
  have h3 := h 3 heywood oneLatent x heywood_posDef hx 0
  rw [h2 x hx] at h3
  norm_num at h3

/-- **C59** At every global minimiser the error variance of a measurement is its sample variance minus the sum
of its squared weights, hence non-negative exactly when the weights explain no more than the sample variance; a
measurement without parents gets its sample variance.

Missing from the full claim: the weights may explain more than the sample variance, for all minimisers of a
positive definite covariance matrix (`heywood_minimisers`): the objective does not keep the variances
non-negative. -/
theorem C59_variances_partial (C : Fin M → Fin M → ℝ) (B : List (BVec M))
    (x : Fin ((maskPositions B).length + M) → ℝ) (hx : IsMinimiser C B x) (j : Fin M) :
    variancesOf (numOnes B) x j = C j j - ∑ r, weightsOf B x r j ^ 2 ∧
    (0 ≤ variancesOf (numOnes B) x j ↔ ∑ r, weightsOf B x r j ^ 2 ≤ C j j) ∧
    ((∀ r ∈ B, r j = false) → variancesOf (numOnes B) x j = C j j) := by
  have main : variancesOf (numOnes B) x j = C j j - ∑ r, weightsOf B x r j ^ 2 := by
    let y : Fin ((maskPositions B).length + M) → ℝ :=
      Function.update x (Fin.natAdd _ j) (C j j - ∑ r, weightsOf B x r j ^ 2)
    have hh : headPart y = headPart x := by
      funext k
      show Function.update x _ _ (Fin.castAdd M k) = x _
      rw [Function.update_of_ne]
      intro h
      have := congrArg Fin.val h
      simp at this
      omega
    have ht : ∀ i, tailPart y i = if i = j then C j j - ∑ r, weightsOf B x r j ^ 2 else tailPart x i := by
      intro i
      show Function.update x _ _ (Fin.natAdd _ i) = _
      by_cases h : i = j
      · subst h; simp
      · rw [Function.update_of_ne, if_neg h]
        · rfl
        · intro h'
          exact h (by simpa using h')
    have hxy := hx y
    unfold objective at hxy
    rw [hh] at hxy
    have hle : ∀ i i', (C i i' - (∑ r, placeWeights B (headPart x) r i * placeWeights B (headPart x) r i') -
        (if i = i' then tailPart y i else 0)) ^ 2 ≤
        (C i i' - (∑ r, placeWeights B (headPart x) r i * placeWeights B (headPart x) r i') -
        (if i = i' then tailPart x i else 0)) ^ 2 := by
      intro i i'
      by_cases hii : i = i'
      · subst hii
        rw [if_pos rfl, if_pos rfl, ht]
        by_cases hij : i = j
        · subst hij
          rw [if_pos rfl]
          have : C i i - (∑ r, placeWeights B (headPart x) r i * placeWeights B (headPart x) r i) -
              (C i i - ∑ r, weightsOf B x r i ^ 2) = 0 := by
            rw [placeWeights_eq]
            simp only [pow_two]
            ring
          rw [this]
          simpa using sq_nonneg _
        · rw [if_neg hij]
      · rw [if_neg hii, if_neg hii]
    have heq := (sum_eq_sum_iff_of_le fun i _ => sum_le_sum fun i' _ => hle i i').mp
      (le_antisymm (sum_le_sum fun i _ => sum_le_sum fun i' _ => hle i i') hxy) j (mem_univ _)
    have heq2 := (sum_eq_sum_iff_of_le fun i' _ => hle j i').mp heq j (mem_univ _)
    rw [if_pos rfl, if_pos rfl, ht, if_pos rfl, placeWeights_eq] at heq2
    simp only [← pow_two] at heq2
    rw [show C j j - (∑ r, weightsOf B x r j ^ 2) - (C j j - ∑ r, weightsOf B x r j ^ 2) = 0 by ring] at heq2
    have := pow_eq_zero_iff two_ne_zero |>.mp (heq2.symm.trans (by norm_num))
    rw [tailPart_eq] at this
    linarith
  refine ⟨main, ?_, fun h => ?_⟩
  · rw [main]; constructor <;> intro h <;> linarith
  · rw [main, sum_eq_zero, sub_zero]
    intro r _
    have : B[r] j = false := h _ (List.getElem_mem _)
    rw [C57_weights_on_structure B x r j this]
    norm_num

example : ∃ x, IsMinimiser heywood oneLatent x := heywood_minimisers.1

/-! ### C62 -/

/-- in every object reached by calls of `fit`, the weights belong to the structure and vanish outside it -/
theorem fitAll_consistent (opt : Optimizer) (hist : List (Sched M × Dataset M)) (st : GState M)
    (h : ∀ p, st.params = some p → p.weightsOn = st.biadj ∧ OnStructure p.weightsOn p.weights ∧ st.means.isSome) :
    ∀ p, (fitAll opt st hist).params = some p → p.weightsOn = (fitAll opt st hist).biadj ∧
      OnStructure p.weightsOn p.weights ∧ (fitAll opt st hist).means.isSome := by
  induction hist generalizing st with
  | nil => exact h
  | cons a rest ih =>
    apply ih
    have key : ∀ st' : GState M, ∀ p, (fitParams opt a.2 st').1.params = some p →
        p.weightsOn = (fitParams opt a.2 st').1.biadj ∧ OnStructure p.weightsOn p.weights ∧
        (fitParams opt a.2 st').1.means.isSome := by
      intro st' p hp
      unfold fitParams at hp
      simp only [Option.some.injEq] at hp
      subst hp
      refine ⟨rfl, ?_, rfl⟩
      show OnStructure st'.biadj (placeWeights _ _)
      rw [placeWeights_eq]
      exact C57_weights_on_structure _ _
    by_cases hb : st.biadj.length * M = 0
    · cases hu : udgOr a.2 st.udg with
      | error e =>
        unfold gaussianFit computeBiadj
        simp only [hb, hu, if_true]
        exact h
      | ok U =>
        rw [fit_learn opt a.1 a.2 st hb U hu]
        cases hf : findHeuristic1pc a.1 U with
        | error e => exact h
        | ok B => exact key _
    · rw [fit_given opt a.1 a.2 st hb]
      exact key _

theorem mcRun_nonempty (o : Sched M) (A : BMat M) (fuel : Nat) (s : MCState M) (ys : List (List (Fin M)))
    (h : mcRun o A fuel s = .ok ys) : ∀ c ∈ ys, c ≠ [] := by
  induction fuel generalizing s ys with
  | zero => simp [mcRun] at h
  | succ fuel ih =>
    unfold mcRun at h
    split at h
    · cases h; simp
    · cases h
    · exact ih _ _ h
    · rename_i c s' hs
      cases hr : mcRun o A fuel s' with
      | error e => rw [hr] at h; cases h
      | ok zs =>
        rw [hr] at h
        cases h
        intro d hd
        rcases List.mem_cons.mp hd with rfl | hd
        · unfold mcStep at hs
          split at hs
          · rename_i q _
            split at hs
            · cases hs
            · split at hs
              · cases hs
              · dsimp only at hs
                split at hs
                · injection hs with h1 h2
                  rw [← h1]
                  simp
                · split at hs
                  · cases hs
                  · split at hs <;> cases hs
          · split at hs <;> cases hs
        · exact ih _ _ hr _ hd

/-- a structure found by `find_heuristic_1pc` is not empty -/
theorem heuristic_nonempty (o : Sched M) (A : BMat M) (B : List (BVec M)) (h : findHeuristic1pc o A = .ok B) : B.length * M ≠ 0 := by
  unfold findHeuristic1pc at h
  split at h
  · cases h
  · cases h
  · rename_i s rest hy
    have hM : M ≠ 0 := fun h0 => by
      unfold maxCliques at hy
      rw [if_pos h0] at hy
      cases hy
    have hne : ∀ c ∈ s :: rest, c ≠ [] := by
      unfold maxCliques at hy
      rw [if_neg hM] at hy
      split at hy
      · cases hy
      · exact mcRun_nonempty _ _ _ _ _ hy
    have hS : firstLongest s rest ≠ [] := hne _ (firstLongest_spec s rest).1
    dsimp only at h
    split at h
    · cases h
    · split at h
      · cases h
      · cases h
        rw [List.length_map]
        exact Nat.mul_ne_zero (by simpa using hS) hM

/-- objects with parameters reached by calls of `fit` have latents and measurements -/
theorem fitAll_nonempty (opt : Optimizer) (hist : List (Sched M × Dataset M)) (st : GState M)
    (h : st.params.isSome → st.biadj.length * M ≠ 0) :
    (fitAll opt st hist).params.isSome → (fitAll opt st hist).biadj.length * M ≠ 0 := by
  induction hist generalizing st with
  | nil => exact h
  | cons a rest ih =>
    apply ih
    by_cases hb : st.biadj.length * M = 0
    · cases hu : udgOr a.2 st.udg with
      | error e =>
        unfold gaussianFit computeBiadj
        rw [if_pos hb]
        simp only [hu]
        exact h
      | ok U =>
        rw [fit_learn opt a.1 a.2 st hb U hu]
        cases hf : findHeuristic1pc a.1 U with
        | error e => exact h
        | ok B => exact fun _ => heuristic_nonempty _ _ _ hf
    · rw [fit_given opt a.1 a.2 st hb]
      exact fun _ => hb

/-- **C62** After any history of `fit` calls on an object created with any structure and graph, once parameters
exist: `sample(size)` makes two draws, the latents `z` (mean 0, identity covariance) and the errors `e` (the
fitted means, diagonal covariance with the fitted variances), and returns the `size × M` array whose entry
`(k, j)` is `e k j` plus the sum, over the parents `r` of `j` only, of `z k r` times the weight of `r → j`. -/
theorem C62_sample {G : Type} (gen : MvnGen G) (opt : Optimizer) (biadj : List (BVec M)) (udg : Option (BMat M))
    (hist : List (Sched M × Dataset M)) (size : Nat) (g : G) (st : GState M)
    (hst : st = fitAll opt { biadj := biadj, udg := udg } hist) (p : GParams M) (hp : st.params = some p) :
    ∃ (means : Fin M → ℝ) (z : Fin size → Fin st.biadj.length → ℝ) (e : Fin size → Fin M → ℝ) (g1 g2 : G)
      (hl : p.weightsOn = st.biadj) (s : Fin size → Fin M → ℝ),
      st.means = some means ∧
      gen.mvn (fun _ => 0) (fun i j => if i = j then 1 else 0) size g = (z, g1) ∧
      gen.mvn means (fun i j => if i = j then p.variances i else 0) size g1 = (e, g2) ∧
      st.sample gen size g = (.ok s, g2) ∧
      ∀ k j, s k j = (∑ r ∈ univ.filter fun r : Fin st.biadj.length => st.biadj[r] j = true,
        z k r * p.weights (Fin.cast (by rw [hl]) r) j) + e k j := by
  have hc := fitAll_consistent opt hist { biadj := biadj, udg := udg } (fun p h => by cases h)
  rw [← hst] at hc
  obtain ⟨hl, hon, hm⟩ := hc p hp
  obtain ⟨means, hm⟩ := Option.isSome_iff_exists.mp hm
  obtain ⟨⟨z, g1⟩, hz⟩ : ∃ a, gen.mvn (fun _ : Fin st.biadj.length => (0 : ℝ)) (fun i j => if i = j then 1 else 0) size g = a :=
    ⟨_, rfl⟩
  obtain ⟨⟨e, g2⟩, he⟩ : ∃ a, gen.mvn means (fun i j => if i = j then p.variances i else 0) size g1 = a := ⟨_, rfl⟩
  refine ⟨means, z, e, g1, g2, hl, fun k j => (∑ r, z k (Fin.cast (by rw [hl]) r) * p.weights r j) + e k j, hm, hz, he, ?_, ?_⟩
  · have hne := fitAll_nonempty opt hist { biadj := biadj, udg := udg } (fun h => by cases h) (by rw [← hst, hp]; rfl)
    rw [← hst] at hne
    obtain ⟨n1, n2⟩ := mul_ne_zero_iff.mp hne
    unfold GState.sample
    rw [hm, hp]
    simp only [hz, he, n1, n2, if_false]
    rw [dif_pos (by rw [hl])]
  · intro k j
    simp only
    congr 1
    clear hz he
    clear hc hst hm
    obtain ⟨v, B, w⟩ := p
    simp only at hl hon ⊢
    subst hl
    rw [sum_filter]
    refine sum_congr rfl fun r _ => ?_
    split
    · rfl
    · rename_i h
      have := hon r j (by simpa using h)
      rw [this, mul_zero]

/-- an object with parameters -/
example (opt : Optimizer) : ∃ p, (fitAll opt { biadj := [BVec.full (n := 2)], udg := none }
    [(fun _ _ => 0, twoPoints 1 2)]).params = some p := by
  simp only [fitAll]
  rw [fit_given _ _ _ _ (by decide)]
  exact ⟨_, rfl⟩

end Medil

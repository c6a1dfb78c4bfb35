import Verif.Props.Gaussian
import Verif.Props.Dev
/-
  C165: `sample` before a successful `fit`; C166: validation on data with another number of columns.
-/
namespace Medil
open Finset Matrix
variable {M : Nat} {G : Type}

/-! ### C165 -/

/-- parameters exist exactly when one of the calls of `fit` returned -/
theorem fitAll_params_iff (opt : Optimizer) (hist : List (Sched M × Dataset M)) (st : GState M) :
    (fitAll opt st hist).params.isSome ↔ st.params.isSome ∨ ∃ pre a post w, hist = pre ++ a :: post ∧
      (gaussianFit opt a.1 a.2 (fitAll opt st pre)).2 = .ok w := by
  induction hist generalizing st with
  | nil =>
    constructor
    · exact Or.inl
    · rintro (h | ⟨pre, a, post, w, h, -⟩)
      · exact h
      · simp at h
  | cons a rest ih =>
    have key : (gaussianFit opt a.1 a.2 st).1.params.isSome ↔ st.params.isSome ∨ ∃ w, (gaussianFit opt a.1 a.2 st).2 = .ok w := by
      by_cases hb : st.biadj.length * M = 0
      · cases hu : udgOr a.2 st.udg with
        | error e =>
          have : gaussianFit opt a.1 a.2 st = ({ st with dataset := some a.2 }, .error e) := by
            unfold gaussianFit computeBiadj
            rw [if_pos hb]
            simp only [hu]
          rw [this]
          simp
        | ok U =>
          rw [fit_learn opt a.1 a.2 st hb U hu]
          cases hf : findHeuristic1pc a.1 U with
          | error e => simp
          | ok B => simp [fitParams]
      · rw [fit_given opt a.1 a.2 st hb]
        simp [fitParams]
    show (fitAll opt (gaussianFit opt a.1 a.2 st).1 rest).params.isSome ↔ _
    rw [ih, key, or_assoc]
    refine or_congr_right ?_
    constructor
    · rintro (⟨w, hw⟩ | ⟨pre, b, post, w, rfl, hw⟩)
      · exact ⟨[], a, rest, w, rfl, hw⟩
      · exact ⟨a :: pre, b, post, w, rfl, hw⟩
    · rintro ⟨pre, b, post, w, h, hw⟩
      cases pre with
      | nil =>
        injection h with h1 h2
        subst h1
        exact Or.inl ⟨w, hw⟩
      | cons c pre =>
        injection h with h1 h2
        subst h1
        exact Or.inr ⟨pre, b, post, w, h2, hw⟩

/-- **C165** On an object created with any structure and graph, after any history of calls of `fit`: `sample` returns an array exactly when at
least one of these calls returned (even if later ones raised); otherwise it raises `ValueError`.  In that case the generator is
untouched if the object has no structure, and has made only the draw of the latents otherwise. -/
theorem C165_sample_iff_fitted (gen : MvnGen G) (opt : Optimizer) (biadj : List (BVec M)) (udg : Option (BMat M))
    (hist : List (Sched M × Dataset M)) (size : Nat) (g : G) (st : GState M)
    (hst : st = fitAll opt { biadj := biadj, udg := udg } hist) :
    ((∃ s, (st.sample gen size g).1 = .ok s) ↔ ∃ pre a post w, hist = pre ++ a :: post ∧
      (gaussianFit opt a.1 a.2 (fitAll opt { biadj := biadj, udg := udg } pre)).2 = .ok w) ∧
    ((¬ ∃ s, (st.sample gen size g).1 = .ok s) → (st.sample gen size g).1 = .error .valueError ∧
      (st.sample gen size g).2 = if st.biadj = [] then g else
        (gen.mvn (fun _ : Fin st.biadj.length => 0) (fun i j => if i = j then 1 else 0) size g).2) := by
  have hiff := fitAll_params_iff opt hist { biadj := biadj, udg := udg }
  rw [← hst] at hiff
  simp only [Option.isSome_none, Bool.false_eq_true, false_or] at hiff
  rw [← hiff]
  cases hp : st.params with
  | none =>
    have h0 : st.sample gen size g = (.error .valueError, if st.biadj = [] then g else
        (gen.mvn (fun _ : Fin st.biadj.length => 0) (fun i j => if i = j then 1 else 0) size g).2) := by
      unfold GState.sample
      by_cases hb : st.biadj = []
      · simp [hb]
      · have hl : st.biadj.length ≠ 0 := by simpa using hb
        rw [if_neg hl, if_neg hb]
        simp [hp]
    rw [h0]
    refine ⟨⟨?_, ?_⟩, fun _ => ⟨rfl, rfl⟩⟩
    · rintro ⟨s, hs⟩; cases hs
    · intro h; cases h
  | some p =>
    obtain ⟨means, z, e, g1, g2, hl, s, -, -, -, hs, -⟩ := C62_sample gen opt biadj udg hist size g st hst p hp
    have hok : ∃ s, (st.sample gen size g).1 = .ok s := ⟨s, by rw [hs]⟩
    exact ⟨⟨fun _ => rfl, fun _ => hok⟩, fun h => (h hok).elim⟩

/-- not vacuous: two points of two variables and a given structure; and one column without a structure, where `fit` raises -/
example (opt : Optimizer) (o : Sched 2) : ∃ w, (gaussianFit opt o (twoPoints 1 2) { biadj := [BVec.full (n := 2)] }).2 = .ok w := by
  rw [fit_given _ _ _ _ (by decide)]
  exact ⟨_, rfl⟩

example (opt : Optimizer) (o : Sched 1) (d : Dataset 1) : (gaussianFit opt o d {}).2 = .error .valueError := by
  unfold gaussianFit computeBiadj udgOr estimateUdgCov
  rfl

/-! ### C166 -/

/-- **C166** (as stated; false): validation on data whose number of columns is not that of the fitted data raises `ValueError` -/
def C166_statement : Prop :=
  ∀ (G : Type) (env : DevEnv G) (st : DevState G) (e : DevEst) (lam mu : ℝ) (d : AnyData), st.est = some e → d.cols ≠ e.meas →
    validationMle env st lam mu d = .error .valueError ∧ validationLse env st lam mu d = .error .valueError

/-- **C166** What happens instead, for an object with estimates `W` (`k × m`) and `D`.  With at least two columns in data and estimate, and different
numbers, `validation_lse` raises `ValueError`; so does `validation_mle`, except that a model covariance without inverse is a
`LinAlgError` first and one of negative determinant gives infinity.  For data of one column with variance `c`, both return a
number: `validation_mle` `c` times the trace of the inverse of the model covariance, minus the logarithm of its determinant, plus
the penalties; `validation_lse` the squared distance of the model covariance to the matrix with `c` in every entry, plus the
penalties.  For estimates of one variable, `validation_lse` returns the sum over all entries of the covariance matrix of the data
of the squared difference to the only entry of the model covariance, plus the penalties.

Missing from the full claim: the exception in these cases (`C166_false`). -/
theorem C166_validation_partial (env : DevEnv G) (st : DevState G) {k m : Nat} (W : Fin k → Fin m → ℝ) (v : Fin m → ℝ) (lam mu : ℝ) (d : AnyData)
    (hst : st.est = some ⟨k, m, of W, diagonal v⟩) (hd : d.cols ≠ m) :
    let Sigma : Matrix (Fin m) (Fin m) ℝ := of (modelCov W v)
    let pen := lam * env.nuc (of W) + mu * sumAbs W
    (Sigma.det = 0 → validationMle env st lam mu d = .error .linAlg) ∧
    (Sigma.det < 0 → validationMle env st lam mu d = .ok .pinf) ∧
    (0 < Sigma.det → d.cols ≠ 1 → validationMle env st lam mu d = .error .valueError) ∧
    (d.cols ≠ 1 → m ≠ 1 → validationLse env st lam mu d = .error .valueError) ∧
    (∀ (h1 : d.cols = 1) (c : ℝ), c = sampleCov (fun n => d.data.val n (Fin.cast h1.symm 0)) (fun n => d.data.val n (Fin.cast h1.symm 0)) →
      (0 < Sigma.det → validationMle env st lam mu d = .ok (.fin (c * Sigma⁻¹.trace + Real.log Sigma.det + pen))) ∧
      validationLse env st lam mu d = .ok ((∑ i, ∑ j, (c - modelCov W v i j) ^ 2) + pen)) ∧
    (∀ h1 : m = 1, validationLse env st lam mu d = .ok ((∑ i, ∑ j,
      (sampleCov (fun n => d.data.val n i) (fun n => d.data.val n j) - modelCov W v (Fin.cast h1.symm 0) (Fin.cast h1.symm 0)) ^ 2) + pen)) := by
  intro Sigma pen
  have hS : computeSigma (of W) (diagonal v) = Sigma := computeSigma_eq _ _
  have hi : (Sigma⁻¹).det = (Sigma.det)⁻¹ := by rw [Matrix.det_nonsing_inv, Ring.inverse_eq_inv']
  refine ⟨fun h => ?_, fun h => ?_, fun h h1 => ?_, fun h1 h2 => ?_, fun h1 c hc => ⟨fun h => ?_, ?_⟩, fun h1 => ?_⟩
  · unfold validationMle
    simp only [hst, hd, dif_neg, not_false_eq_true, hS, h, if_true]
  · unfold validationMle
    simp only [hst, hd, dif_neg, not_false_eq_true, hS, h.ne, if_false, hi, (inv_lt_zero.mpr h).le, if_true]
  · unfold validationMle
    simp only [hst, hd, dif_neg, not_false_eq_true, hS, h.ne', if_false, hi, not_le.mpr (inv_pos.mpr h), h1]
  · unfold validationLse
    simp only [hst, hd, dif_neg, not_false_eq_true, h1, h2]
  · unfold validationMle
    simp only [hst, hd, dif_neg, not_false_eq_true, hS, h.ne', if_false, hi, not_le.mpr (inv_pos.mpr h)]
    rw [dif_pos h1]
    refine congrArg (fun z => Except.ok (Fl.fin z)) ?_
    rw [trace_smul, abs_of_pos (inv_pos.mpr h), Real.log_inv, sub_neg_eq_add, hc]
    rfl
  · unfold validationLse
    simp only [hst, hd, dif_neg, not_false_eq_true]
    rw [dif_pos h1]
    refine congrArg Except.ok ?_
    have := lseLoss_eq env.nuc lam mu (fun _ _ => d.data.cov (Fin.cast h1.symm 0) (Fin.cast h1.symm 0)) (of W) v
    rw [this, add_assoc, hc]
    rfl
  · have h2 : d.cols ≠ 1 := by omega
    unfold validationLse
    simp only [hst, hd, dif_neg, not_false_eq_true, h2]
    rw [dif_pos h1]
    refine congrArg Except.ok ?_
    rw [froNorm_sq, add_assoc]
    refine congrArg₂ (· + ·) (sum_congr rfl fun i _ => sum_congr rfl fun j _ => ?_) rfl
    simp only [of_apply, Matrix.mul_apply, transpose_apply, diagonal_apply_eq, modelCov, if_true]
    rw [sub_sub]
    rfl

/-- two observations of one variable are accepted by an object fitted to two variables -/
theorem C166_false : ¬ C166_statement := by
  intro h
  let st : DevState Unit := { onePureChild := true, g := (), est := some ⟨0, 2, of fun _ _ => 0, diagonal fun _ => 1⟩ }
  have h1 := (h Unit idEnv st _ 0 0 smallData rfl (by decide)).2
  have h2 := ((C166_validation_partial idEnv st (k := 0) (fun _ _ => 0) (fun _ => 1) 0 0 smallData rfl (by decide)).2.2.2.2.1 rfl _ rfl).2
  rw [h1] at h2
  cases h2

/-- an object fitted to two variables is reached by `fit`, whatever the data -/
example (d : AnyData) (hd : d.cols = 2) (lam mu : ℝ) :
    ∃ e, (devFit idEnv (newDev true ()) d "lse" lam mu).1.est = some e ∧ e.meas = 2 :=
  ⟨_, rfl, hd⟩

end Medil

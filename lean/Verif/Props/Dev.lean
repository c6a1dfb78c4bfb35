import Verif.Model.Dev
import Verif.Spec.Dev
import Verif.Proofs.Gaussian
import Mathlib.LinearAlgebra.Matrix.PosDef
import Mathlib.Analysis.Matrix.PosDef
import Mathlib.Analysis.Matrix.Order
/-
  Properties of `DevMedil` (C63-C65, C78, C79).
-/
namespace Medil
open Finset Matrix
variable {G : Type}

/-! ### C63 -/

/-- a new object -/
def newDev (onePureChild : Bool) (g : G) : DevState G := { onePureChild := onePureChild, g := g }

/-- **C63** (as stated; false) -/
def C63_statement : Prop :=
  ∀ (G : Type) (env : DevEnv G) (opc : Bool) (g : G) (calls : List DevCall) (d : AnyData) (method : String)
    (lam mu : ℝ) (size : Nat),
    (devFit env (devRun env (newDev opc g) calls) d method lam mu).2 = .ok () →
    ∃ s, (devSample env (devFit env (devRun env (newDev opc g) calls) d method lam mu).1 size method).2 = .ok s

/-- the attributes that `sample` looks for -/
def DevState.noHats (st : DevState G) : Prop := st.wMle = none ∧ st.dMle = none ∧ st.wLse = none ∧ st.dLse = none

theorem fitMle_noHats (env : DevEnv G) (st : DevState G) (d : AnyData) (lam mu : ℝ) (h : st.noHats) :
    (fitMle env st d lam mu).1.noHats := by
  unfold fitMle
  dsimp only
  split
  · exact h
  · split <;> exact h

theorem fitLse_noHats (env : DevEnv G) (st : DevState G) (d : AnyData) (lam mu : ℝ) (h : st.noHats) :
    (fitLse env st d lam mu).1.noHats := by
  unfold fitLse
  dsimp only
  split <;> exact h

theorem devFit_noHats (env : DevEnv G) (st : DevState G) (d : AnyData) (method : String) (lam mu : ℝ) (h : st.noHats) :
    (devFit env st d method lam mu).1.noHats := by
  unfold devFit
  split
  · exact fitMle_noHats env st d lam mu h
  · split
    · exact fitLse_noHats env st d lam mu h
    · exact h

theorem devSample_noHats (env : DevEnv G) (st : DevState G) (size : Nat) (method : String) (h : st.noHats) :
    devSample env st size method = (st, .error .valueError) := by
  obtain ⟨h1, h2, h3, h4⟩ := h
  unfold devSample
  simp only [h1, h2, h3, h4, ite_self]

theorem devRun_noHats (env : DevEnv G) (calls : List DevCall) (st : DevState G) (h : st.noHats) :
    (devRun env st calls).noHats := by
  induction calls generalizing st with
  | nil => exact h
  | cons c cs ih =>
    refine ih _ ?_
    cases c with
    | fit d method lam mu => exact devFit_noHats env st d method lam mu h
    | fitMle d lam mu => exact fitMle_noHats env st d lam mu h
    | fitLse d lam mu => exact fitLse_noHats env st d lam mu h
    | sample size method =>
      show (devSample env st size method).1.noHats
      rw [devSample_noHats env st size method h]; exact h
    | validationMle => exact h
    | validationLse => exact h
    | setInitW => exact h

/-- **C63** What is true instead: after every history of calls `sample` raises `ValueError` and changes nothing,
whatever its arguments, because `fit` stores its estimate under other names than `sample` reads.  If the attributes
`W_hat_mle`/`D_hat_mle` (`W_hat_lse`/`D_hat_lse`) were assigned by hand, with matching shapes, `sample` returns for
that method.

Missing from the full claim: `sample` after `fit` (`C63_false`). -/
theorem C63_sample_partial (env : DevEnv G) (opc : Bool) (g : G) (calls : List DevCall) (size : Nat) (method : String) :
    devSample env (devRun env (newDev opc g) calls) size method =
      (devRun env (newDev opc g) calls, .error .valueError) ∧
    ∀ W D : AnyMat, 0 < W.cols → D.rows = W.cols → D.cols = W.cols →
      (∃ s, (devSample env { devRun env (newDev opc g) calls with wMle := some W, dMle := some D } size "mle").2 = .ok s) ∧
      (∃ s, (devSample env { devRun env (newDev opc g) calls with wLse := some W, dLse := some D } size "lse").2 = .ok s) := by
  refine ⟨devSample_noHats env _ size method (devRun_noHats env calls _ ⟨rfl, rfl, rfl, rfl⟩), fun W D h0 h1 h2 => ?_⟩
  constructor
  · unfold devSample drawSample
    simp only [true_or, if_true, h1, h2, h0.ne', if_false, and_self, dif_pos]
    exact ⟨_, rfl⟩
  · unfold devSample drawSample
    simp only [or_true, if_true, h1, h2, h0.ne', and_self, dif_pos, (by decide : ("lse" = "mle") = False), if_false]
    exact ⟨_, rfl⟩

/-- external functions for examples: the optimizer returns its start value -/
def idEnv : DevEnv Unit where
  minimize _ x := .ok (x, true)
  normal _ g := (fun _ => 0, g)
  uniform _ g := (fun _ => 1, g)
  mvn := ⟨fun _ _ _ g => (fun _ _ => 0, g)⟩
  nuc _ := 0

/-- two observations of one variable -/
def smallData : AnyData := ⟨1, 2, le_refl _, fun k _ => if k = 0 then 0 else 1⟩

theorem C63_false : ¬ C63_statement := by
  intro h
  obtain ⟨s, hs⟩ := h Unit idEnv true () [] smallData "lse" 0 0 1 rfl
  rw [devSample_noHats] at hs
  · cases hs
  · exact devFit_noHats _ _ _ _ _ _ ⟨rfl, rfl, rfl, rfl⟩

/-! ### C64 -/

/-- the estimate after a call of `fit_penalized_mle` / `fit_penalized_lse` -/
theorem fitMle_est (env : DevEnv G) (st : DevState G) (d : AnyData) (lam mu : ℝ) :
    (fitMle env st d lam mu).1.onePureChild = st.onePureChild ∧
    ((fitMle env st d lam mu).2 = .ok () → ∃ e, (fitMle env st d lam mu).1.est = some e ∧ e.meas = d.cols ∧
      e.latents = if st.onePureChild then d.cols else d.cols ^ 2 / 4) ∧
    (∀ err, (fitMle env st d lam mu).2 = .error err → (fitMle env st d lam mu).1.est = st.est) := by
  unfold fitMle
  dsimp only
  split
  · exact ⟨rfl, (by intro h; cases h), fun _ _ => rfl⟩
  · split
    · exact ⟨rfl, (by intro h; cases h), fun _ _ => rfl⟩
    · exact ⟨rfl, fun _ => ⟨_, rfl, rfl, rfl⟩, (by intro _ h; cases h)⟩

theorem fitLse_est (env : DevEnv G) (st : DevState G) (d : AnyData) (lam mu : ℝ) :
    (fitLse env st d lam mu).1.onePureChild = st.onePureChild ∧
    ((fitLse env st d lam mu).2 = .ok () → ∃ e, (fitLse env st d lam mu).1.est = some e ∧ e.meas = d.cols ∧
      e.latents = if st.onePureChild then d.cols else d.cols ^ 2 / 4) ∧
    (∀ err, (fitLse env st d lam mu).2 = .error err → (fitLse env st d lam mu).1.est = st.est) := by
  unfold fitLse
  dsimp only
  split
  · exact ⟨rfl, (by intro h; cases h), fun _ _ => rfl⟩
  · exact ⟨rfl, fun _ => ⟨_, rfl, rfl, rfl⟩, (by intro _ h; cases h)⟩

/-- the call is a successful fit with dataset `d` -/
def DevCall.fits (env : DevEnv G) (st : DevState G) (d : AnyData) : DevCall → Prop
  | .fit d' method lam mu => d' = d ∧ (devFit env st d method lam mu).2 = .ok ()
  | .fitMle d' lam mu => d' = d ∧ (Medil.fitMle env st d lam mu).2 = .ok ()
  | .fitLse d' lam mu => d' = d ∧ (Medil.fitLse env st d lam mu).2 = .ok ()
  | _ => False

theorem devFit_est (env : DevEnv G) (st : DevState G) (d : AnyData) (method : String) (lam mu : ℝ) :
    (devFit env st d method lam mu).1.onePureChild = st.onePureChild ∧
    ((devFit env st d method lam mu).2 = .ok () → ∃ e, (devFit env st d method lam mu).1.est = some e ∧ e.meas = d.cols ∧
      e.latents = if st.onePureChild then d.cols else d.cols ^ 2 / 4) ∧
    (∀ err, (devFit env st d method lam mu).2 = .error err → (devFit env st d method lam mu).1.est = st.est) := by
  unfold devFit
  split
  · exact fitMle_est env st d lam mu
  · split
    · exact fitLse_est env st d lam mu
    · exact ⟨rfl, (by intro h; cases h), fun _ _ => rfl⟩

/-- **C64** dispatch, and the shape of the estimate after every call -/
theorem C64_dispatch (env : DevEnv G) (st : DevState G) (d : AnyData) (method : String) (lam mu : ℝ) (size : Nat)
    (hm : method ≠ "mle" ∧ method ≠ "lse") :
    devFit env st d method lam mu = (st, .error .valueError) ∧
    devSample env st size method = (st, .error .valueError) := by
  unfold devFit devSample
  simp [hm.1, hm.2]

/-- **C64** before any successful fit the validation functions raise `AttributeError` -/
theorem C64_validation_before_fit (env : DevEnv G) (opc : Bool) (g : G) (calls : List DevCall) (lam mu : ℝ) (d : AnyData)
    (h : ∀ pre c post d', calls = pre ++ c :: post → ¬ c.fits env (devRun env (newDev opc g) pre) d') :
    validationMle env (devRun env (newDev opc g) calls) lam mu d = .error .attributeError ∧
    validationLse env (devRun env (newDev opc g) calls) lam mu d = .error .attributeError := by
  have key : ∀ calls : List DevCall, (∀ pre c post d', calls = pre ++ c :: post →
      ¬ c.fits env (devRun env (newDev opc g) pre) d') → (devRun env (newDev opc g) calls).est = none := by
    intro calls
    induction calls using List.reverseRecOn with
    | nil => intro _; rfl
    | append_singleton cs c ih =>
      intro h
      have h1 := ih fun pre c' post d' he => h pre c' (post ++ [c]) d' (by rw [he]; simp)
      have h2 := fun d' => h cs c [] d' rfl
      have hrun : devRun env (newDev opc g) (cs ++ [c]) = c.run env (devRun env (newDev opc g) cs) := by
        unfold devRun; rw [List.foldl_append]; rfl
      rw [hrun]
      generalize devRun env (newDev opc g) cs = st at *
      cases c with
      | fit d method lam mu =>
        have h3 := h2 d
        simp only [DevCall.fits, true_and] at h3
        show (devFit env st d method lam mu).1.est = none
        cases hr : (devFit env st d method lam mu).2 with
        | ok u => exact absurd hr h3
        | error e => rw [(devFit_est env st d method lam mu).2.2 e hr]; exact h1
      | fitMle d lam mu =>
        have h3 := h2 d
        simp only [DevCall.fits, true_and] at h3
        show (fitMle env st d lam mu).1.est = none
        cases hr : (fitMle env st d lam mu).2 with
        | ok u => exact absurd hr h3
        | error e => rw [(fitMle_est env st d lam mu).2.2 e hr]; exact h1
      | fitLse d lam mu =>
        have h3 := h2 d
        simp only [DevCall.fits, true_and] at h3
        show (fitLse env st d lam mu).1.est = none
        cases hr : (fitLse env st d lam mu).2 with
        | ok u => exact absurd hr h3
        | error e => rw [(fitLse_est env st d lam mu).2.2 e hr]; exact h1
      | sample size method =>
        show (devSample env st size method).1.est = none
        unfold devSample
        split
        · split <;> exact h1
        · exact h1
      | validationMle => exact h1
      | validationLse => exact h1
      | setInitW => exact h1
  have := key calls h
  unfold validationMle validationLse
  rw [this]
  exact ⟨rfl, rfl⟩

/-- **C64** after every history in which some fit succeeded, the estimate has the shape
`(num_latent, num_meas)` of the last successful fit, with `num_latent = num_meas` for one-pure-child models and
`num_meas ^ 2 // 4` otherwise -/
theorem C64_shape (env : DevEnv G) (opc : Bool) (g : G) (pre post : List DevCall) (c : DevCall) (d : AnyData)
    (hc : c.fits env (devRun env (newDev opc g) pre) d)
    (hlast : ∀ pre' c' post' d', post = pre' ++ c' :: post' →
      ¬ c'.fits env (devRun env (newDev opc g) (pre ++ c :: pre')) d') :
    ∃ e, (devRun env (newDev opc g) (pre ++ c :: post)).est = some e ∧ e.meas = d.cols ∧
      e.latents = if opc then d.cols else d.cols ^ 2 / 4 := by
  have hopc1 : ∀ (st : DevState G) (c : DevCall), (c.run env st).onePureChild = st.onePureChild := by
    intro st c
    cases c with
    | fit d method lam mu => exact (devFit_est env st d method lam mu).1
    | fitMle d lam mu => exact (fitMle_est env st d lam mu).1
    | fitLse d lam mu => exact (fitLse_est env st d lam mu).1
    | sample size method =>
      show (devSample env st size method).1.onePureChild = _
      unfold devSample
      split
      · split <;> rfl
      · rfl
    | validationMle => rfl
    | validationLse => rfl
    | setInitW => rfl
  have hopc : ∀ (cs : List DevCall) (st : DevState G), (devRun env st cs).onePureChild = st.onePureChild := by
    intro cs
    induction cs with
    | nil => intro st; rfl
    | cons c cs ih => intro st; exact (ih _).trans (hopc1 st c)
  have hsnoc : ∀ (cs : List DevCall) (c : DevCall), devRun env (newDev opc g) (cs ++ [c]) =
      c.run env (devRun env (newDev opc g) cs) := by
    intro cs c; unfold devRun; rw [List.foldl_append]; rfl
  induction post using List.reverseRecOn with
  | nil =>
    rw [hsnoc]
    have ho : (devRun env (newDev opc g) pre).onePureChild = opc := hopc pre _
    generalize devRun env (newDev opc g) pre = st at *
    cases c with
    | fit d' method lam mu =>
      obtain ⟨rfl, h⟩ := hc
      have := (devFit_est env st d' method lam mu).2.1 h
      rwa [ho] at this
    | fitMle d' lam mu =>
      obtain ⟨rfl, h⟩ := hc
      have := (fitMle_est env st d' lam mu).2.1 h
      rwa [ho] at this
    | fitLse d' lam mu =>
      obtain ⟨rfl, h⟩ := hc
      have := (fitLse_est env st d' lam mu).2.1 h
      rwa [ho] at this
    | sample => exact hc.elim
    | validationMle => exact hc.elim
    | validationLse => exact hc.elim
    | setInitW => exact hc.elim
  | append_singleton cs c' ih =>
    have h1 := ih fun pre' c'' post' d' he => hlast pre' c'' (post' ++ [c']) d' (by rw [he]; simp)
    have h2 := fun d' => hlast cs c' [] d' rfl
    rw [show pre ++ c :: (cs ++ [c']) = (pre ++ c :: cs) ++ [c'] by simp, hsnoc]
    generalize devRun env (newDev opc g) (pre ++ c :: cs) = st at *
    have hsame : (c'.run env st).est = st.est := by
      cases c' with
      | fit d method lam mu =>
        have h3 := h2 d
        simp only [DevCall.fits, true_and] at h3
        show (devFit env st d method lam mu).1.est = _
        cases hr : (devFit env st d method lam mu).2 with
        | ok u => exact absurd hr h3
        | error e => exact (devFit_est env st d method lam mu).2.2 e hr
      | fitMle d lam mu =>
        have h3 := h2 d
        simp only [DevCall.fits, true_and] at h3
        show (fitMle env st d lam mu).1.est = _
        cases hr : (fitMle env st d lam mu).2 with
        | ok u => exact absurd hr h3
        | error e => exact (fitMle_est env st d lam mu).2.2 e hr
      | fitLse d lam mu =>
        have h3 := h2 d
        simp only [DevCall.fits, true_and] at h3
        show (fitLse env st d lam mu).1.est = _
        cases hr : (fitLse env st d lam mu).2 with
        | ok u => exact absurd hr h3
        | error e => exact (fitLse_est env st d lam mu).2.2 e hr
      | sample size method =>
        show (devSample env st size method).1.est = _
        unfold devSample
        split
        · split <;> rfl
        · rfl
      | validationMle => rfl
      | validationLse => rfl
      | setInitW => rfl
    rw [hsame]
    exact h1

/-- a successful fit exists -/
example : DevCall.fits idEnv (newDev true ()) smallData (.fit smallData "lse" 0 0) := ⟨rfl, rfl⟩

/-! ### C65 -/

theorem devW_eq {k m : Nat} (x : Fin (k * m + m) → ℝ) : devW x = fullWeights k m x := by
  funext r j
  have h : r.val * m + j.val < k * m := by
    have := (finProdFinEquiv (r, j)).isLt
    simpa [finProdFinEquiv, Nat.add_comm, Nat.mul_comm] using this
  unfold devW fullWeights entryAt
  rw [dif_pos (by omega)]
  congr 1
  ext
  simp [finProdFinEquiv, Nat.add_comm, Nat.mul_comm]

theorem devD_eq {k m : Nat} (x : Fin (k * m + m) → ℝ) : devD x = variancesOf (k * m) x := by
  funext j
  unfold devD variancesOf entryAt
  rw [dif_pos (by omega)]
  rfl

theorem computeSigma_eq {k m : Nat} (W : Matrix (Fin k) (Fin m) ℝ) (v : Fin m → ℝ) :
    computeSigma W (diagonal v) = of (modelCov (fun r j => W r j) v) := by
  ext i j
  unfold computeSigma modelCov
  simp [Matrix.add_apply, Matrix.mul_apply, diagonal_apply]

theorem froNorm_sq {m : Nat} (A : Matrix (Fin m) (Fin m) ℝ) : froNorm A ^ 2 = ∑ i, ∑ j, A i j ^ 2 :=
  Real.sq_sqrt (sum_nonneg fun _ _ => sum_nonneg fun _ _ => sq_nonneg _)

theorem lseLoss_eq {k m : Nat} (nuc : Matrix (Fin k) (Fin m) ℝ → ℝ) (lam mu : ℝ) (S : Fin m → Fin m → ℝ)
    (W : Matrix (Fin k) (Fin m) ℝ) (v : Fin m → ℝ) :
    lseLoss nuc lam mu (of S) W (diagonal v) =
      sqDist S (modelCov (fun r j => W r j) v) + lam * nuc W + mu * sumAbs (fun r j => W r j) := by
  unfold lseLoss
  rw [froNorm_sq]
  unfold sqDist modelCov sumAbs sigmaL1
  congr 2
  refine sum_congr rfl fun i _ => sum_congr rfl fun j _ => ?_
  simp [Matrix.sub_apply, Matrix.mul_apply, diagonal_apply]
  ring

/-- the least squares loss, from the sample covariance -/
noncomputable def lseValue {k m : Nat} (nuc : Matrix (Fin k) (Fin m) ℝ → ℝ) (lam mu : ℝ) (S : Fin m → Fin m → ℝ)
    (W : Fin k → Fin m → ℝ) (v : Fin m → ℝ) : ℝ :=
  sqDist S (modelCov W v) + lam * nuc (of W) + mu * sumAbs W

/-- **C65** After `fit_penalized_lse` (or `fit` with `"lse"`) returned: the optimizer was given the penalised
least squares loss `f`, `validation_lse` on the same data with the same penalties is that loss with the negative
entries of the optimised diagonal replaced by their absolute values, so it is the optimizer's loss at its result
when the optimised diagonal is non-negative. -/
theorem C65_validation_lse (env : DevEnv G) (st : DevState G) (d : AnyData) (lam mu : ℝ)
    (h : (devFit env st d "lse" lam mu).2 = .ok ()) :
    ∃ (k dim : Nat) (f : (Fin dim → ℝ) → Except PyErr (Fl ℝ)) (x0 x : Fin dim → ℝ) (success : Bool),
      k = (if st.onePureChild then d.cols else d.cols ^ 2 / 4) ∧ dim = k * d.cols + d.cols ∧
      env.minimize f x0 = .ok (x, success) ∧
      (∀ y, f y = .ok (.fin (lseValue env.nuc lam mu
        (fun i j => sampleCov (fun n => d.data.val n i) fun n => d.data.val n j)
        (fullWeights k d.cols y) (variancesOf (k * d.cols) y)))) ∧
      (validationLse env (devFit env st d "lse" lam mu).1 lam mu d = .ok (lseValue env.nuc lam mu
        (fun i j => sampleCov (fun n => d.data.val n i) fun n => d.data.val n j)
        (fullWeights k d.cols x) (fun j => |variancesOf (k * d.cols) x j|))) ∧
      ((∀ j : Fin d.cols, 0 ≤ variancesOf (k * d.cols) x j) →
        ∃ v, validationLse env (devFit env st d "lse" lam mu).1 lam mu d = .ok v ∧ f x = .ok (.fin v)) := by
  have hd : devFit env st d "lse" lam mu = fitLse env st d lam mu := by unfold devFit; simp
  rw [hd] at h ⊢
  have hf : ∀ y : Fin (devLatents st.onePureChild d.cols * d.cols + d.cols) → ℝ,
      Except.ok (ε := PyErr) (Fl.fin (lseLoss env.nuc lam mu (of d.data.cov) (devW y) (diagonal (devD y)))) =
      .ok (.fin (lseValue env.nuc lam mu (fun i j => sampleCov (fun n => d.data.val n i) fun n => d.data.val n j)
        (fullWeights (devLatents st.onePureChild d.cols) d.cols y)
        (variancesOf (devLatents st.onePureChild d.cols * d.cols) y))) := by
    intro y
    rw [lseLoss_eq, devW_eq, devD_eq]
    rfl
  unfold fitLse at h ⊢
  dsimp only at h ⊢
  split at h
  · cases h
  rename_i x success hm
  have hv := congrArg (Except.ok (ε := PyErr)) ((lseLoss_eq env.nuc lam mu d.data.cov (devW x) (fun j => |devD x j|)).trans
    (b := _) (c := lseValue env.nuc lam mu (fun i j => sampleCov (fun n => d.data.val n i) fun n => d.data.val n j)
        (fullWeights (devLatents st.onePureChild d.cols) d.cols x)
        (fun j => |variancesOf (devLatents st.onePureChild d.cols * d.cols) x j|)) (by rw [devW_eq, devD_eq]; rfl))
  refine ⟨devLatents st.onePureChild d.cols, _, _, _, x, success, rfl, rfl, hm, hf, ?_, fun hx => ⟨_, ?_, hf x⟩⟩
  · unfold validationLse
    dsimp only
    rw [dif_pos rfl]
    exact hv
  · rw [show (fun j => |variancesOf (devLatents st.onePureChild d.cols * d.cols) x j|) =
      variancesOf (devLatents st.onePureChild d.cols * d.cols) x from funext fun j => abs_of_nonneg (hx j)] at hv
    unfold validationLse
    dsimp only
    rw [dif_pos rfl]
    exact hv

/-- **C65** the same for the maximum likelihood fit: `validation_mle` on the training data is (in every case, also
when it raises) the optimizer's loss at its result.  The loss is `LinAlgError` when the covariance
`Σ = W'W + diag(v)` is singular, infinite when its determinant is negative, and
`trace(S Σ⁻¹) + log det Σ` plus the penalties otherwise. -/
theorem C65_validation_mle (env : DevEnv G) (st : DevState G) (d : AnyData) (lam mu : ℝ)
    (h : (devFit env st d "mle" lam mu).2 = .ok ()) :
    ∃ (k dim : Nat) (f : (Fin dim → ℝ) → Except PyErr (Fl ℝ)) (x0 x : Fin dim → ℝ) (success : Bool),
      k = (if st.onePureChild then d.cols else d.cols ^ 2 / 4) ∧ dim = k * d.cols + d.cols ∧
      env.minimize f x0 = .ok (x, success) ∧
      validationMle env (devFit env st d "mle" lam mu).1 lam mu d = f x ∧
      (∀ (y : Fin dim → ℝ) (Sigma : Matrix (Fin d.cols) (Fin d.cols) ℝ),
        Sigma = of (modelCov (fullWeights k d.cols y) (variancesOf (k * d.cols) y)) →
        (Sigma.det = 0 → f y = .error .linAlg) ∧ (Sigma.det < 0 → f y = .ok .pinf) ∧
        (0 < Sigma.det → f y = .ok (.fin
          (((of fun i j => sampleCov (fun n => d.data.val n i) fun n => d.data.val n j) * Sigma⁻¹).trace +
            Real.log Sigma.det + lam * env.nuc (of (fullWeights k d.cols y)) +
            mu * sumAbs (fullWeights k d.cols y))))) := by
  have hd : devFit env st d "mle" lam mu = fitMle env st d lam mu := by unfold devFit; simp
  rw [hd] at h ⊢
  unfold fitMle at h ⊢
  dsimp only at h ⊢
  split at h
  · cases h
  rename_i hw
  split at h
  · cases h
  rename_i x success hm
  refine ⟨devLatents st.onePureChild d.cols, _, _, _, x, success, rfl, rfl, hm, ?_, ?_⟩
  · unfold validationMle
    dsimp only
    rw [dif_pos rfl]
    rfl
  · rintro y Sigma hS
    have e : computeSigma (devW y) (diagonal (devD y)) = Sigma := by
      rw [computeSigma_eq, devW_eq, devD_eq, hS]
    unfold mleLoss
    simp only [e]
    refine ⟨fun h0 => if_pos h0, fun h0 => ?_, fun h0 => ?_⟩
    · rw [if_neg h0.ne, if_pos]
      rw [Matrix.det_nonsing_inv, Ring.inverse_eq_inv']
      exact (inv_lt_zero.mpr h0).le
    · have hi : (Sigma⁻¹).det = (Sigma.det)⁻¹ := by rw [Matrix.det_nonsing_inv, Ring.inverse_eq_inv']
      have hp : 0 < (Sigma.det)⁻¹ := inv_pos.mpr h0
      rw [if_neg h0.ne', hi, if_neg (not_le.mpr hp), abs_of_pos hp, Real.log_inv, devW_eq]
      refine congrArg (fun z => Except.ok (Fl.fin z)) ?_
      show _ - _ + (_ + mu * sumAbs _) = _
      rw [sub_neg_eq_add, ← add_assoc]
      rfl

example : (devFit idEnv (newDev true ()) smallData "lse" 0 0).2 = .ok () ∧
    (devFit idEnv (newDev true ()) smallData "mle" 0 0).2 = .ok () := ⟨rfl, rfl⟩

/-! ### C78, C79 -/

/-- **C78** after a least squares fit that returned, the stored error covariance is diagonal with non-negative
entries, whatever the optimizer did -/
theorem C78_lse_valid (env : DevEnv G) (st : DevState G) (d : AnyData) (lam mu : ℝ)
    (h : (devFit env st d "lse" lam mu).2 = .ok ()) :
    ∃ e, (devFit env st d "lse" lam mu).1.est = some e ∧ (∀ i j, i ≠ j → e.D i j = 0) ∧ ∀ i, 0 ≤ e.D i i := by
  have hd : devFit env st d "lse" lam mu = fitLse env st d lam mu := by unfold devFit; simp
  rw [hd] at h ⊢
  unfold fitLse at h ⊢
  dsimp only at h ⊢
  split at h
  · cases h
  · rename_i x _ hm
    refine ⟨_, rfl, fun i j hij => diagonal_apply_ne _ hij, fun i => ?_⟩
    exact le_of_le_of_eq (abs_nonneg (devD x i)) (diagonal_apply_eq (fun j => |devD x j|) i).symm

/-- a covariance with positive error variances is positive definite -/
theorem modelCov_posDef {k m : Nat} (W : Fin k → Fin m → ℝ) (v : Fin m → ℝ) (hv : ∀ j, 0 < v j) :
    (of (modelCov W v) : Matrix (Fin m) (Fin m) ℝ).PosDef := by
  have e : (of (modelCov W v) : Matrix (Fin m) (Fin m) ℝ) = (of W)ᴴ * of W + diagonal v := by
    exact (computeSigma_eq (of W) v).symm
  rw [e]
  exact Matrix.PosDef.posSemidef_add (Matrix.posSemidef_conjTranspose_mul_self _) (PosDef.diagonal hv)

/-- **C79** the maximum likelihood loss is finite (neither infinite nor an exception) at every vector whose error
variances are positive: in particular at the start vector whenever the uniform draws are not 0 -/
theorem C79_mle_finite {k m : Nat} (nuc : Matrix (Fin k) (Fin m) ℝ → ℝ) (lam mu : ℝ) (S : Matrix (Fin m) (Fin m) ℝ)
    (W : Matrix (Fin k) (Fin m) ℝ) (v : Fin m → ℝ) (hv : ∀ j, 0 < v j) :
    ∃ z, mleLoss nuc lam mu S W (diagonal v) = .ok (.fin z) := by
  have hd : 0 < (computeSigma W (diagonal v)).det := by
    rw [computeSigma_eq]; exact (modelCov_posDef _ v hv).det_pos
  unfold mleLoss
  have hi : ((computeSigma W (diagonal v))⁻¹).det = (computeSigma W (diagonal v)).det⁻¹ := by
    rw [Matrix.det_nonsing_inv, Ring.inverse_eq_inv']
  simp only [hi]
  rw [if_neg hd.ne', if_neg (not_le.mpr (inv_pos.mpr hd))]
  exact ⟨_, rfl⟩

/-- with a negative error variance the loss can be infinite, so the hypothesis is needed -/
example : mleLoss (fun _ => 0) 0 0 0 (0 : Matrix (Fin 1) (Fin 1) ℝ) (diagonal fun _ => -1) = .ok .pinf := by
  unfold mleLoss computeSigma
  simp [Matrix.det_unique]

end Medil

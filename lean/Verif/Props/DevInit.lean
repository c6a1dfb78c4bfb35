import Verif.Model.DevInit
import Verif.Props.DevMore
/-
  Property theorem C164: `init_W` of the wrong size.
-/
namespace Medil
open Finset Matrix
variable {G : Type}

/-- the optimizer evaluates the loss at its start -/
def EvaluatesStart (env : DevEnv G) : Prop :=
  ∀ {dim : Nat} (f : (Fin dim → ℝ) → Except PyErr (Fl ℝ)) (x0 : Fin dim → ℝ) (e : PyErr), f x0 = .error e → env.minimize f x0 = .error e

/-- **C164** (as stated; false) a maximum likelihood fit of an object whose `init_W` has another number of entries than
`num_latent * num_meas` raises `ValueError` -/
def C164_statement : Prop :=
  ∀ (G : Type) (env : DevEnv G), EvaluatesStart env → ∀ (opc : Bool) (W : AnyMat) (g : G) (d : AnyData) (lam mu : ℝ),
    W.rows * W.cols ≠ (if opc then d.cols else d.cols ^ 2 / 4) * d.cols → fitMleInit env opc W g d lam mu = .error .valueError

theorem bcastAxis_self (m : Nat) (i : Fin m) : bcastAxis m i.val = i.val := by
  unfold bcastAxis
  split
  · omega
  · rfl

/-- with the right number of entries the loss is the one of `Model/Dev.lean` -/
theorem mleLossAny_right (nuc : {k m : Nat} → Matrix (Fin k) (Fin m) ℝ → ℝ) (lam mu : ℝ) {m k : Nat} (S : Matrix (Fin m) (Fin m) ℝ)
    (x : Fin (k * m + m) → ℝ) : mleLossAny nuc lam mu k S x = mleLoss nuc lam mu S (devW x) (diagonal (devD x)) := by
  have hW : (fun (r : Fin k) (j : Fin m) => if h : r.val * m + j.val < k * m + m then x ⟨r.val * m + j.val, h⟩ else 0) = devW x := by
    rw [devW_eq]; rfl
  have hb : bcastSquare m (k * m + m - k * m) = some m := by unfold bcastSquare; rw [Nat.add_sub_cancel_left, if_pos rfl]
  unfold mleLossAny mleLoss
  dsimp only
  rw [if_neg (by omega), hb, hW]
  dsimp only
  have hS : (fun i j : Fin m => (if h : bcastAxis m i.val < m ∧ bcastAxis m j.val < m then ((devW x)ᵀ * devW x) ⟨bcastAxis m i.val, h.1⟩ ⟨bcastAxis m j.val, h.2⟩ else 0) +
      if bcastAxis (k * m + m - k * m) i.val = bcastAxis (k * m + m - k * m) j.val then
        if h : k * m + bcastAxis (k * m + m - k * m) i.val < k * m + m then x ⟨k * m + bcastAxis (k * m + m - k * m) i.val, h⟩ else 0 else 0) =
      computeSigma (devW x) (diagonal (devD x)) := by
    funext i j
    unfold computeSigma
    rw [Matrix.add_apply, diagonal_apply]
    simp only [Nat.add_sub_cancel_left, bcastAxis_self]
    rw [dif_pos ⟨i.isLt, j.isLt⟩, dif_pos (by omega)]
    simp only [Fin.ext_iff]
    rfl
  rw [hS]
  split
  · rfl
  split
  · rfl
  congr 4
  by_cases hm : m = 1
  · subst hm
    simp [Matrix.trace, Matrix.mul_apply]
  · rw [if_neg hm]
    unfold Matrix.trace
    refine sum_congr rfl fun i _ => ?_
    rw [diag_apply, Matrix.mul_apply]
    refine sum_congr rfl fun j _ => ?_
    rw [dif_pos ⟨i.isLt, j.isLt⟩]

/-- when the loss raises `ValueError` -/
theorem mleLossAny_error (nuc : {k m : Nat} → Matrix (Fin k) (Fin m) ℝ → ℝ) (lam mu : ℝ) {m : Nat} (k : Nat) (S : Matrix (Fin m) (Fin m) ℝ)
    {s : Nat} (x : Fin s → ℝ) :
    mleLossAny nuc lam mu k S x = .error .valueError ↔ s < k * m ∨ (m ≠ 1 ∧ s ≠ k * m + m ∧ s ≠ k * m + 1) := by
  unfold mleLossAny bcastSquare
  dsimp only
  by_cases h : s < k * m
  · simp [h]
  rw [if_neg h]
  by_cases h1 : s - k * m = m
  · rw [if_pos h1]
    dsimp only
    split
    · simp; omega
    split <;> (simp; omega)
  rw [if_neg h1]
  by_cases h2 : s - k * m = 1
  · rw [if_pos h2]
    dsimp only
    split
    · simp; omega
    split <;> (simp; omega)
  rw [if_neg h2]
  by_cases h3 : m = 1
  · rw [if_pos h3]
    dsimp only
    split
    · simp; omega
    split <;> (simp; omega)
  · rw [if_neg h3]
    simp
    omega

/-- **C164**, what is true: for an `init_W` with `s` entries, the vector of the optimizer has `s + num_meas` entries.  With two or more measurements the fit
raises `ValueError` (by an optimizer that evaluates the loss at its start) unless `s = num_latent * num_meas`, where it is the fit of
`Model/Dev.lean`, or `s = num_latent * num_meas - num_meas + 1`: then the loss never raises `ValueError`, whatever the vector, and what is stored is a weight
matrix whose last `num_meas - 1` entries were started at the values drawn for the variances, and a `1 × 1` matrix `D_hat`. -/
theorem C164_partial (env : DevEnv G) (henv : EvaluatesStart env) (opc : Bool) (W : AnyMat) (g : G) (d : AnyData) (lam mu : ℝ) (k : Nat)
    (hk : k = if opc then d.cols else d.cols ^ 2 / 4) (hm : 2 ≤ d.cols) :
    (W.rows * W.cols ≠ k * d.cols → W.rows * W.cols + d.cols ≠ k * d.cols + 1 → fitMleInit env opc W g d lam mu = .error .valueError) ∧
    (∀ st : DevState G, W.rows * W.cols = k * d.cols → st.onePureChild = opc → st.g = g → st.initW = some W →
      (∀ e, fitMleInit env opc W g d lam mu = .error e → (devFit env st d "mle" lam mu).2 = .error e) ∧
      ∀ e ok, fitMleInit env opc W g d lam mu = .ok (e, ok) → ∃ (W' : Fin k → Fin d.cols → ℝ) (D' : Matrix (Fin d.cols) (Fin d.cols) ℝ),
        e = ⟨⟨k, d.cols, of W'⟩, ⟨d.cols, d.cols, D'⟩⟩ ∧
        (devFit env st d "mle" lam mu).1.est = some ⟨k, d.cols, of W', D'⟩ ∧ (devFit env st d "mle" lam mu).1.successMle = some ok) ∧
    (W.rows * W.cols + d.cols = k * d.cols + 1 →
      ∃ f x0, (∀ x : Fin (W.rows * W.cols + d.cols) → ℝ, f x ≠ .error .valueError) ∧
        (∀ j : Nat, j + 1 < d.cols → entryAt x0 (W.rows * W.cols + j) = entryAt (env.uniform d.cols g).1 j ∧ W.rows * W.cols + j < k * d.cols) ∧
        (∀ e, env.minimize f x0 = .error e → fitMleInit env opc W g d lam mu = .error e) ∧
        ∀ x ok, env.minimize f x0 = .ok (x, ok) → ∃ e, fitMleInit env opc W g d lam mu = .ok (e, ok) ∧
          e.W = ⟨k, d.cols, of (fullWeights k d.cols x)⟩ ∧ e.D = ⟨1, 1, of fun _ _ => entryAt x (k * d.cols)⟩) := by
  obtain rfl : k = devLatents opc d.cols := hk
  refine ⟨fun h1 h2 => ?_, fun st h1 h2 h3 h4 => ?_, fun h1 => ?_⟩
  · unfold fitMleInit fitMleFrom
    dsimp only
    rw [henv _ _ .valueError]
    rw [mleLossAny_error]
    omega
  · subst h2 h3
    have hs : mleStart env st (devLatents st.onePureChild d.cols) d.cols =
        (.ok fun i => (fun i : Fin (W.rows * W.cols) => W.mat (finProdFinEquiv.symm i).1 (finProdFinEquiv.symm i).2) (Fin.cast h1.symm i), st.g) := by
      unfold mleStart; rw [h4]; exact dif_pos h1.symm
    have hd : devFit env st d "mle" lam mu = fitMle env st d lam mu := by unfold devFit; simp
    rw [hd]
    unfold fitMleInit
    generalize (fun i : Fin (W.rows * W.cols) => W.mat (finProdFinEquiv.symm i).1 (finProdFinEquiv.symm i).2) = w at *
    generalize W.rows * W.cols = s at *
    subst h1
    have hf : (fun x : Fin (devLatents st.onePureChild d.cols * d.cols + d.cols) → ℝ => mleLossAny env.nuc lam mu (devLatents st.onePureChild d.cols) (of d.data.cov) x) =
        fun x => mleLoss env.nuc lam mu (of d.data.cov) (devW x) (diagonal (devD x)) := funext fun x => mleLossAny_right env.nuc lam mu (of d.data.cov) x
    unfold fitMleFrom fitMle
    dsimp only
    rw [hs]
    dsimp only [Fin.cast_eq_self]
    have hst : Fin.append w (env.uniform d.cols st.g).1 = devStart w (env.uniform d.cols st.g).1 := rfl
    rw [show (mleLossAny env.nuc lam mu (devLatents st.onePureChild d.cols) (of d.data.cov)) =
      fun x : Fin (devLatents st.onePureChild d.cols * d.cols + d.cols) → ℝ => mleLoss env.nuc lam mu (of d.data.cov) (devW x) (diagonal (devD x)) from hf, hst]
    rcases hr : env.minimize (fun x : Fin (devLatents st.onePureChild d.cols * d.cols + d.cols) → ℝ => mleLoss env.nuc lam mu (of d.data.cov) (devW x) (diagonal (devD x)))
      (devStart w (env.uniform d.cols st.g).1) with e | ⟨x, ok⟩
    · refine ⟨fun e' h => ?_, fun e' ok h => ?_⟩
      · simpa using h
      · cases h
    · dsimp only
      rw [if_neg (by omega)]
      refine ⟨fun e' h => (by cases h), fun e' ok' h => ?_⟩
      simp only [Except.ok.injEq, Prod.mk.injEq] at h
      obtain ⟨h, rfl⟩ := h
      refine ⟨fun r j => devW x r j, diagonal (devD x), ?_, rfl, rfl⟩
      rw [← h]
      have e1 : ∀ t, t = d.cols → (⟨t, t, fun i j => if i = j then (if h : devLatents st.onePureChild d.cols * d.cols + i.val < devLatents st.onePureChild d.cols * d.cols + d.cols then x ⟨devLatents st.onePureChild d.cols * d.cols + i.val, h⟩ else 0) else 0⟩ : AnyMat) =
          ⟨d.cols, d.cols, diagonal (devD x)⟩ := by
        rintro t rfl
        congr 1
        funext i j
        rw [diagonal_apply, dif_pos (by omega)]
        rfl
      rw [e1 _ (Nat.add_sub_cancel_left ..)]
      congr 2
      rw [devW_eq]
      rfl
  · refine ⟨mleLossAny env.nuc lam mu (devLatents opc d.cols) (of d.data.cov), Fin.append (fun i => W.mat (finProdFinEquiv.symm i).1 (finProdFinEquiv.symm i).2) (env.uniform d.cols g).1,
      fun x h => ?_, fun j hj => ⟨?_, by omega⟩, fun e h => ?_, fun x ok h => ?_⟩
    · rw [mleLossAny_error] at h
      omega
    · unfold entryAt
      rw [dif_pos (by omega), dif_pos (by omega)]
      exact Fin.append_right _ _ ⟨j, by omega⟩
    · unfold fitMleInit fitMleFrom
      dsimp only
      rw [h]
    · have e1 : ∀ t, t = 1 → (⟨t, t, fun i j => if i = j then entryAt x (devLatents opc d.cols * d.cols + i.val) else 0⟩ : AnyMat) =
          ⟨1, 1, of fun _ _ => entryAt x (devLatents opc d.cols * d.cols)⟩ := by
        rintro t rfl
        congr 1
        funext i j
        rw [if_pos (Subsingleton.elim _ _)]
        have : i.val = 0 := by omega
        rw [this]
        rfl
      refine ⟨⟨⟨_, _, of (fullWeights (devLatents opc d.cols) d.cols x)⟩, _⟩, ?_, rfl, rfl⟩
      unfold fitMleInit fitMleFrom
      dsimp only
      rw [h]
      dsimp only
      rw [if_neg (by omega), ← e1 (W.rows * W.cols + d.cols - devLatents opc d.cols * d.cols) (by omega)]
      rfl

/-- an optimizer that evaluates the loss at its start and returns the start -/
noncomputable def evalStartEnv : DevEnv Unit where
  minimize := fun f x0 => match f x0 with | .error e => .error e | .ok _ => .ok (x0, true)
  normal := fun _ g => (fun _ => 1, g)
  uniform := fun _ g => (fun _ => 1, g)
  mvn := ⟨fun _ _ _ g => (fun _ _ => 0, g)⟩
  nuc := fun _ => 0

theorem evalStartEnv_evaluates : EvaluatesStart evalStartEnv := by
  intro dim f x0 e h
  simp only [evalStartEnv, h]

theorem evalStartEnv_from (k : Nat) {s : Nat} (w : Fin s → ℝ) (d : AnyData) (hs : ¬ s + d.cols < k * d.cols) (v : Fl ℝ)
    (hv : mleLossAny evalStartEnv.nuc 0 0 k (of d.data.cov) (Fin.append w fun _ : Fin d.cols => (1 : ℝ)) = .ok v) :
    ∃ e, fitMleFrom evalStartEnv k w () d 0 0 = .ok e := by
  have hm : evalStartEnv.minimize (mleLossAny evalStartEnv.nuc 0 0 k (of d.data.cov)) (Fin.append w (evalStartEnv.uniform d.cols ()).1) =
      .ok (Fin.append w (evalStartEnv.uniform d.cols ()).1, true) := by
    show (match mleLossAny evalStartEnv.nuc 0 0 k (of d.data.cov) (Fin.append w fun _ : Fin d.cols => (1 : ℝ)) with | .error e => Except.error e | .ok _ => .ok (_, true)) = _
    rw [hv]
  unfold fitMleFrom
  dsimp only
  rw [hm]
  dsimp only
  rw [if_neg hs]
  exact ⟨_, rfl⟩

/-- the claim is false: two measurements, two latents, `init_W` with three entries; the fit returns -/
theorem C164_false : ¬ C164_statement := by
  intro h
  have h1 := h Unit evalStartEnv evalStartEnv_evaluates true ⟨1, 3, of fun _ j => if j.val = 0 then 1 else 0⟩ () ⟨2, twoPoints 1 2⟩ 0 0 (by decide)
  have hx : ∀ x : Fin 5 → ℝ, x 0 = 1 → x 1 = 0 → x 2 = 0 → x 3 = 1 → x 4 = 1 → ∀ S : Matrix (Fin 2) (Fin 2) ℝ,
      ∃ v, mleLossAny evalStartEnv.nuc 0 0 2 S x = .ok v := by
    intro x h0 h1 h2 h3 h4 S
    have hW : (fun (r : Fin 2) (j : Fin 2) => if h : r.val * 2 + j.val < 5 then x ⟨r.val * 2 + j.val, h⟩ else 0) = (1 : Matrix (Fin 2) (Fin 2) ℝ) := by
      funext r j
      fin_cases r <;> fin_cases j
      · exact h0
      · exact h1
      · exact h2
      · exact h3
    have hS : (fun i j : Fin 2 => (if h : bcastAxis 2 i.val < 2 ∧ bcastAxis 2 j.val < 2 then
        ((1 : Matrix (Fin 2) (Fin 2) ℝ)ᵀ * (1 : Matrix (Fin 2) (Fin 2) ℝ)) ⟨bcastAxis 2 i.val, h.1⟩ ⟨bcastAxis 2 j.val, h.2⟩ else 0) +
        if bcastAxis (5 - 2 * 2) i.val = bcastAxis (5 - 2 * 2) j.val then
          if h : 2 * 2 + bcastAxis (5 - 2 * 2) i.val < 5 then x ⟨2 * 2 + bcastAxis (5 - 2 * 2) i.val, h⟩ else 0 else 0) =
        (!![2, 1; 1, 2] : Matrix (Fin 2) (Fin 2) ℝ) := by
      funext i j
      fin_cases i <;> fin_cases j <;> simp [bcastAxis, h4] <;> norm_num
    unfold mleLossAny
    dsimp only
    rw [if_neg (by norm_num), show bcastSquare 2 (5 - 2 * 2) = some 2 from rfl]
    dsimp only
    rw [hW, hS]
    have hdet : (!![2, 1; 1, 2] : Matrix (Fin 2) (Fin 2) ℝ).det = 3 := by rw [Matrix.det_fin_two_of]; norm_num
    rw [if_neg (by rw [hdet]; norm_num), if_neg (by rw [Matrix.det_nonsing_inv, Ring.inverse_eq_inv', hdet]; norm_num)]
    exact ⟨_, rfl⟩
  obtain ⟨v, hv⟩ := hx (Fin.append (fun i : Fin (1 * 3) => (⟨1, 3, of fun _ j => if j.val = 0 then 1 else 0⟩ : AnyMat).mat (finProdFinEquiv.symm i).1 (finProdFinEquiv.symm i).2) fun _ : Fin 2 => (1 : ℝ))
    (by rfl) (by rfl) (by rfl) (by rfl) (by rfl) (of (twoPoints 1 2).cov)
  obtain ⟨e, h2⟩ := evalStartEnv_from 2 _ ⟨2, twoPoints 1 2⟩ (by decide) v hv
  have h2 : fitMleInit evalStartEnv true ⟨1, 3, of fun _ j => if j.val = 0 then 1 else 0⟩ () ⟨2, twoPoints 1 2⟩ 0 0 = .ok e := h2
  rw [h2] at h1
  cases h1

end Medil

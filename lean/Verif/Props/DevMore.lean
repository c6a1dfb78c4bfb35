import Verif.Props.Dev
import Verif.Props.SampleLaw
import Verif.Props.ScriptGrid
import Verif.Props.Evaluate
/-
  Property theorems C161-C163: the distribution of samples of `DevMedil`, the start of its optimizer, and `calculate_metrics`
  of scripts/developing.py.
-/
namespace Medil
open Finset Matrix MeasureTheory ProbabilityTheory

/-! ### C161 -/

/-- the two draws of `DevMedil.sample` made by an ideal generator in a random state with distribution `μ`: the first gives a
`size × k` array of independent standard normal numbers, the second independent normal rows with mean zero and the requested variances,
and the two are independent -/
structure IdealDevDraws {G : Type} [MeasurableSpace G] (env : DevEnv G) (μ : Measure G) (k size : Nat) {m : Nat} (v : Fin m → ℝ) : Prop where
  first : NormalRows μ (fun g (a : Fin size) (r : Fin k) => (env.normal (size * k) g).1 (finProdFinEquiv (a, r)))
    (fun _ => 0) (fun i j => if i = j then 1 else 0)
  second : NormalRows μ (fun g => (env.mvn.mvn (fun _ : Fin m => 0) (fun i j => if i = j then v i else 0) size (env.normal (size * k) g).2).1)
    (fun _ => 0) (fun i j => if i = j then v i else 0)
  indep : IndepFun (fun g (a : Fin size) (r : Fin k) => (env.normal (size * k) g).1 (finProdFinEquiv (a, r)))
    (fun g => (env.mvn.mvn (fun _ : Fin m => 0) (fun i j => if i = j then v i else 0) size (env.normal (size * k) g).2).1) μ

/-- **C161** On an object whose attributes `W_hat_mle`, `D_hat_mle` (for method `"mle"`) or `W_hat_lse`, `D_hat_lse` (for `"lse"`) are a matrix `W` and a
diagonal matrix of variances `v`, `sample` with an ideal generator returns independent normal rows with mean zero and covariance `W'W + diag v`,
and changes nothing but the generator, which stands behind the two draws afterwards (so the next sample uses new numbers). -/
theorem C161_dev_sample_law {G : Type} [MeasurableSpace G] (env : DevEnv G) (μ : Measure G) (st : DevState G) {k m : Nat} (W : Fin k → Fin m → ℝ)
    (v : Fin m → ℝ) (hm : 0 < m) (size : Nat) (method : String)
    (hattr : method = "mle" ∧ st.wMle = some ⟨k, m, of W⟩ ∧ st.dMle = some ⟨m, m, diagonal v⟩ ∨
      method = "lse" ∧ st.wLse = some ⟨k, m, of W⟩ ∧ st.dLse = some ⟨m, m, diagonal v⟩)
    (hgen : IdealDevDraws env μ k size v) :
    ∃ s : G → Fin size → Fin m → ℝ,
      (∀ g, (devSample env { st with g := g } size method).2 = .ok ⟨m, s g⟩ ∧
        (devSample env { st with g := g } size method).1 =
          { st with g := (env.mvn.mvn (fun _ : Fin m => 0) (fun i j => if i = j then v i else 0) size (env.normal (size * k) g).2).2 }) ∧
      NormalRows μ s (fun _ => 0) (modelCov W v) ∧ iIndepFun (fun a g => s g a) μ := by
  have hlin := hgen.first.linear hgen.second hgen.indep W
  refine ⟨_, fun g => ?_, hlin, hlin.rows_indep⟩
  rcases hattr with ⟨rfl, h1, h2⟩ | ⟨rfl, h1, h2⟩
  · unfold devSample
    simp only [true_or, if_true, h1, h2, drawSample, hm.ne', if_false, and_self, dif_pos]
    refine ⟨?_, ?_⟩ <;> simp only [Except.map, Fin.cast_eq_self, diagonal_apply, of_apply]
  · unfold devSample
    simp only [or_true, if_true, if_neg (show ¬ ("lse" = "mle") by decide), h1, h2, drawSample, hm.ne', if_false, and_self, dif_pos]
    refine ⟨?_, ?_⟩ <;> simp only [Except.map, Fin.cast_eq_self, diagonal_apply, of_apply]

/-- the surroundings with the generator that reads a tape of normal numbers: the `i`-th of `n` numbers is entry `(0, 0, i)` -/
noncomputable def tapeEnv : DevEnv (ℕ × ℕ × ℕ → ℝ) where
  minimize := fun _ x0 => .ok (x0, true)
  normal := fun _ ω => (fun i => ω (0, 0, i), fun q => ω (q.1 + 1, q.2))
  uniform := fun _ ω => (fun i => ω (0, 0, i), fun q => ω (q.1 + 1, q.2))
  mvn := tapeGen
  nuc := fun _ => 0

/-- the tape generator is ideal -/
theorem tapeEnv_ideal (k size m : Nat) (v : Fin m → ℝ) (hv : ∀ j, 0 ≤ v j) : IdealDevDraws tapeEnv tape k size v := by
  have hinj : ∀ p q : Fin size × Fin k, (finProdFinEquiv p).val = (finProdFinEquiv q).val → p = q :=
    fun p q h => finProdFinEquiv.injective (Fin.ext h)
  refine ⟨?_, ?_, ?_⟩
  · obtain ⟨h1, h2, h3⟩ := tape_family (fun p : Fin size × Fin k => (0, 0, (finProdFinEquiv p).val))
      (fun p q h => by simp only [Prod.mk.injEq] at h; exact hinj p q h.2.2) (fun _ => 0) (fun _ => 1) (by simp)
    refine ⟨?_, fun a i => ?_, fun a b i j => ?_⟩
    · simpa [tapeEnv] using h1
    · simpa [tapeEnv] using h2 (a, i)
    · have h4 := h3 (a, i) (b, j)
      simp only [Real.sqrt_one, one_mul, zero_add] at h4
      refine Eq.trans h4 ?_
      by_cases hab : a = b
      · subst hab; simp
      · simp [hab]
  · simpa [tapeEnv, tapeGen] using tape_rows 1 size (fun _ : Fin m => 0) v hv
  · obtain ⟨h1, -, h3⟩ := tape_family (fun p : (Fin size × Fin k) ⊕ (Fin size × Fin m) =>
        match p with | .inl q => (0, 0, (finProdFinEquiv q).val) | .inr q => (1, q.1.val, q.2.val))
      (fun p q h => by
        rcases p with p | p <;> rcases q with q | q <;> simp only [Prod.mk.injEq] at h
        · exact congrArg _ (hinj p q h.2.2)
        · omega
        · omega
        · exact congrArg _ (Prod.ext (Fin.ext h.2.1) (Fin.ext h.2.2)))
      (fun _ => 0)
      (fun p => match p with | .inl _ => 1 | .inr q => v q.2) (fun p => by rcases p with p | p <;> simp [hv])
    have hind := HasGaussianLaw.indepFun_of_covariance_eval (P := tape)
      (X := fun (q : Fin size × Fin k) (ω : ℕ × ℕ × ℕ → ℝ) => 0 + Real.sqrt 1 * ω (0, 0, (finProdFinEquiv q).val))
      (Y := fun (q : Fin size × Fin m) (ω : ℕ × ℕ × ℕ → ℝ) => 0 + Real.sqrt (v q.2) * ω (1, q.1.val, q.2.val))
      (by
        let L : ((Fin size × Fin k) ⊕ (Fin size × Fin m) → ℝ) →ₗ[ℝ] ((Fin size × Fin k → ℝ) × (Fin size × Fin m → ℝ)) :=
          { toFun := fun x => (fun q => x (.inl q), fun q => x (.inr q))
            map_add' := fun _ _ => rfl
            map_smul' := fun _ _ => rfl }
        exact h1.map_fun L.toContinuousLinearMap)
      (fun i j => (h3 (.inl i) (.inr j)).trans (if_neg (by simp)))
    have := hind.comp (φ := fun (x : Fin size × Fin k → ℝ) (a : Fin size) (i : Fin k) => x (a, i))
      (ψ := fun (x : Fin size × Fin m → ℝ) (a : Fin size) (i : Fin m) => x (a, i)) (by fun_prop) (by fun_prop)
    simpa [tapeEnv, tapeGen, Function.comp_def] using this

/-- not vacuous: the estimates stored by a least squares fit have non-negative variances, whatever the optimizer returned; copied to the attributes that
`sample` reads, they can be sampled -/
example (d : AnyData) (lam mu : ℝ) (size : Nat) (ω : ℕ × ℕ × ℕ → ℝ) :
    ∃ (k : Nat) (W : Fin k → Fin d.cols → ℝ) (v : Fin d.cols → ℝ),
      (devFit tapeEnv (newDev true ω) d "lse" lam mu).1.est = some ⟨k, d.cols, of W, diagonal v⟩ ∧ (∀ j, 0 ≤ v j) ∧
      IdealDevDraws tapeEnv tape k size v :=
  ⟨_, _, _, rfl, fun _ => abs_nonneg _, tapeEnv_ideal _ _ _ _ fun _ => abs_nonneg _⟩

/-! ### C162 -/

/-- `f` is the penalised least squares loss for the dataset `d`, as a function of the weights (row by row) followed by the variances -/
def IsLseLoss {G : Type} (env : DevEnv G) (d : AnyData) (lam mu : ℝ) (k : Nat) {dim : Nat} (f : (Fin dim → ℝ) → Except PyErr (Fl ℝ)) : Prop :=
  ∀ y, f y = .ok (.fin (lseValue env.nuc lam mu (fun i j => sampleCov (fun n => d.data.val n i) fun n => d.data.val n j)
    (fullWeights k d.cols y) (variancesOf (k * d.cols) y)))

/-- `f` is the penalised likelihood loss for the dataset `d` -/
def IsMleLoss {G : Type} (env : DevEnv G) (d : AnyData) (lam mu : ℝ) (k : Nat) {dim : Nat} (f : (Fin dim → ℝ) → Except PyErr (Fl ℝ)) : Prop :=
  ∀ (y : Fin dim → ℝ) (Sigma : Matrix (Fin d.cols) (Fin d.cols) ℝ),
    Sigma = of (modelCov (fullWeights k d.cols y) (variancesOf (k * d.cols) y)) →
    (Sigma.det = 0 → f y = .error .linAlg) ∧ (Sigma.det < 0 → f y = .ok .pinf) ∧
    (0 < Sigma.det → f y = .ok (.fin
      (((of fun i j => sampleCov (fun n => d.data.val n i) fun n => d.data.val n j) * Sigma⁻¹).trace +
        Real.log Sigma.det + lam * env.nuc (of (fullWeights k d.cols y)) + mu * sumAbs (fullWeights k d.cols y))))

theorem devStart_weights {k m : Nat} (w : Fin (k * m) → ℝ) (u : Fin m → ℝ) (r : Fin k) (j : Fin m) :
    fullWeights k m (devStart w u) r j = w (finProdFinEquiv (r, j)) := by
  rw [← devW_eq]
  unfold devW devStart
  rw [Fin.append_left]

theorem devStart_variances {k m : Nat} (w : Fin (k * m) → ℝ) (u : Fin m → ℝ) (j : Fin m) :
    variancesOf (k * m) (devStart w u) j = u j := by
  rw [← devD_eq]
  unfold devD devStart
  rw [Fin.append_right]

theorem entryAt_prod {k m : Nat} (w : Fin (k * m) → ℝ) (r : Fin k) (j : Fin m) : w (finProdFinEquiv (r, j)) = entryAt w (r.val * m + j.val) := by
  have h : r.val * m + j.val < k * m := by
    have := (finProdFinEquiv (r, j)).isLt
    simpa [finProdFinEquiv, Nat.add_comm, Nat.mul_comm] using this
  unfold entryAt
  rw [dif_pos h]
  congr 1
  ext
  simp [finProdFinEquiv, Nat.add_comm, Nat.mul_comm]

/-- **C162** The optimizer of a least squares fit is given the penalised least squares loss and started at standard normal weights
followed by absolute values of standard normal numbers, so at non-negative variances; `init_W` is ignored; what is stored is the optimizer's
result from there. -/
theorem C162_lse_start {G : Type} (env : DevEnv G) (st : DevState G) (d : AnyData) (lam mu : ℝ) (k : Nat)
    (hk : k = if st.onePureChild then d.cols else d.cols ^ 2 / 4) :
    ∃ (dim : Nat) (f : (Fin dim → ℝ) → Except PyErr (Fl ℝ)) (x0 : Fin dim → ℝ), dim = k * d.cols + d.cols ∧ IsLseLoss env d lam mu k f ∧
      (∀ r j, fullWeights k d.cols x0 r j = entryAt (env.normal (k * d.cols) st.g).1 (r.val * d.cols + j.val)) ∧
      (∀ j, variancesOf (k * d.cols) x0 j = |(env.normal d.cols (env.normal (k * d.cols) st.g).2).1 j|) ∧
      ∀ W, (∀ x ok, env.minimize f x0 = .ok (x, ok) →
          ∃ e, (devFit env { st with initW := W } d "lse" lam mu).2 = .ok () ∧
            (devFit env { st with initW := W } d "lse" lam mu).1.est = some e ∧
            e = ⟨k, d.cols, of (fullWeights k d.cols x), diagonal fun j => |variancesOf (k * d.cols) x j|⟩ ∧
            (devFit env { st with initW := W } d "lse" lam mu).1.successLse = some ok) ∧
        ∀ e, env.minimize f x0 = .error e → (devFit env { st with initW := W } d "lse" lam mu).2 = .error e ∧
          (devFit env { st with initW := W } d "lse" lam mu).1.est = st.est := by
  obtain rfl : k = devLatents st.onePureChild d.cols := hk
  have hL : ∀ W, devFit env { st with initW := W } d "lse" lam mu = fitLse env { st with initW := W } d lam mu := by
    intro W; unfold devFit; simp
  refine ⟨_, fun x => .ok (.fin (lseLoss env.nuc lam mu (of d.data.cov) (devW x) (diagonal (devD x)))),
    devStart (env.normal (devLatents st.onePureChild d.cols * d.cols) st.g).1
      (fun j => |(env.normal d.cols (env.normal (devLatents st.onePureChild d.cols * d.cols) st.g).2).1 j|), rfl, ?_, ?_, ?_, ?_⟩
  · intro y
    dsimp only
    rw [lseLoss_eq, devW_eq, devD_eq]
    rfl
  · intro r j
    exact (devStart_weights _ _ r j).trans (entryAt_prod _ r j)
  · intro j
    exact devStart_variances _ _ j
  · intro W
    rw [hL W]
    unfold fitLse
    dsimp only
    refine ⟨fun x ok h => ?_, fun e h => ?_⟩
    · rw [h]
      refine ⟨_, rfl, rfl, ?_, rfl⟩
      rw [devW_eq, devD_eq]
      rfl
    · rw [h]
      exact ⟨rfl, rfl⟩

/-- **C162** The optimizer of a maximum likelihood fit is given the penalised likelihood loss; an object with `init_W` of `num_latent` rows and
`num_meas` columns starts it at `init_W` (row by row) followed by uniform numbers, and draws no normal numbers; without `init_W` it is started at
standard normal weights followed by uniform numbers; what is stored is the optimizer's result from there. -/
theorem C162_mle_start {G : Type} (env : DevEnv G) (st : DevState G) (d : AnyData) (lam mu : ℝ) (k : Nat)
    (hk : k = if st.onePureChild then d.cols else d.cols ^ 2 / 4)
    (hw : st.initW = none ∨ ∃ W, st.initW = some ⟨k, d.cols, W⟩) :
    ∃ (dim : Nat) (f : (Fin dim → ℝ) → Except PyErr (Fl ℝ)) (x0 : Fin dim → ℝ), dim = k * d.cols + d.cols ∧ IsMleLoss env d lam mu k f ∧
      (∀ W, st.initW = some ⟨k, d.cols, W⟩ →
        (∀ r j, fullWeights k d.cols x0 r j = W r j) ∧ (∀ j, variancesOf (k * d.cols) x0 j = (env.uniform d.cols st.g).1 j) ∧
        (devFit env st d "mle" lam mu).1.g = (env.uniform d.cols st.g).2) ∧
      (st.initW = none →
        (∀ r j, fullWeights k d.cols x0 r j = entryAt (env.normal (k * d.cols) st.g).1 (r.val * d.cols + j.val)) ∧
        ∀ j, variancesOf (k * d.cols) x0 j = (env.uniform d.cols (env.normal (k * d.cols) st.g).2).1 j) ∧
      (∀ x ok, env.minimize f x0 = .ok (x, ok) → (devFit env st d "mle" lam mu).2 = .ok () ∧
        (devFit env st d "mle" lam mu).1.est = some ⟨k, d.cols, of (fullWeights k d.cols x), diagonal (variancesOf (k * d.cols) x)⟩ ∧
        (devFit env st d "mle" lam mu).1.successMle = some ok) ∧
      (∀ e, env.minimize f x0 = .error e → (devFit env st d "mle" lam mu).2 = .error e ∧ (devFit env st d "mle" lam mu).1.est = st.est) := by
  obtain rfl : k = devLatents st.onePureChild d.cols := hk
  have hd : devFit env st d "mle" lam mu = fitMle env st d lam mu := by unfold devFit; simp
  have hloss : IsMleLoss env d lam mu (devLatents st.onePureChild d.cols) fun x : Fin (devLatents st.onePureChild d.cols * d.cols + d.cols) → ℝ =>
      mleLoss env.nuc lam mu (of d.data.cov) (devW x) (diagonal (devD x)) := by
    rintro y Sigma hS
    have e : computeSigma (devW y) (diagonal (devD y)) = Sigma := by
      rw [computeSigma_eq, devW_eq, devD_eq, hS]
    unfold mleLoss
    simp only [e]
    refine ⟨fun h0 => if_pos h0, fun h0 => ?_, fun h0 => ?_⟩
    · rw [if_neg h0.ne, if_pos]
      rw [Matrix.det_nonsing_inv, Ring.inverse_eq_inv']
      exact (inv_lt_zero.mpr h0).le
    · have hi : (Sigma⁻¹).det = (Sigma.det)⁻¹ := by rw [Matrix.det_nonsing_inv, Ring.inverse_eq_inv']
      have hp : 0 < (Sigma.det)⁻¹ := inv_pos.mpr h0
      rw [if_neg h0.ne', hi, if_neg (not_le.mpr hp), abs_of_pos hp, Real.log_inv, devW_eq]
      refine congrArg (fun z => Except.ok (Fl.fin z)) ?_
      show _ - _ + (_ + mu * sumAbs _) = _
      rw [sub_neg_eq_add, ← add_assoc]
      rfl
  have hstore : ∀ x : Fin (devLatents st.onePureChild d.cols * d.cols + d.cols) → ℝ,
      (⟨devLatents st.onePureChild d.cols, d.cols, devW x, diagonal (devD x)⟩ : DevEst) =
      ⟨devLatents st.onePureChild d.cols, d.cols, of (fullWeights (devLatents st.onePureChild d.cols) d.cols x),
        diagonal (variancesOf (devLatents st.onePureChild d.cols * d.cols) x)⟩ := by
    intro x; rw [devW_eq, devD_eq]; rfl
  have hfit : ∀ w g, mleStart env st (devLatents st.onePureChild d.cols) d.cols = (.ok w, g) →
      let f := fun x : Fin (devLatents st.onePureChild d.cols * d.cols + d.cols) → ℝ => mleLoss env.nuc lam mu (of d.data.cov) (devW x) (diagonal (devD x))
      let x0 := devStart w (env.uniform d.cols g).1
      (fitMle env st d lam mu).1.g = (env.uniform d.cols g).2 ∧
      (∀ x ok, env.minimize f x0 = .ok (x, ok) → (fitMle env st d lam mu).2 = .ok () ∧
        (fitMle env st d lam mu).1.est = some ⟨devLatents st.onePureChild d.cols, d.cols, devW x, diagonal (devD x)⟩ ∧
        (fitMle env st d lam mu).1.successMle = some ok) ∧
      (∀ e, env.minimize f x0 = .error e → (fitMle env st d lam mu).2 = .error e ∧ (fitMle env st d lam mu).1.est = st.est) := by
    intro w g h
    unfold fitMle
    dsimp only
    rw [h]
    dsimp only
    refine ⟨?_, fun x ok h => ?_, fun e h => ?_⟩
    · split <;> rfl
    · rw [h]; exact ⟨rfl, rfl, rfl⟩
    · rw [h]; exact ⟨rfl, rfl⟩
  rcases hw with hw | ⟨W, hw⟩
  · have hs : mleStart env st (devLatents st.onePureChild d.cols) d.cols =
        (.ok (env.normal (devLatents st.onePureChild d.cols * d.cols) st.g).1, (env.normal (devLatents st.onePureChild d.cols * d.cols) st.g).2) := by
      unfold mleStart; rw [hw]
    obtain ⟨-, h2, h3⟩ := hfit _ _ hs
    rw [hd]
    refine ⟨_, _, _, rfl, hloss, ?_, ?_, fun x ok h => ?_, h3⟩
    · intro W h; rw [hw] at h; cases h
    · exact fun _ => ⟨fun r j => (devStart_weights _ _ r j).trans (entryAt_prod _ r j), fun j => devStart_variances _ _ j⟩
    · rw [← hstore]; exact h2 x ok h
  · have hs : mleStart env st (devLatents st.onePureChild d.cols) d.cols =
        (.ok fun i => W (finProdFinEquiv.symm i).1 (finProdFinEquiv.symm i).2, st.g) := by
      unfold mleStart; rw [hw]; exact dif_pos rfl
    obtain ⟨h1, h2, h3⟩ := hfit _ _ hs
    rw [hd]
    refine ⟨_, _, _, rfl, hloss, ?_, ?_, fun x ok h => ?_, h3⟩
    · intro W' h
      rw [hw] at h
      simp only [Option.some.injEq, AnyMat.mk.injEq, heq_eq_eq, true_and] at h
      subst h
      refine ⟨fun r j => ?_, fun j => devStart_variances _ _ j, h1⟩
      refine (devStart_weights _ _ r j).trans ?_
      simp
    · intro h; rw [hw] at h; cases h
    · rw [← hstore]; exact h2 x ok h

/-- not vacuous: with an optimizer that returns its start, the stored weights are `init_W` -/
example (W : Matrix (Fin 2) (Fin 2) ℝ) (d : Dataset 2) (st : DevState Unit) (h1 : st.onePureChild = true) (h2 : st.initW = some ⟨2, 2, W⟩) :
    ∃ v, (devFit idEnv st ⟨2, d⟩ "mle" 0 0).1.est = some ⟨2, 2, W, diagonal v⟩ := by
  obtain ⟨dim, f, x0, -, -, h3, -, h4, -⟩ := C162_mle_start idEnv st ⟨2, d⟩ 0 0 2 (by simp [h1]) (Or.inr ⟨W, h2⟩)
  refine ⟨variancesOf (2 * 2) x0, ((h4 x0 true rfl).2.1).trans ?_⟩
  have := (h3 W h2).1
  have e : (of (fullWeights 2 2 x0) : Matrix (Fin 2) (Fin 2) ℝ) = W := by ext r j; exact this r j
  exact congrArg (fun w => some (DevEst.mk 2 2 w (diagonal (variancesOf (2 * 2) x0)))) e

/-- **C162** the start matrix is the one last assigned to `init_W`, whatever is called on the object before and after; an object to which nothing
was assigned draws its start -/
theorem C162_init_W_history {G : Type} (env : DevEnv G) (opc : Bool) (g : G) (calls : List DevCall) :
    ((∀ W, DevCall.setInitW W ∉ calls) → (devRun env (newDev opc g) calls).initW = none) ∧
    ∀ pre W post, calls = pre ++ .setInitW W :: post → (∀ W', DevCall.setInitW W' ∉ post) →
      (devRun env (newDev opc g) calls).initW = some W := by
  have keep1 : ∀ (st : DevState G) (c : DevCall), (∀ W, c ≠ .setInitW W) → (c.run env st).initW = st.initW := by
    intro st c hc
    have hmle : ∀ d lam mu, (fitMle env st d lam mu).1.initW = st.initW := by
      intro d lam mu
      unfold fitMle
      dsimp only
      split
      · rfl
      · split <;> rfl
    have hlse : ∀ d lam mu, (fitLse env st d lam mu).1.initW = st.initW := by
      intro d lam mu
      unfold fitLse
      dsimp only
      split <;> rfl
    cases c with
    | fit d method lam mu =>
      show (devFit env st d method lam mu).1.initW = _
      unfold devFit
      split
      · exact hmle _ _ _
      · split
        · exact hlse _ _ _
        · rfl
    | fitMle d lam mu => exact hmle _ _ _
    | fitLse d lam mu => exact hlse _ _ _
    | sample size method =>
      show (devSample env st size method).1.initW = _
      unfold devSample
      split
      · split <;> rfl
      · rfl
    | validationMle => rfl
    | validationLse => rfl
    | setInitW W => exact absurd rfl (hc W)
  have keep : ∀ (cs : List DevCall) (st : DevState G), (∀ W, DevCall.setInitW W ∉ cs) → (devRun env st cs).initW = st.initW := by
    intro cs
    induction cs with
    | nil => intro st _; rfl
    | cons c cs ih =>
      intro st h
      refine (ih (c.run env st) fun W hW => h W (List.mem_cons_of_mem _ hW)).trans (keep1 st c fun W hc => h W ?_)
      rw [hc]; exact List.mem_cons_self
  refine ⟨fun h => keep calls _ h, ?_⟩
  rintro pre W post rfl hpost
  have : devRun env (newDev opc g) (pre ++ .setInitW W :: post) =
      devRun env { devRun env (newDev opc g) pre with initW := some W } post := by
    unfold devRun; rw [List.foldl_append]; rfl
  rw [this]
  exact keep post _ hpost
/-- not vacuous: a second assignment replaces the first, a fit in between changes nothing -/
example {G : Type} (env : DevEnv G) (g : G) (d : AnyData) (W W' : AnyMat) :
    (devRun env (newDev true g) [.setInitW W, .fit d "mle" 0 0, .setInitW W', .fitLse d 0 0]).initW = some W' :=
  (C162_init_W_history env true g _).2 [.setInitW W, .fit d "mle" 0 0] W' [.fitLse d 0 0] rfl (by simp)

/-! ### C163 -/

/-- the number of rows in which both `i` and `j` are marked -/
def bothMarked {k n : Nat} (p : Fin k → Fin n → Prop) [∀ r j, Decidable (p r j)] (i j : Fin n) : Nat :=
  (univ.filter fun r => p r i ∧ p r j).card

theorem boolRows_count {k n : Nat} (p : Fin k → Fin n → Prop) [∀ r j, Decidable (p r j)] (i j : Fin n) :
    ((boolRows fun r j => decide (p r j)).filter fun r => r i && r j).length = bothMarked p i j := by
  unfold boolRows bothMarked
  rw [List.filter_map, List.length_map, ← List.toFinset_card_of_nodup ((List.nodup_finRange k).filter _)]
  congr 1
  ext r
  simp

/-- **C163** `calculate_metrics` on an object that has the attribute of the method (`W_hat_mle` for `"mle"`, `W_hat_lse` otherwise), with no more true latents
than estimated ones: the distance is the least sum of squared differences of absolute weights over all matchings of the latents (missing true latents being zero
rows) and the permutation attains it; the second value is the sum, over all ordered pairs of measurements, of the squared differences between the number of
true latents with non-zero weights on both and the number of estimated latents with absolute weights above the threshold on both; the third is the
number of pairs of measurements that share a latent in one of the two and not in the other. -/
theorem C163_metrics {G : Type} (st : DevState G) (method : String) (threshold : ℝ) {k l n : Nat} (W : Fin k → Fin n → ℝ) (W' : Fin l → Fin n → ℝ)
    (hattr : (if method = "mle" then st.wMle else st.wLse) = some ⟨k, n, of W⟩) (hl : l ≤ k) (hk : 0 < k) :
    ∃ (r : Metrics) (σ : Equiv.Perm (Fin k)), calculateMetrics st method threshold ⟨l, n, of W'⟩ = .ok r ∧
      r.perm = List.ofFn (fun i => (σ i).val) ∧
      r.dist = ∑ i, ∑ j, (|W (σ i) j| - |if h : i.val < l then W' ⟨i, h⟩ j else 0|) ^ 2 ∧
      (∀ τ : Equiv.Perm (Fin k), r.dist ≤ ∑ i, ∑ j, (|W (τ i) j| - |if h : i.val < l then W' ⟨i, h⟩ j else 0|) ^ 2) ∧
      r.sfd = ∑ i, ∑ j, ((bothMarked (fun r j => W' r j ≠ 0) i j : Int) - bothMarked (fun r j => threshold < |W r j|) i j) ^ 2 ∧
      r.ushd = (univ.filter fun e : Fin n × Fin n => e.1 < e.2 ∧
        ¬ ((∃ r, W' r e.1 ≠ 0 ∧ W' r e.2 ≠ 0) ↔ ∃ r, threshold < |W r e.1| ∧ threshold < |W r e.2|)).card := by
  obtain ⟨σ, h1, h2, -⟩ := minPermDist_spec (fun x : ℝ => |x|) id W W' hl hk
  have h3 : minPermDistPy (fun x : ℝ => |x|) id (of W) (of W') = .ok (List.ofFn σ, matchDist (fun x : ℝ => |x|) W (padded id W') σ) := by
    unfold minPermDistPy
    rw [dif_pos rfl]
    exact h1
  have h4 : calculateMetrics st method threshold ⟨l, n, of W'⟩ = .ok ⟨matchDist (fun x : ℝ => |x|) W (padded id W') σ, (List.ofFn σ).map Fin.val,
      (sfd (boolRows fun r j => decide (threshold < |W r j|)) (boolRows fun r j => decide (W' r j ≠ 0))).1,
      (sfd (boolRows fun r j => decide (threshold < |W r j|)) (boolRows fun r j => decide (W' r j ≠ 0))).2⟩ := by
    unfold calculateMetrics
    rw [hattr]
    dsimp only
    rw [h3]
    dsimp only
    have := (C32_sfd_shapes (n := n) ([] : List (BVec n)) (boolRows fun r j => decide (W' r j ≠ 0))).2.2 (boolRows fun r j => decide (threshold < |W r j|))
    erw [this]
  refine ⟨_, σ, h4, ?_, rfl, h2, ?_, ?_⟩
  · rw [List.map_ofFn]; rfl
  · unfold sfd
    dsimp only
    refine sum_congr rfl fun i _ => sum_congr rfl fun j _ => ?_
    rw [wtdUg_eq, wtdUg_eq]
    congr 2
    · exact_mod_cast boolRows_count (fun r j => W' r j ≠ 0) i j
    · exact_mod_cast boolRows_count (fun r j => threshold < |W r j|) i j
  · unfold sfd
    dsimp only
    rw [ushdOf_eq]
    congr 1
    ext e
    simp only [mem_filter, mem_univ, true_and, and_congr_right_iff]
    intro he
    rw [Ne, Bool.eq_iff_iff, recoverUg_apply, recoverUg_apply, not_iff_not]
    simp [boolRows, he.ne]

/-- not vacuous: two estimated latents, one true one -/
example : ∃ r, calculateMetrics (G := Unit) { onePureChild := true, g := (), wLse := some ⟨2, 2, of fun _ _ => 1⟩ } "lse" (1 / 2) ⟨1, 2, of fun _ _ => 1⟩ = .ok r := by
  obtain ⟨r, σ, h, -⟩ := C163_metrics (G := Unit) { onePureChild := true, g := (), wLse := some ⟨2, 2, of fun _ _ => 1⟩ } "lse" (1 / 2)
    (k := 2) (l := 1) (n := 2) (fun _ _ => 1) (fun _ _ => 1) rfl (by norm_num) (by norm_num)
  exact ⟨r, h⟩

end Medil

import Verif.Props.NcfaData
import Verif.Props.NcfaStructure
import Verif.Props.RowOrder
import Verif.Props.ColumnOrder
import Verif.Props.DevLoss
import Mathlib.Analysis.Matrix.Spectrum
/-
  Property theorems C186, C187, C188: units, transformations and order of the data in NCFA and DevMedil.
-/
namespace Medil
open Finset
variable {M : Nat} {G O : Type}

/-! ### C186 -/

/-- **C186** `NeuroCausalFactorAnalysis.fit` (without explicit indices) does not depend on the units of the measurements: after multiplying each column by a
positive number and adding a constant, the call has the same outcome and training record, the files, logs and generators are the same, and all attributes of
the object but the stored dataset are the same. -/
theorem C186_ncfa_units (env : NcfaEnv G O) (d : Dataset M) (a b : Fin M → ℝ) (ha : ∀ j, 0 < a j) (st : NState M) (wd : NWorld G) :
    (ncfaFit env (d.affine a b) none st wd).1 = { (ncfaFit env d none st wd).1 with dataset := some (d.affine a b) } ∧
    (ncfaFit env (d.affine a b) none st wd).2 = (ncfaFit env d none st wd).2 := by
  have hrow : standardizeRow (d.affine a b) = standardizeRow d := by
    funext k j
    exact (C82_standardized d j).2.2.2 (d.affine a b) rfl a b ha (fun _ _ => rfl) k
  have hsplit : ncfaSplit env st.seed (d.affine a b) none = ncfaSplit env st.seed d none := by
    unfold ncfaSplit randomSplit
    rw [hrow]
    rfl
  unfold ncfaFit
  simp only [hsplit]
  rcases ncfaSplit env st.seed d none with e | ⟨t, v⟩
  · exact ⟨rfl, rfl⟩
  · dsimp only
    rcases dataLoader st.hp.batchSize t with e | tl
    · exact ⟨rfl, rfl⟩
    · rcases dataLoader st.hp.batchSize v with e | vl
      · exact ⟨rfl, rfl⟩
      · dsimp only
        generalize trainVae env st.hp tl vl wd.torch = r
        obtain ⟨r1, r2⟩ := r
        rcases r2 with e | h
        · exact ⟨rfl, rfl⟩
        · exact ⟨rfl, rfl⟩

/-! ### C187 -/

/-- the data with each column transformed by its own function -/
def Dataset.transform (d : Dataset M) (f : Fin M → ℝ → ℝ) : Dataset M := { d with val := fun k j => f j (d.val k j) }

theorem pairPvals_mono {N : Nat} (srt : ArgSort ℝ) (Φ : ℝ → ℝ) (s : Fin N → Fin M → ℝ) (f : Fin M → ℝ → ℝ) (hf : ∀ j, StrictMono (f j)) :
    pairPvals (xicorTest srt Φ) (fun k j => f j (s k j)) = pairPvals (xicorTest srt Φ) s := by
  have e : ∀ a b : Fin M, xicorTest srt Φ (fun k => f a (s k a)) (fun k => f b (s k b)) = xicorTest srt Φ (fun k => s k a) (fun k => s k b) := by
    intro a b
    unfold xicorTest
    have h := C51_xicorr_ranks srt Φ (List.ofFn fun k => s k a) (List.ofFn fun k => s k b) true (f a) (f b) (hf a) (hf b)
    rw [List.map_ofFn, List.map_ofFn] at h
    simp only [Function.comp_def] at h
    rw [h]
  funext i j
  unfold pairPvals
  simp only [e]

/-- **C187** `estimate_UDG` with method `"xicor"` depends only on the order of the values in each column: strictly increasing transformations, a different one for
each column, change neither the graph nor the p-values. -/
theorem C187_estimate {N : Nat} (srt : ArgSort ℝ) (Φ : ℝ → ℝ) (lib : TestLib ℝ N) (hlib : lib.xicorTest = xicorTest srt Φ) (s : Fin N → Fin M → ℝ)
    (level : ℝ) (f : Fin M → ℝ → ℝ) (hf : ∀ j, StrictMono (f j)) :
    estimateUDG lib (fun k j => f j (s k j)) (.name "xicor") level = estimateUDG lib s (.name "xicor") level := by
  have h : pairPvals lib.xicorTest (fun k j => f j (s k j)) = pairPvals lib.xicorTest s := by
    rw [hlib]; exact pairPvals_mono srt Φ s f hf
  unfold estimateUDG
  have e1 : ("xicor" = "dcov_fast") = False := by decide
  have e2 : ("xicor" = "g-test") = False := by decide
  have e3 : ("xicor" = "dcov_big") = False := by decide
  simp only [h, e1, e2, e3, if_false]

/-- **C187** so the structure that `NeuroCausalFactorAnalysis` learns with its default method does not depend on strictly increasing transformations of the
measurements, and with `"dcov_fast"` not on their units: after transforming the stored dataset the call has the same outcome and stores the same graph and
structure. -/
theorem C187_structure (srt : ArgSort ℝ) (Φ : ℝ → ℝ) (lib : ∀ N, TestLib ℝ N) (hlib : ∀ N, (lib N).xicorTest = xicorTest srt Φ) (tc : TestChoice)
    (o : Sched M) (st : NState M) (d : Dataset M) (hd : st.dataset = some d) (f : Fin M → ℝ → ℝ)
    (hf : (tc.method = "xicor" ∧ ∀ j, StrictMono (f j)) ∨
      (tc.method = "dcov_fast" ∧ ∃ a b : Fin M → ℝ, (∀ j, a j ≠ 0) ∧ ∀ j x, f j x = a j * x + b j)) :
    (ncfaComputeBiadj lib tc o { st with dataset := some (d.transform f) }).1 =
      { (ncfaComputeBiadj lib tc o st).1 with dataset := some (d.transform f) } ∧
    (ncfaComputeBiadj lib tc o { st with dataset := some (d.transform f) }).2 = (ncfaComputeBiadj lib tc o st).2 := by
  have he : estimateUDG (lib d.size) (d.transform f).val (.name tc.method) tc.alpha = estimateUDG (lib d.size) d.val (.name tc.method) tc.alpha := by
    rcases hf with ⟨hm, hf⟩ | ⟨hm, a, b, ha, hab⟩
    · rw [hm]
      exact C187_estimate srt Φ (lib d.size) (hlib d.size) d.val tc.alpha f hf
    · obtain ⟨u, h1, -, -, -, h2, -⟩ := C47_dcov_fast (lib d.size) d.val tc.alpha
      rw [hm, h1, ← h2 a b ha]
      refine congrArg (fun s => estimateUDG (lib d.size) s (.name "dcov_fast") tc.alpha) ?_
      funext k j
      exact hab j _
  have hu : ncfaUdgOr lib tc { st with dataset := some (d.transform f) } = ncfaUdgOr lib tc st := by
    unfold ncfaUdgOr ncfaEstimateUdg
    dsimp only
    rw [hd]
    cases st.udg with
    | some U => rfl
    | none =>
      dsimp only
      show (match estimateUDG (lib d.size) (d.transform f).val (.name tc.method) tc.alpha with
        | .error e => _ | .ok (u, _) => _) = _
      rw [he]
      rcases estimateUDG (lib d.size) d.val (.name tc.method) tc.alpha with e | ⟨u, p⟩ <;> rfl
  unfold ncfaComputeBiadj
  rw [hu]
  rcases ncfaUdgOr lib tc st with e | U
  · exact ⟨rfl, rfl⟩
  · dsimp only
    rcases findHeuristic1pc o U with e | B
    · exact ⟨rfl, rfl⟩
    · exact ⟨rfl, rfl⟩

/-- the hypothesis on the transformations is met, for instance by the exponential function and the cube on different columns -/
example : ∀ j : Fin 2, StrictMono ((![Real.exp, fun x => x ^ 3] : Fin 2 → ℝ → ℝ) j) := by
  intro j
  fin_cases j
  · exact Real.exp_strictMono
  · exact (Odd.strictMono_pow ⟨1, rfl⟩ : StrictMono fun x : ℝ => x ^ 3)

/-! ### C188 -/

theorem shift_cov (d : Dataset M) (b : Fin M → ℝ) : (d.affine (fun _ => 1) b).cov = d.cov := by
  funext i j
  rw [d.affine_cov, one_mul, one_mul]

/-- **C188** `DevMedil.fit`, `validation_mle` and `validation_lse` depend neither on the order of the observations nor on constants added to the measurements:
same outcome and same object afterwards, for every object state, generator and optimizer. -/
theorem C188_dev_rows (env : DevEnv G) (st : DevState G) (d : Dataset M) (π : Equiv.Perm (Fin d.size)) (b : Fin M → ℝ) (method : String) (lam mu : ℝ) :
    devFit env st ⟨M, (d.reorder π).affine (fun _ => 1) b⟩ method lam mu = devFit env st ⟨M, d⟩ method lam mu ∧
    validationMle env st lam mu ⟨M, (d.reorder π).affine (fun _ => 1) b⟩ = validationMle env st lam mu ⟨M, d⟩ ∧
    validationLse env st lam mu ⟨M, (d.reorder π).affine (fun _ => 1) b⟩ = validationLse env st lam mu ⟨M, d⟩ := by
  have h : ((d.reorder π).affine (fun _ => 1) b).cov = d.cov := by rw [shift_cov, reorder_cov]
  refine ⟨?_, ?_, ?_⟩
  · unfold devFit fitMle fitLse
    simp only [h]
  · unfold validationMle
    simp only [h]
  · unfold validationLse
    simp only [h]

open Matrix in
theorem nuclearNorm_columns {k m : Nat} (W : Matrix (Fin k) (Fin m) ℝ) (π : Equiv.Perm (Fin m)) : nuclearNorm (W.submatrix id π) = nuclearNorm W := by
  have hc : ((W.submatrix id π)ᴴ * W.submatrix id π).charpoly = (Wᴴ * W).charpoly := by
    have : (W.submatrix id π)ᴴ * W.submatrix id π = Matrix.reindex π.symm π.symm (Wᴴ * W) := by
      ext i j
      simp [Matrix.mul_apply]
    rw [this, Matrix.charpoly_reindex]
  have hs : ∀ V : Matrix (Fin k) (Fin m) ℝ, nuclearNorm V = ((Vᴴ * V).charpoly.roots.map Real.sqrt).sum := by
    intro V
    rw [(isHermitian_conjTranspose_mul_self V).roots_charpoly_eq_eigenvalues, Multiset.map_map]
    rfl
  rw [hs, hs, hc]

open Matrix in
/-- **C188** the losses do not depend on the order of the measurements: if the columns of the estimate are reordered like those of the data,
`validation_mle` and `validation_lse` return the same value. -/
theorem C188_dev_columns (env : DevEnv G) (hnuc : ∀ k m (W : Matrix (Fin k) (Fin m) ℝ), env.nuc W = nuclearNorm W) (st st' : DevState G)
    (d : Dataset M) (π : Equiv.Perm (Fin M)) {k : Nat} (W : Matrix (Fin k) (Fin M) ℝ) (D : Matrix (Fin M) (Fin M) ℝ)
    (h : st.est = some ⟨k, M, W, D⟩) (h' : st'.est = some ⟨k, M, fun r j => W r (π j), fun i j => D (π i) (π j)⟩) (lam mu : ℝ) :
    validationMle env st' lam mu ⟨M, d.relabel π⟩ = validationMle env st lam mu ⟨M, d⟩ ∧
    validationLse env st' lam mu ⟨M, d.relabel π⟩ = validationLse env st lam mu ⟨M, d⟩ := by
  have hW : (fun r j => W r (π j)) = W.submatrix id π := rfl
  have hD : (fun i j => D (π i) (π j)) = D.submatrix π π := rfl
  have hS : (Matrix.of fun i j => (d.relabel π).cov i j) = (Matrix.of fun i j => d.cov i j).submatrix π π := rfl
  have hl1 : sigmaL1 (W.submatrix id π) = sigmaL1 W := by
    unfold sigmaL1
    exact sum_congr rfl fun r _ => Equiv.sum_comp π fun j => |W r j|
  have hpen : lam * env.nuc (W.submatrix id π) + mu * sigmaL1 (W.submatrix id π) = lam * env.nuc W + mu * sigmaL1 W := by
    rw [hnuc, hnuc, nuclearNorm_columns, hl1]
  have hmul : (W.submatrix id π)ᵀ * W.submatrix id π = (Wᵀ * W).submatrix π π := by
    ext i j
    simp [Matrix.mul_apply]
  rw [hW, hD] at h'
  constructor
  · have hsig : computeSigma (W.submatrix id π) (D.submatrix π π) = (computeSigma W D).submatrix π π := by
      unfold computeSigma
      rw [hmul]
      rfl
    unfold validationMle
    rw [h, h']
    dsimp only
    rw [dif_pos rfl, dif_pos rfl]
    simp only [Fin.cast_eq_self]
    rw [hS]
    unfold mleLoss
    simp only [hsig, Matrix.det_submatrix_equiv_self, Matrix.inv_submatrix_equiv, Matrix.submatrix_mul_equiv, hpen]
    have ht : ∀ A : Matrix (Fin M) (Fin M) ℝ, (A.submatrix π π).trace = A.trace := fun A => Equiv.sum_comp π fun i => A i i
    simp only [ht]
  · unfold validationLse
    rw [h, h']
    dsimp only
    rw [dif_pos rfl, dif_pos rfl]
    simp only [Fin.cast_eq_self]
    rw [hS]
    unfold lseLoss
    rw [hmul, add_assoc, hpen, add_assoc]
    congr 2
    have hf : froNorm ((Matrix.of (fun i j => d.cov i j) - Wᵀ * W - D).submatrix π π) = froNorm (Matrix.of (fun i j => d.cov i j) - Wᵀ * W - D) := by
      unfold froNorm
      congr 1
      refine Eq.trans ?_ (Equiv.sum_comp π fun i => ∑ j, (Matrix.of (fun i j => d.cov i j) - Wᵀ * W - D) i j ^ 2)
      exact sum_congr rfl fun i _ => Equiv.sum_comp π fun j => (Matrix.of (fun i j => d.cov i j) - Wᵀ * W - D) (π i) j ^ 2
    rw [← hf]
    rfl

end Medil

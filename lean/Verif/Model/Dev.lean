import Verif.Model.Gaussian
import Mathlib.LinearAlgebra.Matrix.NonsingularInverse
import Mathlib.LinearAlgebra.Matrix.Trace
import Mathlib.Logic.Equiv.Fin.Basic
/-
  Model of `DevMedil` (medil/models.py:475-629).

  Floats are exact reals (with the special values of `Fl` for losses).  The numerical optimizer, the random
  generator and the nuclear norm are arbitrary functions.
-/
namespace Medil
open Finset Matrix

/-- a dataset together with its number of columns -/
structure AnyData where
  cols : Nat
  data : Dataset cols

/-- arbitrary external functions used by `DevMedil` -/
structure DevEnv (G : Type) where
  /-- `scipy.optimize.minimize(loss, x0, method="BFGS")` (models.py:518, 572): a vector and `success`, or an exception
  (for instance one raised by the loss) -/
  minimize : {dim : Nat} → ((Fin dim → ℝ) → Except PyErr (Fl ℝ)) → (Fin dim → ℝ) → Except PyErr ((Fin dim → ℝ) × Bool)
  /-- `rng.standard_normal` (models.py:511, 568, 569, 617), `rng.random` (515) -/
  normal : (k : Nat) → G → (Fin k → ℝ) × G
  uniform : (k : Nat) → G → (Fin k → ℝ) × G
  /-- `rng.multivariate_normal(zeros, cov, size)` (models.py:618) -/
  mvn : MvnGen G
  /-- `norm(W, "nuc")` (models.py:597) -/
  nuc : {k m : Nat} → Matrix (Fin k) (Fin m) ℝ → ℝ

/-- the attributes `W_hat`, `D_hat` -/
structure DevEst where
  latents : Nat
  meas : Nat
  W : Matrix (Fin latents) (Fin meas) ℝ
  D : Matrix (Fin meas) (Fin meas) ℝ

/-- the attributes `W_hat_mle`, `W_hat_lse`, `init_W`: matrices of any shape -/
structure AnyMat where
  rows : Nat
  cols : Nat
  mat : Matrix (Fin rows) (Fin cols) ℝ

/-- a `DevMedil` object; `none` is a missing attribute (`init_W = None`, models.py:478).  `g` is the state of its
generator. -/
structure DevState (G : Type) where
  onePureChild : Bool
  g : G
  initW : Option AnyMat := none
  est : Option DevEst := none
  successMle : Option Bool := none
  successLse : Option Bool := none
  wMle : Option AnyMat := none
  dMle : Option AnyMat := none
  wLse : Option AnyMat := none
  dLse : Option AnyMat := none

/-- `num_latent` (models.py:488-491, 550-553) -/
def devLatents (onePureChild : Bool) (m : Nat) : Nat := if onePureChild then m else m ^ 2 / 4

section loss
variable {k m : Nat}

/-- `W_and_D[: num_latent * num_meas].reshape(num_latent, num_meas)` (models.py:495, 520, 557, 574) -/
def devW (x : Fin (k * m + m) → ℝ) : Matrix (Fin k) (Fin m) ℝ :=
  fun r j => x (Fin.castAdd m (finProdFinEquiv (r, j)))

/-- `W_and_D[num_latent * num_meas :]` (models.py:496, 521, 558, 575) -/
def devD (x : Fin (k * m + m) → ℝ) : Fin m → ℝ := fun j => x (Fin.natAdd (k * m) j)

/-- `compute_sigma` (models.py:591-593) -/
def computeSigma (W : Matrix (Fin k) (Fin m) ℝ) (D : Matrix (Fin m) (Fin m) ℝ) : Matrix (Fin m) (Fin m) ℝ := Wᵀ * W + D

/-- `sigma` (models.py:600-601) -/
noncomputable def sigmaL1 (W : Matrix (Fin k) (Fin m) ℝ) : ℝ := ∑ r, ∑ j, |W r j|

/-- `norm(A, "fro")` (models.py:560, 585) -/
noncomputable def froNorm (A : Matrix (Fin m) (Fin m) ℝ) : ℝ := Real.sqrt (∑ i, ∑ j, A i j ^ 2)

/-- the loss of the maximum likelihood fit, from `W`, `D` and the sample covariance (models.py:498-508 and 531-540):
`np.linalg.inv` of a singular matrix raises `LinAlgError`; `np.linalg.slogdet` gives the sign and the logarithm of
the absolute value of the determinant -/
noncomputable def mleLoss (nuc : Matrix (Fin k) (Fin m) ℝ → ℝ) (lam mu : ℝ) (S : Matrix (Fin m) (Fin m) ℝ)
    (W : Matrix (Fin k) (Fin m) ℝ) (D : Matrix (Fin m) (Fin m) ℝ) : Except PyErr (Fl ℝ) :=
  let Sigma := computeSigma W D
  if Sigma.det = 0 then .error .linAlg
  else
    let inv := Sigma⁻¹
    if inv.det ≤ 0 then .ok .pinf
    else .ok (.fin ((S * inv).trace - Real.log |inv.det| + (lam * nuc W + mu * sigmaL1 W)))

/-- the loss of the least squares fit (models.py:560-566 and 585-588) -/
noncomputable def lseLoss (nuc : Matrix (Fin k) (Fin m) ℝ → ℝ) (lam mu : ℝ) (S : Matrix (Fin m) (Fin m) ℝ)
    (W : Matrix (Fin k) (Fin m) ℝ) (D : Matrix (Fin m) (Fin m) ℝ) : ℝ :=
  froNorm (S - Wᵀ * W - D) ^ 2 + lam * nuc W + mu * sigmaL1 W

end loss

variable {G : Type}

/-- `np.hstack([initial_W.flatten(), initial_D])` (models.py:516, 570) -/
def devStart {k m : Nat} (w : Fin (k * m) → ℝ) (d : Fin m → ℝ) : Fin (k * m + m) → ℝ := Fin.append w d

/-- the start values for `W` in `fit_penalized_mle` (models.py:510-514).  An `init_W` with a different number of entries than
`num_latent * num_meas` is not modelled here but in `Model/DevInit.lean`. -/
def mleStart (env : DevEnv G) (st : DevState G) (k m : Nat) : Except PyErr (Fin (k * m) → ℝ) × G :=
  match st.initW with
  | none => let r := env.normal (k * m) st.g; (.ok r.1, r.2)
  | some w =>
    if h : k * m = w.rows * w.cols then
      (.ok fun i => w.mat (finProdFinEquiv.symm (Fin.cast h i)).1 (finProdFinEquiv.symm (Fin.cast h i)).2, st.g)
    else (.error .unmodelled, st.g)

/-- `fit_penalized_mle` (models.py:481-525): the object afterwards and the exception, if any -/
noncomputable def fitMle (env : DevEnv G) (st : DevState G) (d : AnyData) (lam mu : ℝ) : DevState G × Except PyErr Unit :=
  let m := d.cols
  let k := devLatents st.onePureChild m
  let loss := fun x : Fin (k * m + m) → ℝ => mleLoss env.nuc lam mu (Matrix.of d.data.cov) (devW x) (diagonal (devD x))
  let (w, g) := mleStart env st k m
  match w with
  | .error e => ({ st with g := g }, .error e)
  | .ok w =>
    let (u, g) := env.uniform m g
    let st := { st with g := g }
    match env.minimize loss (devStart w u) with
    | .error e => (st, .error e)
    | .ok (x, success) =>
      ({ st with est := some ⟨k, m, devW x, diagonal (devD x)⟩, successMle := some success }, .ok ())

/-- `fit_penalized_lse` (models.py:543-579) -/
noncomputable def fitLse (env : DevEnv G) (st : DevState G) (d : AnyData) (lam mu : ℝ) : DevState G × Except PyErr Unit :=
  let m := d.cols
  let k := devLatents st.onePureChild m
  let loss := fun x : Fin (k * m + m) → ℝ =>
    Except.ok (ε := PyErr) (Fl.fin (lseLoss env.nuc lam mu (Matrix.of d.data.cov) (devW x) (diagonal (devD x))))
  let (w, g) := env.normal (k * m) st.g
  let (u, g) := env.normal m g
  let st := { st with g := g }
  match env.minimize loss (devStart w fun j => |u j|) with
  | .error e => (st, .error e)
  | .ok (x, success) =>
    ({ st with est := some ⟨k, m, devW x, diagonal fun j => |devD x j|⟩, successLse := some success }, .ok ())

/-- `fit` (models.py:621-629) -/
noncomputable def devFit (env : DevEnv G) (st : DevState G) (d : AnyData) (method : String) (lam mu : ℝ) :
    DevState G × Except PyErr Unit :=
  if method = "mle" then fitMle env st d lam mu
  else if method = "lse" then fitLse env st d lam mu
  else (st, .error .valueError)

/-- `validation_mle` (models.py:527-540).  For data with another number of columns than the estimate: if it is 1, `np.cov` is
0-dimensional and `np.dot` multiplies all entries of the inverse by it; otherwise `np.dot` is a `ValueError`.  The inverse and the test of the sign
come first. -/
noncomputable def validationMle (env : DevEnv G) (st : DevState G) (lam mu : ℝ) (d : AnyData) : Except PyErr (Fl ℝ) :=
  match st.est with
  | none => .error .attributeError
  | some e =>
    if h : d.cols = e.meas then
      mleLoss env.nuc lam mu (Matrix.of fun i j => d.data.cov (Fin.cast h.symm i) (Fin.cast h.symm j)) e.W e.D
    else
      let Sigma := computeSigma e.W e.D
      if Sigma.det = 0 then .error .linAlg
      else
        let inv := Sigma⁻¹
        if inv.det ≤ 0 then .ok .pinf
        else if h : d.cols = 1 then
          let c := d.data.cov (Fin.cast h.symm 0) (Fin.cast h.symm 0)
          .ok (.fin ((c • inv).trace - Real.log |inv.det| + (lam * env.nuc e.W + mu * sigmaL1 e.W)))
        else .error .valueError

/-- `validation_lse` (models.py:581-588).  For data with another number of columns than the estimate: if one of the two numbers is 1, the
`1 × 1` (or 0-dimensional) operands of the subtractions are stretched to the shape of the other (numpy broadcasting); otherwise the subtraction is a
`ValueError`. -/
noncomputable def validationLse (env : DevEnv G) (st : DevState G) (lam mu : ℝ) (d : AnyData) : Except PyErr ℝ :=
  match st.est with
  | none => .error .attributeError
  | some e =>
    if h : d.cols = e.meas then
      .ok (lseLoss env.nuc lam mu (Matrix.of fun i j => d.data.cov (Fin.cast h.symm i) (Fin.cast h.symm j)) e.W e.D)
    else if h : d.cols = 1 then
      .ok (lseLoss env.nuc lam mu (Matrix.of fun _ _ => d.data.cov (Fin.cast h.symm 0) (Fin.cast h.symm 0)) e.W e.D)
    else if h : e.meas = 1 then
      .ok (froNorm (Matrix.of fun i j => d.data.cov i j - (e.Wᵀ * e.W) (Fin.cast h.symm 0) (Fin.cast h.symm 0) -
        e.D (Fin.cast h.symm 0) (Fin.cast h.symm 0)) ^ 2 + lam * env.nuc e.W + mu * sigmaL1 e.W)
    else .error .valueError

/-- lines 616-619 of `sample` (models.py); `multivariate_normal` with an empty mean is a `ValueError` -/
noncomputable def drawSample (env : DevEnv G) (W D : AnyMat) (size : Nat) (g : G) :
    Except PyErr (Fin size → Fin W.cols → ℝ) × G :=
  let (z, g) := env.normal (size * W.rows) g
  if W.cols = 0 then (.error .valueError, g) else
  if h : D.rows = W.cols ∧ D.cols = W.cols then
    let (e, g) := env.mvn.mvn (fun _ : Fin W.cols => 0)
      (fun i j => D.mat (Fin.cast h.1.symm i) (Fin.cast h.2.symm j)) size g
    (.ok fun k j => (∑ r, z (finProdFinEquiv (k, r)) * W.mat r j) + e k j, g)
  else (.error .valueError, g)

/-- `sample` (models.py:603-619): the object afterwards and the array, with its number of columns -/
noncomputable def devSample (env : DevEnv G) (st : DevState G) (size : Nat) (method : String) :
    DevState G × Except PyErr (Σ m, Fin size → Fin m → ℝ) :=
  if method = "mle" ∨ method = "lse" then
    match (if method = "mle" then st.wMle else st.wLse), (if method = "mle" then st.dMle else st.dLse) with
    | some W, some D =>
      let (r, g) := drawSample env W D size st.g
      ({ st with g := g }, r.map fun s => ⟨W.cols, s⟩)
    | _, _ => (st, .error .valueError)
  else (st, .error .valueError)

/-- a call on a `DevMedil` object, or the assignment `obj.init_W = W` -/
inductive DevCall where
  | fit (d : AnyData) (method : String) (lam mu : ℝ)
  | fitMle (d : AnyData) (lam mu : ℝ)
  | fitLse (d : AnyData) (lam mu : ℝ)
  | sample (size : Nat) (method : String)
  | validationMle (lam mu : ℝ) (d : AnyData)
  | validationLse (lam mu : ℝ) (d : AnyData)
  | setInitW (W : AnyMat)

/-- the object after a call (exceptions are caught by the caller) -/
noncomputable def DevCall.run (env : DevEnv G) (st : DevState G) : DevCall → DevState G
  | .fit d method lam mu => (devFit env st d method lam mu).1
  | .fitMle d lam mu => (Medil.fitMle env st d lam mu).1
  | .fitLse d lam mu => (Medil.fitLse env st d lam mu).1
  | .sample size method => (devSample env st size method).1
  | .validationMle _ _ _ => st
  | .validationLse _ _ _ => st
  | .setInitW W => { st with initW := some W }

/-- the object after a history of calls -/
noncomputable def devRun (env : DevEnv G) (st : DevState G) (calls : List DevCall) : DevState G :=
  calls.foldl (DevCall.run env) st

end Medil

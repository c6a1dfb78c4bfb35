import Verif.Model.Dev
/-
  `fit_penalized_mle` (medil/models.py:481-525) with an `init_W` of any size: the vector given to the optimizer has
  `init_W.size + num_meas` entries, and the loss slices and broadcasts it.  `Model/Dev.lean` models the case in which the size is right.
-/
namespace Medil
open Matrix

/-- numpy broadcasting of an `m × m` and a `t × t` array: the size of the result, `none` if they do not fit (`ValueError`) -/
def bcastSquare (m t : Nat) : Option Nat := if t = m then some m else if t = 1 then some m else if m = 1 then some t else none

/-- an index of a broadcast axis as an index of the array of length `a`: the same, or 0 if the array has length 1 -/
def bcastAxis (a : Nat) (i : Nat) : Nat := if a = 1 then 0 else i

/-- the loss (models.py:494-508) at a vector with `s` entries, given the sample covariance (for `m = 1` a number: `np.cov` of one
variable is zero-dimensional, and `np.dot` with it is multiplication): `reshape` of a slice with too few entries and the addition of arrays
whose shapes cannot be broadcast raise `ValueError` -/
noncomputable def mleLossAny (nuc : {k m : Nat} → Matrix (Fin k) (Fin m) ℝ → ℝ) (lam mu : ℝ) {m : Nat} (k : Nat) (S : Matrix (Fin m) (Fin m) ℝ)
    {s : Nat} (x : Fin s → ℝ) : Except PyErr (Fl ℝ) :=
  let at' := fun i : Nat => if h : i < s then x ⟨i, h⟩ else 0
  if s < k * m then .error .valueError
  else
    let W : Matrix (Fin k) (Fin m) ℝ := fun r j => at' (r.val * m + j.val)
    match bcastSquare m (s - k * m) with
    | none => .error .valueError
    | some b =>
      -- entries of `W.T @ W` and of `D`
      let P := fun i j : Nat => if h : i < m ∧ j < m then (Wᵀ * W) ⟨i, h.1⟩ ⟨j, h.2⟩ else 0
      let D := fun i j : Nat => if i = j then at' (k * m + i) else 0
      let Sigma : Matrix (Fin b) (Fin b) ℝ :=
        fun i j => P (bcastAxis m i) (bcastAxis m j) + D (bcastAxis (s - k * m) i) (bcastAxis (s - k * m) j)
      if Sigma.det = 0 then .error .linAlg
      else
        let inv := Sigma⁻¹
        if inv.det ≤ 0 then .ok .pinf
        else
          let St := fun i j : Nat => if h : i < m ∧ j < m then S ⟨i, h.1⟩ ⟨j, h.2⟩ else 0
          let tr := if m = 1 then St 0 0 * inv.trace else ∑ i, ∑ j, St (i : Fin b).val j.val * inv j i
          .ok (.fin (tr - Real.log |inv.det| + (lam * nuc W + mu * sigmaL1 W)))

/-- what `fit_penalized_mle` stores: `D_hat` may have another size than the data -/
structure DevEstAny where
  W : AnyMat
  D : AnyMat

variable {G : Type}

/-- lines 515-521 of `fit_penalized_mle` (models.py) from the flattened start values `w` for the weights.  Only one random
draw is made, the start of the variances (515). -/
noncomputable def fitMleFrom (env : DevEnv G) (k : Nat) {s : Nat} (w : Fin s → ℝ) (g : G) (d : AnyData) (lam mu : ℝ) : Except PyErr (DevEstAny × Bool) :=
  let m := d.cols
  match env.minimize (mleLossAny env.nuc lam mu k (Matrix.of d.data.cov)) (Fin.append w (env.uniform m g).1) with
  | .error e => .error e
  | .ok (x, success) =>
    let at' := fun i : Nat => if h : i < s + m then x ⟨i, h⟩ else 0
    if s + m < k * m then .error .valueError
    else .ok (⟨⟨k, m, fun r j => at' (r.val * m + j.val)⟩,
      ⟨s + m - k * m, s + m - k * m, fun i j => if i = j then at' (k * m + i.val) else 0⟩⟩, success)

/-- `fit_penalized_mle` (models.py:481-525) of an object with `init_W = W`: what it stores, or the exception -/
noncomputable def fitMleInit (env : DevEnv G) (opc : Bool) (W : AnyMat) (g : G) (d : AnyData) (lam mu : ℝ) : Except PyErr (DevEstAny × Bool) :=
  fitMleFrom env (devLatents opc d.cols) (fun i : Fin (W.rows * W.cols) => W.mat (finProdFinEquiv.symm i).1 (finProdFinEquiv.symm i).2) g d lam mu

end Medil

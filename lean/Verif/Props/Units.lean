import Verif.Props.LeastSquares
/-
  Property theorem C185: the units of the measurements and the parameters of `GaussianMCM.fit`.
-/
namespace Medil
open Finset
variable {M : Nat}

/-- the sample covariance matrix -/
noncomputable def dataCov (d : Dataset M) (i j : Fin M) : ℝ := sampleCov (fun k => d.val k i) fun k => d.val k j

/-- **C185** (as stated; false) if weights and error variances are a least squares solution for the data, the rescaled weights and variances are one for the
data in other units. -/
def C185_statement : Prop :=
  ∀ (M : Nat) (d : Dataset M) (B : List (BVec M)) (W : Fin B.length → Fin M → ℝ) (v : Fin M → ℝ) (c b : Fin M → ℝ), (∀ j, c j ≠ 0) →
    LeastSquares (dataCov d) B W v → LeastSquares (dataCov (d.affine c b)) B (fun r j => c j * W r j) (fun j => c j ^ 2 * v j)

theorem dataCov_affine (d : Dataset M) (c b : Fin M → ℝ) (i j : Fin M) : dataCov (d.affine c b) i j = c i * c j * dataCov d i j := by
  exact d.affine_cov c b i j

theorem modelCov_scale {k : Nat} (W : Fin k → Fin M → ℝ) (v c : Fin M → ℝ) (i j : Fin M) :
    modelCov (fun r j => c j * W r j) (fun j => c j ^ 2 * v j) i j = c i * c j * modelCov W v i j := by
  unfold modelCov
  rw [mul_add, mul_sum]
  congr 1
  · exact sum_congr rfl fun r _ => by ring
  · split_ifs with h
    · subst h; ring
    · ring

theorem onStructure_scale {B : List (BVec M)} {W : Fin B.length → Fin M → ℝ} (h : OnStructure B W) (c : Fin M → ℝ) :
    OnStructure B fun r j => c j * W r j := fun r j hr => by simp only [h r j hr, mul_zero]

/-- **C185** the part of the claim that holds, 1: all columns multiplied by the same factor, up to sign, with any shifts. -/
theorem C185_common_factor_partial (d : Dataset M) (B : List (BVec M)) (W : Fin B.length → Fin M → ℝ) (v : Fin M → ℝ) (c b : Fin M → ℝ) (a : ℝ)
    (ha : a ≠ 0) (hc : ∀ j, c j = a ∨ c j = -a) (h : LeastSquares (dataCov d) B W v) :
    LeastSquares (dataCov (d.affine c b)) B (fun r j => c j * W r j) (fun j => c j ^ 2 * v j) := by
  have hc2 : ∀ j, c j * c j = a * a := fun j => by rcases hc j with h | h <;> simp [h]
  have hc0 : ∀ j, c j ≠ 0 := fun j h0 => by have := hc2 j; rw [h0] at this; exact ha (mul_self_eq_zero.mp (by linarith))
  have hd : ∀ (W : Fin B.length → Fin M → ℝ) (v : Fin M → ℝ),
      sqDist (dataCov (d.affine c b)) (modelCov (fun r j => c j * W r j) fun j => c j ^ 2 * v j) = a ^ 4 * sqDist (dataCov d) (modelCov W v) := by
    intro W v
    unfold sqDist
    rw [mul_sum]
    refine sum_congr rfl fun i _ => ?_
    rw [mul_sum]
    refine sum_congr rfl fun j _ => ?_
    rw [dataCov_affine, modelCov_scale, ← mul_sub, mul_pow]
    congr 1
    calc (c i * c j) ^ 2 = (c i * c i) * (c j * c j) := by ring
      _ = a ^ 4 := by rw [hc2, hc2]; ring
  refine ⟨onStructure_scale h.1 c, fun W' v' hW' => ?_⟩
  obtain ⟨W'', rfl⟩ : ∃ W'' : Fin B.length → Fin M → ℝ, W' = fun r j => c j * W'' r j :=
    ⟨fun r j => (c j)⁻¹ * W' r j, by funext r j; rw [mul_inv_cancel_left₀ (hc0 j)]⟩
  obtain ⟨v'', rfl⟩ : ∃ v'' : Fin M → ℝ, v' = fun j => c j ^ 2 * v'' j :=
    ⟨fun j => (c j ^ 2)⁻¹ * v' j, by funext j; rw [mul_inv_cancel_left₀ (pow_ne_zero 2 (hc0 j))]⟩
  have hW'' : OnStructure B W'' := fun r j hr => (mul_eq_zero.mp (hW' r j hr)).resolve_left (hc0 j)
  rw [hd, hd]
  exact mul_le_mul_of_nonneg_left (h.2 W'' v'' hW'') (by positivity)

/-- **C185** the part of the claim that holds, 2: any units, if the solution reproduces the sample variances and the sample covariances of all pairs with a
common parent (so if the data fit the structure, and for structures with at most two children per latent). -/
theorem C185_exact_partial (d : Dataset M) (B : List (BVec M)) (W : Fin B.length → Fin M → ℝ) (v : Fin M → ℝ) (c b : Fin M → ℝ)
    (hW : OnStructure B W) (hfit : ∀ i j, i = j ∨ CommonParent B i j → dataCov d i j = modelCov W v i j) :
    LeastSquares (dataCov d) B W v ∧ LeastSquares (dataCov (d.affine c b)) B (fun r j => c j * W r j) (fun j => c j ^ 2 * v j) := by
  have key : ∀ (d : Dataset M) (W : Fin B.length → Fin M → ℝ) (v : Fin M → ℝ), OnStructure B W →
      (∀ i j, i = j ∨ CommonParent B i j → dataCov d i j = modelCov W v i j) → LeastSquares (dataCov d) B W v := by
    intro d W v hW hfit
    refine ⟨hW, fun W' v' hW' => ?_⟩
    refine le_trans (le_of_eq ?_) (unexplained_le (dataCov d) B W' v' hW')
    unfold sqDist unexplained
    refine sum_congr rfl fun i _ => sum_congr rfl fun j _ => ?_
    split_ifs with hij
    · have : modelCov W v i j = 0 := by
        unfold modelCov
        rw [if_neg hij.1, add_zero]
        refine sum_eq_zero fun r _ => ?_
        by_cases h1 : B[r] i = true
        · have : B[r] j = false := by
            by_contra h2
            exact hij.2 ⟨r, h1, by simpa using h2⟩
          rw [hW r j this, mul_zero]
        · rw [hW r i (by simpa using h1), zero_mul]
      rw [this, sub_zero]
    · rw [hfit i j (by by_contra hn; push Not at hn; exact hij ⟨hn.1, hn.2⟩), sub_self, zero_pow two_ne_zero]
  refine ⟨key d W v hW hfit, key _ _ _ (onStructure_scale hW c) fun i j hij => ?_⟩
  rw [dataCov_affine, modelCov_scale, hfit i j hij]

/-- **C185** the part of the claim that holds, 3: if the sample covariance is that of weights with three indicators per latent, `fit` on the data in other
units, with an optimizer that finds global minima, stores the rescaled error variances, and the rescaled weights up to the sign of each latent. -/
theorem C185_fit_partial (opt : Optimizer) (hopt : opt.Ideal) (o : Sched M) (d : Dataset M) (c b : Fin M → ℝ) (hc : ∀ j, c j ≠ 0) (st : GState M)
    (warned : Bool) (h : (gaussianFit opt o (d.affine c b) st).2 = .ok warned) (B : List (BVec M))
    (hB : (gaussianFit opt o (d.affine c b) st).1.biadj = B) (W0 : Fin B.length → Fin M → ℝ) (v0 : Fin M → ℝ) (hW0 : OnStructure B W0)
    (h3 : ThreeIndicators B W0) (hcov : ∀ i j, dataCov d i j = modelCov W0 v0 i j) :
    ∃ (p : GParams M) (hp : p.weightsOn = B) (s : Fin B.length → ℝ), (gaussianFit opt o (d.affine c b) st).1.params = some p ∧
      (∀ j, p.variances j = c j ^ 2 * v0 j) ∧ (∀ r, s r = 1 ∨ s r = -1) ∧
      ∀ r j, p.weights (Fin.cast (by rw [hp]) r) j = s r * (c j * W0 r j) := by
  obtain ⟨p, hp, s, h1, h2, h4, h5⟩ := C118_fit_identifies opt hopt o (d.affine c b) st warned h B hB (fun r j => c j * W0 r j)
    (fun j => c j ^ 2 * v0 j) (onStructure_scale hW0 c) (by
      intro r
      obtain ⟨x, y, z, h1, h2, h4, h5, h6, h7, h8, h9⟩ := h3 r
      exact ⟨x, y, z, h1, h2, h4, h5, h6, mul_ne_zero (hc x) h7, mul_ne_zero (hc y) h8, mul_ne_zero (hc z) h9⟩) (fun i j => by
      rw [modelCov_scale, ← hcov]; exact dataCov_affine d c b i j)
  exact ⟨p, hp, s, h1, fun j => congrFun h2 j, h4, h5⟩

/-! ### the counterexample -/

/-- ten observations of four measurements; measurements 0 and 1, and 2 and 3, are correlated a little more than the other pairs -/
noncomputable def blocks : Dataset 4 :=
  { size := 10, two_le := by omega, val := fun k j => ![![1, 1, 1, 1], ![1, 1, 1, 1], ![1, 1, 1, 1], ![1, 1, 0, 0], ![0, 0, 1, 1],
      ![-1, -1, -1, -1], ![-1, -1, -1, -1], ![-1, -1, -1, -1], ![-1, -1, 0, 0], ![0, 0, -1, -1]] k j }

theorem blocks_cov (i j : Fin 4) : dataCov blocks i j =
    ![![8 / 9, 8 / 9, 2 / 3, 2 / 3], ![8 / 9, 8 / 9, 2 / 3, 2 / 3], ![2 / 3, 2 / 3, 8 / 9, 8 / 9], ![2 / 3, 2 / 3, 8 / 9, 8 / 9]] i j := by
  unfold dataCov sampleCov sampleMean
  show (∑ k : Fin 10, _) / (((10 : ℕ) : ℝ) - 1) = _
  unfold blocks
  fin_cases i <;> fin_cases j <;> simp [Fin.sum_univ_succ] <;> norm_num

/-- one latent with four children -/
def fourChildren : List (BVec 4) := [BVec.full]

def q0 : Fin fourChildren.length := ⟨0, by decide⟩

theorem blocks_objective (c : Fin 4 → ℝ) (W : Fin fourChildren.length → Fin 4 → ℝ) (v : Fin 4 → ℝ) :
    sqDist (fun i j => c i * c j * dataCov blocks i j) (modelCov W v) =
      ∑ i, (c i ^ 2 * (8 / 9) - W q0 i ^ 2 - v i) ^ 2 + 2 * ((c 0 * c 1 * (8 / 9) - W q0 0 * W q0 1) ^ 2 + (c 2 * c 3 * (8 / 9) - W q0 2 * W q0 3) ^ 2 +
        (c 0 * c 2 * (2 / 3) - W q0 0 * W q0 2) ^ 2 + (c 0 * c 3 * (2 / 3) - W q0 0 * W q0 3) ^ 2 +
        (c 1 * c 2 * (2 / 3) - W q0 1 * W q0 2) ^ 2 + (c 1 * c 3 * (2 / 3) - W q0 1 * W q0 3) ^ 2) := by
  have hs : ∀ i j : Fin 4, (∑ r : Fin fourChildren.length, W r i * W r j) = W q0 i * W q0 j :=
    fun i j => Fin.sum_univ_one (fun r : Fin 1 => W r i * W r j)
  unfold sqDist modelCov
  simp only [blocks_cov, hs, Fin.sum_univ_four]
  simp
  ring

/-- the least squares solution: all weights are the root of 20/27 -/
theorem blocks_solution : LeastSquares (dataCov blocks) fourChildren (fun _ _ => Real.sqrt (20 / 27)) (fun _ => 8 / 9 - 20 / 27) := by
  have hm : Real.sqrt (20 / 27) * Real.sqrt (20 / 27) = 20 / 27 := Real.mul_self_sqrt (by norm_num)
  have hall : ∀ (r : Fin fourChildren.length) j, fourChildren[r] j = true := by decide +kernel
  refine ⟨fun r j h => by rw [hall] at h; exact absurd h (by decide), fun W' v' _ => ?_⟩
  have e := blocks_objective (fun _ => 1)
  simp only [one_mul, one_pow] at e
  rw [e, e]
  have s0 : 0 ≤ ∑ i, (8 / 9 - W' q0 i ^ 2 - v' i) ^ 2 := sum_nonneg fun i _ => sq_nonneg _
  have s1 : ∑ i : Fin 4, (8 / 9 - Real.sqrt (20 / 27) ^ 2 - (8 / 9 - 20 / 27)) ^ 2 = 0 := by
    rw [sq (Real.sqrt _), hm]; norm_num
  rw [s1, hm]
  generalize W' q0 0 = a at *
  generalize W' q0 1 = b at *
  generalize W' q0 2 = c at *
  generalize W' q0 3 = d at *
  nlinarith [sq_nonneg (a * b + c * d - 40 / 27), sq_nonneg (a * c + b * d - 40 / 27), sq_nonneg (a * d + b * c - 40 / 27),
    sq_nonneg (a * b - c * d), sq_nonneg (a * c - b * d), sq_nonneg (a * d - b * c)]

/-- **C185** fails: one latent with four children; in the unit of the data all weights are equal, and when the first measurement is given in half its unit, so
that its values double, the rescaled weights are no longer best: a larger weight of the second measurement is better. -/
theorem C185_units : LeastSquares (dataCov blocks) fourChildren (fun _ _ => Real.sqrt (20 / 27)) (fun _ => 8 / 9 - 20 / 27) ∧
    ∀ b : Fin 4 → ℝ, ¬ LeastSquares (dataCov (blocks.affine ![2, 1, 1, 1] b)) fourChildren
      (fun _ j => ![2, 1, 1, 1] j * Real.sqrt (20 / 27)) (fun j => ![2, 1, 1, 1] j ^ 2 * (8 / 9 - 20 / 27)) := by
  refine ⟨blocks_solution, fun b h => ?_⟩
  have hm : Real.sqrt (20 / 27) * Real.sqrt (20 / 27) = 20 / 27 := Real.mul_self_sqrt (by norm_num)
  have hall : ∀ (r : Fin fourChildren.length) j, fourChildren[r] j = true := by decide +kernel
  have h2 := h.2 (fun _ j => ![2, 11 / 10, 1, 1] j * Real.sqrt (20 / 27))
    (fun j => ![2, 1, 1, 1] j ^ 2 * (8 / 9) - (![2, 11 / 10, 1, 1] j * Real.sqrt (20 / 27)) ^ 2)
    (fun r j h => by rw [hall] at h; exact absurd h (by decide))
  have ec : dataCov (blocks.affine ![2, 1, 1, 1] b) = fun i j => (![2, 1, 1, 1] : Fin 4 → ℝ) i * (![2, 1, 1, 1] : Fin 4 → ℝ) j * dataCov blocks i j := by
    funext i j; exact dataCov_affine _ _ _ _ _
  rw [ec, blocks_objective, blocks_objective] at h2
  simp only [Fin.sum_univ_four] at h2
  simp at h2
  generalize Real.sqrt (20 / 27) = m at *
  have hm2 : m ^ 2 = 20 / 27 := by rw [sq]; exact hm
  have hm4 : m ^ 4 = (20 / 27) ^ 2 := by rw [← hm2]; ring
  nlinarith

theorem C185_false : ¬ C185_statement := fun h =>
  C185_units.2 0 (h 4 blocks fourChildren _ _ ![2, 1, 1, 1] 0 (by intro j; fin_cases j <;> norm_num) C185_units.1)

/-- **non-vacuity of C185**: the ten observations in other units, with the sign of the first measurement turned -/
example : LeastSquares (dataCov (blocks.affine ![-3, 3, 3, 3] ![0, 1, 2, 3])) fourChildren
    (fun _ j => ![-3, 3, 3, 3] j * Real.sqrt (20 / 27)) (fun j => ![-3, 3, 3, 3] j ^ 2 * (8 / 9 - 20 / 27)) :=
  C185_common_factor_partial blocks fourChildren _ _ ![-3, 3, 3, 3] ![0, 1, 2, 3] 3 (by norm_num)
    (fun j => by fin_cases j <;> simp) blocks_solution

/-- **non-vacuity of C185**: data that fit the structure, in any units -/
example (c b : Fin 3 → ℝ) : LeastSquares (dataCov (threeChildren.affine c b)) [BVec.full] (fun _ j => c j * 1) (fun j => c j ^ 2 * ![1, 1, 0] j) :=
  (C185_exact_partial threeChildren [BVec.full] (fun _ _ => 1) ![1, 1, 0] c b
    (fun r j h => by have h2 : r = ⟨0, by simp⟩ := Fin.ext (by have := r.isLt; simp at this ⊢)
                     subst h2; simp at h)
    (fun i j _ => threeChildren_cov i j)).2

end Medil

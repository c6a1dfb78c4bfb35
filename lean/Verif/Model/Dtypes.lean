import Verif.Model.Sample
import Verif.Model.Gaussian
import Verif.Model.Evaluate
/-
  The functions that take a structure, on arrays of other element types than bool: 0/1 integers (as in
  `medil.examples` or `np.array([[0, 1], ...])`) and floats.  `W[B] = w` means something else when `B` is an
  integer array.
-/
namespace Medil
open Finset

/-- `W = np.zeros_like(B, float); W[B] = w` for an *integer* array `B` of zeros and ones with `L` rows and `M` columns and a
vector `w` of length `E` (sample.py:25-26, models.py:94-95, 107-108): the entries of `B` are row numbers, so the assignment writes
`w` to row `B[i, j]` of `W`, for all `i`, `j`.  Row number 1 does not exist for `L = 1`; `w` is broadcast to rows of length `M`.
(If both conditions fail, which of the two exceptions is raised is of no importance.) -/
def intAssign {K : Type} [Zero K] {L M E : Nat} (B : Fin L → Fin M → Bool) (w : Fin E → K) : Except PyErr (Fin L → Fin M → K) :=
  if hE : E = M ∨ E = 1 then
    if ∃ i j, L ≤ (B i j).toNat then .error .indexError
    else .ok fun r j => if ∃ i j', (B i j').toNat = r.val then
        w (if h : E = M then j.cast h.symm else ⟨0, by omega⟩) else 0
  else .error .valueError

/-- number of ones: `biadj.sum()` (sample.py:22, models.py:87) -/
def intOnes {L M : Nat} (B : Fin L → Fin M → Bool) : Nat := (univ.filter fun e : Fin L × Fin M => B e.1 e.2 = true).card

/-- what `mcm` stores in the model it returns; weights, error means and error variances -/
structure NumParams (L M : Nat) where
  weights : Fin L → Fin M → ℚ
  means : Fin M → ℚ
  variances : Fin M → ℚ

/-- lines 19-32 of `mcm(biadj=B)` (sample.py) for an integer array `B` of size > 0 -/
def mcmInt {G : Type} (gen : Gen G) {L M : Nat} (B : Fin L → Fin M → Bool) (g : G) : Except PyErr (NumParams L M) × G :=
  let (w, g) := gen.randomVec (intOnes B) g
  let (f, g) := gen.choiceVec (intOnes B) g
  match intAssign B (fun k => flipped (f k) (w k * (3 / 2) + 1 / 2)) with
  | .error e => (.error e, g)
  | .ok W =>
    let (m, g) := gen.randomVec M g
    let (mf, g) := gen.choiceVec M g
    let (v, g) := gen.randomVec M g
    (.ok { weights := W, means := fun j => flipped (mf j) (m j * 2), variances := fun j => v j * (3 / 2) + 1 / 2 }, g)

/-- `_objective` (models.py:90-99) for an integer array; only evaluated if the assignment is possible -/
noncomputable def intObjective {L M : Nat} (d : Dataset M) (B : Fin L → Fin M → Bool) (x : Fin (intOnes B + M) → ℝ) : ℝ :=
  match intAssign B (headPart x) with
  | .error _ => 0
  | .ok W => ∑ i, ∑ j, (d.cov i j - (∑ r, W r i * W r j) - (if i = j then tailPart x i else 0)) ^ 2

/-- lines 83-110 of `GaussianMCM.fit` (models.py) for an integer array `B` of size > 0: error means, error variances, weights.
The first evaluation of the objective raises if the assignment does. -/
noncomputable def fitInt {L M : Nat} (opt : Optimizer) (d : Dataset M) (B : Fin L → Fin M → Bool) :
    Except PyErr ((Fin M → ℝ) × (Fin M → ℝ) × (Fin L → Fin M → ℝ)) :=
  match intAssign B (fun _ : Fin (intOnes B) => (1 : ℝ)) with
  | .error e => .error e
  | .ok _ =>
    let r := opt _ (intObjective d B)
    match intAssign B (headPart r.1) with
    | .error e => .error e
    | .ok W => .ok (d.mean, tailPart r.1, W)

/-- `astype(int)` of a float: truncation towards zero (evaluate.py:26-27) -/
def truncInt (x : ℚ) : Int := if 0 ≤ x then ⌊x⌋ else ⌈x⌉

/-- `recover_ug` (evaluate.py:37-52) on an array of numbers -/
def recoverUgNum {L M : Nat} (W : Fin L → Fin M → ℚ) (i j : Fin M) : ℚ := if i = j then 0 else ∑ r, W r i * W r j

/-- `sfd(predicted_biadj, true_biadj)` (evaluate.py:7-34) on arrays of numbers with equally many columns: `logical_xor` compares
with zero, the weighted graphs are computed from the truncated entries -/
def sfdNum {L L' M : Nat} (predicted : Fin L → Fin M → ℚ) (true' : Fin L' → Fin M → ℚ) : Int × Nat :=
  (∑ i, ∑ j, ((∑ r, truncInt (true' r i) * truncInt (true' r j)) - ∑ r, truncInt (predicted r i) * truncInt (predicted r j)) ^ 2,
   (triuPairs M).countP fun e => xor (decide (recoverUgNum true' e.1 e.2 ≠ 0)) (decide (recoverUgNum predicted e.1 e.2 ≠ 0)))

end Medil

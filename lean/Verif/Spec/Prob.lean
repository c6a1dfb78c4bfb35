import Verif.Spec.Gaussian
import Mathlib.Probability.Distributions.Gaussian.HasGaussianLaw.Independence
/-
  Vocabulary for the properties about the distribution of samples; nothing here mentions the model.
-/
namespace Medil
open MeasureTheory ProbabilityTheory

/-- a random `size × k` array whose rows are independent normal vectors with mean `mean` and covariance
matrix `C`: jointly normal, with these first and second moments, and uncorrelated rows (for jointly normal
variables uncorrelated is independent) -/
structure NormalRows {Ω : Type} [MeasurableSpace Ω] (μ : Measure Ω) {size k : Nat}
    (X : Ω → Fin size → Fin k → ℝ) (mean : Fin k → ℝ) (C : Fin k → Fin k → ℝ) : Prop where
  normal : HasGaussianLaw (fun ω => fun p : Fin size × Fin k => X ω p.1 p.2) μ
  mean_eq : ∀ a i, ∫ ω, X ω a i ∂μ = mean i
  cov_eq : ∀ a b i j, cov[fun ω => X ω a i, fun ω => X ω b j; μ] = if a = b then C i j else 0

variable {M : Nat}

/-- an array `s` of samples follows the linear model with structure `B`, weights `W`, error means `mean` and
error variances `v`: its rows are independent normal vectors with mean `mean` and covariance
`W'W + diag v`; measurements without common parents are independent, also jointly; two measurements with
exactly one common parent are dependent if both weights are non-zero -/
structure FollowsModel {Ω : Type} [MeasurableSpace Ω] (μ : Measure Ω) {size : Nat} (s : Ω → Fin size → Fin M → ℝ)
    (B : List (BVec M)) (W : Fin B.length → Fin M → ℝ) (mean v : Fin M → ℝ) : Prop where
  normal : NormalRows μ s mean (modelCov W v)
  rows : iIndepFun (fun a ω => s ω a) μ
  separated : ∀ S T : Finset (Fin M), Disjoint S T → (∀ i ∈ S, ∀ j ∈ T, ∀ r ∈ B, ¬ (r i = true ∧ r j = true)) →
    IndepFun (fun ω (q : Fin size × S) => s ω q.1 q.2) (fun ω (q : Fin size × T) => s ω q.1 q.2) μ
  connected : ∀ a i j (r : Fin B.length), i ≠ j →
    (∀ r' : Fin B.length, B[r'] i = true ∧ B[r'] j = true ↔ r' = r) → W r i ≠ 0 → W r j ≠ 0 →
    ¬ IndepFun (fun ω => s ω a i) (fun ω => s ω a j) μ

/-- a random `size × k` array with independent rows, each with mean `mean`, covariance matrix `C` and centred fourth moments at
most `K`; the rows need not be normal or identically distributed -/
structure IndepRows {Ω : Type} [MeasurableSpace Ω] (μ : Measure Ω) {size k : Nat}
    (X : Ω → Fin size → Fin k → ℝ) (mean : Fin k → ℝ) (C : Fin k → Fin k → ℝ) (K : ℝ) : Prop where
  rows : iIndepFun (fun a ω => X ω a) μ
  moments : ∀ a i, MemLp (fun ω => X ω a i) 4 μ
  mean_eq : ∀ a i, ∫ ω, X ω a i ∂μ = mean i
  cov_eq : ∀ a i j, cov[fun ω => X ω a i, fun ω => X ω a j; μ] = C i j
  fourth : ∀ a i, ∫ ω, (X ω a i - mean i) ^ 4 ∂μ ≤ K

/-- a random `size × k` array whose rows are independent with the common law `ν` -/
structure IIDRows {Ω : Type} [MeasurableSpace Ω] (μ : Measure Ω) {size k : Nat}
    (X : Ω → Fin size → Fin k → ℝ) (ν : Measure (Fin k → ℝ)) : Prop where
  rows : iIndepFun (fun a ω => X ω a) μ
  meas : ∀ a, AEMeasurable (fun ω => X ω a) μ
  law : ∀ a, μ.map (fun ω => X ω a) = ν

end Medil

import Verif.Proofs.NormalRows
import Verif.Props.Gaussian
import Verif.Props.Sample
import Mathlib.Probability.Independence.InfinitePi
/-
  Property theorems C103, C104: the distribution of samples.
-/
namespace Medil
open MeasureTheory ProbabilityTheory Finset

variable {M : Nat}

theorem followsModel {Ω : Type} [MeasurableSpace Ω] {μ : Measure Ω} {size : Nat} {s : Ω → Fin size → Fin M → ℝ}
    {B : List (BVec M)} {W : Fin B.length → Fin M → ℝ} {mean v : Fin M → ℝ} (hW : OnStructure B W)
    (h : NormalRows μ s mean (modelCov W v)) : FollowsModel μ s B W mean v := by
  have hzero : ∀ (i j : Fin M) (r : Fin B.length), ¬ (B[r] i = true ∧ B[r] j = true) → W r i * W r j = 0 := by
    intro i j r hr
    by_cases h1 : B[r] i = true
    · rw [hW r j (by simpa using fun h2 => hr ⟨h1, h2⟩), mul_zero]
    · rw [hW r i (by simpa using h1), zero_mul]
  refine ⟨h, h.rows_indep, fun S T hd hST => h.indep S T fun i hi j hj => ?_, fun a i j r hij hr h1 h2 => ?_⟩
  · have hne : i ≠ j := fun he => Finset.disjoint_left.mp hd hi (he ▸ hj)
    unfold modelCov
    rw [if_neg hne, add_zero]
    exact sum_eq_zero fun r _ => hzero i j r (hST i hi j hj _ (List.getElem_mem _))
  · apply h.not_indep a i j
    unfold modelCov
    rw [if_neg hij, add_zero, Finset.sum_eq_single r]
    · exact mul_ne_zero h1 h2
    · intro r' _ hne
      exact hzero i j r' fun hc => hne ((hr r').mp hc)
    · simp

/-- the two draws of `sample` made by an ideal generator in a random state with distribution `μ`: the first array has
independent standard normal rows of length `k`, the second independent normal rows with the requested means
and variances, and the arrays are independent -/
structure IdealDraws {G : Type} [MeasurableSpace G] (gen : MvnGen G) (μ : Measure G) (k size : Nat)
    (means v : Fin M → ℝ) : Prop where
  first : NormalRows μ (fun g => (gen.mvn (fun _ : Fin k => 0) (fun i j => if i = j then 1 else 0) size g).1)
    (fun _ => 0) (fun i j => if i = j then 1 else 0)
  second : NormalRows μ (fun g => (gen.mvn means (fun i j => if i = j then v i else 0) size
      (gen.mvn (fun _ : Fin k => 0) (fun i j => if i = j then 1 else 0) size g).2).1)
    means (fun i j => if i = j then v i else 0)
  indep : IndepFun (fun g => (gen.mvn (fun _ : Fin k => 0) (fun i j => if i = j then 1 else 0) size g).1)
    (fun g => (gen.mvn means (fun i j => if i = j then v i else 0) size
      (gen.mvn (fun _ : Fin k => 0) (fun i j => if i = j then 1 else 0) size g).2).1) μ

/-- sampling from any object whose parameters are consistent with its structure -/
theorem sample_follows {G : Type} [MeasurableSpace G] {μ : Measure G} (gen : MvnGen G) (st : GState M)
    (p : GParams M) (hp : st.params = some p) (means : Fin M → ℝ) (hm : st.means = some means)
    (hl : p.weightsOn = st.biadj) (hW : OnStructure p.weightsOn p.weights) (hne : st.biadj.length * M ≠ 0) (size : Nat)
    (hgen : IdealDraws gen μ st.biadj.length size means p.variances) :
    ∃ s : G → Fin size → Fin M → ℝ, (∀ g, (st.sample gen size g).1 = .ok (s g)) ∧
      FollowsModel μ s p.weightsOn p.weights means p.variances := by
  obtain ⟨v, B, W⟩ := p
  simp only at hl hW hgen ⊢
  subst hl
  refine ⟨_, fun g => ?_, followsModel hW (hgen.first.linear hgen.second hgen.indep W)⟩
  obtain ⟨n1, n2⟩ := mul_ne_zero_iff.mp hne
  unfold GState.sample
  rw [hm, hp]
  simp only [n1, n2, if_false]
  simp

/-- **C103** After any history of `fit` calls on an object created with any structure and graph, once parameters exist:
if the generator is ideal, the samples follow the fitted linear model — independent normal rows with the fitted
means and covariance `W'W + diag v`; measurements without common parents in the object's structure are
independent, measurements with one common parent and non-zero weights are not. -/
theorem C103_sample_law {G : Type} [MeasurableSpace G] (μ : Measure G) (gen : MvnGen G) (opt : Optimizer)
    (biadj : List (BVec M)) (udg : Option (BMat M)) (hist : List (Sched M × Dataset M)) (size : Nat) (st : GState M)
    (hst : st = fitAll opt { biadj := biadj, udg := udg } hist) (p : GParams M) (hp : st.params = some p)
    (means : Fin M → ℝ) (hm : st.means = some means)
    (hgen : IdealDraws gen μ st.biadj.length size means p.variances) :
    p.weightsOn = st.biadj ∧
    ∃ s : G → Fin size → Fin M → ℝ, (∀ g, (st.sample gen size g).1 = .ok (s g)) ∧
      FollowsModel μ s p.weightsOn p.weights means p.variances := by
  have hc := fitAll_consistent opt hist { biadj := biadj, udg := udg } (fun p h => by cases h)
  rw [← hst] at hc
  obtain ⟨hl, hon, -⟩ := hc p hp
  have hne := fitAll_nonempty opt hist { biadj := biadj, udg := udg } (fun h => by cases h) (by rw [← hst, hp]; rfl)
  rw [← hst] at hne
  exact ⟨hl, sample_follows gen st p hp means hm hl hon hne size hgen⟩

/-- the `GaussianMCM` object returned by `mcm` (sample.py:18-32): the structure is given to the constructor, the drawn
parameters are assigned to its attributes -/
def McmParams.toState (p : McmParams M) : GState M :=
  { biadj := p.biadj
    means := some fun j => (p.means j : ℝ)
    params := some ⟨fun j => (p.variances j : ℝ), p.biadj, fun r j => (p.weights r j : ℝ)⟩ }

theorem modelCov_posDef' {k : Nat} (W : Fin k → Fin M → ℝ) (v : Fin M → ℝ) (hv : ∀ j, 0 < v j) :
    PosDefinite (modelCov W v) := by
  refine ⟨fun i j => ?_, fun x hx => ?_⟩
  · unfold modelCov
    congr 1
    · exact sum_congr rfl fun r _ => mul_comm _ _
    · by_cases h : i = j
      · subst h; rfl
      · rw [if_neg h, if_neg (Ne.symm h)]
  · have e : ∑ i, ∑ j, x i * modelCov W v i j * x j = (∑ r, (∑ i, W r i * x i) ^ 2) + ∑ i, v i * x i ^ 2 := by
      have h1 : ∀ r, (∑ i, W r i * x i) ^ 2 = ∑ i, ∑ j, (W r i * x i) * (W r j * x j) := fun r => by
        rw [sq, sum_mul_sum]
      have h2 : ∑ r, (∑ i, W r i * x i) ^ 2 = ∑ i, ∑ j, ∑ r, (W r i * x i) * (W r j * x j) := by
        simp only [h1]
        rw [sum_comm]
        exact sum_congr rfl fun i _ => sum_comm
      rw [h2, ← sum_add_distrib]
      refine sum_congr rfl fun i _ => ?_
      unfold modelCov
      have h3 : ∀ j, x i * ((∑ r, W r i * W r j) + if i = j then v i else 0) * x j =
          (∑ r, (W r i * x i) * (W r j * x j)) + if i = j then v i * x i ^ 2 else 0 := by
        intro j
        rw [mul_add, add_mul, mul_sum, sum_mul]
        congr 1
        · exact sum_congr rfl fun r _ => by ring
        · by_cases h : i = j
          · subst h; simp; ring
          · simp [h]
      simp only [h3, sum_add_distrib, sum_ite_eq, mem_univ, if_true]
    rw [e]
    obtain ⟨i, hi⟩ := Function.ne_iff.mp hx
    refine add_pos_of_nonneg_of_pos (sum_nonneg fun r _ => sq_nonneg _) ?_
    refine sum_pos' (fun j _ => mul_nonneg (hv j).le (sq_nonneg _)) ⟨i, mem_univ _, ?_⟩
    exact mul_pos (hv i) (by have : x i ≠ 0 := hi; positivity)

/-- **C104** Sampling from a model made by `mcm`: its covariance `W'W + diag v` is positive definite, is zero for
measurements without common parents, and at least 1/4 in absolute value for two measurements with exactly one common
parent; if the generator is ideal, the samples are independent normal rows with the drawn means and this
covariance, so that in the samples measurements without common parents are independent and measurements with exactly
one common parent are dependent. -/
theorem C104_mcm_samples {G H : Type} [MeasurableSpace H] (μ : Measure H) (mvn : MvnGen H) (gen : Gen G)
    (rts : (n : Nat) → Runtime n) (fuel : Nat) (a : McmArgs G) (w : World G) (p : McmParams M)
    (h : (sampleMcm gen rts fuel a w).res = .ok ⟨M, p⟩) :
    let W : Fin p.biadj.length → Fin M → ℝ := fun r j => p.weights r j
    let v : Fin M → ℝ := fun j => p.variances j
    PosDefinite (modelCov W v) ∧
    (∀ i j, i ≠ j → (∀ r ∈ p.biadj, ¬ (r i = true ∧ r j = true)) → modelCov W v i j = 0) ∧
    (∀ i j (r : Fin p.biadj.length), i ≠ j → (∀ r' : Fin p.biadj.length, p.biadj[r'] i = true ∧ p.biadj[r'] j = true ↔ r' = r) →
      1 / 4 ≤ |modelCov W v i j|) ∧
    ∀ size, p.biadj ≠ [] → 0 < M → IdealDraws mvn μ p.biadj.length size (fun j => (p.means j : ℝ)) v →
      ∃ s : H → Fin size → Fin M → ℝ, (∀ g, (p.toState.sample mvn size g).1 = .ok (s g)) ∧
        FollowsModel μ s p.biadj W (fun j => (p.means j : ℝ)) v ∧
        ∀ b i j (r : Fin p.biadj.length), i ≠ j →
          (∀ r' : Fin p.biadj.length, p.biadj[r'] i = true ∧ p.biadj[r'] j = true ↔ r' = r) →
          ¬ IndepFun (fun ω => s ω b i) (fun ω => s ω b j) μ := by
  intro W v
  obtain ⟨h0, h1, -, h3, -, -⟩ := C43_mcm_parameters gen rts fuel a w M p h
  have hon : OnStructure p.biadj W := fun r j hr => by
    have := h0 r j hr
    simp only [W, this, Rat.cast_zero]
  have hv : ∀ j, 0 < v j := fun j => by
    have h4 : (0 : ℚ) < p.variances j := lt_of_lt_of_le (by norm_num) (h3 j).1
    have h5 : ((0 : ℚ) : ℝ) < (p.variances j : ℝ) := by exact_mod_cast h4
    simpa [v] using h5
  have hw : ∀ r j, p.biadj[r] j = true → 1 / 2 ≤ |W r j| := fun r j hr => by
    have := (h1 r j hr).1
    have h5 : ((1 / 2 : ℚ) : ℝ) ≤ ((|p.weights r j| : ℚ) : ℝ) := by exact_mod_cast this
    simpa [W] using h5
  have hzero : ∀ (i j : Fin M) (r : Fin p.biadj.length), ¬ (p.biadj[r] i = true ∧ p.biadj[r] j = true) →
      W r i * W r j = 0 := by
    intro i j r hr
    by_cases h1 : p.biadj[r] i = true
    · rw [hon r j (by simpa using fun h2 => hr ⟨h1, h2⟩), mul_zero]
    · rw [hon r i (by simpa using h1), zero_mul]
  refine ⟨modelCov_posDef' W v hv, ?_, ?_, ?_⟩
  · intro i j hij hno
    unfold modelCov
    rw [if_neg hij, add_zero]
    exact sum_eq_zero fun r _ => hzero i j r (hno _ (List.getElem_mem _))
  · intro i j r hij hr
    unfold modelCov
    rw [if_neg hij, add_zero, Finset.sum_eq_single r]
    · obtain ⟨ha, hb⟩ := (hr r).mpr rfl
      rw [abs_mul]
      have e1 := hw r i ha
      have e2 := hw r j hb
      nlinarith
    · intro r' _ hne
      exact hzero i j r' fun hc => hne ((hr r').mp hc)
    · simp
  · intro size hne hM hgen
    obtain ⟨s, hs, hf⟩ := sample_follows mvn p.toState _ rfl _ rfl rfl hon
      (Nat.mul_ne_zero (by simpa [McmParams.toState] using hne) (by omega)) size hgen
    refine ⟨s, hs, hf, fun b i j r hij hr => ?_⟩
    obtain ⟨ha, hb⟩ := (hr r).mpr rfl
    refine hf.connected b i j r hij hr ?_ ?_
    · intro hc
      have := hw r i ha
      have hc' : W r i = 0 := hc
      rw [hc'] at this; norm_num at this
    · intro hc
      have := hw r j hb
      have hc' : W r j = 0 := hc
      rw [hc'] at this; norm_num at this

/-! ### an ideal generator exists -/

/-- the infinite tape of independent standard normal numbers: entry `(t, a, i)` -/
noncomputable def tape : Measure (ℕ × ℕ × ℕ → ℝ) := Measure.infinitePi fun _ => gaussianReal 0 1

instance : IsProbabilityMeasure tape := by unfold tape; infer_instance

/-- a generator that reads its numbers from the tape and scales them by the standard deviations; a call consumes
the entries `(0, a, i)` -/
noncomputable def tapeGen : MvnGen (ℕ × ℕ × ℕ → ℝ) where
  mvn := fun mean C _ ω => (fun a i => mean i + Real.sqrt (C i i) * ω (0, a, i), fun q => ω (q.1 + 1, q.2))

theorem tape_indep : iIndepFun (fun q (ω : ℕ × ℕ × ℕ → ℝ) => ω q) tape := by
  unfold tape
  exact iIndepFun_infinitePi (X := fun _ x => x) (by fun_prop)

theorem tape_law (q : ℕ × ℕ × ℕ) : HasLaw (fun ω : ℕ × ℕ × ℕ → ℝ => ω q) (gaussianReal 0 1) tape :=
  (measurePreserving_eval_infinitePi (fun _ => gaussianReal 0 1) q).hasLaw

theorem tape_family {ι : Type} [Finite ι] [DecidableEq ι] (f : ι → ℕ × ℕ × ℕ) (hf : Function.Injective f) (m v : ι → ℝ)
    (hv : ∀ p, 0 ≤ v p) :
    HasGaussianLaw (fun ω p => m p + Real.sqrt (v p) * ω (f p)) tape ∧
    (∀ p, ∫ ω, m p + Real.sqrt (v p) * ω (f p) ∂tape = m p) ∧
    ∀ p q, cov[fun ω => m p + Real.sqrt (v p) * ω (f p), fun ω => m q + Real.sqrt (v q) * ω (f q); tape] =
      if p = q then v p else 0 := by
  have hlaw : ∀ p, HasLaw (fun ω : ℕ × ℕ × ℕ → ℝ => m p + Real.sqrt (v p) * ω (f p))
      (gaussianReal (m p) (NNReal.mk (v p) (hv p))) tape := by
    intro p
    have := gaussianReal_const_add (gaussianReal_const_mul (tape_law (f p)) (Real.sqrt (v p))) (m p)
    rw [mul_zero, zero_add, mul_one] at this
    convert this using 2
    ext
    simp [Real.sq_sqrt (hv p)]
  have hind : iIndepFun (fun p (ω : ℕ × ℕ × ℕ → ℝ) => m p + Real.sqrt (v p) * ω (f p)) tape :=
    (tape_indep.precomp hf).comp (fun p x => m p + Real.sqrt (v p) * x) (fun p => by fun_prop)
  have hmem : ∀ p, HasGaussianLaw (fun ω : ℕ × ℕ × ℕ → ℝ => m p + Real.sqrt (v p) * ω (f p)) tape :=
    fun p => (hlaw p).hasGaussianLaw
  refine ⟨iIndepFun.hasGaussianLaw hmem hind, fun p => ?_, fun p q => ?_⟩
  · rw [(hlaw p).integral_eq, integral_id_gaussianReal]
  · by_cases h : p = q
    · subst h
      rw [if_pos rfl, covariance_self (hlaw p).aemeasurable, (hlaw p).variance_eq, variance_id_gaussianReal]
      rfl
    · rw [if_neg h]
      exact (hind.indepFun h).covariance_eq_zero (hmem p).memLp_two (hmem q).memLp_two

theorem tape_rows (t size : Nat) {k : Nat} (m v : Fin k → ℝ) (hv : ∀ i, 0 ≤ v i) :
    NormalRows tape (fun ω (a : Fin size) (i : Fin k) => m i + Real.sqrt (v i) * ω (t, a, i)) m
      (fun i j => if i = j then v i else 0) := by
  obtain ⟨h1, h2, h3⟩ := tape_family (fun p : Fin size × Fin k => (t, p.1.val, p.2.val))
    (fun p q h => by simp only [Prod.mk.injEq] at h; exact Prod.ext (Fin.ext h.2.1) (Fin.ext h.2.2))
    (fun p => m p.2) (fun p => v p.2) (fun p => hv p.2)
  refine ⟨h1, fun a i => h2 (a, i), fun a b i j => ?_⟩
  rw [h3 (a, i) (b, j)]
  by_cases hab : a = b
  · subst hab; simp
  · simp [hab]

/-- the tape generator is ideal for all means and all non-negative variances -/
theorem tapeGen_ideal (k size : Nat) (means v : Fin M → ℝ) (hv : ∀ j, 0 ≤ v j) :
    IdealDraws tapeGen tape k size means v := by
  refine ⟨?_, ?_, ?_⟩
  · simpa [tapeGen] using tape_rows 0 size (fun _ : Fin k => 0) (fun _ => 1) (by simp)
  · simpa [tapeGen] using tape_rows 1 size means v hv
  · obtain ⟨h1, -, h3⟩ := tape_family (fun p : (Fin size × Fin k) ⊕ (Fin size × Fin M) =>
        match p with | .inl q => (0, q.1.val, q.2.val) | .inr q => (1, q.1.val, q.2.val))
      (fun p q h => by
        rcases p with p | p <;> rcases q with q | q <;> simp only [Prod.mk.injEq] at h
        · exact congrArg _ (Prod.ext (Fin.ext h.2.1) (Fin.ext h.2.2))
        · omega
        · omega
        · exact congrArg _ (Prod.ext (Fin.ext h.2.1) (Fin.ext h.2.2)))
      (fun p => match p with | .inl _ => 0 | .inr q => means q.2)
      (fun p => match p with | .inl _ => 1 | .inr q => v q.2) (fun p => by rcases p with p | p <;> simp [hv])
    have hind := HasGaussianLaw.indepFun_of_covariance_eval (P := tape)
      (X := fun (q : Fin size × Fin k) (ω : ℕ × ℕ × ℕ → ℝ) => 0 + Real.sqrt 1 * ω (0, q.1.val, q.2.val))
      (Y := fun (q : Fin size × Fin M) (ω : ℕ × ℕ × ℕ → ℝ) => means q.2 + Real.sqrt (v q.2) * ω (1, q.1.val, q.2.val))
      (by
        let L : ((Fin size × Fin k) ⊕ (Fin size × Fin M) → ℝ) →ₗ[ℝ] ((Fin size × Fin k → ℝ) × (Fin size × Fin M → ℝ)) :=
          { toFun := fun x => (fun q => x (.inl q), fun q => x (.inr q))
            map_add' := fun _ _ => rfl
            map_smul' := fun _ _ => rfl }
        exact h1.map_fun L.toContinuousLinearMap)
      (fun i j => (h3 (.inl i) (.inr j)).trans (if_neg (by simp)))
    have := hind.comp (φ := fun (x : Fin size × Fin k → ℝ) (a : Fin size) (i : Fin k) => x (a, i))
      (ψ := fun (x : Fin size × Fin M → ℝ) (a : Fin size) (i : Fin M) => x (a, i)) (by fun_prop) (by fun_prop)
    simpa [tapeGen, Function.comp_def] using this

/-- the hypotheses of C103 are met: a fitted object with non-negative variances, sampled by the tape generator -/
example (opt : Optimizer) (hopt : ∀ dim f i, 0 ≤ (opt dim f).1 i) : ∃ (st : GState 2) (p : GParams 2) (means : Fin 2 → ℝ),
    st = fitAll opt { biadj := [BVec.full (n := 2)], udg := none } [(fun _ _ => 0, twoPoints 1 2)] ∧
    st.params = some p ∧ st.means = some means ∧ IdealDraws tapeGen tape st.biadj.length 10 means p.variances := by
  simp only [fitAll]
  rw [fit_given _ _ _ _ (by decide)]
  exact ⟨_, _, _, rfl, rfl, rfl, tapeGen_ideal _ _ _ _ fun j => hopt _ _ _⟩

/-- the hypotheses of C104 are met by every model that `mcm` returns -/
example {G : Type} (gen : Gen G) (rts : (n : Nat) → Runtime n) (fuel : Nat) (a : McmArgs G) (w : World G)
    (p : McmParams M) (h : (sampleMcm gen rts fuel a w).res = .ok ⟨M, p⟩) (size : Nat) :
    IdealDraws tapeGen tape p.biadj.length size (fun j => (p.means j : ℝ)) (fun j => (p.variances j : ℝ)) := by
  obtain ⟨-, -, -, h3, -, -⟩ := C43_mcm_parameters gen rts fuel a w M p h
  refine tapeGen_ideal _ _ _ _ fun j => ?_
  have h4 : (0 : ℚ) ≤ p.variances j := le_trans (by norm_num) (h3 j).1
  exact_mod_cast h4

end Medil

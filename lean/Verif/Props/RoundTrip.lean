import Verif.Model.SampleReal
import Verif.Props.ConsistentParams
import Mathlib.Probability.Independence.Basic
import Mathlib.MeasureTheory.Measure.Prod
/-
  Simulation studies: `mcm`, `sample`, `fit` (C146, C147).
-/
namespace Medil
open MeasureTheory ProbabilityTheory Finset Filter Topology
variable {M : Nat}

/-- **C146** Round trip for the parameters: a `GaussianMCM` object whose structure has the one-pure-child property, every latent with two pure
children and a third child with non-zero weights, positive error variances, weights on the structure and non-zero covariance of any two
variables with a common parent.  From some sample size on, with probability as close to 1 as wanted, `fit` of a new object (with an
optimizer that finds global minima) to the array returned by `sample` (with an ideal generator) returns means and error variances within `ε` of
those of the object, and weights whose `min_perm_squared_l2_dist_abs` to those of the object is less than `ε`. -/
theorem C146_parameters_round_trip (hM : 2 ≤ M) (st : GState M) (p : GParams M) (hp : st.params = some p) (means : Fin M → ℝ)
    (hm : st.means = some means) (hl : p.weightsOn = st.biadj) (hW : OnStructure p.weightsOn p.weights) (hB : OnePureChild st.biadj)
    (h3 : ThreeIndicators p.weightsOn p.weights) (hv : ∀ j, 0 < p.variances j)
    (hf : ∀ i j, i ≠ j → (∃ r ∈ st.biadj, r i = true ∧ r j = true) → modelCov p.weights p.variances i j ≠ 0)
    (ε : ℝ) (hε : 0 < ε) (η : ENNReal) (hη : 0 < η) :
    ∃ n0, ∀ (n : ℕ) (hn : 2 ≤ n), n0 ≤ n → ∀ (G : Type) [MeasurableSpace G] (μ : Measure G) [IsProbabilityMeasure μ] (gen : MvnGen G),
      IdealDraws gen μ st.biadj.length n means p.variances →
      μ {g | ¬ ∃ s, (st.sample gen n g).1 = .ok s ∧ ∀ (opt : Optimizer), opt.Ideal → ∀ o : Sched M,
        ∃ (warned : Bool) (p' : GParams M) (means' : Fin M → ℝ) (q : List (Fin p'.weightsOn.length)) (dist : ℝ),
          (gaussianFit opt o ⟨n, hn, s⟩ {}).2 = .ok warned ∧ (gaussianFit opt o ⟨n, hn, s⟩ {}).1.params = some p' ∧
          (gaussianFit opt o ⟨n, hn, s⟩ {}).1.means = some means' ∧ p'.weightsOn.length = st.biadj.length ∧
          (∀ j, |means' j - means j| < ε) ∧ (∀ j, |p'.variances j - p.variances j| < ε) ∧
          minPermSquaredL2DistAbs p'.weights p.weights = .ok (q, dist) ∧ dist < ε} ≤ η := by
  obtain ⟨K, hK⟩ := NormalRows.indepRows means (modelCov p.weights p.variances)
  have hpos : ∀ i, 0 < modelCov p.weights p.variances i i := fun i => by
    unfold modelCov
    rw [if_pos rfl]
    have := hv i
    have : 0 ≤ ∑ r, p.weights r i * p.weights r i := sum_nonneg fun r _ => mul_self_nonneg _
    linarith
  rw [← hl] at hB hf
  obtain ⟨n0, h0⟩ := C130_parameters_consistent hM p.weightsOn hB p.weights p.variances hW h3 hpos hf means K ε hε η hη
  refine ⟨n0, fun n hn hnn G _ μ _ gen hgen => ?_⟩
  have hne : st.biadj.length * M ≠ 0 := by
    obtain ⟨r, hr, -⟩ := hB.2 ⟨0, by omega⟩
    rw [← hl]
    exact Nat.mul_ne_zero (by simpa using List.ne_nil_of_mem hr) (by omega)
  obtain ⟨s, hs, hfol⟩ := sample_follows gen st p hp means hm hl hW hne n hgen
  refine (measure_mono fun g hg => ?_).trans (h0 n hn hnn G μ s (hK n G μ s hfol.normal))
  intro hall
  refine hg ⟨s g, hs g, fun opt hopt o => ?_⟩
  rw [← hl]
  exact hall opt hopt o

/-! ### C147: the random weights -/

/-- the random weights of `mcm` have this form: the model `gaussianParams` of lines 22-32 with the draws of the generator -/
theorem C147_mcm_weights {G : Type} (gen : Gen G) {n : Nat} (B : List (BVec n)) (g : G) (i : Fin B.length) (j : Fin n) :
    (gaussianParams gen B g).1.weights i j = weightsFrom B (gen.randomVec (maskPositions B).length g).1
      (gen.choiceVec (maskPositions B).length (gen.randomVec (maskPositions B).length g).2).1 i j := rfl

/-- what is assumed of the draws: independent, not negative, and no value has positive probability (for instance, uniform on [0, 1)).
The flips may be anything. -/
structure IdealWeightDraws {Ω : Type} [MeasurableSpace Ω] (μ : Measure Ω) {E : Nat} (U : Fin E → Ω → ℝ) : Prop where
  meas : ∀ k, Measurable (U k)
  indep : iIndepFun U μ
  nonneg : ∀ᵐ ω ∂μ, ∀ k, 0 ≤ U k ω
  noAtoms : ∀ k, NullSingletonClass (μ.map (U k))

section weights
variable {B : List (BVec M)}

theorem maskIdx_lt {r : Fin B.length} {j : Fin M} (h : B[r] j = true) :
    (maskPositions B).idxOf (r, j) < (maskPositions B).length :=
  List.idxOf_lt_length_of_mem ((mem_maskPositions B r j).mpr h)

/-- position of an edge in the vector of draws -/
def edgePos (r : Fin B.length) (j : Fin M) (h : B[r] j = true) : Fin (maskPositions B).length := ⟨_, maskIdx_lt h⟩

theorem edgePos_inj {r r' : Fin B.length} {j j' : Fin M} {h h'} (e : edgePos r j h = edgePos r' j' h') : r = r' ∧ j = j' := by
  have e' : (maskPositions B).idxOf (r, j) = (maskPositions B).idxOf (r', j') := congrArg Fin.val e
  have := (List.idxOf_inj ((mem_maskPositions B r j).mpr h)).mp e'
  exact ⟨congrArg Prod.fst this, congrArg Prod.snd this⟩

theorem weightsFrom_edge {K : Type} [Field K] (u : Fin (maskPositions B).length → K) (f) {r : Fin B.length} {j : Fin M} (h : B[r] j = true) :
    weightsFrom B u f r j = (if f (edgePos r j h) then -1 else 1) * (u (edgePos r j h) * (3 / 2) + 1 / 2) := by
  unfold weightsFrom
  rw [dif_pos (maskIdx_lt h)]
  unfold edgePos
  split <;> simp [*]

theorem weightsFrom_off {K : Type} [Field K] (u : Fin (maskPositions B).length → K) (f) {r : Fin B.length} {j : Fin M} (h : B[r] j = false) :
    weightsFrom B u f r j = 0 := by
  unfold weightsFrom
  rw [dif_neg]
  intro hlt
  have := (mem_maskPositions B r j).mp (List.idxOf_lt_length_iff.mp hlt)
  rw [h] at this
  cases this

theorem weightsFrom_measurable (f) (r : Fin B.length) (j : Fin M) :
    Measurable fun u : Fin (maskPositions B).length → ℝ => weightsFrom B u f r j := by
  by_cases h : B[r] j = true
  · simp only [weightsFrom_edge _ f h]
    exact measurable_const.mul (((measurable_pi_apply _).mul measurable_const).add measurable_const)
  · simp only [weightsFrom_off _ f (by simpa using h)]
    exact measurable_const

/-- changing the draw of the edge `(r, i)` changes only this weight -/
theorem weightsFrom_update (u : Fin (maskPositions B).length → ℝ) (f) {r : Fin B.length} {i : Fin M} (h : B[r] i = true) (x : ℝ)
    (r' : Fin B.length) (j : Fin M) (hne : r' ≠ r ∨ j ≠ i) :
    weightsFrom B (Function.update u (edgePos r i h) x) f r' j = weightsFrom B u f r' j := by
  by_cases h' : B[r'] j = true
  · rw [weightsFrom_edge _ f h', weightsFrom_edge _ f h', Function.update_of_ne]
    intro e
    obtain ⟨e1, e2⟩ := edgePos_inj e
    rcases hne with hne | hne
    · exact hne e1
    · exact hne e2
  · rw [weightsFrom_off _ f (by simpa using h'), weightsFrom_off _ f (by simpa using h')]

end weights

/-- a null set: an affine equation in one of independent draws -/
theorem null_of_section {Ω : Type} [MeasurableSpace Ω] {μ : Measure Ω} [IsProbabilityMeasure μ] {E : Nat} {U : Fin E → Ω → ℝ}
    (hU : IdealWeightDraws μ U) (k : Fin E) (g : (Fin E → ℝ) → ℝ) (hg : Measurable g) (P : (Fin E → ℝ) → Prop) (hP : MeasurableSet {u | P u})
    (hPk : ∀ u x, P (Function.update u k x) → P u)
    (hsec : ∀ u, P u → ∀ x y, g (Function.update u k x) = 0 → g (Function.update u k y) = 0 → x = y) :
    μ {ω | P (fun i => U i ω) ∧ g (fun i => U i ω) = 0} = 0 := by
  classical
  have hind := hU.indep.indepFun_finset (univ.erase k) {k} (by simp) hU.meas
  -- the draws with entry `k` replaced by 0
  let φ : (↥(univ.erase k) → ℝ) → Fin E → ℝ := fun y i => if h : i ∈ univ.erase k then y ⟨i, h⟩ else 0
  have hφ : Measurable φ := measurable_pi_lambda _ fun i => by
    by_cases h : i ∈ univ.erase k
    · simp only [φ, dif_pos h]
      exact measurable_pi_apply _
    · simp only [φ, dif_neg h]
      exact measurable_const
  let ψ : (({k} : Finset (Fin E)) → ℝ) → ℝ := fun y => y ⟨k, mem_singleton_self k⟩
  have hψ : Measurable ψ := measurable_pi_apply _
  have hi2 : IndepFun (fun ω => φ fun i => U i.1 ω) (fun ω => U k ω) μ := hind.comp hφ hψ
  have hYm : Measurable fun ω => φ fun i => U i.1 ω := hφ.comp (measurable_pi_lambda _ fun i => hU.meas i)
  have hmap := (indepFun_iff_map_prod_eq_prod_map_map hYm.aemeasurable (hU.meas k).aemeasurable).mp hi2
  have hupd : Measurable fun z : (Fin E → ℝ) × ℝ => Function.update z.1 k z.2 := by
    refine measurable_pi_lambda _ fun i => ?_
    by_cases h : i = k
    · subst h
      simp only [Function.update_self]
      exact measurable_snd
    · simp only [Function.update_of_ne h]
      exact (measurable_pi_apply i).comp measurable_fst
  have hS : MeasurableSet {z : (Fin E → ℝ) × ℝ | P (Function.update z.1 k z.2) ∧ g (Function.update z.1 k z.2) = 0} :=
    (hupd hP).inter ((hg.comp hupd) (measurableSet_singleton 0))
  have hrec : ∀ ω, Function.update (φ fun i => U i.1 ω) k (U k ω) = fun i => U i ω := by
    intro ω
    funext i
    by_cases h : i = k
    · subst h
      simp
    · rw [Function.update_of_ne h]
      simp [φ, h]
  have : {ω | P (fun i => U i ω) ∧ g (fun i => U i ω) = 0} = (fun ω => ((φ fun i => U i.1 ω), U k ω)) ⁻¹'
      {z : (Fin E → ℝ) × ℝ | P (Function.update z.1 k z.2) ∧ g (Function.update z.1 k z.2) = 0} := by
    ext ω
    simp only [Set.mem_ofPred_eq, Set.mem_preimage, hrec]
  rw [this, ← Measure.map_apply (hYm.prodMk (hU.meas k)) hS, hmap, Measure.measure_prod_null hS]
  refine Filter.Eventually.of_forall fun y => ?_
  have := hU.noAtoms k
  refine Set.Subsingleton.measure_zero (fun a ha b hb => ?_) _
  exact hsec y (hPk y a ha.1) a b ha.2 hb.2

/-- **C147** The random weights of `mcm` are faithful with probability 1: for every structure, if the draws are independent and continuously
distributed (and whatever the flips), then almost surely any two different variables with a common parent have non-zero covariance, so that the
non-zero covariances are exactly the dependences of the structure. -/
theorem C147_faithful (B : List (BVec M)) {Ω : Type} [MeasurableSpace Ω] {μ : Measure Ω} [IsProbabilityMeasure μ]
    (U : Fin (maskPositions B).length → Ω → ℝ) (hU : IdealWeightDraws μ U) (F : Ω → Fin (maskPositions B).length → Bool) (v : Ω → Fin M → ℝ) :
    ∀ᵐ ω ∂μ, ∀ i j, i ≠ j →
      (modelCov (weightsFrom B (fun k => U k ω) (F ω)) (v ω) i j ≠ 0 ↔ ∃ r ∈ B, r i = true ∧ r j = true) := by
  have hone : ∀ (i j : Fin M), i ≠ j → ∀ (r : Fin B.length), B[r] i = true → B[r] j = true → ∀ f : Fin (maskPositions B).length → Bool,
      μ {ω | (∀ k, 0 ≤ U k ω) ∧ ∑ r', weightsFrom B (fun k => U k ω) f r' i * weightsFrom B (fun k => U k ω) f r' j = 0} = 0 := by
    intro i j hij r hi hj f
    have hne : edgePos r j hj ≠ edgePos r i hi := fun e => hij (edgePos_inj e).2.symm
    have key := null_of_section hU (edgePos r i hi)
      (fun u => ∑ r', weightsFrom B u f r' i * weightsFrom B u f r' j)
      (Finset.measurable_sum _ fun r' _ => (weightsFrom_measurable f r' i).mul (weightsFrom_measurable f r' j))
      (fun u => 0 ≤ u (edgePos r j hj)) (measurableSet_le measurable_const (measurable_pi_apply _))
      (fun u x h => by rwa [Function.update_of_ne hne] at h)
      (fun u hu x y hx hy => by
        have hsplit : ∀ x, ∑ r', weightsFrom B (Function.update u (edgePos r i hi) x) f r' i *
            weightsFrom B (Function.update u (edgePos r i hi) x) f r' j =
            ((if f (edgePos r i hi) then -1 else 1) * (x * (3 / 2) + 1 / 2)) * weightsFrom B u f r j +
            ∑ r' ∈ univ.erase r, weightsFrom B u f r' i * weightsFrom B u f r' j := by
          intro x
          rw [← Finset.add_sum_erase _ _ (mem_univ r)]
          congr 1
          · rw [weightsFrom_edge _ f hi, Function.update_self, weightsFrom_update u f hi x r j (Or.inr hij.symm)]
          · refine sum_congr rfl fun r' hr' => ?_
            have hr'' := (mem_erase.mp hr').1
            rw [weightsFrom_update u f hi x r' i (Or.inl hr''), weightsFrom_update u f hi x r' j (Or.inl hr'')]
        rw [hsplit] at hx hy
        have hw : weightsFrom B u f r j ≠ 0 := by
          rw [weightsFrom_edge _ f hj]
          refine mul_ne_zero (by split <;> norm_num) ?_
          have : 0 ≤ u (edgePos r j hj) := hu
          positivity
        have hs : ((if f (edgePos r i hi) then -1 else 1 : ℝ)) ≠ 0 := by split <;> norm_num
        have h1 : ((if f (edgePos r i hi) then -1 else 1) * (x * (3 / 2) + 1 / 2)) * weightsFrom B u f r j =
            ((if f (edgePos r i hi) then -1 else 1) * (y * (3 / 2) + 1 / 2)) * weightsFrom B u f r j := by linarith
        have h2 := mul_left_cancel₀ hs (mul_right_cancel₀ hw h1)
        linarith)
    refine measure_mono_null (fun ω hω => ?_) key
    exact ⟨hω.1 _, hω.2⟩
  have hall : ∀ᵐ ω ∂μ, ∀ i j, i ≠ j → ∀ (r : Fin B.length), B[r] i = true → B[r] j = true → ∀ f : Fin (maskPositions B).length → Bool,
      ¬ ((∀ k, 0 ≤ U k ω) ∧ ∑ r', weightsFrom B (fun k => U k ω) f r' i * weightsFrom B (fun k => U k ω) f r' j = 0) := by
    rw [ae_all_iff]; intro i
    rw [ae_all_iff]; intro j
    by_cases hij : i = j
    · exact Filter.Eventually.of_forall fun ω h => absurd hij h
    refine (?_ : ∀ᵐ ω ∂μ, ∀ (r : Fin B.length), _).mono fun ω h _ => h
    rw [ae_all_iff]; intro r
    by_cases hi : B[r] i = true
    · by_cases hj : B[r] j = true
      · have : ∀ᵐ ω ∂μ, ∀ f : Fin (maskPositions B).length → Bool,
            ¬ ((∀ k, 0 ≤ U k ω) ∧ ∑ r', weightsFrom B (fun k => U k ω) f r' i * weightsFrom B (fun k => U k ω) f r' j = 0) := by
          rw [ae_all_iff]
          intro f
          rw [ae_iff]
          simpa only [not_not] using hone i j hij r hi hj f
        exact this.mono fun ω h _ _ => h
      · exact Filter.Eventually.of_forall fun ω _ h => absurd h hj
    · exact Filter.Eventually.of_forall fun ω h => absurd h hi
  filter_upwards [hall, hU.nonneg] with ω h1 h2 i j hij
  constructor
  · intro h
    by_contra hno
    apply h
    unfold modelCov
    rw [if_neg hij, add_zero]
    refine sum_eq_zero fun r _ => ?_
    by_cases hi : B[r] i = true
    · have hj : B[r] j = false := by
        by_contra hj
        exact hno ⟨B[r], List.getElem_mem _, hi, by simpa using hj⟩
      rw [weightsFrom_off _ _ hj, mul_zero]
    · rw [weightsFrom_off _ _ (by simpa using hi), zero_mul]
  · rintro ⟨b, hb, hi, hj⟩ h0
    obtain ⟨k, hk, rfl⟩ := List.getElem_of_mem hb
    apply h1 i j hij ⟨k, hk⟩ hi hj (F ω)
    refine ⟨h2, ?_⟩
    unfold modelCov at h0
    rwa [if_neg hij, add_zero] at h0

/-- **C147** A simulation study with a one-pure-child structure works for almost every model drawn by `mcm`: from some sample size on, with probability as
close to 1 as wanted, `fit` recovers the structure from the array returned by `sample`.  (The sample size depends on the drawn model.) -/
theorem C147_study (hM : 2 ≤ M) (B : List (BVec M)) (hB : OnePureChild B) {Ω : Type} [MeasurableSpace Ω] {μ : Measure Ω} [IsProbabilityMeasure μ]
    (U : Fin (maskPositions B).length → Ω → ℝ) (hU : IdealWeightDraws μ U) (F : Ω → Fin (maskPositions B).length → Bool)
    (means v : Ω → Fin M → ℝ) (hv : ∀ ω j, 0 < v ω j) :
    ∀ᵐ ω ∂μ, ∀ ε : ENNReal, 0 < ε → ∃ n0, ∀ (n : ℕ) (hn : 2 ≤ n), n0 ≤ n →
      ∀ (G : Type) [MeasurableSpace G] (ν : Measure G) [IsProbabilityMeasure ν] (gen : MvnGen G),
      IdealDraws gen ν B.length n (means ω) (v ω) →
      let st : GState M := { biadj := B, means := some (means ω), params := some ⟨v ω, B, weightsFrom B (fun k => U k ω) (F ω)⟩ }
      ν {g | ¬ ∃ s, (st.sample gen n g).1 = .ok s ∧ ∀ (opt : Optimizer) (o : Sched M),
        (∃ warned, (gaussianFit opt o ⟨n, hn, s⟩ {}).2 = .ok warned) ∧
        SameRows (gaussianFit opt o ⟨n, hn, s⟩ {}).1.biadj B} ≤ ε := by
  filter_upwards [C147_faithful B U hU F v] with ω hω ε hε
  exact C128_sample_fit hM { biadj := B, means := some (means ω), params := some ⟨v ω, B, weightsFrom B (fun k => U k ω) (F ω)⟩ }
    _ rfl (means ω) rfl rfl (fun r j h => weightsFrom_off (B := B) (fun k => U k ω) (F ω) h) hB (hv ω) (fun i j hij h => (hω i j hij).mpr h) ε hε

/-! ### the hypotheses are met -/

/-- uniform draws -/
noncomputable def unitPi (E : Nat) : Measure (Fin E → ℝ) := Measure.pi fun _ => volume.restrict (Set.Icc (0 : ℝ) 1)

instance : IsProbabilityMeasure (volume.restrict (Set.Icc (0 : ℝ) 1)) := ⟨by simp⟩

instance (E : Nat) : IsProbabilityMeasure (unitPi E) := inferInstanceAs (IsProbabilityMeasure (Measure.pi _))

/-- independent uniform draws from [0, 1] are ideal -/
theorem unit_ideal (E : Nat) : IdealWeightDraws (unitPi E) fun (k : Fin E) (u : Fin E → ℝ) => u k where
  meas := fun k => measurable_pi_apply k
  indep := iIndepFun_pi (X := fun _ => id) fun i => aemeasurable_id
  nonneg := by
    rw [ae_all_iff]
    intro k
    have h : ∀ᵐ x ∂(volume.restrict (Set.Icc (0 : ℝ) 1)), 0 ≤ x := by
      rw [ae_restrict_iff' measurableSet_Icc]
      exact Filter.Eventually.of_forall fun x hx => hx.1
    exact (measurePreserving_eval (fun _ : Fin E => volume.restrict (Set.Icc (0 : ℝ) 1)) k).quasiMeasurePreserving.ae h
  noAtoms := fun k => by
    have h := (measurePreserving_eval (fun _ : Fin E => volume.restrict (Set.Icc (0 : ℝ) 1)) k).map_eq
    show NullSingletonClass (Measure.map (Function.eval k) (unitPi E))
    unfold unitPi
    rw [h]
    infer_instance

/-- one latent with three children, unit weights and unit error variances meets the hypotheses of C146 -/
noncomputable def unitObj3 : GState 3 :=
  { biadj := [BVec.full], means := some fun _ => 0, params := some ⟨fun _ => 1, [BVec.full], fun _ _ => 1⟩ }

example : OnePureChild unitObj3.biadj ∧ ThreeIndicators [BVec.full (n := 3)] (fun _ _ => 1) ∧
    ∀ n, IdealDraws tapeGen tape unitObj3.biadj.length n (fun _ : Fin 3 => (0 : ℝ)) (fun _ => 1) := by
  have hpure : ∀ (r : Fin [BVec.full (n := 3)].length) j, PureChild [BVec.full (n := 3)] r j := by
    intro r j i hi
    have h1 : i = 0 := by simpa using hi
    have h2 : r.val = 0 := by have := r.isLt; simp at this ⊢
    subst h1
    rw [h2]
    simp
  exact ⟨⟨fun i hi => ⟨0, hpure ⟨i, hi⟩ 0⟩, fun j => ⟨BVec.full, by simp [unitObj3]⟩⟩,
    fun r => ⟨0, 1, 2, by decide, by decide, by decide, hpure r 0, hpure r 1, one_ne_zero, one_ne_zero, one_ne_zero⟩,
    fun n => tapeGen_ideal _ _ _ _ fun _ => zero_le_one⟩

end Medil

import Verif.Model.ScriptSim
import Mathlib.Probability.Independence.CharacteristicFunction
import Mathlib.Probability.Distributions.Gaussian.Real
import Mathlib.Probability.Moments.Covariance
import Mathlib.Probability.Independence.InfinitePi
import Verif.Props.Indep
import Verif.Props.Graph
import Mathlib.Analysis.SpecialFunctions.Artanh
import Mathlib.MeasureTheory.Constructions.BorelSpace.Metrizable
import Mathlib.MeasureTheory.Function.SpecialFunctions.Basic
/-
  Property theorems C134, C135: the datasets of `generate_dataset` and the scores of `verify_independence_pattern` in scripts/developing.py.
-/
namespace Medil
open MeasureTheory ProbabilityTheory Finset

variable {m n : Nat}

/-! ### C134: dependences in generated datasets -/

theorem zipIdx_map_sum {α : Type} [DecidableEq α] {M : Type} [AddCommMonoid M] (f : α → ℕ → M) (l : List α) (hl : l.Nodup) (s : ℕ) :
    ((l.zipIdx s).map fun p => f p.1 p.2).sum = (l.map fun a => f a (s + l.idxOf a)).sum := by
  induction l generalizing s with
  | nil => rfl
  | cons b l ih =>
    rw [List.zipIdx_cons, List.map_cons, List.sum_cons, ih hl.of_cons, List.map_cons, List.sum_cons]
    have e : (l.map fun a => f a (s + 1 + l.idxOf a)) = l.map fun a => f a (s + (b :: l).idxOf a) := by
      refine List.map_congr_left fun a ha => ?_
      have hne : b ≠ a := fun h => (List.nodup_cons.mp hl).1 (h ▸ ha)
      rw [List.idxOf_cons_ne _ hne]
      congr 1
      omega
    rw [e]
    simp

/-- position of `p` among the parents of `i`: which of the weights drawn for column `i` belongs to `p` -/
def parentPos (B : Fin m → Fin n → Bool) (i : Fin n) (p : Fin m) : ℕ := ((List.finRange m).filter fun p => B p i).idxOf p

/-- the value of a measurement with parents, as a sum over its parents -/
theorem generateDataset_of_parent {N : Nat} (B : Fin m → Fin n → Bool) (noise : ℝ) (t : ℕ → ℕ → ℝ) (k : Fin N) (i : Fin n)
    (h : ∃ p, B p i = true) :
    generateDataset B noise t k i =
      Real.tanh (∑ p : Fin m, if B p i then t 0 (k * m + p) * t (2 * i + 1) (parentPos B i p) else 0) + noise * t (2 * i + 2) k := by
  unfold generateDataset
  have hne : ((List.finRange m).filter fun p => B p i) ≠ [] := by
    obtain ⟨p, hp⟩ := h
    exact List.ne_nil_of_mem (List.mem_filter.mpr ⟨List.mem_finRange p, hp⟩)
  simp only [hne, if_false]
  congr 2
  have hnd : ((List.finRange m).filter fun p => B p i).Nodup := (List.nodup_finRange m).filter _
  rw [zipIdx_map_sum (fun (p : Fin m) q => t 0 (k * m + p) * t (2 * i + 1) q) _ hnd 0]
  rw [← List.sum_toFinset _ hnd, List.toFinset_filter, List.toFinset_finRange, Finset.sum_filter]
  simp only [zero_add, parentPos]

theorem generateDataset_of_no_parent {N : Nat} (B : Fin m → Fin n → Bool) (noise : ℝ) (t : ℕ → ℕ → ℝ) (k : Fin N) (i : Fin n)
    (h : ¬ ∃ p, B p i = true) :
    generateDataset B noise t k i = t (2 * i + 1) k + noise * t (2 * i + 2) k := by
  unfold generateDataset
  have hnil : ((List.finRange m).filter fun p => B p i) = [] := by
    rw [List.filter_eq_nil_iff]
    exact fun p _ hp => h ⟨p, hp⟩
  simp only [hnil, if_true]

/-- the draws that column `i` of a dataset with `N` rows uses -/
def usedDraws (N : Nat) (B : Fin m → Fin n → Bool) (i : Fin n) : Finset (ℕ × ℕ) :=
  (univ.filter fun q : Fin N × Fin m => B q.2 i = true).image (fun q => (0, q.1.val * m + q.2.val)) ∪
    (range (N + m)).image (fun k => (2 * i.val + 1, k)) ∪ (range N).image (fun k => (2 * i.val + 2, k))

theorem parentPos_lt (B : Fin m → Fin n → Bool) (i : Fin n) (p : Fin m) (h : B p i = true) : parentPos B i p < m := by
  unfold parentPos
  refine (List.idxOf_lt_length_iff.mpr (List.mem_filter.mpr ⟨List.mem_finRange p, h⟩)).trans_le ?_
  exact (List.length_filter_le _ _).trans_eq List.length_finRange

theorem generateDataset_congr {N : Nat} (B : Fin m → Fin n → Bool) (noise : ℝ) (t t' : ℕ → ℕ → ℝ) (k : Fin N) (i : Fin n)
    (h : ∀ q ∈ usedDraws N B i, t q.1 q.2 = t' q.1 q.2) : generateDataset B noise t k i = generateDataset B noise t' k i := by
  have h1 : ∀ c < N + m, t (2 * i + 1) c = t' (2 * i + 1) c := fun c hc =>
    h (2 * i + 1, c) (mem_union_left _ (mem_union_right _ (mem_image.mpr ⟨c, mem_range.mpr hc, rfl⟩)))
  have h2 : t (2 * i + 2) k = t' (2 * i + 2) k :=
    h (2 * i + 2, k) (mem_union_right _ (mem_image.mpr ⟨k, mem_range.mpr k.isLt, rfl⟩))
  by_cases hp : ∃ p, B p i = true
  · rw [generateDataset_of_parent _ _ _ _ _ hp, generateDataset_of_parent _ _ _ _ _ hp, h2]
    congr 2
    refine sum_congr rfl fun p _ => ?_
    split
    · rename_i hB
      rw [h1 _ (by have := parentPos_lt B i p hB; omega)]
      congr 1
      exact h (0, k * m + p) (mem_union_left _ (mem_union_left _ (mem_image.mpr ⟨(k, p), by simp [hB], rfl⟩)))
    · rfl
  · rw [generateDataset_of_no_parent _ _ _ _ _ hp, generateDataset_of_no_parent _ _ _ _ _ hp, h2, h1 k (by omega)]

theorem measurable_tanh : Measurable Real.tanh := by
  have : Real.tanh = fun x => Real.sinh x / Real.cosh x := funext fun x => Real.tanh_eq_sinh_div_cosh x
  rw [this]
  exact Real.measurable_sinh.div Real.measurable_cosh

theorem measurable_generateDataset {N : Nat} (B : Fin m → Fin n → Bool) (noise : ℝ) (k : Fin N) (i : Fin n) :
    Measurable fun t : ℕ × ℕ → ℝ => generateDataset B noise (fun a b => t (a, b)) k i := by
  by_cases hp : ∃ p, B p i = true
  · simp only [generateDataset_of_parent _ _ _ _ _ hp]
    refine (measurable_tanh.comp (Finset.measurable_sum _ fun p _ => ?_)).add ((measurable_pi_apply _).const_mul _)
    split
    · exact (measurable_pi_apply _).mul (measurable_pi_apply _)
    · exact measurable_const
  · simp only [generateDataset_of_no_parent _ _ _ _ _ hp]
    exact (measurable_pi_apply _).add ((measurable_pi_apply _).const_mul _)

/-- what the generator is assumed to do: all numbers it draws are independent -/
structure IndepDraws {Ω : Type} [MeasurableSpace Ω] (μ : Measure Ω) (t : ℕ → ℕ → Ω → ℝ) : Prop where
  indep : iIndepFun (fun q : ℕ × ℕ => t q.1 q.2) μ
  meas : ∀ c k, Measurable (t c k)

theorem usedDraws_disjoint (N : Nat) (B : Fin m → Fin n → Bool) (a b : Fin n) (hab : a ≠ b) (h : ∀ p, ¬ (B p a = true ∧ B p b = true)) :
    Disjoint (usedDraws N B a) (usedDraws N B b) := by
  have hv : a.val ≠ b.val := fun h => hab (Fin.ext h)
  rw [Finset.disjoint_left]
  rintro ⟨c, d⟩ h1 h2
  simp only [usedDraws, mem_union, mem_image, mem_filter, mem_univ, true_and, Prod.mk.injEq, mem_range] at h1 h2
  rcases h1 with (⟨q, hq, e1, e2⟩ | ⟨_, _, e1, _⟩) | ⟨_, _, e1, _⟩ <;> rcases h2 with (⟨q', hq', e1', e2'⟩ | ⟨_, _, e1', _⟩) | ⟨_, _, e1', _⟩ <;> try omega
  have h3 : q.1.val * m + q.2.val = q'.1.val * m + q'.2.val := e2.trans e2'.symm
  have h4 : q.2.val = q'.2.val := by
    have := congrArg (· % m) h3
    simpa [Nat.mod_eq_of_lt q.2.isLt, Nat.mod_eq_of_lt q'.2.isLt, Nat.add_comm (_ * m), Nat.add_mul_mod_self_right] using this
  have h5 : q.2 = q'.2 := Fin.ext h4
  exact h q.2 ⟨hq, h5 ▸ hq'⟩

/-- draws at the positions `S`, extended by 0 -/
noncomputable def extendDraws (S : Finset (ℕ × ℕ)) (f : S → ℝ) (q : ℕ × ℕ) : ℝ := if h : q ∈ S then f ⟨q, h⟩ else 0

theorem measurable_extendDraws (S : Finset (ℕ × ℕ)) : Measurable (extendDraws S) := by
  refine measurable_pi_lambda _ fun q => ?_
  unfold extendDraws
  by_cases h : q ∈ S
  · simp only [h, dif_pos]
    exact measurable_pi_apply _
  · simp only [h, dif_neg, not_false_eq_true]
    exact measurable_const

theorem columns_of_draws {Ω : Type} (t : ℕ → ℕ → Ω → ℝ) (N : Nat) (B : Fin m → Fin n → Bool) (noise : ℝ) (U : Finset (Fin n))
    (S : Finset (ℕ × ℕ)) (hS : U.biUnion (usedDraws N B) ⊆ S) :
    ∃ g : (S → ℝ) → (Fin N × U → ℝ), Measurable g ∧
      (fun ω (q : Fin N × U) => generateDataset B noise (fun c k => t c k ω) q.1 q.2.1) =
        g ∘ fun ω (q : S) => t q.1.1 q.1.2 ω := by
  refine ⟨fun f q => generateDataset B noise (fun a b => extendDraws S f (a, b)) q.1 q.2.1, measurable_pi_lambda _ fun q => ?_, ?_⟩
  · have h1 := measurable_generateDataset (N := N) B noise q.1 q.2.1
    have h2 := Measurable.comp (g := fun t : ℕ × ℕ → ℝ => generateDataset B noise (fun a b => t (a, b)) q.1 q.2.1) h1 (measurable_extendDraws S)
    simpa only [Function.comp_def] using h2
  · funext ω q
    simp only [Function.comp_apply]
    refine generateDataset_congr B noise _ _ q.1 q.2.1 fun r hr => ?_
    have : r ∈ S := hS (mem_biUnion.mpr ⟨q.2.1, q.2.2, hr⟩)
    simp only [extendDraws, Prod.mk.eta, this, dif_pos]

/-- **C134** measurements of a generated dataset that have no common parent are independent (as whole columns, and also jointly: `S` and `T` are
sets of measurements without common parents) -/
theorem C134_separated {Ω : Type} [MeasurableSpace Ω] {μ : Measure Ω} {t : ℕ → ℕ → Ω → ℝ} (ht : IndepDraws μ t) (N : Nat)
    (B : Fin m → Fin n → Bool) (noise : ℝ) (S T : Finset (Fin n)) (hd : Disjoint S T)
    (hST : ∀ a ∈ S, ∀ b ∈ T, ∀ p, ¬ (B p a = true ∧ B p b = true)) :
    IndepFun (fun ω (q : Fin N × S) => generateDataset B noise (fun c k => t c k ω) q.1 q.2.1)
      (fun ω (q : Fin N × T) => generateDataset B noise (fun c k => t c k ω) q.1 q.2.1) μ := by
  obtain ⟨g, hg, eg⟩ := columns_of_draws t N B noise S _ (Finset.Subset.refl _)
  obtain ⟨g', hg', eg'⟩ := columns_of_draws t N B noise T _ (Finset.Subset.refl _)
  rw [eg, eg']
  refine IndepFun.comp (ht.indep.indepFun_finset _ _ ?_ fun q => ht.meas q.1 q.2) hg hg'
  rw [Finset.disjoint_biUnion_left]
  intro a ha
  rw [Finset.disjoint_biUnion_right]
  intro b hb
  exact usedDraws_disjoint N B a b (fun h => Finset.disjoint_left.mp hd ha (h ▸ hb)) (hST a ha b hb)

/-- removing independent noise whose characteristic functions vanish nowhere keeps independence -/
theorem indep_of_noise {Ω : Type} [MeasurableSpace Ω] {μ : Measure Ω} [IsProbabilityMeasure μ] {F G E E' : Ω → ℝ} (hF : Measurable F)
    (hG : Measurable G) (hE : Measurable E) (hE' : Measurable E') (h : IndepFun (fun ω => (F ω, G ω)) (fun ω => (E ω, E' ω)) μ)
    (hEE : IndepFun E E' μ) (h0 : ∀ x, charFun (μ.map E) x ≠ 0) (h0' : ∀ x, charFun (μ.map E') x ≠ 0)
    (hi : IndepFun (fun ω => F ω + E ω) (fun ω => G ω + E' ω) μ) : IndepFun F G μ := by
  rw [indepFun_iff_charFun_prod hF.aemeasurable hG.aemeasurable]
  replace hi := (indepFun_iff_charFun_prod (hF.add hE).aemeasurable (hG.add hE').aemeasurable).mp hi
  rw [indepFun_iff_charFun_prod hE.aemeasurable hE'.aemeasurable] at hEE
  intro x
  have hlp : Measurable (fun p : ℝ × ℝ => WithLp.toLp 2 p) := (MeasurableEquiv.toLp 2 (ℝ × ℝ)).measurable
  have h1 : charFun (μ.map fun ω => WithLp.toLp 2 (F ω + E ω, G ω + E' ω)) x =
      charFun (μ.map fun ω => WithLp.toLp 2 (F ω, G ω)) x * charFun (μ.map fun ω => WithLp.toLp 2 (E ω, E' ω)) x := by
    have := (h.comp hlp hlp).charFun_map_add_eq_mul (hlp.comp (hF.prodMk hG)).aemeasurable (hlp.comp (hE.prodMk hE')).aemeasurable
    exact congrFun this x
  have h2 : charFun (μ.map fun ω => F ω + E ω) x.fst = charFun (μ.map F) x.fst * charFun (μ.map E) x.fst :=
    congrFun ((h.comp measurable_fst measurable_fst).charFun_map_add_eq_mul hF.aemeasurable hE.aemeasurable) _
  have h3 : charFun (μ.map fun ω => G ω + E' ω) x.snd = charFun (μ.map G) x.snd * charFun (μ.map E') x.snd :=
    congrFun ((h.comp measurable_snd measurable_snd).charFun_map_add_eq_mul hG.aemeasurable hE'.aemeasurable) _
  have h4 : charFun (μ.map fun ω => WithLp.toLp 2 (F ω + E ω, G ω + E' ω)) x =
      charFun (μ.map fun ω => F ω + E ω) x.fst * charFun (μ.map fun ω => G ω + E' ω) x.snd := hi x
  rw [h2, h3] at h4
  have h5 := h1.symm.trans h4
  have h6 := hEE x
  rw [h6] at h5
  have h7 := mul_ne_zero (h0 x.fst) (h0' x.snd)
  refine mul_right_cancel₀ h7 ?_
  show _ = charFun (μ.map F) x.fst * charFun (μ.map G) x.snd * _
  refine h5.trans ?_
  ring

/-- **C134** given the weights (`w i` are the weights drawn for column `i`, in the order of the parents), two measurements of a generated dataset
are dependent, in every row, if the sum of the products of their weights over the common parents is not 0: for instance with one
common parent and non-zero weights.  The latents and the noise are standard normal. -/
theorem C134_connected {Ω : Type} [MeasurableSpace Ω] {μ : Measure Ω} {t : ℕ → ℕ → Ω → ℝ} (ht : IndepDraws μ t)
    (h0 : ∀ k, μ.map (t 0 k) = gaussianReal 0 1) (N : Nat) (B : Fin m → Fin n → Bool) (noise : ℝ) (a b : Fin n) (hab : a ≠ b)
    (hna : ∀ k, μ.map (t (2 * a + 2) k) = gaussianReal 0 1) (hnb : ∀ k, μ.map (t (2 * b + 2) k) = gaussianReal 0 1)
    (w : Fin n → ℕ → ℝ) (hwa : ∀ k ω, t (2 * a + 1) k ω = w a k) (hwb : ∀ k ω, t (2 * b + 1) k ω = w b k)
    (hcov : ∑ p ∈ univ.filter (fun p => B p a = true ∧ B p b = true), w a (parentPos B a p) * w b (parentPos B b p) ≠ 0) (k : Fin N) :
    ¬ IndepFun (fun ω => generateDataset B noise (fun c k => t c k ω) k a) (fun ω => generateDataset B noise (fun c k => t c k ω) k b) μ := by
  classical
  have : IsProbabilityMeasure μ := ht.indep.isProbabilityMeasure
  intro hi
  obtain ⟨p0, hp0, -⟩ := Finset.exists_ne_zero_of_sum_ne_zero hcov
  obtain ⟨hpa, hpb⟩ := (mem_filter.mp hp0).2
  have hv : a.val ≠ b.val := fun h => hab (Fin.ext h)
  let L : Fin m → Ω → ℝ := fun p => t 0 (k * m + p)
  let U : Fin n → Ω → ℝ := fun i ω => ∑ p : Fin m, if B p i then L p ω * w i (parentPos B i p) else 0
  have hUm : ∀ i, Measurable (U i) := fun i => Finset.measurable_sum _ fun p _ => by
    split
    · exact (ht.meas _ _).mul_const _
    · exact measurable_const
  have ea : (fun ω => generateDataset B noise (fun c k => t c k ω) k a) = fun ω => Real.tanh (U a ω) + noise * t (2 * a + 2) k ω := by
    funext ω
    rw [generateDataset_of_parent _ _ _ _ _ ⟨p0, hpa⟩]
    simp only [hwa, U, L]
  have eb : (fun ω => generateDataset B noise (fun c k => t c k ω) k b) = fun ω => Real.tanh (U b ω) + noise * t (2 * b + 2) k ω := by
    funext ω
    rw [generateDataset_of_parent _ _ _ _ _ ⟨p0, hpb⟩]
    simp only [hwb, U, L]
  rw [ea, eb] at hi
  -- the noise is independent of everything else
  let S : Finset (ℕ × ℕ) := univ.image fun p : Fin m => (0, k.val * m + p.val)
  let T : Finset (ℕ × ℕ) := {(2 * a.val + 2, k.val), (2 * b.val + 2, k.val)}
  have hdis : Disjoint S T := by
    rw [Finset.disjoint_left]
    rintro ⟨x, y⟩ h1 h2
    simp only [S, T, mem_image, mem_univ, true_and, Prod.mk.injEq, mem_insert, mem_singleton] at h1 h2
    omega
  have hST := ht.indep.indepFun_finset S T hdis fun q => ht.meas q.1 q.2
  have hUS : ∀ i, ∃ g : (S → ℝ) → ℝ, Measurable g ∧ U i = g ∘ fun ω (q : S) => t q.1.1 q.1.2 ω := by
    intro i
    have hmem : ∀ p : Fin m, (0, k.val * m + p.val) ∈ S := fun p => mem_image.mpr ⟨p, mem_univ _, rfl⟩
    refine ⟨fun f => ∑ p : Fin m, if B p i then f ⟨_, hmem p⟩ * w i (parentPos B i p) else 0, Finset.measurable_sum _ fun p _ => ?_, rfl⟩
    split
    · exact (measurable_pi_apply _).mul_const _
    · exact measurable_const
  obtain ⟨ga, hga, eUa⟩ := hUS a
  obtain ⟨gb, hgb, eUb⟩ := hUS b
  have hpair : IndepFun (fun ω => (Real.tanh (U a ω), Real.tanh (U b ω)))
      (fun ω => (noise * t (2 * a + 2) k ω, noise * t (2 * b + 2) k ω)) μ := by
    have hTa : (2 * a.val + 2, k.val) ∈ T := by simp [T]
    have hTb : (2 * b.val + 2, k.val) ∈ T := by simp [T]
    have hψ : Measurable fun f : T → ℝ => (noise * f ⟨_, hTa⟩, noise * f ⟨_, hTb⟩) :=
      by fun_prop
    have hφ : Measurable fun f : S → ℝ => (Real.tanh (ga f), Real.tanh (gb f)) := (measurable_tanh.comp hga).prodMk (measurable_tanh.comp hgb)
    have := hST.comp hφ hψ
    rw [eUa, eUb]
    exact this
  have hEE : IndepFun (fun ω => noise * t (2 * a + 2) k ω) (fun ω => noise * t (2 * b + 2) k ω) μ := by
    have h1 : IndepFun (t (2 * a + 2) k) (t (2 * b + 2) k) μ :=
      ht.indep.indepFun (i := (2 * a.val + 2, k.val)) (j := (2 * b.val + 2, k.val)) (by simp; omega)
    exact h1.comp (measurable_const_mul noise) (measurable_const_mul noise)
  have hcf : ∀ c, μ.map (t c k) = gaussianReal 0 1 → ∀ x, charFun (μ.map fun ω => noise * t c k ω) x ≠ 0 := by
    intro c hc x
    have e : μ.map (fun ω => noise * t c k ω) = (gaussianReal 0 1).map (noise * ·) := by
      rw [← hc, Measure.map_map (measurable_const_mul noise) (ht.meas _ _)]
      rfl
    rw [e, gaussianReal_map_const_mul, charFun_gaussianReal]
    exact Complex.exp_ne_zero _
  have hFG := indep_of_noise (measurable_tanh.comp (hUm a)) (measurable_tanh.comp (hUm b)) ((ht.meas _ _).const_mul _)
    ((ht.meas _ _).const_mul _) hpair hEE (hcf _ (hna k)) (hcf _ (hnb k)) hi
  -- undo tanh
  have hart : Measurable Real.artanh := by
    unfold Real.artanh
    fun_prop
  have hUU : IndepFun (U a) (U b) μ := by
    have := hFG.comp hart hart
    simpa only [Function.comp_def, Real.artanh_tanh] using this
  -- covariance of the sums
  have hLp : ∀ p, MemLp (L p) 2 μ := fun p => by
    have : HasLaw (L p) (gaussianReal 0 1) μ := ⟨(ht.meas _ _).aemeasurable, h0 _⟩
    have h2 : MemLp id 2 (gaussianReal 0 1) := memLp_id_gaussianReal 2
    rw [← h0 (k * m + p)] at h2
    exact h2.comp_of_map (ht.meas _ _).aemeasurable
  have hterm : ∀ i p, MemLp (fun ω => if B p i then L p ω * w i (parentPos B i p) else 0) 2 μ := fun i p => by
    split
    · exact (hLp p).mul_const _
    · exact MemLp.zero'
  have hUp : ∀ i, MemLp (U i) 2 μ := fun i => memLp_finsetSum _ fun p _ => hterm i p
  have hz := hUU.covariance_eq_zero (hUp a) (hUp b)
  apply hcov
  rw [← hz, covariance_fun_sum_fun_sum (hterm a) (hterm b), sum_filter]
  refine sum_congr rfl fun p _ => ?_
  have hLL : ∀ q, cov[L p, L q; μ] = if p = q then 1 else 0 := by
    intro q
    split
    · rename_i h
      subst h
      rw [covariance_self (ht.meas _ _).aemeasurable]
      have : HasLaw (L p) (gaussianReal 0 1) μ := ⟨(ht.meas _ _).aemeasurable, h0 _⟩
      rw [this.variance_eq, variance_id_gaussianReal]
      simp
    · rename_i h
      refine IndepFun.covariance_eq_zero ?_ (hLp p) (hLp q)
      exact ht.indep.indepFun (i := (0, k.val * m + p.val)) (j := (0, k.val * m + q.val)) (by
        simp only [ne_eq, Prod.mk.injEq, true_and]
        intro h'
        exact h (Fin.ext (by omega)))
  have hall : ∀ q, cov[fun ω => if B p a then L p ω * w a (parentPos B a p) else 0,
      fun ω => if B q b then L q ω * w b (parentPos B b q) else 0; μ] =
      if p = q then (if B p a = true ∧ B p b = true then w a (parentPos B a p) * w b (parentPos B b p) else 0) else 0 := by
    intro q
    by_cases h1 : B p a = true
    · by_cases h2 : B q b = true
      · simp only [h1, h2, if_true, true_and]
        rw [covariance_mul_const_left, covariance_mul_const_right, hLL q]
        split
        · rename_i h
          subst h
          simp [h2]
          ring
        · simp
      · have e : (fun ω => if B q b = true then L q ω * w b (parentPos B b q) else 0) = fun _ => (0 : ℝ) := funext fun _ => if_neg h2
        rw [e, covariance_const_right]
        split
        · rename_i h
          subst h
          simp [h2]
        · rfl
    · have e : (fun ω => if B p a = true then L p ω * w a (parentPos B a p) else 0) = fun _ => (0 : ℝ) := funext fun _ => if_neg h1
      rw [e, covariance_const_left]
      simp [h1]
  simp only [hall, sum_ite_eq, mem_univ, if_true]

/-- draws as in the two theorems exist: independent standard normal numbers, with all weights replaced by 1 -/
theorem draws_exist : ∃ (Ω : Type) (_ : MeasurableSpace Ω) (μ : Measure Ω) (t : ℕ → ℕ → Ω → ℝ), IndepDraws μ t ∧
    (∀ k, μ.map (t 0 k) = gaussianReal 0 1) ∧ (∀ i k, μ.map (t (2 * i + 2) k) = gaussianReal 0 1) ∧ ∀ i k ω, t (2 * i + 1) k ω = 1 := by
  let μ : Measure (ℕ × ℕ → ℝ) := Measure.infinitePi fun _ => gaussianReal 0 1
  have hi : iIndepFun (fun (q : ℕ × ℕ) (ω : ℕ × ℕ → ℝ) => ω q) μ :=
    iIndepFun_infinitePi (X := fun _ => id) fun _ => measurable_id
  have hm : ∀ c k, c % 2 = 0 → μ.map (fun ω => if c % 2 = 1 then 1 else ω (c, k)) = gaussianReal 0 1 := fun c k hc => by
    have : (fun ω : ℕ × ℕ → ℝ => if c % 2 = 1 then 1 else ω (c, k)) = fun ω => ω (c, k) := funext fun ω => if_neg (by omega)
    rw [this]
    exact (measurePreserving_eval_infinitePi (fun _ => gaussianReal 0 1) (c, k)).map_eq
  refine ⟨_, _, μ, fun c k ω => if c % 2 = 1 then 1 else ω (c, k), ⟨?_, fun c k => ?_⟩, fun k => hm 0 k rfl, fun i k => hm _ k (by omega),
    fun i k ω => if_pos (by omega)⟩
  · exact hi.comp (fun q x => if q.1 % 2 = 1 then 1 else x) fun q => by
      split
      · exact measurable_const
      · exact measurable_id
  · split
    · exact measurable_const
    · exact measurable_pi_apply _

/-- the hypotheses of C134 are met by the structure of the example in the script: columns 0 and 2 have no common parent, columns 0 and 1 have one -/
example : ∃ (Ω : Type) (_ : MeasurableSpace Ω) (μ : Measure Ω) (t : ℕ → ℕ → Ω → ℝ), IndepDraws μ t ∧
    IndepFun (fun ω (q : Fin 5000 × ({0} : Finset (Fin 3))) => generateDataset (m := 2) (fun p j => decide (j.val = p.val ∨ j.val = p.val + 1)) (1 / 10) (fun c k => t c k ω) q.1 q.2.1)
      (fun ω (q : Fin 5000 × ({2} : Finset (Fin 3))) => generateDataset (m := 2) (fun p j => decide (j.val = p.val ∨ j.val = p.val + 1)) (1 / 10) (fun c k => t c k ω) q.1 q.2.1) μ ∧
    ∀ k : Fin 5000, ¬ IndepFun
      (fun ω => generateDataset (m := 2) (n := 3) (fun p j => decide (j.val = p.val ∨ j.val = p.val + 1)) (1 / 10) (fun c k => t c k ω) k 0)
      (fun ω => generateDataset (m := 2) (n := 3) (fun p j => decide (j.val = p.val ∨ j.val = p.val + 1)) (1 / 10) (fun c k => t c k ω) k 1) μ := by
  obtain ⟨Ω, _, μ, t, ht, h0, hn, hw⟩ := draws_exist
  refine ⟨Ω, _, μ, t, ht, C134_separated ht 5000 _ _ {0} {2} (by decide) ?_, fun k => ?_⟩
  · simp only [Finset.mem_singleton]
    rintro a rfl b rfl p
    revert p
    decide
  · refine C134_connected ht h0 5000 _ _ 0 1 (by decide) (hn _) (hn _) (fun _ _ => 1) (hw _) (hw _) ?_ k
    rw [Finset.sum_const, show (univ.filter fun p : Fin 2 => decide ((0 : Fin 3).val = p.val ∨ (0 : Fin 3).val = p.val + 1) = true ∧
      decide ((1 : Fin 3).val = p.val ∨ (1 : Fin 3).val = p.val + 1) = true).card = 1 by decide]
    norm_num

/-! ### C135: scores of the verification -/

theorem expectedDep_iff (B : Fin m → Fin n → Bool) (a b : Fin n) :
    expectedDep B a b = true ↔ a ≠ b ∧ ∃ p, B p a = true ∧ B p b = true := by
  unfold expectedDep
  simp only [Bool.and_eq_true, decide_eq_true_eq, Bool.not_eq_true', decide_eq_false_iff_not]
  rw [and_comm]
  refine and_congr_right fun _ => ?_
  rw [Finset.sum_pos_iff]
  refine exists_congr fun p => ?_
  cases B p a <;> cases B p b <;> simp

/-- the count of cells on which two tables agree, divided by the number of cells, is at most 1, and 1 exactly if they agree everywhere -/
theorem matchRate_fin (hn : 0 < n) (u e : Fin n → Fin n → Bool) :
    ∃ r : ℚ, matchRate u e = .fin r ∧ r * (n * n) = ((univ.filter fun q : Fin n × Fin n => u q.1 q.2 = e q.1 q.2).card : ℚ) ∧
      r ≤ 1 ∧ (r = 1 ↔ u = e) ∧ ((∀ a, u a a = e a a) → 1 / (n : ℚ) ≤ r) := by
  have hnq : (0 : ℚ) < n := by exact_mod_cast hn
  have hne : (n : ℚ) * n ≠ 0 := by positivity
  have hcard : Fintype.card (Fin n × Fin n) = n * n := by simp
  refine ⟨_, by unfold matchRate Fl.div; rw [if_neg hne], by field_simp, ?_, ?_, ?_⟩
  · rw [div_le_one (by positivity)]
    have := card_le_univ (univ.filter fun q : Fin n × Fin n => u q.1 q.2 = e q.1 q.2)
    rw [hcard] at this
    exact_mod_cast this
  · rw [div_eq_one_iff_eq hne]
    constructor
    · intro h
      have h1 : (univ.filter fun q : Fin n × Fin n => u q.1 q.2 = e q.1 q.2).card = Fintype.card (Fin n × Fin n) := by
        rw [hcard]; exact_mod_cast h
      have h2 := (card_eq_iff_eq_univ _).mp h1
      funext a b
      have : (a, b) ∈ univ.filter fun q : Fin n × Fin n => u q.1 q.2 = e q.1 q.2 := by rw [h2]; exact mem_univ _
      exact (mem_filter.mp this).2
    · intro h
      subst h
      simp
  · intro h
    have h1 : (univ.image fun a : Fin n => (a, a)) ⊆ univ.filter fun q : Fin n × Fin n => u q.1 q.2 = e q.1 q.2 := by
      intro q hq
      obtain ⟨a, -, rfl⟩ := mem_image.mp hq
      exact mem_filter.mpr ⟨mem_univ _, h a⟩
    have h2 := card_le_card h1
    rw [card_image_of_injective _ (fun a b h => (Prod.mk.inj h).1), card_univ, Fintype.card_fin] at h2
    have h3 : (n : ℚ) ≤ ((univ.filter fun q : Fin n × Fin n => u q.1 q.2 = e q.1 q.2).card : ℚ) := by exact_mod_cast h2
    rw [div_le_div_iff₀ hnq (by positivity)]
    nlinarith

/-- **C135** `verify_independence_pattern` always returns; the graph it expects joins exactly the pairs of measurements with a common parent; the match
rate is between `1/n` and 1, and is 1 exactly if the estimated graph joins exactly these pairs -/
theorem C135_match_rate {N : Nat} (lib : TestLib ℝ N) (B : Fin m → Fin n → Bool) (noise : ℝ) (t : ℕ → ℕ → ℝ) (hn : 0 < n) :
    ∃ udg expected, ∃ r : ℚ, verifyPattern lib B noise t = .ok (udg, expected, .fin r) ∧
      (∀ a b, expected a b = true ↔ a ≠ b ∧ ∃ p, B p a = true ∧ B p b = true) ∧
      1 / (n : ℚ) ≤ r ∧ r ≤ 1 ∧ (r = 1 ↔ ∀ a b, udg a b = true ↔ a ≠ b ∧ ∃ p, B p a = true ∧ B p b = true) := by
  let udg : Fin n → Fin n → Bool := clearDiag fun i j => (pairPvals lib.xicorTest (generateDataset B noise t) i j).lt (5 / 100)
  have hest : estimateUDG lib (generateDataset B noise t) (.name "xicor") (5 / 100) =
      .ok (udg, some (pairPvals lib.xicorTest (generateDataset B noise t))) := by
    unfold estimateUDG
    simp [udg]
  obtain ⟨r, h1, -, h2, h3, h4⟩ := matchRate_fin hn udg (expectedDep B)
  refine ⟨udg, expectedDep B, r, ?_, expectedDep_iff B, h4 fun a => ?_, h2, h3.trans ⟨?_, ?_⟩⟩
  · unfold verifyPattern
    rw [hest]
    simp only [h1]
  · have : expectedDep B a a = false := by
      rw [← Bool.not_eq_true, expectedDep_iff]
      simp
    rw [this]
    simp [udg, clearDiag]
  · intro h a b
    rw [h, expectedDep_iff]
  · intro h
    funext a b
    rw [Bool.eq_iff_iff, h, expectedDep_iff]

/-- **C135** the scores of `verify_independence_pattern_GP`, for any two graphs: every pair of different measurements is counted once; precision, recall
and F1 are in `[0, 1)`; the match rate is in `[0, 1]`, and 1 exactly if the graphs agree on all pairs above the diagonal; with fewer than two
measurements it is nan -/
theorem C135_scores (expected udg : Fin n → Fin n → Bool) :
    let TP := triuCount expected udg true true
    let TN := triuCount expected udg false false
    let FP := triuCount expected udg false true
    let FN := triuCount expected udg true false
    TP + TN + FP + FN = n.choose 2 ∧
    (0 ≤ gpPrecision TP FP ∧ gpPrecision TP FP < 1) ∧ (0 ≤ gpRecall TP FN ∧ gpRecall TP FN < 1) ∧
    (0 ≤ gpF1 (gpPrecision TP FP) (gpRecall TP FN) ∧ gpF1 (gpPrecision TP FP) (gpRecall TP FN) < 1) ∧
    (∀ p r, gpPrecision TP FP = p → gpRecall TP FN = r →
      p * (TP + FP + 1 / 10 ^ 10) = TP ∧ r * (TP + FN + 1 / 10 ^ 10) = TP ∧ gpF1 p r * (p + r + 1 / 10 ^ 10) = 2 * p * r) ∧
    (n < 2 → gpMatch TP TN FP FN = .nan) ∧
    (2 ≤ n → ∃ r, gpMatch TP TN FP FN = .fin r ∧ 0 ≤ r ∧ r ≤ 1 ∧ (r = 1 ↔ ∀ a b, a < b → udg a b = expected a b)) := by
  intro TP TN FP FN
  have hsum : TP + TN + FP + FN = (univ.filter fun p : Fin n × Fin n => p.1 < p.2).card := by
    have hsplit : ∀ (s : Finset (Fin n × Fin n)) (q : Fin n × Fin n → Bool),
        s.card = (s.filter fun p => q p = true).card + (s.filter fun p => q p = false).card := by
      intro s q
      have := card_filter_add_card_filter_not (s := s) (fun p => q p = true)
      simpa using this.symm
    rw [hsplit _ fun p => expected p.1 p.2, hsplit (filter _ (filter _ _)) fun p => udg p.1 p.2,
      hsplit (filter (fun p => expected p.1 p.2 = false) _) fun p => udg p.1 p.2]
    simp only [filter_filter, TP, TN, FP, FN, triuCount, and_assoc]
    omega
  have hchoose : (univ.filter fun p : Fin n × Fin n => p.1 < p.2).card = n.choose 2 := by
    rw [Nat.choose_two_right, ← triuPairs_length, ← List.toFinset_card_of_nodup (triuPairs_nodup n)]
    congr 1
    ext e
    simp [mem_triuPairs]
  have hratio : ∀ a b : ℕ, 0 ≤ (a : ℚ) / (a + b + 1 / 10 ^ 10) ∧ (a : ℚ) / (a + b + 1 / 10 ^ 10) < 1 := fun a b => by
    have ha : (0 : ℚ) ≤ a := Nat.cast_nonneg a
    have hb : (0 : ℚ) ≤ b := Nat.cast_nonneg b
    refine ⟨by positivity, ?_⟩
    rw [div_lt_one (by positivity)]
    have : (0 : ℚ) < 1 / 10 ^ 10 := by positivity
    linarith
  have hp := hratio TP FP
  have hr := hratio TP FN
  refine ⟨hsum.trans hchoose, hp, hr, ?_, ?_, fun h => ?_, fun h => ?_⟩
  rotate_left
  · rintro p r rfl rfl
    have h1 := hp.1
    have h2 := hr.1
    refine ⟨div_mul_cancel₀ _ (by positivity), div_mul_cancel₀ _ (by positivity), div_mul_cancel₀ _ ?_⟩
    change 0 ≤ gpPrecision TP FP at h1
    change 0 ≤ gpRecall TP FN at h2
    positivity
  rotate_left 2
  · show 0 ≤ gpF1 _ _ ∧ gpF1 _ _ < 1
    unfold gpF1 gpPrecision gpRecall
    generalize (TP : ℚ) / (TP + FP + 1 / 10 ^ 10) = p at hp ⊢
    generalize (TP : ℚ) / (TP + FN + 1 / 10 ^ 10) = q at hr ⊢
    obtain ⟨h1, h2⟩ := hp
    obtain ⟨h3, h4⟩ := hr
    refine ⟨by positivity, ?_⟩
    rw [div_lt_one (by positivity)]
    have : (0 : ℚ) < 1 / 10 ^ 10 := by positivity
    nlinarith [mul_le_mul_of_nonneg_left h4.le h1, mul_le_mul_of_nonneg_left h2.le h3]
  · have h0 : TP + TN + FP + FN = 0 := by
      rw [hsum, hchoose]
      exact Nat.choose_eq_zero_of_lt h
    unfold gpMatch Fl.div
    rw [h0, show TP + TN = 0 by omega]
    simp
  · have hpos : 0 < TP + TN + FP + FN := by
      rw [hsum, hchoose]
      exact Nat.choose_pos h
    have hne : ((TP + TN + FP + FN : ℕ) : ℚ) ≠ 0 := by exact_mod_cast hpos.ne'
    have hposq : (0 : ℚ) < ((TP + TN + FP + FN : ℕ) : ℚ) := by exact_mod_cast hpos
    refine ⟨_, by unfold gpMatch Fl.div; rw [if_neg hne], by positivity, ?_, ?_⟩
    · rw [div_le_one hposq]
      exact_mod_cast (show TP + TN ≤ TP + TN + FP + FN by omega)
    · rw [div_eq_one_iff_eq hne]
      have h1 : ((TP + TN : ℕ) : ℚ) = ((TP + TN + FP + FN : ℕ) : ℚ) ↔ FP = 0 ∧ FN = 0 := by
        rw [Nat.cast_inj]
        omega
      rw [h1]
      simp only [FP, FN, triuCount, card_eq_zero, filter_eq_empty_iff, mem_univ, true_implies]
      constructor
      · rintro ⟨h2, h3⟩ a b hab
        have h4 := @h2 (a, b)
        have h5 := @h3 (a, b)
        simp only [not_and] at h4 h5
        cases he : expected a b <;> cases hu : udg a b
        · rfl
        · exact absurd hu (h4 hab he)
        · exact absurd hu (h5 hab he)
        · rfl
      · intro h2
        constructor
        · rintro ⟨a, b⟩ ⟨h3, h4, h5⟩
          have := h2 a b h3
          simp_all
        · rintro ⟨a, b⟩ ⟨h3, h4, h5⟩
          have := h2 a b h3
          simp_all

end Medil

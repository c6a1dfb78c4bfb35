import Verif.Model.Dtypes
import Verif.Props.Sample
import Verif.Props.Gaussian
import Mathlib.Tactic.Linarith
import Mathlib.Tactic.Push
/-
  Structures given as arrays of 0/1 integers, and weight matrices given to `sfd` (C139-C142).
-/
namespace Medil
open Finset

section assign
variable {K : Type} [Zero K] {L M E : Nat}

theorem intOnes_pos {B : Fin L → Fin M → Bool} (h : 0 < intOnes B) : ∃ i j, B i j = true := by
  obtain ⟨e, he⟩ := card_pos.mp h
  exact ⟨e.1, e.2, (mem_filter.mp he).2⟩

theorem exists_zero {B : Fin L → Fin M → Bool} (h : intOnes B < L * M) : ∃ i j, B i j = false := by
  by_contra hc
  push Not at hc
  have : (univ.filter fun e : Fin L × Fin M => B e.1 e.2 = true) = univ :=
    filter_true_of_mem fun e _ => by simpa using hc e.1 e.2
  rw [intOnes, this, card_univ, Fintype.card_prod, Fintype.card_fin, Fintype.card_fin] at h
  exact absurd h (lt_irrefl _)

theorem intAssign_spec (hM : 0 < M) (B : Fin L → Fin M → Bool) :
    (∀ w : Fin (intOnes B) → K, (∃ W, intAssign B w = .ok W) ↔ 2 ≤ L ∧ (intOnes B = M ∨ intOnes B = 1)) ∧
    ((intOnes B = M ∨ intOnes B = 1) → 2 ≤ L → ∃ pos : Fin M → Fin (intOnes B),
      (intOnes B = M → ∀ j, (pos j).val = j.val) ∧
      ∀ w : Fin (intOnes B) → K, intAssign B w = .ok fun r j => if r.val < 2 then w (pos j) else 0) := by
  have main : (intOnes B = M ∨ intOnes B = 1) → 2 ≤ L → ∃ pos : Fin M → Fin (intOnes B),
      (intOnes B = M → ∀ j, (pos j).val = j.val) ∧
      ∀ w : Fin (intOnes B) → K, intAssign B w = .ok fun r j => if r.val < 2 then w (pos j) else 0 := by
    intro hE hL
    obtain ⟨a, b, hab⟩ := intOnes_pos (B := B) (by omega)
    have hno : ¬ ∃ i j, L ≤ (B i j).toNat := by
      rintro ⟨i, j, h⟩
      have := Bool.toNat_lt (B i j)
      omega
    obtain ⟨a0, b0, hab0⟩ := exists_zero (B := B) (by
      have : 2 * M ≤ L * M := Nat.mul_le_mul_right _ hL
      omega)
    refine ⟨fun j => if h : intOnes B = M then j.cast h.symm else ⟨0, by omega⟩, ?_, ?_⟩
    · intro h j
      simp [h]
    · intro w
      unfold intAssign
      rw [dif_pos hE, if_neg hno]
      congr 1
      funext r j
      by_cases hr : r.val < 2
      · rw [if_pos hr, if_pos]
        obtain h | h : r.val = 0 ∨ r.val = 1 := by omega
        · exact ⟨a0, b0, by simp [hab0, h]⟩
        · exact ⟨a, b, by simp [hab, h]⟩
      · rw [if_neg hr, if_neg]
        rintro ⟨i, j', h⟩
        have := Bool.toNat_lt (B i j')
        omega
  refine ⟨fun w => ⟨?_, fun h => ?_⟩, main⟩
  · rintro ⟨W, h⟩
    unfold intAssign at h
    split at h
    · rename_i hE
      split at h
      · cases h
      · rename_i hno
        refine ⟨?_, hE⟩
        obtain ⟨a, b, hab⟩ := intOnes_pos (B := B) (by omega)
        by_contra hL
        exact hno ⟨a, b, by simp [hab]; omega⟩
    · cases h
  · obtain ⟨pos, -, h⟩ := main h.2 h.1
    exact ⟨_, h w⟩

end assign

/-! ### C139 -/

/-- the claim: `mcm(biadj=B)` with a 0/1 integer array returns, and the weights are non-zero exactly on the edges -/
def C139_statement : Prop :=
  ∀ (G : Type) (gen : Gen G) (L M : Nat) (B : Fin L → Fin M → Bool) (g : G), 0 < L → 0 < M →
    ∃ p, (mcmInt gen B g).1 = .ok p ∧ ∀ i j, p.weights i j ≠ 0 ↔ B i j = true

/-- **C139, proved part**: `mcm` on a 0/1 integer array returns exactly if there are at least two latents and the number of edges
is 1 or the number of measurements.  Then the weights have nothing to do with the structure: the first two rows are
the same vector without zeros, all other rows are zero; in particular some pair that is no edge has a weight.  The error variances
lie in [1/2, 2), the error means in (-2, 2); they are fresh draws, as for arrays of bools.
Missing for the full claim: it is false for every integer array (`C139_never`). -/
theorem C139_integers_partial {G : Type} (gen : Gen G) {L M : Nat} (hM : 0 < M)
    (B : Fin L → Fin M → Bool) (g : G) :
    ((∃ p, (mcmInt gen B g).1 = .ok p) ↔
      2 ≤ L ∧ ((univ.filter fun e : Fin L × Fin M => B e.1 e.2 = true).card = M ∨
        (univ.filter fun e : Fin L × Fin M => B e.1 e.2 = true).card = 1)) ∧
    ∀ p, (mcmInt gen B g).1 = .ok p →
      (∃ w : Fin M → ℚ, (∀ j, 1 / 2 ≤ |w j| ∧ |w j| < 2) ∧
        ∀ i j, p.weights i j = if i.val < 2 then w j else 0) ∧
      (∃ i j, B i j = false ∧ p.weights i j ≠ 0) ∧
      (∀ j, -2 < p.means j ∧ p.means j < 2) ∧ (∀ j, 1 / 2 ≤ p.variances j ∧ p.variances j < 2) ∧
      ∃ (g' : G) (mf : Fin M → Bool) (g'' : G), g' = (gen.choiceVec (intOnes B) (gen.randomVec (intOnes B) g).2).2 ∧
        (mf, g'') = gen.choiceVec M (gen.randomVec M g').2 ∧
        (∀ j, p.means j = (if mf j then -1 else 1) * (2 * (gen.randomVec M g').1 j)) ∧
        (∀ j, p.variances j = 1 / 2 + 3 / 2 * (gen.randomVec M g'').1 j) := by
  obtain ⟨h1', h2⟩ := intAssign_spec (K := ℚ) hM B
  have h1 := h1' (fun k => flipped ((gen.choiceVec (intOnes B) (gen.randomVec (intOnes B) g).2).1 k)
    ((gen.randomVec (intOnes B) g).1 k * (3 / 2) + 1 / 2))
  have hr : (mcmInt gen B g).1 = match intAssign B (fun k => flipped ((gen.choiceVec (intOnes B) (gen.randomVec (intOnes B) g).2).1 k)
      ((gen.randomVec (intOnes B) g).1 k * (3 / 2) + 1 / 2)) with
      | .error e => .error e
      | .ok W => (mcmInt gen B g).1 := by
    unfold mcmInt
    simp only
    split <;> simp_all
  have hw : ∀ p W, intAssign B (fun k => flipped ((gen.choiceVec (intOnes B) (gen.randomVec (intOnes B) g).2).1 k)
      ((gen.randomVec (intOnes B) g).1 k * (3 / 2) + 1 / 2)) = .ok W → (mcmInt gen B g).1 = .ok p → p.weights = W := by
    intro p W hW hp
    unfold mcmInt at hp
    simp only [hW] at hp
    cases hp
    rfl
  have hx : ∀ W, intAssign B (fun k => flipped ((gen.choiceVec (intOnes B) (gen.randomVec (intOnes B) g).2).1 k)
      ((gen.randomVec (intOnes B) g).1 k * (3 / 2) + 1 / 2)) = .ok W → ∃ p, (mcmInt gen B g).1 = .ok p := by
    intro W hW
    unfold mcmInt
    simp only [hW]
    exact ⟨_, rfl⟩
  have hok : (∃ p, (mcmInt gen B g).1 = .ok p) → ∃ W, intAssign B (fun k => flipped ((gen.choiceVec (intOnes B) (gen.randomVec (intOnes B) g).2).1 k)
      ((gen.randomVec (intOnes B) g).1 k * (3 / 2) + 1 / 2)) = .ok W := by
    rintro ⟨p, hp⟩
    rw [hr] at hp
    split at hp
    · cases hp
    · exact ⟨_, by assumption⟩
  refine ⟨⟨fun h => h1.mp (hok h), fun h => ?_⟩, ?_⟩
  · obtain ⟨W, hW⟩ := h1.mpr h
    exact hx W hW
  · intro p hp
    obtain ⟨W, hW⟩ := hok ⟨p, hp⟩
    obtain ⟨hL, hE⟩ := h1.mp ⟨W, hW⟩
    obtain ⟨pos, -, hpos'⟩ := h2 hE hL
    have hpos := fun r j => congrFun (congrFun (Except.ok.inj (hW.symm.trans (hpos' _))) r) j
    have hmv : (∀ j, -2 < p.means j ∧ p.means j < 2) ∧ (∀ j, 1 / 2 ≤ p.variances j ∧ p.variances j < 2) ∧
      ∃ (g' : G) (mf : Fin M → Bool) (g'' : G), g' = (gen.choiceVec (intOnes B) (gen.randomVec (intOnes B) g).2).2 ∧
        (mf, g'') = gen.choiceVec M (gen.randomVec M g').2 ∧
        (∀ j, p.means j = (if mf j then -1 else 1) * (2 * (gen.randomVec M g').1 j)) ∧
        (∀ j, p.variances j = 1 / 2 + 3 / 2 * (gen.randomVec M g'').1 j) := by
      have hp2 := hp
      unfold mcmInt at hp2
      simp only [hW] at hp2
      obtain rfl := Except.ok.inj hp2
      refine ⟨fun j => ?_, fun j => ?_, _, _, _, rfl, rfl, fun j => ?_, fun j => ?_⟩
      · have h0 := gen.randomVec_range M (gen.choiceVec (intOnes B) (gen.randomVec (intOnes B) g).2).2 j
        simp only [flipped]
        split <;> constructor <;> linarith
      · have h0 := gen.randomVec_range M (gen.choiceVec M (gen.randomVec M (gen.choiceVec (intOnes B) (gen.randomVec (intOnes B) g).2).2).2).2 j
        simp only
        constructor <;> linarith
      · simp only [flipped]
        split <;> ring
      · simp only
        ring
    rw [hw p W hW hp]
    have hrange : ∀ k, 1 / 2 ≤ |flipped ((gen.choiceVec (intOnes B) (gen.randomVec (intOnes B) g).2).1 k)
        ((gen.randomVec (intOnes B) g).1 k * (3 / 2) + 1 / 2)| ∧
        |flipped ((gen.choiceVec (intOnes B) (gen.randomVec (intOnes B) g).2).1 k)
        ((gen.randomVec (intOnes B) g).1 k * (3 / 2) + 1 / 2)| < 2 := by
      intro k
      have h0 := (gen.randomVec_range (intOnes B) g k)
      rw [flipped_abs, abs_of_nonneg (by linarith)]
      constructor <;> linarith
    refine ⟨⟨_, fun j => hrange (pos j), fun i j => hpos i j⟩, ?_, hmv⟩
    by_contra hc
    push Not at hc
    -- all 2 M positions of the first two rows would be edges
    have hall : ∀ i : Fin L, ∀ j, i.val < 2 → B i j = true := by
      intro i j hi
      by_contra hf
      have := hc i j (by simpa using hf)
      rw [hpos, if_pos hi] at this
      have h3 := (hrange (pos j)).1
      rw [this] at h3
      simp at h3
      linarith
    have hcard : 2 * M ≤ intOnes B := by
      have : (univ : Finset (Fin 2 × Fin M)).card ≤ intOnes B := by
        refine card_le_card_of_injOn (fun e => ((⟨e.1.val, by omega⟩ : Fin L), e.2)) ?_ ?_
        · intro e _
          simp only [coe_filter, mem_univ, true_and, Set.mem_ofPred_eq]
          exact hall _ _ e.1.isLt
        · intro e _ f _ h
          simp only [Prod.mk.injEq, Fin.mk.injEq] at h
          exact Prod.ext (Fin.ext h.1) h.2
      simpa using this
    have : intOnes B = M ∨ intOnes B = 1 := hE
    omega

/-- **C139 fails for every integer array**: `mcm` raises or returns weights on a pair that is no edge -/
theorem C139_never {G : Type} (gen : Gen G) {L M : Nat} (hM : 0 < M) (B : Fin L → Fin M → Bool) (g : G) :
    ¬ ∃ p, (mcmInt gen B g).1 = .ok p ∧ ∀ i j, p.weights i j ≠ 0 ↔ B i j = true := by
  rintro ⟨p, hp, h⟩
  obtain ⟨-, ⟨i, j, hf, hne⟩, -⟩ := (C139_integers_partial gen hM B g).2 p hp
  have := (h i j).mp hne
  rw [hf] at this
  cases this

theorem C139_false : ¬ C139_statement := fun h =>
  C139_never countGen (by decide) (fun i j : Fin 3 => decide (i = j)) 0
    (h Nat countGen 3 3 (fun i j => decide (i = j)) 0 (by decide) (by decide))

-- the identity matrix as integers: every measurement depends on the first two latents, the third latent has no child
example : ((mcmInt countGen (fun i j : Fin 3 => decide (i = j)) 0).1.toOption.map fun p =>
    (List.finRange 3).map fun i => (List.finRange 3).map fun j => decide (p.weights i j ≠ 0)) =
    some [[true, true, true], [true, true, true], [false, false, false]] := by decide +kernel

/-! ### C140 -/

/-- the claim: `GaussianMCM(biadj=B).fit(dataset)` with a 0/1 integer array returns, and there are no weights off the edges -/
def C140_statement : Prop :=
  ∀ (opt : Optimizer) (L M : Nat) (d : Dataset M) (B : Fin L → Fin M → Bool), 0 < L → 0 < M →
    ∃ means vars W, fitInt opt d B = .ok (means, vars, W) ∧ ∀ i j, B i j = false → W i j = 0

/-- **C140, proved part**: `fit` with a 0/1 integer array as structure returns exactly if there are at least two latents and the
number of edges is 1 or the number of measurements, whatever the optimizer does.  Then the first two rows of the weights are the same vector
and the other rows are zero, and the objective is the distance to the covariance `2 w wᵀ + D` of such weights: the structure
plays no role beyond its number of edges.  Missing for the full claim: it is false (`C140_false`). -/
theorem C140_integers_partial (opt : Optimizer) {L M : Nat} (hM : 0 < M) (d : Dataset M) (B : Fin L → Fin M → Bool) :
    ((∃ r, fitInt opt d B = .ok r) ↔
      2 ≤ L ∧ ((univ.filter fun e : Fin L × Fin M => B e.1 e.2 = true).card = M ∨
        (univ.filter fun e : Fin L × Fin M => B e.1 e.2 = true).card = 1)) ∧
    ∀ means vars W, fitInt opt d B = .ok (means, vars, W) →
      ∃ (E : Nat) (pos : Fin M → Fin E) (f : (Fin (E + M) → ℝ) → ℝ),
        E = (univ.filter fun e : Fin L × Fin M => B e.1 e.2 = true).card ∧ (E = M → ∀ j, (pos j).val = j.val) ∧
        (∀ x, f x = sqDist (fun i j => sampleCov (fun k => d.val k i) fun k => d.val k j)
          fun i j => 2 * (x (Fin.castAdd M (pos i)) * x (Fin.castAdd M (pos j))) + if i = j then x (Fin.natAdd E i) else 0) ∧
        means = (fun j => sampleMean fun k => d.val k j) ∧
        (∀ j, vars j = (opt _ f).1 (Fin.natAdd E j)) ∧
        ∀ i j, W i j = if i.val < 2 then (opt _ f).1 (Fin.castAdd M (pos j)) else 0 := by
  have key : ∀ w : Fin (intOnes B) → ℝ, (∃ W, intAssign B w = .ok W) ↔ 2 ≤ L ∧ (intOnes B = M ∨ intOnes B = 1) :=
    (intAssign_spec hM B).1
  constructor
  · constructor
    · rintro ⟨r, hr⟩
      unfold fitInt at hr
      split at hr
      · cases hr
      · rename_i W hW
        exact (key _).mp ⟨W, hW⟩
    · intro h
      obtain ⟨W, hW⟩ := (key fun _ => 1).mpr h
      unfold fitInt
      simp only [hW]
      obtain ⟨W', hW'⟩ := (key (headPart (opt _ (intObjective d B)).1)).mpr h
      rw [hW']
      exact ⟨_, rfl⟩
  · intro means vars W hr
    unfold fitInt at hr
    split at hr
    · cases hr
    · rename_i W0 hW0
      obtain ⟨hL, hE⟩ := (key _).mp ⟨W0, hW0⟩
      obtain ⟨pos, hp1, hpos⟩ := (intAssign_spec (K := ℝ) hM B).2 hE hL
      simp only [hpos] at hr
      cases hr
      refine ⟨intOnes B, pos, intObjective d B, rfl, hp1, ?_, rfl, fun j => rfl, fun i j => rfl⟩
      intro x
      unfold intObjective
      rw [hpos]
      unfold sqDist
      refine sum_congr rfl fun i _ => sum_congr rfl fun j _ => ?_
      obtain ⟨L, rfl⟩ : ∃ k, L = k + 2 := ⟨L - 2, by omega⟩
      have h2 : ∑ r : Fin (L + 2), (if r.val < 2 then headPart x (pos i) else 0) * (if r.val < 2 then headPart x (pos j) else 0) =
          2 * (headPart x (pos i) * headPart x (pos j)) := by
        rw [Fin.sum_univ_succ, Fin.sum_univ_succ, sum_eq_zero]
        · simp
          ring
        · intro r _
          rw [if_neg (by simp)]
          simp
      rw [h2, Dataset.cov_eq]
      unfold headPart tailPart
      ring

/-- the optimizer that returns its start value -/
def onesOpt : Optimizer := fun _ _ => (fun _ => 1, true)

theorem C140_false : ¬ C140_statement := by
  intro h
  let d : Dataset 3 := ⟨2, le_rfl, fun k j => if k.val = 0 then j.val else 0⟩
  obtain ⟨means, vars, W, h1, h2⟩ := h onesOpt 1 3 d (fun _ _ => true) (by decide) (by decide)
  have := ((C140_integers_partial onesOpt (by decide) d (fun _ _ => true)).1.mp ⟨_, h1⟩).1
  omega

-- a structure on which the fit returns
example : 2 ≤ 3 ∧ ((univ.filter fun e : Fin 3 × Fin 3 => (fun i j : Fin 3 => decide (i = j)) e.1 e.2 = true).card = 3 ∨
    (univ.filter fun e : Fin 3 × Fin 3 => (fun i j : Fin 3 => decide (i = j)) e.1 e.2 = true).card = 1) := by decide

/-! ### C141, C142 -/

/-- a bool matrix as an array of numbers -/
def toNum {n : Nat} (B : List (BVec n)) (r : Fin B.length) (j : Fin n) : ℚ := if B[r] j then 1 else 0

theorem truncInt_ite (p : Prop) [Decidable p] : truncInt (if p then 1 else 0) = if p then 1 else 0 := by
  split <;> simp [truncInt]

theorem sum_toNum {n : Nat} (B : List (BVec n)) (i j : Fin n) :
    (∑ r, toNum B r i * toNum B r j : ℚ) = ((B.map fun r => (if r i then 1 else 0) * (if r j then 1 else 0)).sum : Int) := by
  have : (B.map fun r => ((if r i then 1 else 0) * (if r j then 1 else 0) : Int)).sum =
      ∑ r : Fin B.length, (if B[r] i then 1 else 0) * (if B[r] j then 1 else 0) := by
    rw [← List.sum_ofFn]
    congr 1
    apply List.ext_getElem <;> simp
  rw [this]
  push_cast
  refine sum_congr rfl fun r _ => ?_
  unfold toNum
  split <;> split <;> simp

theorem recoverUgNum_toNum {n : Nat} (B : List (BVec n)) (i j : Fin n) :
    recoverUgNum (toNum B) i j ≠ 0 ↔ recoverUg B i j = true := by
  unfold recoverUgNum recoverUg
  rw [BMat.get_of]
  by_cases hij : i = j
  · simp [hij]
  · rw [if_neg hij]
    simp only [hij, decide_false, Bool.not_false, Bool.and_true, List.any_eq_true, Bool.and_eq_true]
    rw [ne_eq, sum_eq_zero_iff_of_nonneg (fun r _ => by unfold toNum; split <;> split <;> simp)]
    push Not
    constructor
    · rintro ⟨r, -, h⟩
      refine ⟨B[r], List.getElem_mem _, ?_⟩
      unfold toNum at h
      split at h <;> split at h <;> simp_all
    · rintro ⟨b, hb, h1, h2⟩
      obtain ⟨k, hk, rfl⟩ := List.getElem_of_mem hb
      refine ⟨⟨k, hk⟩, mem_univ _, ?_⟩
      simp [toNum, h1, h2]

/-- **C141** `sfd` and `recover_ug` give the same values for structures written with 0/1 numbers as for bool arrays -/
theorem C141_sfd_numbers {n : Nat} (P T : List (BVec n)) :
    sfdNum (toNum P) (toNum T) = sfd P T ∧
    ∀ B : List (BVec n), ∀ i j, recoverUgNum (toNum B) i j ≠ 0 ↔ recoverUg B i j = true := by
  refine ⟨?_, recoverUgNum_toNum⟩
  have h1 : ∀ (B : List (BVec n)) (i j : Fin n),
      (∑ r, truncInt (toNum B r i) * truncInt (toNum B r j)) = wtdUg B i j := by
    intro B i j
    unfold wtdUg toNum
    simp only [truncInt_ite]
    rw [← List.sum_ofFn]
    congr 1
    apply List.ext_getElem <;> simp
  have h2 : ∀ (B : List (BVec n)) (i j : Fin n), decide (recoverUgNum (toNum B) i j ≠ 0) = recoverUg B i j := by
    intro B i j
    rw [Bool.eq_iff_iff, decide_eq_true_iff]
    exact recoverUgNum_toNum B i j
  unfold sfdNum sfd ushdOf
  simp only [h1, h2]

-- the values for two structures that differ
example : sfdNum (toNum [(⟨0b011⟩ : BVec 3), ⟨0b110⟩]) (toNum [(⟨0b111⟩ : BVec 3)]) = (3, 1) := by decide +kernel

/-- the support of a weight matrix, as numbers -/
def suppNum {L M : Nat} (W : Fin L → Fin M → ℚ) (r : Fin L) (j : Fin M) : ℚ := if W r j ≠ 0 then 1 else 0

/-- the claim: on weight matrices `sfd` compares the structures, that is, the supports -/
def C142_statement : Prop :=
  ∀ (L L' M : Nat) (P : Fin L → Fin M → ℚ) (T : Fin L' → Fin M → ℚ), sfdNum P T = sfdNum (suppNum P) (suppNum T)

/-- **C142 is false**, for two reasons: weights between -1 and 1 are truncated to 0 (the first value is wrong), and products of
weights can cancel (the second value is wrong) -/
theorem C142_false : ¬ C142_statement := by
  intro h
  have := h 1 1 1 (fun _ _ => 9 / 10) (fun _ _ => 1)
  revert this
  decide +kernel

theorem C142_false_cancel : ∃ (P : Fin 2 → Fin 2 → ℚ) (T : Fin 1 → Fin 2 → ℚ),
    (sfdNum P T).2 ≠ (sfdNum (suppNum P) (suppNum T)).2 :=
  ⟨fun i j => if i.val = 1 ∧ j.val = 1 then -1 else 1, fun _ _ => 1, by decide +kernel⟩

/-- **C142, proved part**: the first value is that of the entries rounded towards zero; the second value is that of the supports
whenever no weight is negative.  If all non-zero weights are at least 1 and less than 2 both values are those of the supports.
Missing for the full claim: it is false (`C142_false`). -/
theorem C142_weights_partial {L L' M : Nat} (P : Fin L → Fin M → ℚ) (T : Fin L' → Fin M → ℚ) :
    (sfdNum P T).1 = (sfdNum (fun r j => (truncInt (P r j) : ℚ)) fun r j => (truncInt (T r j) : ℚ)).1 ∧
    ((∀ r j, 0 ≤ P r j) → (∀ r j, 0 ≤ T r j) → (sfdNum P T).2 = (sfdNum (suppNum P) (suppNum T)).2) ∧
    ((∀ r j, P r j ≠ 0 → 1 ≤ P r j ∧ P r j < 2) → (∀ r j, T r j ≠ 0 → 1 ≤ T r j ∧ T r j < 2) →
      sfdNum P T = sfdNum (suppNum P) (suppNum T)) := by
  have hug : ∀ {L : Nat} (W : Fin L → Fin M → ℚ), (∀ r j, 0 ≤ W r j) → ∀ i j,
      (recoverUgNum W i j ≠ 0 ↔ recoverUgNum (suppNum W) i j ≠ 0) := by
    intro L W hW i j
    unfold recoverUgNum
    by_cases hij : i = j
    · simp [hij]
    · rw [if_neg hij, if_neg hij, ne_eq, ne_eq, sum_eq_zero_iff_of_nonneg (fun r _ => mul_nonneg (hW r i) (hW r j)),
        sum_eq_zero_iff_of_nonneg (fun r _ => by unfold suppNum; split <;> split <;> simp)]
      refine not_congr (forall_congr' fun r => forall_congr' fun _ => ?_)
      unfold suppNum
      by_cases h1 : W r i = 0 <;> by_cases h2 : W r j = 0 <;> simp [h1, h2]
  have h2 : (∀ r j, 0 ≤ P r j) → (∀ r j, 0 ≤ T r j) → (sfdNum P T).2 = (sfdNum (suppNum P) (suppNum T)).2 := by
    intro hP hT
    unfold sfdNum
    simp only [decide_eq_decide.mpr (hug P hP _ _), decide_eq_decide.mpr (hug T hT _ _)]
  refine ⟨?_, h2, ?_⟩
  · unfold sfdNum
    have : ∀ z : Int, truncInt (z : ℚ) = z := by
      intro z
      unfold truncInt
      split <;> simp
    simp only [this]
  · intro hP hT
    have ht : ∀ {L : Nat} (W : Fin L → Fin M → ℚ), (∀ r j, W r j ≠ 0 → 1 ≤ W r j ∧ W r j < 2) → ∀ r j,
        truncInt (W r j) = truncInt (suppNum W r j) := by
      intro L W hW r j
      unfold suppNum
      rw [truncInt_ite]
      by_cases h : W r j = 0
      · simp [h, truncInt]
      · rw [if_pos h]
        obtain ⟨h1, h2⟩ := hW r j h
        unfold truncInt
        rw [if_pos (by linarith), Int.floor_eq_iff]
        constructor
        · simpa using h1
        · norm_num; linarith
    refine Prod.ext ?_ (h2 ?_ ?_)
    · unfold sfdNum
      simp only [ht P hP, ht T hT]
    · intro r j
      by_cases h : P r j = 0
      · simp [h]
      · linarith [(hP r j h).1]
    · intro r j
      by_cases h : T r j = 0
      · simp [h]
      · linarith [(hT r j h).1]

-- a matrix that meets the hypotheses and is not 0/1
example : (∀ r j, (fun (_ : Fin 2) (j : Fin 2) => if j.val = 0 then (3 / 2 : ℚ) else 0) r j ≠ 0 →
    1 ≤ (fun (_ : Fin 2) (j : Fin 2) => if j.val = 0 then (3 / 2 : ℚ) else 0) r j ∧
    (fun (_ : Fin 2) (j : Fin 2) => if j.val = 0 then (3 / 2 : ℚ) else 0) r j < 2) := by decide +kernel

end Medil

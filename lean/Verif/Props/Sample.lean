import Verif.Proofs.Sample
import Verif.Props.Ecc
/-
  Properties of `medil.sample` (C38-C44).
-/
namespace Medil
open Finset
variable {G : Type}

/-- the successful runs of the one-pure-child branch -/
theorem sampleBiadj_pure_ok (gen : Gen G) (rts : (n : Nat) → Runtime n) (fuel : Nat) (a : BiadjArgs) (g g' : G)
    (B : List (BVec a.numMeas.toNat)) (h1 : a.onePureChild = true)
    (h : sampleBiadj gen rts fuel a g = (.ok B, g')) :
    ∃ (l : Nat) (d : ℚ) (π : Equiv.Perm (Fin ((a.numMeas.toNat - l) * (l - 1))))
      (cols : Fin (a.numMeas.toNat - l) → Equiv.Perm (Fin l)) (σ : Equiv.Perm (Fin a.numMeas.toNat)),
      1 ≤ l ∧ l ≤ a.numMeas.toNat ∧ (a.numLatent ≠ 0 → (l : Int) = a.numLatent) ∧
      (a.numLatent = 0 → (l : Int) < a.numMeas) ∧
      (∀ x, a.density = some x → d = x) ∧ (a.density = none → 0 ≤ d ∧ d < 1) ∧
      B = pureBiadj l a.numMeas.toNat d π cols σ := by
  unfold sampleBiadj at h
  rw [if_pos h1] at h
  split at h
  · cases h
  rename_i hz
  have hd : ∀ gg : G, (∀ x, a.density = some x → (drawDensity gen a gg).1 = x) ∧
      (a.density = none → 0 ≤ (drawDensity gen a gg).1 ∧ (drawDensity gen a gg).1 < 1) := by
    intro gg
    unfold drawDensity
    cases ha : a.density with
    | none => exact ⟨nofun, fun _ => gen.random_range gg⟩
    | some x => exact ⟨fun y hy => Option.some.inj hy, nofun⟩
  have hl : (a.numLatent ≠ 0 → (drawNumLatent gen a g).1 = a.numLatent) ∧
      (a.numLatent = 0 → (drawNumLatent gen a g).1 < a.numMeas) := by
    unfold drawNumLatent
    constructor
    · intro hne; rw [if_neg hne]
    · intro h0
      rw [if_pos h0]
      exact (gen.integers_range 1 a.numMeas g (by omega)).2
  generalize drawNumLatent gen a g = lg at h hl
  obtain ⟨l, gg⟩ := lg
  have hdd := hd gg
  simp only at h hl
  generalize drawDensity gen a gg = dg at h hdd
  obtain ⟨d, gg2⟩ := dg
  simp only at h hdd
  split at h
  · cases h
  · rename_i hr
    rw [Prod.mk.injEq] at h
    obtain ⟨h, -⟩ := h
    refine ⟨l.toNat, d, _, _, _, by omega, by omega, fun hne => ?_, fun h0 => ?_, hdd.1, hdd.2,
      (Except.ok.inj h).symm⟩
    · have := hl.1 hne; omega
    · have := hl.2 h0; omega

/-- a generator for examples: its state counts the draws -/
def countGen : Gen Nat where
  integers lo hi s := (lo + (s : Int) % (hi - lo), s + 1)
  integers_range := by
    intro lo hi s h
    have h1 := Int.emod_nonneg (s : Int) (show hi - lo ≠ 0 by omega)
    have h2 := Int.emod_lt_of_pos (s : Int) (show 0 < hi - lo by omega)
    constructor <;> simp only <;> omega
  random s := (1 / 2, s + 1)
  random_range := by intro g; norm_num
  permutation m s := (Equiv.refl _, s + 1)
  permuted r c s := (fun _ => Equiv.refl _, s + 1)
  randomVec m s := (fun i => (i.val % 4 : Nat) / 4, s + 1)
  randomVec_range := by
    intro m g i
    have : i.val % 4 < 4 := Nat.mod_lt _ (by decide)
    constructor
    · positivity
    · have : ((i.val % 4 : Nat) : ℚ) < 4 := by exact_mod_cast this
      simp only
      linarith
  choiceVec m s := (fun i => i.val % 2 == 0, s + 1)

/-! ### C38, C39, C40 -/

/-- **C38** a result of `biadj(…, one_pure_child=True)` has `num_latent` rows (between 1 and
`num_meas - 1` when `num_latent` is not given), every measurement has a parent and every latent has a
pure child -/
theorem C38_sample_pure (gen : Gen G) (rts : (n : Nat) → Runtime n) (fuel : Nat) (a : BiadjArgs) (g g' : G)
    (B : List (BVec a.numMeas.toNat)) (h1 : a.onePureChild = true)
    (h : sampleBiadj gen rts fuel a g = (.ok B, g')) :
    OnePureChild B ∧ (a.numLatent ≠ 0 → (B.length : Int) = a.numLatent) ∧
      (a.numLatent = 0 → 1 ≤ B.length ∧ (B.length : Int) < a.numMeas) := by
  obtain ⟨l, d, π, cols, σ, h1, h2, h3, h4, -, -, rfl⟩ := sampleBiadj_pure_ok gen rts fuel a g g' B h1 h
  rw [pureBiadj_length]
  exact ⟨pureBiadj_onePure h1 h2 d π cols σ, h3, fun h0 => ⟨h1, h4 h0⟩⟩

/-- **C39** the number of edges; `l` is the number of latents -/
theorem C39_sample_density (gen : Gen G) (rts : (n : Nat) → Runtime n) (fuel : Nat) (a : BiadjArgs) (g g' : G)
    (B : List (BVec a.numMeas.toNat)) (h1 : a.onePureChild = true) (d : ℚ) (hd : a.density = some d)
    (hd0 : 0 ≤ d) (hd1 : d ≤ 1) (h : sampleBiadj gen rts fuel a g = (.ok B, g')) :
    IsRounded (d * ((a.numMeas - B.length) * (B.length - 1) : Int)) (numOnes B - a.numMeas) := by
  obtain ⟨l, d', π, cols, σ, h1, h2, h3, h4, h5, -, rfl⟩ := sampleBiadj_pure_ok gen rts fuel a g g' B h1 h
  rw [pureBiadj_length, numOnes_pureBiadj h1 h2]
  rw [h5 d hd]
  have e1 : ((a.numMeas - l) * (l - 1) : Int) = (((a.numMeas.toNat - l) * (l - 1) : Nat) : Int) := by
    push_cast [Nat.cast_sub h1, Nat.cast_sub h2]
    rw [Int.toNat_of_nonneg (by omega)]
  rw [e1]
  generalize hM : (a.numMeas.toNat - l) * (l - 1) = M
  have hx0 : (0 : ℚ) ≤ M := Nat.cast_nonneg _
  have e2 := sliceLen_round (m := M) (x := (M : ℚ) * d) (mul_nonneg hx0 hd0) (mul_le_of_le_one_right hx0 hd1)
  have e3 : ((a.numMeas.toNat + sliceLen M (roundHalfEven ((M : ℚ) * d)) : Nat) : Int) - a.numMeas =
      roundHalfEven ((M : ℚ) * d) := by omega
  rw [e3, mul_comm d]
  exact_mod_cast roundHalfEven_spec ((M : ℚ) * d)

/-- **C40** which argument lists raise `ValueError`; with `one_pure_child=True` all others succeed -/
theorem C40_sample_errors (gen : Gen G) (rts : (n : Nat) → Runtime n) (fuel : Nat) (a : BiadjArgs) (g : G) :
    (a.onePureChild = false → a.numLatent ≠ 0 → (sampleBiadj gen rts fuel a g).1 = .error .valueError) ∧
    (a.onePureChild = true →
      ((a.numLatent = 0 ∧ a.numMeas ≤ 1) ∨ a.numLatent < 0 ∨ a.numMeas < a.numLatent →
        (sampleBiadj gen rts fuel a g).1 = .error .valueError) ∧
      (¬ ((a.numLatent = 0 ∧ a.numMeas ≤ 1) ∨ a.numLatent < 0 ∨ a.numMeas < a.numLatent) →
        ∃ B, (sampleBiadj gen rts fuel a g).1 = .ok B)) := by
  refine ⟨?_, fun h1 => ⟨?_, ?_⟩⟩
  · intro h1 h2
    unfold sampleBiadj
    rw [if_neg (by simp [h1]), if_pos h2]
  · intro hc
    unfold sampleBiadj
    rw [if_pos h1]
    split
    · rfl
    rename_i hz
    by_cases h0 : a.numLatent = 0
    · exfalso; omega
    · have : a.numLatent < 1 ∨ a.numMeas < a.numLatent := by omega
      simp only [drawNumLatent, if_neg h0, if_pos this]
  · intro hc
    unfold sampleBiadj
    rw [if_pos h1, if_neg (by omega)]
    by_cases h0 : a.numLatent = 0
    · have := gen.integers_range 1 a.numMeas g (by omega)
      have hnot : ¬ ((gen.integers 1 a.numMeas g).1 < 1 ∨ a.numMeas < (gen.integers 1 a.numMeas g).1) := by
        omega
      simp only [drawNumLatent, if_pos h0, if_neg hnot]
      exact ⟨_, rfl⟩
    · have hnot : ¬ (a.numLatent < 1 ∨ a.numMeas < a.numLatent) := by omega
      simp only [drawNumLatent, if_neg h0, if_neg hnot]
      exact ⟨_, rfl⟩

-- 6 measurements, 3 latents, density 0.5: 6 + round(3) edges
example : (sampleBiadj countGen rt0 10 { numMeas := 6, numLatent := 3, density := some (1/2) } 0).1.toOption.map
    (fun B => (B.map (·.bits), numOnes B)) = some ([0b111001, 0b111010, 0b000100], 9) := by decide +kernel

/-! ### C41 -/

/-- **C41** from the dependence graph `A` of a generated one-pure-child structure `B`, both algorithms
return the rows of `B` up to order, whatever the set orders -/
theorem C41_sample_recovered (gen : Gen G) (rts : (n : Nat) → Runtime n) (fuel : Nat) (a : BiadjArgs) (g g' : G)
    (B : List (BVec a.numMeas.toNat)) (h1 : a.onePureChild = true)
    (h : sampleBiadj gen rts fuel a g = (.ok B, g')) (A : BMat a.numMeas.toNat) (hA : IsUDGOf A B)
    (hD : UnitDiag A) (rt : Runtime a.numMeas.toNat) (o : Sched a.numMeas.toNat) :
    (∃ C, findHeuristic1pc o A = .ok C ∧ SameRows C B) ∧
    ∃ C, (∃ passes, ∀ k, passes ≤ k → findCliqueMinCover rt k A = .ok C) ∧ SameRows C B := by
  have hB := (C38_sample_pure gen rts fuel a g g' B h1 h).1
  have hn : 0 < a.numMeas.toNat := by
    obtain ⟨l, d, π, cols, σ, h1, h2, -⟩ := sampleBiadj_pure_ok gen rts fuel a g g' B h1 h
    omega
  obtain ⟨⟨C, hC, hS, -⟩, -⟩ := C15_exact_recovers A B hn hB hA hD rt o
  exact ⟨C07_heuristic_recovers A B hn hB hA o, C, ⟨_, hC⟩, hS⟩

/-! ### C42 -/

/-- **C42** the Erdős–Rényi branch: there is a graph `A` (the one handed to the cover search) with
exactly `round(density * n(n-1)/2)` edges such that the call returns a structure whose rows are cliques
of `A` and which gives every measurement a parent -/
theorem C42_sample_erdos_renyi (gen : Gen G) (rts : (n : Nat) → Runtime n) (a : BiadjArgs) (g : G)
    (h1 : a.onePureChild = false) (h2 : a.numLatent = 0) (h3 : 1 ≤ a.numMeas) (d : ℚ)
    (hd : a.density = some d) (hd0 : 0 ≤ d) (hd1 : d ≤ 1) :
    ∃ (A : BMat a.numMeas.toNat) (B : List (BVec a.numMeas.toNat)),
      Symm A ∧ UnitDiag A ∧
      IsRounded (d * (a.numMeas.toNat * (a.numMeas.toNat - 1) / 2 : Nat)) (numUEdges A) ∧
      (∃ passes, ∀ fuel, passes ≤ fuel → (sampleBiadj gen rts fuel a g).1 = .ok B ∧
        findCliqueMinCover (rts _) fuel A = .ok B) ∧
      (∀ r ∈ B, ∀ i j : Fin _, r i = true → r j = true → A i j = true) ∧
      (∀ j : Fin _, ∃ r ∈ B, r j = true) ∧ ∀ r ∈ B, ∃ j : Fin _, r j = true := by
  let π := (gen.permutation (a.numMeas.toNat * (a.numMeas.toNat - 1) / 2) g).1
  have hS := randomUdg_symm d π
  have hU := randomUdg_diag d π
  have hn : 0 < a.numMeas.toNat := by omega
  obtain ⟨B, hB⟩ := C10_exact_returns (randomUdg _ d π) hn hS hU (rts _)
  refine ⟨randomUdg _ d π, B, hS, hU, ?_, ⟨_, fun fuel hf => ⟨?_, hB fuel hf⟩⟩,
    C11_exact_rows_cliques _ hn hS hU (rts _) _ B (hB _ (le_refl _)),
    C12_exact_parents _ hn hS hU (rts _) _ B (hB _ (le_refl _))⟩
  · rw [randomUdg_edges]
    have hx0 : (0 : ℚ) ≤ (a.numMeas.toNat * (a.numMeas.toNat - 1) / 2 : Nat) := Nat.cast_nonneg _
    rw [sliceLen_round (mul_nonneg hd0 hx0) (mul_le_of_le_one_left hx0 hd1)]
    exact roundHalfEven_spec _
  · unfold sampleBiadj
    rw [if_neg (by simp [h1]), if_neg (by simp [h2]), if_neg (by omega), hd]
    exact hB fuel hf

example : (sampleBiadj countGen rt0 10 { numMeas := 4, onePureChild := false, density := some (1/2) } 0).1.toOption.map
    (fun B => B.map (·.bits)) = some [0b1001, 0b0101, 0b0011] := by decide +kernel

/-! ### C43 -/

theorem mem_maskPositions {n : Nat} (B : List (BVec n)) (i : Fin B.length) (j : Fin n) :
    (i, j) ∈ maskPositions B ↔ B[i] j = true := by
  unfold maskPositions
  simp

theorem flipped_abs (b : Bool) (x : ℚ) : |flipped b x| = |x| := by
  unfold flipped; split <;> simp

/-- **C43** the parameters of a Gaussian model made by `mcm`: weights are non-zero exactly on the edges,
with absolute value in `[0.5, 2)`; error variances are in `[0.5, 2)`, error means in `(-2, 2)`; a given
structure is used as it is -/
theorem C43_mcm_parameters (gen : Gen G) (rts : (n : Nat) → Runtime n) (fuel : Nat) (a : McmArgs G) (w : World G)
    (n : Nat) (p : McmParams n) (h : (sampleMcm gen rts fuel a w).res = .ok ⟨n, p⟩) :
    (∀ i j, p.biadj[i] j = false → p.weights i j = 0) ∧
    (∀ i j, p.biadj[i] j = true → 1 / 2 ≤ |p.weights i j| ∧ |p.weights i j| < 2) ∧
    (∀ j, -2 < p.means j ∧ p.means j < 2) ∧
    (∀ j, 1 / 2 ≤ p.variances j ∧ p.variances j < 2) ∧
    (∀ m B, a.biadj = .given m B → (⟨n, p.biadj⟩ : Σ n, List (BVec n)) = ⟨m, B⟩) ∧
    a.parameterization = "Gaussian" := by
  -- every success comes from `gaussianParams`
  have key : ∀ (m : Nat) (B : List (BVec m)) (w : World G), (mcmWith gen a w m B).res = .ok ⟨n, p⟩ →
      a.parameterization = "Gaussian" ∧ ∃ g : G, (⟨n, p⟩ : Σ n, McmParams n) = ⟨m, (gaussianParams gen B g).1⟩ := by
    intro m B w h
    unfold mcmWith at h
    split at h
    · rename_i hp
      refine ⟨hp, ?_⟩
      split at h
      · rename_i g _
        exact ⟨g, (Except.ok.inj h).symm⟩
      · exact ⟨w.mcmGen, (Except.ok.inj h).symm⟩
    · split at h <;> cases h
  have main : ∀ (m : Nat) (B : List (BVec m)) (g : G),
      (⟨n, p⟩ : Σ n, McmParams n) = ⟨m, (gaussianParams gen B g).1⟩ →
      (∀ i j, p.biadj[i] j = false → p.weights i j = 0) ∧
      (∀ i j, p.biadj[i] j = true → 1 / 2 ≤ |p.weights i j| ∧ |p.weights i j| < 2) ∧
      (∀ j, -2 < p.means j ∧ p.means j < 2) ∧
      (∀ j, 1 / 2 ≤ p.variances j ∧ p.variances j < 2) ∧
      (⟨n, p.biadj⟩ : Σ n, List (BVec n)) = ⟨m, B⟩ := by
    intro m B g hp
    obtain rfl : n = m := congrArg Sigma.fst hp
    obtain rfl : p = (gaussianParams gen B g).1 := eq_of_heq (Sigma.mk.inj hp).2
    refine ⟨?_, ?_, ?_, ?_, rfl⟩
    · intro i j hij
      have : ¬ (i, j) ∈ maskPositions B := fun hc => by
        have := (mem_maskPositions B i j).mp hc
        exact absurd (hij.symm.trans this) (by decide)
      show (if h : _ then _ else 0) = (0 : ℚ)
      rw [dif_neg]
      rwa [List.idxOf_lt_length_iff]
    · intro i j hij
      have hm : (i, j) ∈ maskPositions B := (mem_maskPositions B i j).mpr hij
      have hlt := List.idxOf_lt_length_iff.mpr hm
      have hw : ∃ b : Bool, ∃ x : ℚ, 0 ≤ x ∧ x < 1 ∧
          (gaussianParams gen B g).1.weights i j = flipped b (x * (3 / 2) + 1 / 2) := by
        refine ⟨_, _, ?_, ?_, dif_pos hlt⟩
        · exact (gen.randomVec_range _ _ _).1
        · exact (gen.randomVec_range _ _ _).2
      obtain ⟨b, x, hx0, hx1, hw⟩ := hw
      rw [hw, flipped_abs, abs_of_nonneg (by linarith)]
      constructor <;> linarith
    · intro j
      have hw : ∃ b : Bool, ∃ x : ℚ, 0 ≤ x ∧ x < 1 ∧
          (gaussianParams gen B g).1.means j = flipped b (x * 2) :=
        ⟨_, _, (gen.randomVec_range _ _ _).1, (gen.randomVec_range _ _ _).2, rfl⟩
      obtain ⟨b, x, hx0, hx1, hw⟩ := hw
      rw [← abs_lt, hw, flipped_abs, abs_of_nonneg (by linarith)]
      linarith
    · intro j
      have hw : ∃ x : ℚ, 0 ≤ x ∧ x < 1 ∧
          (gaussianParams gen B g).1.variances j = x * (3 / 2) + 1 / 2 :=
        ⟨_, (gen.randomVec_range _ _ _).1, (gen.randomVec_range _ _ _).2, rfl⟩
      obtain ⟨x, hx0, hx1, hw⟩ := hw
      rw [hw]
      constructor <;> linarith
  unfold sampleMcm at h
  split at h
  · rename_i m B hb
    obtain ⟨hg, g, hp⟩ := key m B w h
    obtain ⟨c1, c2, c3, c4, c5⟩ := main m B g hp
    refine ⟨c1, c2, c3, c4, ?_, hg⟩
    intro m' B' hb'
    rw [hb] at hb'
    cases hb'
    exact c5
  · rename_i hb
    split at h
    · cases h
    · rename_i b _
      cases hs : (sampleBiadj gen rts fuel b w.biadjGen).1 with
      | error e => simp only [hs] at h; cases h
      | ok B =>
        simp only [hs] at h
        obtain ⟨hg, g, hp⟩ := key _ B _ h
        obtain ⟨c1, c2, c3, c4, c5⟩ := main _ B g hp
        exact ⟨c1, c2, c3, c4, fun m' B' hb' => (by rw [hb] at hb'; cases hb'), hg⟩

/-! ### C44 -/

/-- the claim: with a generator passed explicitly, the model returned does not depend on earlier calls -/
def C44_statement : Prop :=
  ∀ (G : Type) (gen : Gen G) (rts : (n : Nat) → Runtime n) (fuel : Nat) (a : McmArgs G) (w : World G)
    (history : List (SampleCall G)), a.rng.isSome →
    (sampleMcm gen rts fuel a (runCalls gen rts fuel w history)).res = (sampleMcm gen rts fuel a w).res

/-- number of latents of a returned model -/
def numLatentsOf (r : Except PyErr (Σ n, McmParams n)) : Option Nat :=
  r.toOption.map fun p => p.2.biadj.length

/-- **C44 is false**: `mcm(rng=g, num_meas=4)` before and after a call of `biadj(num_meas=4)`: the
structure is drawn from a generator shared with the other call -/
theorem C44_false : ¬ C44_statement := by
  intro h
  have := congrArg numLatentsOf
    (h Nat countGen rt0 10 { rng := some 0, kwargs := some { numMeas := 4, density := some 0 } } ⟨0, 0⟩
      [.biadj { numMeas := 4, density := some 0 }] rfl)
  revert this
  decide +kernel

/-- **C44, proved part**: with the generator *and* the structure passed explicitly the returned model (and
the state of the passed generator) does not depend on earlier calls.  With a generator passed but no
structure, the only thing earlier calls can change is the state of the generator that is the default
argument of `biadj`.  A call with explicit structure leaves that state alone, so any history of such
calls changes nothing.  Missing for the full claim: it is false (`C44_false`). -/
theorem C44_mcm_seeded_partial (gen : Gen G) (rts : (n : Nat) → Runtime n) (fuel : Nat) (a : McmArgs G)
    (w : World G) (history : List (SampleCall G)) (hr : a.rng.isSome) :
    (a.biadj ≠ .absent →
      (sampleMcm gen rts fuel a (runCalls gen rts fuel w history)).res = (sampleMcm gen rts fuel a w).res ∧
      (sampleMcm gen rts fuel a (runCalls gen rts fuel w history)).rng = (sampleMcm gen rts fuel a w).rng) ∧
    ((runCalls gen rts fuel w history).biadjGen = w.biadjGen →
      (sampleMcm gen rts fuel a (runCalls gen rts fuel w history)).res = (sampleMcm gen rts fuel a w).res ∧
      (sampleMcm gen rts fuel a (runCalls gen rts fuel w history)).rng = (sampleMcm gen rts fuel a w).rng) ∧
    ((∀ c ∈ history, ∃ b : McmArgs G, c = .mcm b ∧ b.biadj ≠ .absent) →
      (runCalls gen rts fuel w history).biadjGen = w.biadjGen) := by
  have hwith : ∀ (n : Nat) (B : List (BVec n)) (w w' : World G),
      (mcmWith gen a w n B).res = (mcmWith gen a w' n B).res ∧
      (mcmWith gen a w n B).rng = (mcmWith gen a w' n B).rng := by
    intro n B w w'
    obtain ⟨g, hg⟩ := Option.isSome_iff_exists.mp hr
    unfold mcmWith
    rw [hg]
    split
    · exact ⟨rfl, rfl⟩
    · split <;> exact ⟨rfl, rfl⟩
  refine ⟨?_, ?_, ?_⟩
  · intro hb
    cases hb' : a.biadj with
    | absent => exact absurd hb' hb
    | given n B =>
      unfold sampleMcm
      rw [hb']
      exact hwith n B _ _
  · intro hw
    unfold sampleMcm
    cases hb' : a.biadj with
    | given n B => exact hwith n B _ _
    | absent =>
      simp only
      split
      · exact ⟨rfl, rfl⟩
      · rename_i b _
        rw [hw]
        cases hs : (sampleBiadj gen rts fuel b w.biadjGen).1 with
        | error e => exact ⟨rfl, rfl⟩
        | ok B => exact hwith _ B _ _
  · intro hh
    unfold runCalls
    induction history generalizing w with
    | nil => rfl
    | cons c cs ih =>
      rw [List.foldl_cons, ih _ (fun c' hc' => hh c' (List.mem_cons_of_mem _ hc'))]
      obtain ⟨b, rfl, hb⟩ := hh c List.mem_cons_self
      show (sampleMcm gen rts fuel b w).world.biadjGen = _
      unfold sampleMcm
      cases hb' : b.biadj with
      | absent => exact absurd hb' hb
      | given n B =>
        simp only [mcmWith]
        split
        · split <;> rfl
        · split <;> rfl

/-- **C44, the shared generators**: `mcm` without a structure takes exactly the structure that
`biadj(**kwargs)` would return in its place, and leaves `biadj`'s default generator in exactly the state
that call would leave it in (so the next call draws new numbers); the default generator of `mcm` itself
is advanced iff no generator was passed, by exactly the draws for the parameters. -/
theorem C44_default_generators (gen : Gen G) (rts : (n : Nat) → Runtime n) (fuel : Nat) (a : McmArgs G)
    (w : World G) (b : BiadjArgs) (hb : a.biadj = .absent) (hk : a.kwargs = some b) :
    ((SampleCall.mcm a).run gen rts fuel w).biadjGen = ((SampleCall.biadj b).run gen rts fuel w).biadjGen ∧
    (∀ e, (sampleBiadj gen rts fuel b w.biadjGen).1 = .error e →
      (sampleMcm gen rts fuel a w).res = .error e) ∧
    (∀ B, (sampleBiadj gen rts fuel b w.biadjGen).1 = .ok B → a.parameterization = "Gaussian" →
      ∃ p, (sampleMcm gen rts fuel a w).res = .ok ⟨_, p⟩ ∧ p.biadj = B) ∧
    (a.rng.isSome → ((SampleCall.mcm a).run gen rts fuel w).mcmGen = w.mcmGen) ∧
    (∀ B, (sampleBiadj gen rts fuel b w.biadjGen).1 = .ok B → a.parameterization = "Gaussian" →
      a.rng = none →
      ((SampleCall.mcm a).run gen rts fuel w).mcmGen = (gaussianParams gen B w.mcmGen).2) := by
  have hwg : ∀ (n : Nat) (B : List (BVec n)) (w : World G),
      (mcmWith gen a w n B).world.biadjGen = w.biadjGen ∧
      (a.rng.isSome → (mcmWith gen a w n B).world.mcmGen = w.mcmGen) := by
    intro n B w
    unfold mcmWith
    cases a.rng <;> (split <;> [skip; split]) <;> simp
  have hm : (SampleCall.mcm a).run gen rts fuel w = (sampleMcm gen rts fuel a w).world := rfl
  rw [hm]
  unfold sampleMcm SampleCall.run
  rw [hb, hk]
  simp only
  cases hr : (sampleBiadj gen rts fuel b w.biadjGen).1 with
  | error e => simp
  | ok B =>
    simp only
    refine ⟨(hwg _ B _).1, by simp, ?_, (hwg _ B _).2, ?_⟩
    · intro B' hB' hp
      cases hB'
      unfold mcmWith
      rw [if_pos hp]
      cases a.rng with
      | none => exact ⟨_, rfl, rfl⟩
      | some g => exact ⟨_, rfl, rfl⟩
    · intro B' hB' hp hn
      cases hB'
      unfold mcmWith
      rw [if_pos hp, hn]

-- a given structure: the weights are on its three edges
example : ((sampleMcm countGen rt0 10 { rng := some 0, biadj := .given 2 [⟨0b11⟩, ⟨0b10⟩] } ⟨0, 0⟩).res.toOption.map
    fun p => (p.2.biadj.map (·.bits), (List.finRange _).map fun i => (List.finRange _).map fun j => p.2.weights i j)) =
    some ([3, 2], [[-1/2, 7/8], [0, -5/4]]) := by decide +kernel

end Medil

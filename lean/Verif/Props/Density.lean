import Verif.Props.Sample
/-
  C222: densities outside [0, 1].
-/
namespace Medil
variable {G : Type}

/-- how many of `K` positions are used for a number `z` that should lie between 0 and `K`: all of them if it is larger, and all but `-z` if it is negative -/
def usedPositions (K z : Int) : Int := if 0 ≤ z then min K z else max 0 (K + z)

theorem sliceLen_eq (K : Nat) (z : Int) : (sliceLen K z : Int) = usedPositions K z := by
  unfold sliceLen usedPositions
  split_ifs <;> omega

/-- **C222** what is drawn for any density, with pure children: rounding `density` times the number of free positions gives `z`; there are
`usedPositions` edges in addition to one parent per measurement. -/
theorem C222_pure_partial (gen : Gen G) (rts : (n : Nat) → Runtime n) (fuel : Nat) (a : BiadjArgs) (g g' : G)
    (B : List (BVec a.numMeas.toNat)) (h1 : a.onePureChild = true) (d : ℚ) (hd : a.density = some d)
    (h : sampleBiadj gen rts fuel a g = (.ok B, g')) :
    ∃ z : Int, IsRounded (d * ((a.numMeas - B.length) * (B.length - 1) : Int)) z ∧
      (numOnes B : Int) = a.numMeas + usedPositions ((a.numMeas - B.length) * (B.length - 1)) z := by
  obtain ⟨l, d', π, cols, σ, h1, h2, h3, h4, h5, -, rfl⟩ := sampleBiadj_pure_ok gen rts fuel a g g' B h1 h
  rw [pureBiadj_length, numOnes_pureBiadj h1 h2]
  rw [h5 d hd]
  have e1 : ((a.numMeas - l) * (l - 1) : Int) = (((a.numMeas.toNat - l) * (l - 1) : Nat) : Int) := by
    push_cast [Nat.cast_sub h1, Nat.cast_sub h2]
    rw [Int.toNat_of_nonneg (by omega)]
  rw [e1]
  generalize hM : (a.numMeas.toNat - l) * (l - 1) = M
  refine ⟨roundHalfEven ((M : ℚ) * d), ?_, ?_⟩
  · rw [mul_comm d]
    exact_mod_cast roundHalfEven_spec ((M : ℚ) * d)
  · rw [← sliceLen_eq]
    omega

/-- **C222** the same for random graphs (`one_pure_child=False`) -/
theorem C222_graph_partial (gen : Gen G) (rts : (n : Nat) → Runtime n) (a : BiadjArgs) (g : G)
    (h1 : a.onePureChild = false) (h2 : a.numLatent = 0) (h3 : 1 ≤ a.numMeas) (d : ℚ) (hd : a.density = some d) :
    ∃ (A : BMat a.numMeas.toNat) (B : List (BVec a.numMeas.toNat)) (z : Int), Symm A ∧ UnitDiag A ∧
      IsRounded (d * (a.numMeas.toNat * (a.numMeas.toNat - 1) / 2 : Nat)) z ∧
      (numUEdges A : Int) = usedPositions (a.numMeas.toNat * (a.numMeas.toNat - 1) / 2 : Nat) z ∧
      ∃ passes, ∀ fuel, passes ≤ fuel → (sampleBiadj gen rts fuel a g).1 = .ok B ∧ findCliqueMinCover (rts _) fuel A = .ok B := by
  let π := (gen.permutation (a.numMeas.toNat * (a.numMeas.toNat - 1) / 2) g).1
  have hS := randomUdg_symm d π
  have hU := randomUdg_diag d π
  obtain ⟨B, hB⟩ := C10_exact_returns (randomUdg _ d π) (by omega) hS hU (rts _)
  refine ⟨randomUdg _ d π, B, _, hS, hU, roundHalfEven_spec _, ?_, _, fun fuel hf => ⟨?_, hB fuel hf⟩⟩
  · rw [randomUdg_edges, sliceLen_eq]
  · unfold sampleBiadj
    rw [if_neg (by simp [h1]), if_neg (by simp [h2]), if_neg (by omega), hd]
    exact hB fuel hf

/-- **C222** densities above 1 are like 1 -/
theorem C222_above (K : Int) (hK : 0 ≤ K) (d : ℚ) (hd : 1 ≤ d) (z : Int) (hz : IsRounded (d * K) z) : usedPositions K z = K := by
  have h1 : (K : ℚ) ≤ d * K := le_mul_of_one_le_left (by exact_mod_cast hK) hd
  have h2 : (K : ℚ) - 1 / 2 ≤ z := by
    have := (abs_le.mp hz.1).2
    linarith
  have h3 : K ≤ z := by
    by_contra hc
    have : z ≤ K - 1 := by omega
    have : (z : ℚ) ≤ K - 1 := by exact_mod_cast this
    linarith
  unfold usedPositions
  rw [if_pos (by omega)]
  omega

/-- the claim: a density below 0 is like 0, one above 1 like 1 -/
def C222_statement : Prop := ∀ (G : Type) (gen : Gen G) (rts : (n : Nat) → Runtime n) (fuel : Nat) (a : BiadjArgs) (g g' : G)
  (B : List (BVec a.numMeas.toNat)) (d : ℚ), a.onePureChild = true → a.density = some d → sampleBiadj gen rts fuel a g = (.ok B, g') →
  (d ≤ 0 → (numOnes B : Int) = a.numMeas) ∧ (1 ≤ d → (numOnes B : Int) = a.numMeas + (a.numMeas - B.length) * (B.length - 1))

/-- five measurements of two latents with density -1/5: two of the three possible edges are drawn -/
theorem C222_false : ¬ C222_statement := by
  intro h
  obtain ⟨B, hB⟩ := ((C40_sample_errors countGen rt0 10 { numMeas := 5, numLatent := 2, density := some (-1/5) } 0).2 rfl).2 (by norm_num)
  have hr : sampleBiadj countGen rt0 10 { numMeas := 5, numLatent := 2, density := some (-1/5) } 0 =
      (.ok B, (sampleBiadj countGen rt0 10 { numMeas := 5, numLatent := 2, density := some (-1/5) } 0).2) := by rw [← hB]
  have hl := (C38_sample_pure countGen rt0 10 _ 0 _ B rfl hr).2.1 (by norm_num)
  simp only at hl
  have h1 := (h Nat countGen rt0 10 { numMeas := 5, numLatent := 2, density := some (-1/5) } 0 _ B _ rfl rfl hr).1 (by norm_num)
  obtain ⟨z, hz, hc⟩ := C222_pure_partial countGen rt0 10 _ 0 _ B rfl _ rfl hr
  rw [h1, hl] at hc
  rw [hl] at hz
  simp only at hz hc
  have e : z = -1 := by
    have h3 := abs_le.mp hz.1
    norm_num at h3
    have h4 : (-2 : ℚ) < z := by linarith [h3.2]
    have h5 : (z : ℚ) < 0 := by linarith [h3.1]
    have : -2 < z := by exact_mod_cast h4
    have : z < 0 := by exact_mod_cast h5
    omega
  rw [e] at hc
  norm_num [usedPositions] at hc

end Medil

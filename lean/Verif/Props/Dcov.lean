import Verif.Proofs.Dcov
import Verif.Props.Indep
/-
  C113-C117: bounds on what `dcov` returns, and what they mean for the edges of `estimate_UDG(sample, "dcov_fast")`.
-/
namespace Medil
open Finset
variable {K : Type} [Field K] [LinearOrder K] [IsStrictOrderedRing K] {N M : Nat}

omit [IsStrictOrderedRing K] in
theorem dbar_eq (s : Fin N → Fin M → K) (i : Fin M) : (dcov s).2 i = meanDist fun k => s k i := by
  show allMean _ = _
  unfold allMean distMat meanDist
  rw [sq]

theorem meanDist_nonneg (x : Fin N → K) : 0 ≤ meanDist x :=
  div_nonneg (sum_nonneg fun _ _ => sum_nonneg fun _ _ => abs_nonneg _) (by positivity)

theorem dcovFast_edge (lib : TestLib K N) (s : Fin N → Fin M → K) (level : K) (u p)
    (h : estimateUDG lib s (.name "dcov_fast") level = .ok (u, p)) (i j : Fin M) (hu : u i j = true) :
    i ≠ j ∧ 0 < meanDist (fun k => s k i) * meanDist (fun k => s k j) ∧
      lib.critVal level * (meanDist (fun k => s k i) * meanDist (fun k => s k j)) ≤ N * (dcov s).1 i j ∨
    i ≠ j ∧ meanDist (fun k => s k i) * meanDist (fun k => s k j) = 0 ∧ (dcov s).1 i j ≠ 0 := by
  have hu' : u = clearDiag fun i j => (Fl.div ((N : K) * (dcov s).1 i j) ((dcov s).2 i * (dcov s).2 j)).ge (lib.critVal level) := by
    have : estimateUDG lib s (.name "dcov_fast") level = .ok (clearDiag fun i j =>
      (Fl.div ((N : K) * (dcov s).1 i j) ((dcov s).2 i * (dcov s).2 j)).ge (lib.critVal level), none) := rfl
    rw [this] at h
    injection h with h
    exact (Prod.ext_iff.mp h).1.symm
  rw [hu'] at hu
  unfold clearDiag at hu
  by_cases hij : i = j
  · rw [if_pos hij] at hu; exact absurd hu (by decide)
  rw [if_neg hij] at hu
  beta_reduce at hu
  rw [dbar_eq, dbar_eq] at hu
  have hn := mul_nonneg (meanDist_nonneg fun k => s k i) (meanDist_nonneg fun k => s k j)
  unfold Fl.div at hu
  by_cases h0 : meanDist (fun k => s k i) * meanDist (fun k => s k j) = 0
  · right
    refine ⟨hij, h0, fun h1 => ?_⟩
    rw [if_pos h0, h1, mul_zero, if_pos rfl] at hu
    simp [Fl.ge] at hu
  · left
    have hpos := lt_of_le_of_ne hn (Ne.symm h0)
    rw [if_neg h0] at hu
    have := of_decide_eq_true hu
    exact ⟨hij, hpos, (le_div_iff₀ hpos).mp this⟩

theorem meanDist_zero (x : Fin N → K) (h : meanDist x = 0) (k l : Fin N) : x k = x l := by
  have hN : (N : K) ^ 2 ≠ 0 := pow_ne_zero 2 (by exact_mod_cast k.pos.ne')
  have h1 := (div_eq_zero_iff.mp h).resolve_right hN
  have h2 := (sum_eq_zero_iff_of_nonneg fun k _ => sum_nonneg fun l _ => abs_nonneg (x k - x l)).mp h1 k (mem_univ k)
  have h3 := (sum_eq_zero_iff_of_nonneg fun l _ => abs_nonneg (x k - x l)).mp h2 l (mem_univ l)
  exact sub_eq_zero.mp (abs_eq_zero.mp h3)

/-- an edge of `dcov_fast` means that the statistic reaches the critical value -/
theorem dcovFast_edge' (lib : TestLib K N) (s : Fin N → Fin M → K) (level : K) (u p)
    (h : estimateUDG lib s (.name "dcov_fast") level = .ok (u, p)) (i j : Fin M) (hu : u i j = true) :
    i ≠ j ∧ 0 < meanDist (fun k => s k i) * meanDist (fun k => s k j) ∧
      lib.critVal level * (meanDist (fun k => s k i) * meanDist (fun k => s k j)) ≤ N * (dcov s).1 i j := by
  rcases dcovFast_edge lib s level u p h i j hu with h1 | ⟨hij, h0, h1⟩
  · exact h1
  · exfalso
    rcases mul_eq_zero.mp h0 with h2 | h2
    · exact h1 (dcov_const s i j fun k l => meanDist_zero _ h2 k l).1
    · rw [dcov_symm] at h1
      exact h1 (dcov_const s j i fun k l => meanDist_zero _ h2 k l).1

/-- **C113** every entry of the returned matrix is at most half of the sample distance covariance, which is never negative;
an edge of `estimate_UDG(sample, "dcov_fast")` is therefore also an edge of the test with the sample distance covariance, which
even reaches twice the critical value -/
theorem C113_dcov_conservative (lib : TestLib K N) (s : Fin N → Fin M → K) (level : K) (u p)
    (h : estimateUDG lib s (.name "dcov_fast") level = .ok (u, p)) (i j : Fin M) :
    0 ≤ sampleDcov (fun k => s k i) (fun k => s k j) ∧
    (dcov s).1 i j ≤ sampleDcov (fun k => s k i) (fun k => s k j) / 2 ∧
    (u i j = true → 0 < meanDist (fun k => s k i) * meanDist (fun k => s k j) ∧
      2 * lib.critVal level ≤ N * sampleDcov (fun k => s k i) (fun k => s k j) /
        (meanDist (fun k => s k i) * meanDist (fun k => s k j))) := by
  have h1 := dcov_le_half s i j
  refine ⟨sampleDcov_nonneg _ _, h1, fun hu => ?_⟩
  obtain ⟨-, hpos, h2⟩ := dcovFast_edge' lib s level u p h i j hu
  refine ⟨hpos, (le_div_iff₀ hpos).mpr ?_⟩
  have h3 : (N : K) * (dcov s).1 i j ≤ N * (sampleDcov (fun k => s k i) (fun k => s k j) / 2) :=
    mul_le_mul_of_nonneg_left h1 (Nat.cast_nonneg N)
  nlinarith

/-- **C114** the returned matrix is positive semidefinite: quadratic forms are not negative, in particular the diagonal is not, and
the Cauchy–Schwarz inequality holds -/
theorem C114_dcov_psd (s : Fin N → Fin M → K) :
    (∀ c : Fin M → K, 0 ≤ ∑ i, ∑ j, c i * c j * (dcov s).1 i j) ∧ (∀ i, 0 ≤ (dcov s).1 i i) ∧
    ∀ i j, (dcov s).1 i j ^ 2 ≤ (dcov s).1 i i * (dcov s).1 j j := by
  let E := univ.filter (fun e : Fin N × Fin N => e.1 < e.2)
  let a : Fin M → Fin N × Fin N → K := fun i e => centre (distMat fun k => s k i) e.1 e.2
  have hd : ∀ i j, (dcov s).1 i j = (∑ e ∈ E, a i e * a j e) / (N : K) ^ 2 := fun i j => rfl
  have hN : (0 : K) ≤ (N : K) ^ 2 := by positivity
  refine ⟨fun c => ?_, fun i => ?_, fun i j => ?_⟩
  · have e : ∑ i, ∑ j, c i * c j * (dcov s).1 i j = (∑ e ∈ E, (∑ i, c i * a i e) ^ 2) / (N : K) ^ 2 := by
      rw [sum_div]
      simp only [hd, mul_div_assoc', ← sum_div]
      congr 1
      have : ∀ e, (∑ i, c i * a i e) ^ 2 = ∑ i, ∑ j, c i * c j * (a i e * a j e) := by
        intro e
        rw [sq, sum_mul_sum]
        exact sum_congr rfl fun i _ => sum_congr rfl fun j _ => by ring
      simp only [this, mul_sum]
      rw [sum_comm]
      conv_rhs => rw [sum_comm]
      rw [sum_comm]
      refine sum_congr rfl fun i _ => ?_
      rw [sum_comm]
    rw [e]
    exact div_nonneg (sum_nonneg fun _ _ => sq_nonneg _) hN
  · rw [hd]
    exact div_nonneg (sum_nonneg fun e _ => mul_self_nonneg _) hN
  · rw [hd, hd, hd, div_pow, div_mul_div_comm, sq ((N : K) ^ 2)]
    refine div_le_div_of_nonneg_right ?_ (by positivity)
    have := sum_mul_sq_le_sq_mul_sq E (a i) (a j)
    simpa only [sq] using this

/-- the four points of a 2 x 2 grid: two empirically independent columns -/
def gridSample : Fin 4 → Fin 2 → ℚ := ![![0, 0], ![0, 1], ![1, 0], ![1, 1]]

/-- the claim: distance covariances are never negative -/
def C115_statement : Prop := ∀ (N M : Nat) (s : Fin N → Fin M → ℚ) (i j : Fin M), 0 ≤ (dcov s).1 i j

/-- **C115 is false**: the code returns -1/32 for the two columns of the 2 x 2 grid, whose sample distance covariance is 0 -/
theorem C115_false : ¬ C115_statement := by
  intro h
  have := h 4 2 gridSample 0 1
  revert this
  decide +kernel

example : (dcov gridSample).1 0 1 = -1 / 32 := by decide +kernel

/-- **C115, proved part**: an entry is not negative on the diagonal, and elsewhere not less than minus half of the mean of the
products of the diagonals of the two centred distance matrices, divided by the number of observations.  Missing: the bound 0, which is false. -/
theorem C115_dcov_nonneg_partial (s : Fin N → Fin M → K) :
    (∀ i, 0 ≤ (dcov s).1 i i) ∧
    ∀ i j, -((∑ k, centredDist (fun k => s k i) k k * centredDist (fun k => s k j) k k) / N ^ 2) / 2 ≤ (dcov s).1 i j := by
  refine ⟨(C114_dcov_psd s).2.1, fun i j => ?_⟩
  have h := dcov_entry s i j
  have h2 := sampleDcov_nonneg (fun k => s k i) (fun k => s k j)
  linarith

/-- **C116** two columns whose joint empirical distribution is the product of the marginals have sample distance covariance 0, the
returned entry is at most 0, and `estimate_UDG(sample, "dcov_fast")` gives them no edge (the critical value being positive) -/
theorem C116_dcov_independent (lib : TestLib K N) (s : Fin N → Fin M → K) (level : K) (hc : 0 < lib.critVal level) (u p)
    (h : estimateUDG lib s (.name "dcov_fast") level = .ok (u, p)) (i j : Fin M)
    (hi : EmpIndep (fun k => s k i) fun k => s k j) :
    sampleDcov (fun k => s k i) (fun k => s k j) = 0 ∧ (dcov s).1 i j ≤ 0 ∧ u i j = false := by
  have h0 : sampleDcov (fun k => s k i) (fun k => s k j) = 0 := sampleDcov_indep _ _ hi
  have h1 := dcov_le_half s i j
  rw [h0, zero_div] at h1
  refine ⟨h0, h1, ?_⟩
  by_contra hu
  obtain ⟨-, hpos, h2⟩ := dcovFast_edge' lib s level u p h i j (by simpa using hu)
  have h3 : (N : K) * (dcov s).1 i j ≤ 0 := mul_nonpos_of_nonneg_of_nonpos (Nat.cast_nonneg N) h1
  have h4 := mul_pos hc hpos
  linarith

-- the columns of the grid meet the hypothesis
example : EmpIndep (fun k => gridSample k 0) fun k => gridSample k 1 := by
  intro a b
  by_cases ha : a = 0
  · subst ha
    by_cases hb : b = 0
    · subst hb; decide +kernel
    by_cases hb' : b = 1
    · subst hb'; decide +kernel
    · have : ∀ k : Fin 4, gridSample k 1 ≠ b := by
        have h0 : ∀ k : Fin 4, gridSample k 1 = 0 ∨ gridSample k 1 = 1 := by decide +kernel
        intro k hk
        rcases h0 k with h | h
        · exact hb (hk.symm.trans h)
        · exact hb' (hk.symm.trans h)
      simp [this]
  by_cases ha' : a = 1
  · subst ha'
    by_cases hb : b = 0
    · subst hb; decide +kernel
    by_cases hb' : b = 1
    · subst hb'; decide +kernel
    · have : ∀ k : Fin 4, gridSample k 1 ≠ b := by
        have h0 : ∀ k : Fin 4, gridSample k 1 = 0 ∨ gridSample k 1 = 1 := by decide +kernel
        intro k hk
        rcases h0 k with h | h
        · exact hb (hk.symm.trans h)
        · exact hb' (hk.symm.trans h)
      simp [this]
  · have : ∀ k : Fin 4, gridSample k 0 ≠ a := by
      have h0 : ∀ k : Fin 4, gridSample k 0 = 0 ∨ gridSample k 0 = 1 := by decide +kernel
      intro k hk
      rcases h0 k with h | h
      · exact ha (hk.symm.trans h)
      · exact ha' (hk.symm.trans h)
    simp [this]

/-- **C117** the sample distance covariance is at most the product of the mean distances, so the statistic of `dcov_fast` is at
most half the number of observations, and with fewer than twice the critical value many observations the
estimated graph has no edge, whatever the sample -/
theorem C117_dcov_small_sample (lib : TestLib K N) (s : Fin N → Fin M → K) (level : K) (u p)
    (h : estimateUDG lib s (.name "dcov_fast") level = .ok (u, p)) :
    (∀ i j, (dcov s).1 i j ≤ meanDist (fun k => s k i) * meanDist (fun k => s k j) / 2) ∧
    ((N : K) < 2 * lib.critVal level → ∀ i j, u i j = false) := by
  have h1 : ∀ i j, (dcov s).1 i j ≤ meanDist (fun k => s k i) * meanDist (fun k => s k j) / 2 := by
    intro i j
    rcases Nat.eq_zero_or_pos N with h0 | hN
    · subst h0
      have e1 : (dcov s).1 i j = 0 := by
        show (∑ e ∈ _, _) / _ = _
        simp
      have e2 := mul_nonneg (meanDist_nonneg fun k => s k i) (meanDist_nonneg fun k => s k j)
      rw [e1]; linarith
    · have h2 := dcov_le_half s i j
      have h3 := sampleDcov_le (fun k => s k i) (fun k => s k j) hN
      unfold meanDist
      linarith
  refine ⟨h1, fun hN i j => ?_⟩
  by_contra hu
  obtain ⟨-, hpos, h2⟩ := dcovFast_edge' lib s level u p h i j (by simpa using hu)
  have h3 : (N : K) * (dcov s).1 i j ≤ N * (meanDist (fun k => s k i) * meanDist (fun k => s k j) / 2) :=
    mul_le_mul_of_nonneg_left (h1 i j) (Nat.cast_nonneg N)
  have h4 : ((N : K) - 2 * lib.critVal level) * (meanDist (fun k => s k i) * meanDist (fun k => s k j)) < 0 :=
    mul_neg_of_neg_of_pos (by linarith) hpos
  nlinarith

/-- ten observations of two equal binary columns, and the critical value for the level 0.05 -/
def exBinary : Fin 10 → Fin 2 → ℚ := fun k _ => if k.val < 5 then 0 else 1

def exLib05 : TestLib ℚ 10 := ⟨fun _ => 3841 / 1000, fun _ _ => .nan, fun _ _ => .nan⟩

-- an edge exists (C113 applies to it); the statistic is 9/2, the bound of C117 is 5
example : (match estimateUDG exLib05 exBinary (.name "dcov_fast") (1 / 20) with
    | .ok (u, _) => u 0 1 | .error _ => false) = true ∧
    10 * (dcov exBinary).1 0 1 / ((dcov exBinary).2 0 * (dcov exBinary).2 1) = 9 / 2 := by decide +kernel

end Medil

import Verif.Props.XiSmall
import Verif.Props.Default
/-
  C240: what NCFA with the test `dcov_fast` can find in few rows.
-/
namespace Medil
open ProbabilityTheory Finset
variable {n M : Nat}

/-- without edges one latent for each measurement is found -/
theorem no_edges_structure (lib : ∀ N, TestLib ℝ N) (tc : TestChoice) (o : Sched M) (st : NState M) (hM : 0 < M)
    (hU : st.udg = none) (h2 : 2 ≤ n) (s : Fin n → Fin M → ℝ) (u : Fin M → Fin M → Bool) (p : Option (Fin M → Fin M → Fl ℝ))
    (hu : estimateUDG (lib n) s (.name tc.method) tc.alpha = .ok (u, p)) (hf : ∀ i j, u i j = false) :
    FindsStructure lib tc o (st.withData h2 s) (oneEach M) := by
  have hget : ∀ r ∈ oneEach M, ∃ a, ∀ j, r j = decide (j = a) := by
    intro r hr
    obtain ⟨a, -, rfl⟩ := List.mem_map.mp hr
    exact ⟨a, fun j => by simp⟩
  have hI : IsUDGOf (BMat.of u) (oneEach M) := by
    intro i j hij
    rw [show (BMat.of u) i j = u i j by simp, hf]
    simp only [Bool.false_eq_true, false_iff]
    rintro ⟨r, hr, h1, h2⟩
    obtain ⟨a, ha⟩ := hget r hr
    rw [ha, decide_eq_true_eq] at h1 h2
    exact hij (h1.trans h2.symm)
  have hB : OnePureChild (oneEach M) := by
    constructor
    · intro i hi
      have hi' : i < M := by simpa [oneEach] using hi
      refine ⟨⟨i, hi'⟩, fun j hj => ?_⟩
      simp [oneEach, Fin.ext_iff, eq_comm]
    · intro j
      exact ⟨BVec.of fun k => decide (k = j), List.mem_map.mpr ⟨j, List.mem_finRange j, rfl⟩, by simp⟩
  obtain ⟨V, C, h3, -, h4⟩ := C125_recovers lib tc o (st.withData h2 s) hM (BMat.of u)
    (Or.inr ⟨hU, _, u, p, rfl, hu, fun i j => by simp⟩) _ hB hI
  exact ⟨_, h3, h4⟩

/-- the library's critical values are the quantiles of the chi-squared distribution with one degree of freedom -/
def UsesChi2 (lib : ∀ N, TestLib ℝ N) (ppf : ℝ → Fl ℝ) : Prop := ∀ N level, 0 < level → level < 1 → ppf (1 - level) = .fin ((lib N).critVal level)

/-- with such a library the default test is the one with `chi2.ppf` -/
theorem UsesChi2.agrees {lib : ∀ N, TestLib ℝ N} {ppf : ℝ → Fl ℝ} (hlib : UsesChi2 lib ppf) (s : Fin n → Fin M → ℝ) :
    estimateUDG (lib n) s (.name "dcov_fast") (5 / 100) = estimateUDGAt ppf (lib n) s (.name "dcov_fast") (5 / 100) := by
  have hc := hlib n (5 / 100) (by norm_num) (by norm_num)
  unfold estimateUDGAt estimateUDG dcovFastAt
  dsimp only
  rw [if_pos rfl, if_pos rfl, hc]
  congr 2
  congr 1
  funext i j
  generalize Fl.div (n * (dcov s).1 i j) ((dcov s).2 i * (dcov s).2 j) = v
  cases v <;> rfl

/-- **C240** With the test `dcov_fast` at level 0.05 a fit of `NeuroCausalFactorAnalysis` without a graph to at most eight observations finds one latent
for each measurement, whatever the data are, ties or not. -/
theorem C240_structure (lib : ∀ N, TestLib ℝ N) (ppf : ℝ → Fl ℝ) (hppf : IsChi2Ppf ppf) (hlib : UsesChi2 lib ppf) (o : Sched M) (st : NState M) (hM : 0 < M)
    (hU : st.udg = none) (h2 : 2 ≤ n) (h8 : n ≤ 8) (s : Fin n → Fin M → ℝ) :
    FindsStructure lib { method := "dcov_fast" } o (st.withData h2 s) (oneEach M) := by
  obtain ⟨u, h, hf⟩ := C227_eight_observations ppf hppf (lib n) s h8
  refine no_edges_structure lib { method := "dcov_fast" } o st hM hU h2 s u none ?_ hf
  rw [← h]
  exact hlib.agrees s

/-- **C240** From nine observations on this fails: a dataset with two measurements for which one latent with both as children is found. -/
theorem C240_nine (lib : ∀ N, TestLib ℝ N) (ppf : ℝ → Fl ℝ) (hppf : IsChi2Ppf ppf) (hlib : UsesChi2 lib ppf) (o : Sched 2) (st : NState 2)
    (hU : st.udg = none) (h2 : 2 ≤ n) (h9 : 9 ≤ n) :
    ∃ s : Fin n → Fin 2 → ℝ, FindsStructure lib { method := "dcov_fast" } o (st.withData h2 s) [BVec.of fun _ => true] := by
  refine ⟨fun k _ => halfOnes n k, ?_⟩
  obtain ⟨u, h, h01⟩ := C227_nine_observations ppf hppf (lib n) h9
  rw [← hlib.agrees] at h
  have h10 : u 1 0 = true := by
    obtain ⟨u', h', hsym, -⟩ := C47_dcov_fast (lib n) (fun k (_ : Fin 2) => halfOnes n k) (5 / 100)
    rw [h] at h'
    injection h' with h'
    obtain rfl : u = u' := (Prod.ext_iff.mp h').1
    rw [← h01]
    exact hsym 1 0
  have hI : IsUDGOf (BMat.of u) [BVec.of fun _ => true] := by
    intro i j hij
    rw [show (BMat.of u) i j = u i j by simp]
    have : u i j = true := by
      fin_cases i <;> fin_cases j
      · exact absurd rfl hij
      · exact h01
      · exact h10
      · exact absurd rfl hij
    simp [this]
  have hB : OnePureChild [(BVec.of fun _ => true : BVec 2)] := by
    constructor
    · intro i hi
      refine ⟨0, fun j hj => ?_⟩
      simp only [List.length_cons, List.length_nil, Nat.zero_add, Nat.lt_one_iff] at hi hj
      subst hi hj
      simp
    · intro j
      exact ⟨_, List.mem_singleton.mpr rfl, by simp⟩
  obtain ⟨V, C, h3, -, h4⟩ := C125_recovers lib { method := "dcov_fast" } o (st.withData h2 fun k _ => halfOnes n k) (by norm_num) (BMat.of u)
    (Or.inr ⟨hU, _, u, none, rfl, h, fun i j => by simp⟩) _ hB hI
  exact ⟨_, h3, h4⟩

/-- such libraries exist -/
theorem C240_example : ∃ (ppf : ℝ → Fl ℝ) (lib : ∀ N, TestLib ℝ N), IsChi2Ppf ppf ∧ UsesChi2 lib ppf := by
  obtain ⟨ppf, hppf⟩ := chi2Ppf_exists
  refine ⟨ppf, ?_⟩
  refine ⟨fun N => { critVal := fun level => match ppf (1 - level) with | .fin x => x | _ => 0, dcorTest := fun _ _ => .nan, xicorTest := fun _ _ => .nan },
    hppf, fun N level h0 h1 => ?_⟩
  obtain ⟨x, hx, -⟩ := hppf.inside (1 - level) (by linarith) (by linarith)
  simp only [hx]
end Medil

import Verif.Model.NcfaStructure
import Verif.Props.DcovConsistent
import Verif.Props.Heuristic
import Verif.Props.NcfaWorld
/-
  C125: structure learning of `NeuroCausalFactorAnalysis`.
-/
namespace Medil
open Finset
variable {M : Nat}

/-- **C125** without a graph and before the first `fit`, `_compute_biadj` raises `AttributeError`; with an unknown test it raises
`UnboundLocalError`; in both cases the object is unchanged -/
theorem C125_errors (lib : ∀ N, TestLib ℝ N) (tc : TestChoice) (o : Sched M) (st : NState M) (hU : st.udg = none) :
    (st.dataset = none → ncfaComputeBiadj lib tc o st = (st, .error .attributeError)) ∧
    (∀ d, st.dataset = some d → tc.method ∉ ["dcov_fast", "dcov_big", "xicor"] →
      ncfaComputeBiadj lib tc o st = (st, .error .unboundLocal)) := by
  constructor
  · intro h
    unfold ncfaComputeBiadj ncfaUdgOr ncfaEstimateUdg
    rw [hU, h]
  · intro d h hm
    simp only [List.mem_cons, List.not_mem_nil, or_false, not_or] at hm
    have : estimateUDG (lib d.size) d.val (.name tc.method) tc.alpha = .error .unboundLocal := by
      unfold estimateUDG
      simp only [if_neg hm.1, if_neg hm.2.1, if_neg hm.2.2]
      split <;> rfl
    unfold ncfaComputeBiadj ncfaUdgOr ncfaEstimateUdg
    rw [hU, h]
    simp only [this]

/-- the graph used by `_compute_biadj`: the given one, or else the one `estimate_UDG` gives for the dataset of the last `fit` -/
def NcfaGraphUsed (lib : ∀ N, TestLib ℝ N) (tc : TestChoice) (st : NState M) (U : BMat M) : Prop :=
  st.udg = some U ∨ st.udg = none ∧ ∃ d u p, st.dataset = some d ∧
    estimateUDG (lib d.size) d.val (.name tc.method) tc.alpha = .ok (u, p) ∧ ∀ i j, U i j = u i j

/-- **C125** if the graph used is the dependence graph of a one-pure-child structure, `_compute_biadj` succeeds for every set
order, stores the graph and that structure (up to the order of the latents), and changes nothing else -/
theorem C125_recovers (lib : ∀ N, TestLib ℝ N) (tc : TestChoice) (o : Sched M) (st : NState M) (hM : 0 < M) (U : BMat M)
    (hU : NcfaGraphUsed lib tc st U) (B : List (BVec M)) (hB : OnePureChild B) (hUB : IsUDGOf U B) :
    ∃ (V : BMat M) (C : List (BVec M)), ncfaComputeBiadj lib tc o st = ({ st with udg := some V, biadj := C }, .ok ()) ∧
      (∀ i j, V i j = U i j) ∧ SameRows C B := by
  obtain ⟨V, hV, hVU⟩ : ∃ V : BMat M, ncfaUdgOr lib tc st = .ok V ∧
      ∀ i j, V i j = U i j := by
    rcases hU with h | ⟨h, d, u, p, hd, he, hu⟩
    · exact ⟨U, by unfold ncfaUdgOr; rw [h], fun _ _ => rfl⟩
    · refine ⟨BMat.of u, ?_, fun i j => by rw [hu]; simp⟩
      unfold ncfaUdgOr
      rw [h]
      unfold ncfaEstimateUdg
      simp only [hd, he]
  have hVB : IsUDGOf V B := fun i j hij => by rw [hVU]; exact hUB i j hij
  obtain ⟨C, hC, hs⟩ := C07_heuristic_recovers V B hM hB hVB o
  refine ⟨V, C, ?_, hVU, hs⟩
  unfold ncfaComputeBiadj
  rw [hV]
  simp only [hC]

/-- a dataset repeated `r + 1` times -/
def Dataset.copies (d : Dataset M) (r : Nat) : Dataset M :=
  { size := (r + 1) * d.size, two_le := le_trans d.two_le (Nat.le_mul_of_pos_left _ (Nat.succ_pos r)), val := Medil.copies (r + 1) d.val }

/-- **C125** from data to structure with the method `dcov_fast`: if in the dataset exactly the pairs of measurements without common
parent are empirically independent, then after `fit` on enough copies of the dataset `_compute_biadj` finds the structure, for
every set order -/
theorem C125_dcov_pipeline (lib : ∀ N, TestLib ℝ N) (tc : TestChoice) (ht : tc.method = "dcov_fast") (c : ℝ) (hc : 0 < c)
    (hcrit : ∀ N, (lib N).critVal tc.alpha = c) (hM : 0 < M) (d : Dataset M) (B : List (BVec M)) (hB : OnePureChild B)
    (hdep : ∀ i j, i ≠ j → (EmpIndep (fun k => d.val k i) (fun k => d.val k j) ↔ ¬ ∃ r ∈ B, r i = true ∧ r j = true)) :
    ∃ R : Nat, ∀ r, R ≤ r → ∀ (o : Sched M) (st : NState M), st.udg = none → st.dataset = some (d.copies r) →
      ∃ (V : BMat M) (C : List (BVec M)), ncfaComputeBiadj lib tc o st = ({ st with udg := some V, biadj := C }, .ok ()) ∧
        IsUDGOf V B ∧ SameRows C B := by
  obtain ⟨R, hR⟩ := C124_dcov_consistent d.val tc.alpha c hc
  refine ⟨R, fun r hr o st hU hd => ?_⟩
  obtain ⟨u, p, hup⟩ : ∃ u p, estimateUDG (lib ((r + 1) * d.size)) (copies (r + 1) d.val) (.name "dcov_fast") tc.alpha = .ok (u, p) :=
    ⟨_, _, rfl⟩
  have h1 := hR (r + 1) (by omega) (lib _) (hcrit _) u p hup
  have hUB : IsUDGOf (BMat.of u) B := by
    intro i j hij
    rw [show (BMat.of u) i j = u i j by simp, h1 i j, hdep i j hij]
    simp [hij]
  obtain ⟨V, C, h2, h3, h4⟩ := C125_recovers lib tc o st hM (BMat.of u)
    (Or.inr ⟨hU, d.copies r, u, p, hd, by rw [ht]; exact hup, fun i j => by simp⟩) B hB hUB
  exact ⟨V, C, h2, fun i j hij => by rw [h3]; exact hUB i j hij, h4⟩

/-- empirical independence of columns of natural numbers can be decided -/
theorem empIndep_nat {K : Type} [Field K] [LinearOrder K] [IsStrictOrderedRing K] {N : Nat} (x y : Fin N → Nat) :
    EmpIndep (fun k => (x k : K)) (fun k => (y k : K)) ↔ ∀ k l, N * (univ.filter fun m => x m = x k ∧ y m = y l).card =
      (univ.filter fun m => x m = x k).card * (univ.filter fun m => y m = y l).card := by
  constructor
  · intro h k l
    have := h (x k) (y l)
    simpa only [Nat.cast_inj] using this
  · intro h a b
    by_cases ha : ∃ k, (x k : K) = a
    · by_cases hb : ∃ l, (y l : K) = b
      · obtain ⟨k, rfl⟩ := ha
        obtain ⟨l, rfl⟩ := hb
        simpa only [Nat.cast_inj] using h k l
      · have : ∀ l, ¬ (y l : K) = b := fun l hl => hb ⟨l, hl⟩
        simp [this]
    · have : ∀ k, ¬ (x k : K) = a := fun k hk => ha ⟨k, hk⟩
      simp [this]

/-- eight observations of three measurements: the first two are equal, the third is independent of them -/
def blockTable : Fin 8 → Fin 3 → Nat := fun k j => if j = 2 then k.val % 2 else k.val / 4

noncomputable def twoBlocks : Dataset 3 := { size := 8, two_le := by omega, val := fun k j => (blockTable k j : ℝ) }

-- the hypotheses of the pipeline hold for `twoBlocks` and the structure with the latents {0, 1} and {2}
example : OnePureChild [(⟨0b011⟩ : BVec 3), ⟨0b100⟩] ∧
    ∀ i j, i ≠ j → (EmpIndep (fun k => twoBlocks.val k i) (fun k => twoBlocks.val k j) ↔
      ¬ ∃ r ∈ [(⟨0b011⟩ : BVec 3), ⟨0b100⟩], r i = true ∧ r j = true) := by
  refine ⟨⟨?_, by unfold CoversVertices; decide +kernel⟩, fun i j hij => ?_⟩
  · intro i hi
    match i, hi with
    | 0, _ => exact ⟨0, by unfold PureChild; decide +kernel⟩
    | 1, _ => exact ⟨2, by unfold PureChild; decide +kernel⟩
  · show EmpIndep (fun k => (blockTable k i : ℝ)) (fun k => (blockTable k j : ℝ)) ↔ _
    rw [empIndep_nat (fun k => blockTable k i) fun k => blockTable k j]
    revert i j
    decide +kernel

end Medil

import Verif.Props.DevLoss
import Verif.Proofs.Bounds
/-
  Property theorem C109: `DevMedil` allocates enough latents.
-/
namespace Medil
open Finset Matrix
variable {G : Type}

/-- the weights of a structure: 1 on the structure, 0 outside -/
def unitWeights {n : Nat} (B : List (BVec n)) (r : Fin B.length) (j : Fin n) : ℝ := if B[r] j then 1 else 0

theorem unitWeights_cov {n : Nat} (B : List (BVec n)) {A : BMat n} (h : IsUDGOf A B) (v : Fin n → ℝ) (i j : Fin n)
    (hij : i ≠ j) : modelCov (unitWeights B) v i j ≠ 0 ↔ A i j = true := by
  have hnn : ∀ r ∈ (univ : Finset (Fin B.length)), 0 ≤ unitWeights B r i * unitWeights B r j := fun r _ => by
    unfold unitWeights; split <;> split <;> norm_num
  unfold modelCov
  rw [if_neg hij, add_zero, h i j hij, Ne, sum_eq_zero_iff_of_nonneg hnn]
  constructor
  · intro hne
    by_contra hno
    refine hne fun r _ => ?_
    unfold unitWeights
    by_cases h1 : B[r] i = true
    · have h2 : ¬ B[r] j = true := fun h2 => hno ⟨B[r], List.getElem_mem _, h1, h2⟩
      rw [if_neg h2, mul_zero]
    · rw [if_neg h1, zero_mul]
  · rintro ⟨r, hr, h1, h2⟩ h0
    obtain ⟨q, hq, rfl⟩ := List.getElem_of_mem hr
    have := h0 ⟨q, hq⟩ (mem_univ _)
    unfold unitWeights at this
    simp only [Fin.getElem_fin] at this
    rw [if_pos h1, if_pos h2] at this
    norm_num at this

/-- latents without children do not matter -/
theorem pad_udg {n : Nat} {A : BMat n} {B : List (BVec n)} (h : IsUDGOf A B) (k : Nat) (hk : B.length ≤ k) :
    ∃ B' : List (BVec n), B'.length = k ∧ IsUDGOf A B' := by
  refine ⟨B ++ List.replicate (k - B.length) (BVec.of fun _ => false), by simp; omega, fun i j hij => ?_⟩
  rw [h i j hij]
  constructor
  · rintro ⟨r, hr, h1⟩; exact ⟨r, List.mem_append_left _ hr, h1⟩
  · rintro ⟨r, hr, h1, h2⟩
    rcases List.mem_append.mp hr with hr | hr
    · exact ⟨r, hr, h1, h2⟩
    · rw [List.eq_of_mem_replicate hr] at h1
      simp at h1

theorem opc_length {n : Nat} {B : List (BVec n)} (h : OnePureChild B) : B.length ≤ n := by
  choose p hp using fun i : Fin B.length => h.1 i.val i.isLt
  have hinj : Function.Injective p := by
    intro i i' he
    have h1 := (hp i i.val i.isLt).mpr rfl
    rw [he] at h1
    exact Fin.ext ((hp i' i.val i.isLt).mp h1)
  simpa using Fintype.card_le_of_injective p hinj

theorem egp_udg {n : Nat} {A : BMat n} (hA : Symm A) : ∃ B : List (BVec n), B.length ≤ n ^ 2 / 4 ∧ IsUDGOf A B := by
  obtain ⟨L, hL, hlen⟩ := egp_edges hA n univ (by simp)
  refine ⟨L.map fun K => BVec.of fun j => decide (j ∈ K), ?_, fun i j hij => ⟨fun h => ?_, ?_⟩⟩
  · rw [List.length_map]; omega
  · obtain ⟨K, hK, h1, h2⟩ := hL.edges i (mem_univ _) j (mem_univ _) ⟨h, hij⟩
    exact ⟨_, List.mem_map.mpr ⟨K, hK, rfl⟩, by simpa using h1, by simpa using h2⟩
  · rintro ⟨r, hr, h1, h2⟩
    obtain ⟨K, hK, rfl⟩ := List.mem_map.mp hr
    exact (hL.cliques K hK i (by simpa using h1) j (by simpa using h2) hij).1

/-- **C109** `DevMedil` allocates enough latents: after every successful fit, the number of latents of the estimate is
large enough for every dependence graph of its measurements — for every dependence graph of a
one-pure-child structure if `one_pure_child` is set.  That is, there is a structure with that many latents (some may
have no children) whose dependence graph is the given one, with weights and positive error variances for
which exactly the adjacent measurements are correlated. -/
theorem C109_latents (env : DevEnv G) (st : DevState G) (d : AnyData) (method : String) (lam mu : ℝ)
    (h : (devFit env st d method lam mu).2 = .ok ()) :
    ∃ e, (devFit env st d method lam mu).1.est = some e ∧ e.meas = d.cols ∧
      ∀ A : BMat e.meas, Symm A → (st.onePureChild = true → ∃ B, OnePureChild B ∧ IsUDGOf A B) →
        ∃ (B : List (BVec e.meas)) (W : Fin B.length → Fin e.meas → ℝ) (v : Fin e.meas → ℝ),
          B.length = e.latents ∧ IsUDGOf A B ∧ OnStructure B W ∧ (∀ j, 0 < v j) ∧
          ∀ i j, i ≠ j → (modelCov W v i j ≠ 0 ↔ A i j = true) := by
  obtain ⟨e, he, hm, hl⟩ := (devFit_est env st d method lam mu).2.1 h
  refine ⟨e, he, hm, fun A hA hB => ?_⟩
  have key : ∃ B : List (BVec e.meas), B.length ≤ e.latents ∧ IsUDGOf A B := by
    rw [← hm] at hl
    by_cases ho : st.onePureChild = true
    · obtain ⟨B, h1, h2⟩ := hB ho
      rw [if_pos ho] at hl
      exact ⟨B, le_of_le_of_eq (opc_length h1) hl.symm, h2⟩
    · rw [if_neg ho] at hl
      rw [hl]
      exact egp_udg hA
  obtain ⟨B, h1, h2⟩ := key
  obtain ⟨B', h3, h4⟩ := pad_udg h2 _ h1
  refine ⟨B', unitWeights B', fun _ => 1, h3, h4, fun r j hr => ?_, fun _ => one_pos, fun i j hij => unitWeights_cov B' h4 _ i j hij⟩
  unfold unitWeights
  rw [if_neg (by rw [hr]; simp)]

/-- the complete bipartite graph between the first `m / 2` measurements and the others -/
def bipartite (m : Nat) : BMat m := BMat.of fun i j => decide (i.val < m / 2 ∧ ¬ j.val < m / 2 ∨ j.val < m / 2 ∧ ¬ i.val < m / 2)

/-- **C109** and no fewer would do: for every number `m` of measurements there is a dependence graph all of whose
structures have at least `m ^ 2 // 4` latents -/
theorem C109_sharp (m : Nat) : Symm (bipartite m) ∧ ∀ B : List (BVec m), IsUDGOf (bipartite m) B → m ^ 2 / 4 ≤ B.length := by
  have hsymm : Symm (bipartite m) := fun i j => by simp [bipartite]; exact Bool.or_comm _ _
  refine ⟨hsymm, fun B hB => ?_⟩
  have hadj : ∀ i j : Fin m, i ≠ j → (∃ r ∈ B, r i = true ∧ r j = true) →
      (i.val < m / 2 ∧ ¬ j.val < m / 2 ∨ j.val < m / 2 ∧ ¬ i.val < m / 2) := fun i j hij h => by
    simpa [bipartite] using (hB i j hij).mpr h
  have hex : ∀ e : Fin (m / 2) × Fin (m - m / 2), ∃ r : Fin B.length,
      B[r] ⟨e.1, by omega⟩ = true ∧ B[r] ⟨m / 2 + e.2, by omega⟩ = true := by
    intro e
    obtain ⟨r, hr, h1⟩ := (hB ⟨e.1, by omega⟩ ⟨m / 2 + e.2, by omega⟩ (by simp [Fin.ext_iff]; omega)).mp (by simp [bipartite])
    obtain ⟨q, hq, rfl⟩ := List.getElem_of_mem hr
    exact ⟨⟨q, hq⟩, h1⟩
  choose f hf using hex
  have hinj : Function.Injective f := by
    intro e e' he
    obtain ⟨a1, a2⟩ := hf e
    obtain ⟨b1, b2⟩ := hf e'
    rw [← he] at b1 b2
    refine Prod.ext (Fin.ext ?_) (Fin.ext ?_)
    · by_contra hne
      have := hadj _ _ (by simp [Fin.ext_iff]; exact hne) ⟨_, List.getElem_mem _, a1, b1⟩
      simp at this
    · by_contra hne
      have := hadj _ _ (by simp [Fin.ext_iff]; exact hne) ⟨_, List.getElem_mem _, a2, b2⟩
      simp at this
  have := Fintype.card_le_of_injective f hinj
  simp only [Fintype.card_prod, Fintype.card_fin] at this
  refine le_trans (le_of_eq ?_) this
  obtain ⟨q, hq | hq⟩ : ∃ q, m = 2 * q ∨ m = 2 * q + 1 := ⟨m / 2, by omega⟩
  · subst hq
    have : 2 * q / 2 = q := by omega
    rw [this, show 2 * q - q = q by omega, show (2 * q) ^ 2 = 4 * (q * q) by ring]
    omega
  · subst hq
    have : (2 * q + 1) / 2 = q := by omega
    rw [this, show 2 * q + 1 - q = q + 1 by omega, show (2 * q + 1) ^ 2 = 4 * (q * (q + 1)) + 1 by ring]
    omega

/-- the hypotheses of C109 are met -/
example : (devFit idEnv (newDev false ()) twoCols "lse" 1 1).2 = .ok () ∧ Symm (bipartite 2) := ⟨rfl, (C109_sharp 2).1⟩

end Medil

import Verif.Proofs.Heuristic
import Verif.Props.MaxCliques
/-
  Properties of `find_heuristic_1pc` (C04-C09).  The diagonal of the input is arbitrary.
-/
namespace Medil
variable {n : Nat}

theorem heuristic_ok_iff {A : BMat n} (hA : Symm A) (o : Sched n) {B : List (BVec n)}
    (h : findHeuristic1pc o A = .ok B) :
    ∃ S : List (Fin n), S.Nodup ∧ IsIndep A S.toFinset ∧ (∀ v, v ∉ S → ∃ s ∈ S, Adj A s v) ∧
      (∀ T, IsIndep A T → T.card ≤ S.length) ∧ CoversEdges A B ∧ B = S.map (starRow A) := by
  rcases Nat.eq_zero_or_pos n with hn | hn
  · subst hn; simp [findHeuristic1pc, maxCliques] at h
  · obtain ⟨S, h1, h2, h3, h4, h5⟩ := heuristic_eq hA hn o
    rw [h5] at h
    split at h
    · rename_i hc
      cases h
      exact ⟨S, h1, h2, h3, h4, hc, rfl⟩
    · cases h

/-- **C04** every dependent pair has a common parent in the returned structure -/
theorem C04_heuristic_covers (A : BMat n) (hA : Symm A) (o : Sched n) (B : List (BVec n))
    (h : findHeuristic1pc o A = .ok B) :
    ∀ i j, i ≠ j → A i j = true → ∃ r ∈ B, r i = true ∧ r j = true := by
  obtain ⟨S, -, -, -, -, hc, -⟩ := heuristic_ok_iff hA o h
  exact fun i j hij hA => hc i j ⟨hA, hij⟩

/-- **C05** every latent has a pure child; as many latents as a largest independent set has vertices -/
theorem C05_heuristic_pure_children (A : BMat n) (hA : Symm A) (o : Sched n) (B : List (BVec n))
    (h : findHeuristic1pc o A = .ok B) :
    (∀ i, i < B.length → ∃ p, PureChild B i p) ∧
      (∃ T, IsIndep A T ∧ T.card = B.length) ∧ ∀ T, IsIndep A T → T.card ≤ B.length := by
  obtain ⟨S, hnd, hind, -, hmax, -, rfl⟩ := heuristic_ok_iff hA o h
  refine ⟨?_, ⟨S.toFinset, hind, by simp [List.toFinset_card_of_nodup hnd]⟩, by simpa using hmax⟩
  intro i hi
  have hi' : i < S.length := by simpa using hi
  refine ⟨S[i], fun j hj => ?_⟩
  have hj' : j < S.length := by simpa using hj
  simp only [List.getElem_map, starRow_apply, Bool.or_eq_true, decide_eq_true_eq]
  constructor
  · rintro (h | h)
    · exact ((hnd.getElem_inj_iff).mp h).symm
    · by_contra hne
      exact hind S[j] (by simp) S[i] (by simp) ⟨h, fun e => hne ((hnd.getElem_inj_iff).mp e)⟩
  · rintro rfl; exact Or.inl rfl

/-- **C06** every measurement has a parent and every latent a child -/
theorem C06_heuristic_parents (A : BMat n) (hA : Symm A) (o : Sched n) (B : List (BVec n))
    (h : findHeuristic1pc o A = .ok B) :
    (∀ j : Fin n, ∃ r ∈ B, r j = true) ∧ ∀ r ∈ B, ∃ j : Fin n, r j = true := by
  obtain ⟨S, -, -, hdom, -, -, rfl⟩ := heuristic_ok_iff hA o h
  constructor
  · intro j
    by_cases hj : j ∈ S
    · exact ⟨starRow A j, List.mem_map_of_mem hj, by simp⟩
    · obtain ⟨s, hs, hadj⟩ := hdom j hj
      exact ⟨starRow A s, List.mem_map_of_mem hs, by simp [hadj.1]⟩
  · intro r hr
    obtain ⟨s, -, rfl⟩ := List.mem_map.mp hr
    exact ⟨s, by simp⟩

/-- **C07** on the dependence graph of a one-pure-child structure `B` the call returns, for every set
order, and the rows are those of `B` up to order -/
theorem C07_heuristic_recovers (A : BMat n) (B : List (BVec n)) (hn : 0 < n) (hB : OnePureChild B)
    (hU : IsUDGOf A B) (o : Sched n) :
    ∃ C, findHeuristic1pc o A = .ok C ∧ SameRows C B := by
  have hA := hU.symm
  obtain ⟨S, hnd, hind, hdom, hmax, heq⟩ := heuristic_eq hA hn o
  obtain ⟨f, hperm, hpure⟩ := onePure_choice hB hU hnd hind hmax
  have hsame := sameRows_stars hU hperm hpure
  refine ⟨S.map (starRow A), ?_, hsame⟩
  rw [heq, if_pos]
  intro i j hij
  obtain ⟨r, hr, h1, h2⟩ := (hU i j hij.2).mp hij.1
  have : children r ∈ (S.map (starRow A)).map children :=
    hsame.mem_iff.mpr (List.mem_map_of_mem hr)
  obtain ⟨r', hr', he⟩ := List.mem_map.mp this
  refine ⟨r', hr', ?_, ?_⟩
  · rw [← mem_children, he]; simpa using h1
  · rw [← mem_children, he]; simpa using h2

/-- the structure and graph used to show that C07's hypotheses can be met: three latents, the second
and third sharing a measurement -/
def exOpc : List (BVec 5) := [⟨0b00001⟩, ⟨0b01110⟩, ⟨0b11000⟩]
def exOpcUdg : BMat 5 := BMat.of fun i j => exOpc.any fun r => r i && r j

example : OnePureChild exOpc ∧ IsUDGOf exOpcUdg exOpc := by
  refine ⟨⟨?_, by unfold CoversVertices; decide +kernel⟩, by unfold IsUDGOf; decide +kernel⟩
  intro i hi
  have : i < 3 := hi
  match i, this with
  | 0, _ => exact ⟨0, by unfold PureChild; simp only [exOpc, List.length]; decide +kernel⟩
  | 1, _ => exact ⟨1, by unfold PureChild; simp only [exOpc, List.length]; decide +kernel⟩
  | 2, _ => exact ⟨4, by unfold PureChild; simp only [exOpc, List.length]; decide +kernel⟩

-- `find_heuristic_1pc` returns on `exOpcUdg`, so the hypothesis of C04-C06 can be met
example : (findHeuristic1pc (fun _ _ => 0) exOpcUdg).toOption.map (·.length) = some 3 := by
  decide +kernel

/-! ### C08: not every graph is accepted -/

/-- The claim of C08. -/
def C08_statement : Prop :=
  ∀ (n : Nat) (A : BMat n) (o : Sched n), 0 < n → Symm A → ∃ B, findHeuristic1pc o A = .ok B

def cycle5 : BMat 5 := BMat.of fun i j =>
  decide (i = j) || decide ((i.val + 1) % 5 = j.val) || decide ((j.val + 1) % 5 = i.val)

/-- **C08 is false** on the 5-cycle: `TypeError`, whatever the set order (an edge stays uncovered and the
set of numpy arrays cannot be built). -/
theorem C08_false_cycle5 (o : Sched 5) : findHeuristic1pc o cycle5 = .error .typeError := by
  have hA : Symm cycle5 := by unfold Symm; decide +kernel
  obtain ⟨S, hnd, hind, hdom, hmax, heq⟩ := heuristic_eq hA (by decide) o
  rw [heq, if_neg]
  intro hc
  have key : ∀ T : Finset (Fin 5), IsIndep cycle5 T →
      ∃ i j, Adj cycle5 i j ∧ ∀ s ∈ T, ¬ ((i = s ∨ cycle5 s i = true) ∧ (j = s ∨ cycle5 s j = true)) := by
    decide +kernel
  obtain ⟨i, j, hij, hno⟩ := key S.toFinset hind
  obtain ⟨r, hr, h1, h2⟩ := hc i j hij
  obtain ⟨s, hs, rfl⟩ := List.mem_map.mp hr
  exact hno s (by simpa using hs) (by simpa using And.intro h1 h2)

theorem C08_false : ¬ C08_statement := by
  intro h
  obtain ⟨B, hB⟩ := h 5 cycle5 (fun _ _ => 0) (by decide) (by unfold Symm; decide +kernel)
  rw [C08_false_cycle5] at hB
  cases hB

/-- **C08, proved part**: the only possible failure is that `TypeError`, and it happens exactly when the
stars of the chosen maximum independent set miss an edge.  In particular the call returns if the stars
of every maximum independent set cover all edges, and raises if those of none do.
Missing for the full claim: it is false (`C08_false`). -/
theorem C08_heuristic_returns_partial (A : BMat n) (hA : Symm A) (hn : 0 < n) (o : Sched n) :
    ((∃ B, findHeuristic1pc o A = .ok B) ∨ findHeuristic1pc o A = .error .typeError) ∧
    ((∀ T, IsIndep A T → (∀ T', IsIndep A T' → T'.card ≤ T.card) →
        ∀ i j, Adj A i j → ∃ s ∈ T, (i = s ∨ Adj A s i) ∧ (j = s ∨ Adj A s j)) →
      ∃ B, findHeuristic1pc o A = .ok B) ∧
    ((∀ T, IsIndep A T → (∀ T', IsIndep A T' → T'.card ≤ T.card) →
        ∃ i j, Adj A i j ∧ ∀ s ∈ T, ¬ ((i = s ∨ Adj A s i) ∧ (j = s ∨ Adj A s j))) →
      findHeuristic1pc o A = .error .typeError) := by
  obtain ⟨S, hnd, hind, hdom, hmax, heq⟩ := heuristic_eq hA hn o
  have hcard : S.toFinset.card = S.length := List.toFinset_card_of_nodup hnd
  have hstar : ∀ s i, (starRow A s) i = true ↔ (i = s ∨ Adj A s i) := by
    intro s i
    simp only [starRow_apply, Bool.or_eq_true, decide_eq_true_eq, Adj]
    constructor
    · rintro (h | h)
      · exact Or.inl h
      · by_cases e : i = s
        · exact Or.inl e
        · exact Or.inr ⟨h, Ne.symm e⟩
    · rintro (h | h)
      · exact Or.inl h
      · exact Or.inr h.1
  refine ⟨?_, ?_, ?_⟩
  · rw [heq]; split
    · exact Or.inl ⟨_, rfl⟩
    · exact Or.inr rfl
  · intro h
    refine ⟨S.map (starRow A), ?_⟩
    rw [heq, if_pos]
    intro i j hij
    obtain ⟨s, hs, h1, h2⟩ := h S.toFinset hind (by simpa [hcard] using hmax) i j hij
    exact ⟨starRow A s, List.mem_map_of_mem (by simpa using hs), (hstar s i).mpr h1,
      (hstar s j).mpr h2⟩
  · intro h
    rw [heq, if_neg]
    intro hc
    obtain ⟨i, j, hij, hno⟩ := h S.toFinset hind (by simpa [hcard] using hmax)
    obtain ⟨r, hr, h1, h2⟩ := hc i j hij
    obtain ⟨s, hs, rfl⟩ := List.mem_map.mp hr
    exact hno s (by simpa using hs) ⟨(hstar s i).mp h1, (hstar s j).mp h2⟩

-- both sufficient conditions are met by concrete graphs
example : (∀ T, IsIndep exGraph T → (∀ T', IsIndep exGraph T' → T'.card ≤ T.card) →
    ∀ i j, Adj exGraph i j → ∃ s ∈ T, (i = s ∨ Adj exGraph s i) ∧ (j = s ∨ Adj exGraph s j)) := by
  decide +kernel

/-! ### C09: extra dependences -/

def C09_statement : Prop :=
  ∀ (n : Nat) (A : BMat n) (o : Sched n) (B : List (BVec n)), Symm A →
    findHeuristic1pc o A = .ok B → IsUDGOf A B

def cycle4 : BMat 4 := BMat.of fun i j =>
  decide (i = j) || decide ((i.val + 1) % 4 = j.val) || decide ((j.val + 1) % 4 = i.val)

/-- **C09 is false** on the 4-cycle: the call returns, but the structure implies an edge that is not
there, whatever the set order. -/
theorem C09_false_cycle4 (o : Sched 4) :
    ∃ B, findHeuristic1pc o cycle4 = .ok B ∧ ¬ IsUDGOf cycle4 B := by
  have hA : Symm cycle4 := by unfold Symm; decide +kernel
  obtain ⟨-, hret, -⟩ := C08_heuristic_returns_partial cycle4 hA (by decide) o
  obtain ⟨B, hB⟩ := hret (by decide +kernel)
  refine ⟨B, hB, ?_⟩
  obtain ⟨S, hnd, hind, hdom, hmax, -, rfl⟩ := heuristic_ok_iff hA o hB
  have key : ∀ T : Finset (Fin 4), IsIndep cycle4 T → 2 ≤ T.card →
      ∃ i j s, s ∈ T ∧ i ≠ j ∧ cycle4 i j = false ∧ cycle4 s i = true ∧ cycle4 s j = true := by
    decide +kernel
  have h2 : 2 ≤ S.toFinset.card := by
    rw [List.toFinset_card_of_nodup hnd]
    exact hmax {0, 2} (by decide +kernel)
  obtain ⟨i, j, s, hs, hij, hno, h3, h4⟩ := key S.toFinset hind h2
  intro hU
  have := (hU i j hij).mpr ⟨starRow cycle4 s, List.mem_map_of_mem (by simpa using hs),
    by simp [h3], by simp [h4]⟩
  rw [hno] at this; cases this

theorem C09_false : ¬ C09_statement := by
  intro h
  obtain ⟨B, h1, h2⟩ := C09_false_cycle4 (fun _ _ => 0)
  exact h2 (h 4 cycle4 _ B (by unfold Symm; decide +kernel) h1)

/-- **C09, proved part**: no dependence is lost, and the implied graph equals `A` exactly when every
row is a clique of `A`.  Missing for the full claim: it is false (`C09_false`). -/
theorem C09_heuristic_graph_partial (A : BMat n) (hA : Symm A) (o : Sched n) (B : List (BVec n))
    (h : findHeuristic1pc o A = .ok B) :
    (∀ i j, i ≠ j → A i j = true → ∃ r ∈ B, r i = true ∧ r j = true) ∧
      (IsUDGOf A B ↔ RowsCliques A B) := by
  have hc := C04_heuristic_covers A hA o B h
  refine ⟨hc, ?_, ?_⟩
  · intro hU r hr i hi j hj hij
    exact ⟨(hU i j hij).mpr ⟨r, hr, by simpa using hi, by simpa using hj⟩, hij⟩
  · intro hR i j hij
    refine ⟨hc i j hij, ?_⟩
    rintro ⟨r, hr, h1, h2⟩
    exact (hR r hr i (by simpa using h1) j (by simpa using h2) hij).1

end Medil

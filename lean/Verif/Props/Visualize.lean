import Verif.Model.Visualize
import Mathlib.Logic.Relation
import Mathlib.Data.Fin.Tuple.Basic
import Mathlib.Tactic.Ring
import Mathlib.Tactic.FieldSimp
import Mathlib.Tactic.Positivity
import Mathlib.Tactic.Linarith
import Mathlib.Data.Nat.Digits.Defs
import Mathlib.Algebra.Order.Field.Basic
import Mathlib.Data.Rat.Cast.Order
/-
  C72, C94, C95: the graph drawn for a biadjacency matrix.
-/
namespace Medil
variable {L M : Nat} {K : Type} [Zero K]

/-! ### C72 -/

/-- the directed edges of a weighted adjacency matrix -/
def DirEdge {k : Nat} (D : Fin k → Fin k → K) (a b : Fin k) : Prop := D a b ≠ 0

/-- two vertices of a directed graph are marginally connected: they have a common ancestor (every vertex is an ancestor
of itself) -/
def CommonAncestor {V : Type} (E : V → V → Prop) (x y : V) : Prop :=
  ∃ z, Relation.ReflTransGen E z x ∧ Relation.ReflTransGen E z y

/-- the entries: latent `i` is vertex `i`, measurement `j` is vertex `L + j`; the entry for latent to measurement is the
one of the biadjacency matrix (so it can be read back), every other entry is zero -/
theorem C72_entries (B : Fin L → Fin M → K) :
    (∀ i j, getDagFromBiadj B (Fin.castAdd M i) (Fin.natAdd L j) = B i j) ∧
    (∀ i i', getDagFromBiadj B (Fin.castAdd M i) (Fin.castAdd M i') = 0) ∧
    (∀ j b, getDagFromBiadj B (Fin.natAdd L j) b = 0) := by
  refine ⟨fun i j => ?_, fun i i' => ?_, fun j b => ?_⟩
  · unfold getDagFromBiadj
    rw [dif_pos ⟨by simp, by simp⟩]
    congr 1
    exact Fin.ext (by simp)
  · unfold getDagFromBiadj
    rw [dif_neg (by simp)]
  · unfold getDagFromBiadj
    rw [dif_neg (by simp)]

theorem dirEdge_iff (B : Fin L → Fin M → K) (a b : Fin (L + M)) :
    DirEdge (getDagFromBiadj B) a b ↔ ∃ i j, a = Fin.castAdd M i ∧ b = Fin.natAdd L j ∧ B i j ≠ 0 := by
  obtain ⟨h1, h2, h3⟩ := C72_entries B
  constructor
  · intro h
    induction a using Fin.addCases with
    | left i =>
      induction b using Fin.addCases with
      | left i' => exact absurd (h2 i i') h
      | right j => exact ⟨i, j, rfl, rfl, by rw [← h1 i j]; exact h⟩
    | right j => exact absurd (h3 j b) h
  · rintro ⟨i, j, rfl, rfl, h⟩
    unfold DirEdge
    rwa [h1]

/-- **C72**: there is an edge exactly from a latent to a measurement for which the biadjacency matrix has a nonzero
entry; no two edges follow each other, so no vertex has a directed path to itself (the graph is acyclic) -/
theorem C72_dag (B : Fin L → Fin M → K) :
    (∀ a b, DirEdge (getDagFromBiadj B) a b ↔ ∃ i j, a = Fin.castAdd M i ∧ b = Fin.natAdd L j ∧ B i j ≠ 0) ∧
    (∀ a b c, DirEdge (getDagFromBiadj B) a b → ¬ DirEdge (getDagFromBiadj B) b c) ∧
    (∀ a, ¬ Relation.TransGen (DirEdge (getDagFromBiadj B)) a a) := by
  have h2 : ∀ a b c, DirEdge (getDagFromBiadj B) a b → ¬ DirEdge (getDagFromBiadj B) b c := by
    intro a b c hab hbc
    obtain ⟨i, j, _, hb, _⟩ := (dirEdge_iff B a b).1 hab
    obtain ⟨i', _, hb', _, _⟩ := (dirEdge_iff B b c).1 hbc
    rw [hb] at hb'
    have := congrArg Fin.val hb'
    simp at this
    omega
  refine ⟨dirEdge_iff B, h2, fun a h => ?_⟩
  have key : ∀ x y, Relation.TransGen (DirEdge (getDagFromBiadj B)) x y → DirEdge (getDagFromBiadj B) x y := by
    intro x y hxy
    induction hxy with
    | single h => exact h
    | tail _ hbc ih => exact absurd hbc (h2 _ _ _ ih)
  exact h2 a a a (key _ _ h) (key _ _ h)

/-- different matrices give different graphs -/
theorem C72_readable (B B' : Fin L → Fin M → K) (h : getDagFromBiadj B = getDagFromBiadj B') : B = B' := by
  funext i j
  rw [← (C72_entries B).1, ← (C72_entries B').1, h]

theorem reflTransGen_dag (B : Fin L → Fin M → K) (a b : Fin (L + M)) :
    Relation.ReflTransGen (DirEdge (getDagFromBiadj B)) a b ↔ a = b ∨ DirEdge (getDagFromBiadj B) a b := by
  obtain ⟨_, h2, _⟩ := C72_dag B
  constructor
  · intro h
    induction h with
    | refl => exact .inl rfl
    | tail _ hbc ih =>
      rcases ih with rfl | ih
      · exact .inr hbc
      · exact absurd hbc (h2 _ _ _ ih)
  · rintro (rfl | h)
    · exact .refl
    · exact .single h

/-- the graph and `recover_ug` (evaluate.py) agree: two different measurements have a common ancestor in the drawn graph
exactly when `recover_ug` of the biadjacency matrix has an edge between them -/
theorem C72_udg {M : Nat} (B : List (BVec M)) (x y : Fin M) (hxy : x ≠ y) :
    CommonAncestor (DirEdge (getDagFromBiadj fun (i : Fin B.length) j => if (B.get i) j then (1 : ℚ) else 0))
      (Fin.natAdd B.length x) (Fin.natAdd B.length y) ↔ recoverUg B x y = true := by
  set D : Fin B.length → Fin M → ℚ := fun i j => if (B.get i) j then (1 : ℚ) else 0 with hD
  have hne : ∀ i j, D i j ≠ 0 ↔ (B.get i) j = true := by
    intro i j
    rw [hD]; dsimp only
    split <;> simp_all
  unfold CommonAncestor recoverUg
  simp only [reflTransGen_dag, BMat.get_of, Bool.and_eq_true, List.any_eq_true, Bool.not_eq_true', decide_eq_false_iff_not]
  constructor
  · rintro ⟨z, h1, h2⟩
    refine ⟨?_, hxy⟩
    have hm : ∀ (j : Fin M) (w : Fin (B.length + M)), DirEdge (getDagFromBiadj D) w (Fin.natAdd B.length j) →
        ∃ i, w = Fin.castAdd M i ∧ (B.get i) j = true := by
      intro j w hw
      obtain ⟨i, j', hi, hj, hB⟩ := (dirEdge_iff D _ _).1 hw
      rw [Fin.natAdd_inj] at hj
      subst hj
      exact ⟨i, hi, (hne i j).1 hB⟩
    have hno : ∀ (j j' : Fin M), ¬ DirEdge (getDagFromBiadj D) (Fin.natAdd B.length j) (Fin.natAdd B.length j') := by
      intro j j' h
      obtain ⟨i, hi, _⟩ := hm _ _ h
      have := congrArg Fin.val hi
      simp at this
      omega
    rcases h1 with rfl | h1
    · rcases h2 with h2 | h2
      · exact absurd ((Fin.natAdd_inj _).1 h2) hxy
      · exact absurd h2 (hno _ _)
    · rcases h2 with rfl | h2
      · exact absurd h1 (hno _ _)
      · obtain ⟨i, rfl, hi⟩ := hm _ _ h1
        obtain ⟨i', hii, hi'⟩ := hm _ _ h2
        rw [Fin.castAdd_inj] at hii
        subst hii
        exact ⟨B.get i, List.get_mem _ _, hi, hi'⟩
  · rintro ⟨⟨r, hr, h1, h2⟩, _⟩
    obtain ⟨i, hi⟩ := List.get_of_mem hr
    refine ⟨Fin.castAdd M i, .inr ?_, .inr ?_⟩
    · exact (dirEdge_iff D _ _).2 ⟨i, x, rfl, rfl, (hne i x).2 (by rw [hi]; exact h1)⟩
    · exact (dirEdge_iff D _ _).2 ⟨i, y, rfl, rfl, (hne i y).2 (by rw [hi]; exact h2)⟩

/-- two latents, three measurements: measurements 0 and 1 have a common ancestor, 0 and 2 do not -/
example : recoverUg [BVec.of fun j => decide (j.1 < 2), BVec.of fun j : Fin 3 => decide (0 < j.1)] 0 1 = true ∧
    recoverUg [BVec.of fun j => decide (j.1 < 2), BVec.of fun j : Fin 3 => decide (0 < j.1)] 0 2 = false := by decide +kernel

/-! ### C94: what is drawn -/

/-- where the item `i` of a row of `n` items is: they are evenly spaced from 0 to 1 -/
def evenly (n i : Nat) : ℚ := if n = 1 then 0 else (i : ℚ) / ((n : ℚ) - 1)

theorem evenly_inj (n i j : Nat) (hi : i < n) (hj : j < n) (h : evenly n i = evenly n j) : i = j := by
  unfold evenly at h
  split at h
  · omega
  · rename_i h1
    have h2 : (2 : ℚ) ≤ n := by
      have : 2 ≤ n := by omega
      exact_mod_cast this
    have h3 : (n : ℚ) - 1 ≠ 0 := by intro h; linarith
    have := (div_left_inj' h3).1 h
    exact_mod_cast this

theorem linspace01_getElem? (n i : Nat) : (linspace01 n)[i]? = if i < n then some (evenly n i) else none := by
  unfold linspace01 evenly
  split
  · rename_i h
    subst h
    rcases i with _ | i <;> simp
  · rw [List.getElem?_map]
    split
    · rename_i h; rw [List.getElem?_range h]; rfl
    · rename_i h; rw [List.getElem?_eq_none (by simpa using h)]; rfl

theorem mem_zipIdx_linspace (n : Nat) (x : ℚ) (i : Nat) : (x, i) ∈ (linspace01 n).zipIdx ↔ i < n ∧ x = evenly n i := by
  rw [List.mem_zipIdx_iff_getElem?]
  dsimp only
  rw [linspace01_getElem?]
  split
  · rename_i h
    simp [h, eq_comm]
  · rename_i h; simp [h]

/-- **C94**: `show_dag` places latent `i` of `L` on the upper line and measurement `j` of `M` on the lower line, evenly
spaced in order, each at one place, two vertices never at the same place, writes `L_i` and `M_j` at these places and
nothing else, colours the latents differently from the measurements, and draws an arrow from latent `i` to measurement
`j` exactly for the nonzero entries, so that every arrow points from the upper line to the lower line. -/
theorem C94_drawing [DecidableEq K] (B : Fin L → Fin M → K) :
    (∀ k p, (k, p) ∈ (showDag B).pos ↔
      (k < L ∧ p = (evenly L k, 1)) ∨ (∃ j < M, k = L + j ∧ p = (evenly M j, 0))) ∧
    (∀ k p k' p', (k, p) ∈ (showDag B).pos → (k', p') ∈ (showDag B).pos → (k = k' ↔ p = p')) ∧
    (∀ k p t, (k, p, t) ∈ (showDag B).texts ↔ (k, p) ∈ (showDag B).pos ∧
      ((k < L ∧ t = "$L_{" ++ toString k ++ "}$") ∨ (∃ j < M, k = L + j ∧ t = "$M_{" ++ toString j ++ "}$"))) ∧
    (showDag B).colour.length = L + M ∧
    (∀ k c, (showDag B).colour[k]? = some c ↔ k < L + M ∧ c = if k < L then 0 else 1) ∧
    (∀ a b, (a, b) ∈ (showDag B).arrows ↔ ∃ (i : Fin L) (j : Fin M), a = i.1 ∧ b = L + j.1 ∧ B i j ≠ 0) ∧
    (showDag B).arrows.Nodup := by
  have hpos : ∀ k p, (k, p) ∈ (showDag B).pos ↔
      (k < L ∧ p = (evenly L k, 1)) ∨ (∃ j < M, k = L + j ∧ p = (evenly M j, 0)) := by
    intro k p
    unfold showDag
    simp only [List.mem_append, List.mem_map, Prod.exists, mem_zipIdx_linspace, Prod.mk.injEq]
    constructor
    · rintro (⟨x, i, ⟨h1, rfl⟩, rfl, rfl⟩ | ⟨x, i, ⟨h1, rfl⟩, rfl, rfl⟩)
      · exact .inl ⟨h1, rfl⟩
      · exact .inr ⟨i, h1, by omega, rfl⟩
    · rintro (⟨h1, rfl⟩ | ⟨j, h1, rfl, rfl⟩)
      · exact .inl ⟨_, k, ⟨h1, rfl⟩, rfl, rfl⟩
      · exact .inr ⟨_, j, ⟨h1, rfl⟩, by omega, rfl⟩
  have harr : ∀ a b, (a, b) ∈ (showDag B).arrows ↔ ∃ (i : Fin L) (j : Fin M), a = i.1 ∧ b = L + j.1 ∧ B i j ≠ 0 := by
    intro a b
    unfold showDag
    simp only [List.mem_flatMap, List.mem_filterMap, List.mem_finRange, true_and]
    constructor
    · rintro ⟨x, y, h⟩
      split at h
      · cases h
      · rename_i h0
        obtain ⟨i, j, rfl, rfl, hB⟩ := (dirEdge_iff B x y).1 h0
        simp only [Option.some.injEq, Prod.mk.injEq] at h
        exact ⟨i, j, by rw [← h.1]; simp, by rw [← h.2]; simp, hB⟩
    · rintro ⟨i, j, rfl, rfl, hB⟩
      refine ⟨Fin.castAdd M i, Fin.natAdd L j, ?_⟩
      rw [if_neg ((dirEdge_iff B _ _).2 ⟨i, j, rfl, rfl, hB⟩)]
      simp
  refine ⟨hpos, ?_, ?_, ?_, ?_, harr, ?_⟩
  · intro k p k' p' h h'
    rw [hpos] at h h'
    constructor
    · rintro rfl
      rcases h with ⟨h1, rfl⟩ | ⟨j, h1, h2, rfl⟩ <;> rcases h' with ⟨h1', rfl⟩ | ⟨j', h1', h2', rfl⟩
      · rfl
      · omega
      · omega
      · have : j = j' := by omega
        rw [this]
    · rintro rfl
      rcases h with ⟨h1, rfl⟩ | ⟨j, h1, h2, rfl⟩ <;> rcases h' with ⟨h1', h3⟩ | ⟨j', h1', h2', h3⟩
      · exact evenly_inj L k k' h1 h1' (congrArg Prod.fst h3)
      · simp at h3
      · simp at h3
      · have := evenly_inj M j j' h1 h1' (congrArg Prod.fst h3)
        omega
  · intro k p t
    rw [hpos]
    unfold showDag
    simp only [List.mem_append, List.mem_map, Prod.exists, mem_zipIdx_linspace, Prod.mk.injEq]
    constructor
    · rintro (⟨k', a, b, ⟨x, i, ⟨h1, rfl⟩, rfl, rfl, rfl⟩, rfl, ⟨rfl⟩, rfl⟩ |
        ⟨k', a, b, ⟨x, i, ⟨h1, rfl⟩, rfl, rfl, rfl⟩, rfl, ⟨rfl⟩, rfl⟩)
      · exact ⟨.inl ⟨h1, rfl⟩, .inl ⟨h1, rfl⟩⟩
      · refine ⟨.inr ⟨i, h1, by omega, rfl⟩, .inr ⟨i, h1, by omega, ?_⟩⟩
        rw [Nat.add_sub_cancel]
    · rintro ⟨⟨h1, rfl⟩ | ⟨j, h1, rfl, rfl⟩, ⟨h2, rfl⟩ | ⟨j', h2, h3, rfl⟩⟩
      · exact .inl ⟨k, _, _, ⟨_, k, ⟨h1, rfl⟩, rfl, rfl, rfl⟩, rfl, rfl, rfl⟩
      · omega
      · omega
      · have : j = j' := by omega
        subst this
        refine .inr ⟨L + j, _, _, ⟨_, j, ⟨h1, rfl⟩, by omega, rfl, rfl⟩, rfl, rfl, ?_⟩
        rw [Nat.add_sub_cancel_left]
  · simp [showDag]
  · intro k c
    unfold showDag
    dsimp only
    rw [List.getElem?_append]
    simp only [List.length_replicate, List.getElem?_replicate]
    by_cases h : k < L
    · have : k < L + M := by omega
      simp [h, this, eq_comm]
    · by_cases h2 : k - L < M
      · have : k < L + M := by omega
        simp [h, h2, this, eq_comm]
      · have : ¬ k < L + M := by omega
        simp [h, h2, this]
  · unfold showDag
    dsimp only
    rw [List.nodup_flatMap]
    constructor
    · intro a _
      apply (List.nodup_finRange _).filterMap
      intro b b' c h h'
      simp only [Option.mem_def] at h h'
      split at h
      · cases h
      · split at h'
        · cases h'
        · rw [← h'] at h
          simp only [Option.some.injEq, Prod.mk.injEq, true_and] at h
          exact Fin.ext h
    · apply (List.nodup_finRange _).imp
      intro a a' haa x hx hx'
      simp only [List.mem_filterMap, List.mem_finRange, true_and] at hx hx'
      obtain ⟨b, hb⟩ := hx
      obtain ⟨b', hb'⟩ := hx'
      split at hb
      · cases hb
      · split at hb'
        · cases hb'
        · rw [← hb'] at hb
          simp only [Option.some.injEq, Prod.mk.injEq] at hb
          exact haa (Fin.ext hb.1)

/-- two latents and three measurements -/
example : (showDag (L := 2) (M := 3) fun i j => if i.1 ≤ j.1 then (1 : ℚ) else 0).pos =
      [(0, 0, 1), (1, 1, 1), (2, 0, 0), (3, 1 / 2, 0), (4, 1, 0)] ∧
    (showDag (L := 2) (M := 3) fun i j => if i.1 ≤ j.1 then (1 : ℚ) else 0).arrows =
      [(0, 2), (0, 3), (0, 4), (1, 3), (1, 4)] := by decide +kernel

/-! ### C95: the other plotting functions -/

/-- **C95** (as stated; false): `show_obs_adj_mat` and `show_pairwise_plot` return without exception -/
def C95_statement : Prop :=
  ∀ (a b : Nat) (m : Fin a → Fin b → ℚ), showObsAdjMat m = .ok () ∧ showPairwisePlot m = .ok ()

/-- what happens instead: both end with a NameError for every argument, because the module defines neither
`get_adj_from_incidence` nor `pd` -/
theorem C95_partial (m : Fin L → Fin M → ℚ) :
    showObsAdjMat m = .error .nameError ∧ showPairwisePlot m = .error .nameError := by
  constructor
  · rfl
  · rfl

theorem C95_false : ¬ C95_statement := by
  intro h
  have := (h 0 0 (fun i => i.elim0)).1
  rw [(C95_partial _).1] at this
  cases this

end Medil

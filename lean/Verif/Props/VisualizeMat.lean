import Verif.Model.VisualizeMat
import Mathlib.Data.Real.Basic
import Mathlib.Tactic.Linarith
import Mathlib.Data.Fin.VecNotation
/-
  C238: what `show_obs_dcor_mat` shows.
-/
namespace Medil
variable {L M : Nat} {K : Type} [Field K] [LinearOrder K] [IsStrictOrderedRing K]

theorem mem_placed {α : Type} (D : Fin L → Fin M → α) (c : Nat × Nat × α) : c ∈ placed D ↔ ∃ i j, c = (j.val, i.val, D i j) := by
  simp [placed, eq_comm]

/-- the matrix that is shown: `D` itself, or 1 where `D` exceeds the threshold and 0 elsewhere -/
def IsShown (thresh : Option K) (D E : Fin L → Fin M → K) : Prop :=
  (thresh = none → E = D) ∧ ∀ t, thresh = some t → ∀ i j, (t < D i j → E i j = 1) ∧ (¬ t < D i j → E i j = 0)

omit [IsStrictOrderedRing K] in
theorem shownMat_eq {thresh : Option K} {D E : Fin L → Fin M → K} (hE : IsShown thresh D E) : shownMat thresh D = E := by
  unfold shownMat
  cases thresh with
  | none => exact (hE.1 rfl).symm
  | some t =>
    funext i j
    simp only [thresholded]
    split_ifs with h
    · exact ((hE.2 t rfl i j).1 h).symm
    · exact ((hE.2 t rfl i j).2 h).symm

/-- **C238** The picture of the matrix `D`: one cell for each entry of the matrix shown, the entry in row `i` and column `j` at the place `j` on the
horizontal and `i` on the vertical axis, with its colour from the scale from 0 to 1. -/
theorem C238_cells (round2 : K → K) (D E : Fin L → Fin M → K) (thresh : Option K) (hE : IsShown thresh D E) (pv : Bool) :
    (∀ x y c, (x, y, c) ∈ (showObsDcorMat round2 D thresh pv).cells ↔ ∃ i j, x = j.val ∧ y = i.val ∧
      ((E i j ≤ 0 ∧ c = 0) ∨ (1 ≤ E i j ∧ c = 1) ∨ (0 ≤ E i j ∧ E i j ≤ 1 ∧ c = E i j))) ∧
    ((showObsDcorMat round2 D thresh pv).cells.map fun c => (c.1, c.2.1)).Nodup ∧
    (showObsDcorMat round2 D thresh pv).cells.length = L * M := by
  have hs : (showObsDcorMat round2 D thresh pv).cells = (placed E).map fun c => (c.1, c.2.1, colourOf c.2.2) := by
    unfold showObsDcorMat
    dsimp only
    rw [shownMat_eq hE]
  rw [hs]
  have hcol : ∀ v c : K, c = colourOf v ↔ ((v ≤ 0 ∧ c = 0) ∨ (1 ≤ v ∧ c = 1) ∨ (0 ≤ v ∧ v ≤ 1 ∧ c = v)) := by
    intro v c
    unfold colourOf
    rcases le_total v 0 with h0 | h0
    · rw [max_eq_right h0, min_eq_left zero_le_one]
      constructor
      · exact fun h => Or.inl ⟨h0, h⟩
      · rintro (h | h | h)
        · exact h.2
        · linarith [h.1, (zero_lt_one : (0 : K) < 1)]
        · rw [h.2.2]; exact le_antisymm h0 h.1
    · rw [max_eq_left h0]
      rcases le_total v 1 with h1 | h1
      · rw [min_eq_left h1]
        constructor
        · exact fun h => Or.inr (Or.inr ⟨h0, h1, h⟩)
        · rintro (h | h | h)
          · rw [h.2]; exact le_antisymm h0 h.1
          · rw [h.2]; exact le_antisymm h.1 h1
          · exact h.2.2
      · rw [min_eq_right h1]
        constructor
        · exact fun h => Or.inr (Or.inl ⟨h1, h⟩)
        · rintro (h | h | h)
          · linarith [h.1, (zero_lt_one : (0 : K) < 1)]
          · exact h.2
          · rw [h.2.2]; exact le_antisymm h.2.1 h1
  refine ⟨fun x y c => ?_, ?_, ?_⟩
  · constructor
    · intro h
      obtain ⟨p, hp, he⟩ := List.mem_map.mp h
      obtain ⟨i, j, rfl⟩ := (mem_placed E p).mp hp
      simp only [Prod.mk.injEq] at he
      exact ⟨i, j, he.1.symm, he.2.1.symm, (hcol _ _).mp he.2.2.symm⟩
    · rintro ⟨i, j, rfl, rfl, h⟩
      refine List.mem_map.mpr ⟨_, (mem_placed E _).mpr ⟨i, j, rfl⟩, ?_⟩
      simp only [Prod.mk.injEq, true_and]
      exact ((hcol _ _).mpr h).symm
  · rw [List.map_map]
    have : (List.map ((fun c : Nat × Nat × K => (c.1, c.2.1)) ∘ fun c : Nat × Nat × K => (c.1, c.2.1, colourOf c.2.2)) (placed E)) =
        (List.finRange L).flatMap fun i => (List.finRange M).map fun j => (j.val, i.val) := by
      simp [placed, List.map_flatMap, Function.comp_def]
    rw [this, List.nodup_flatMap]
    constructor
    · intro i _
      exact (List.nodup_finRange M).map fun a b h => Fin.ext (Prod.ext_iff.mp h).1
    · refine (List.nodup_finRange L).imp fun {a b} hab => ?_
      rw [Function.onFun, List.disjoint_left]
      intro p h1 h2
      obtain ⟨_, -, rfl⟩ := List.mem_map.mp h1
      obtain ⟨_, -, h⟩ := List.mem_map.mp h2
      exact hab (Fin.ext (Prod.ext_iff.mp h).2.symm)
  · simp [placed, List.length_flatMap]

omit [IsStrictOrderedRing K] in
/-- **C238** The texts: none unless they are asked for; then one for each entry of the matrix shown, in its cell, the value rounded. -/
theorem C238_texts (round2 : K → K) (D E : Fin L → Fin M → K) (thresh : Option K) (hE : IsShown thresh D E) :
    (showObsDcorMat round2 D thresh false).texts = [] ∧
    (∀ x y v, (x, y, v) ∈ (showObsDcorMat round2 D thresh true).texts ↔ ∃ i j, x = j.val ∧ y = i.val ∧ v = round2 (E i j)) ∧
    (showObsDcorMat round2 D thresh true).texts.length = L * M := by
  refine ⟨rfl, ?_⟩
  have hs : (showObsDcorMat round2 D thresh true).texts = (placed E).map fun c => (c.1, c.2.1, round2 c.2.2) := by
    unfold showObsDcorMat
    dsimp only
    rw [shownMat_eq hE, if_pos rfl]
  rw [hs]
  refine ⟨fun x y c => ?_, by simp [placed, List.length_flatMap]⟩
  constructor
  · intro h
    obtain ⟨p, hp, he⟩ := List.mem_map.mp h
    obtain ⟨i, j, rfl⟩ := (mem_placed E p).mp hp
    simp only [Prod.mk.injEq] at he
    exact ⟨i, j, he.1.symm, he.2.1.symm, he.2.2.symm⟩
  · rintro ⟨i, j, rfl, rfl, h⟩
    refine List.mem_map.mpr ⟨_, (mem_placed E _).mpr ⟨i, j, rfl⟩, ?_⟩
    simp [h]

/-- **C238** Two matrices with entries between 0 and 1 have the same picture only if they are equal. -/
theorem C238_faithful (round2 : K → K) (D D' : Fin L → Fin M → K) (hD : ∀ i j, 0 ≤ D i j ∧ D i j ≤ 1) (hD' : ∀ i j, 0 ≤ D' i j ∧ D' i j ≤ 1)
    (h : showObsDcorMat round2 D = showObsDcorMat round2 D') : D = D' := by
  funext i j
  have h1 := (C238_cells round2 D D none ⟨fun _ => rfl, fun _ h => by simp at h⟩ false).1 j.val i.val (D i j)
  have h2 := h1.mpr ⟨i, j, rfl, rfl, Or.inr (Or.inr ⟨(hD i j).1, (hD i j).2, rfl⟩)⟩
  rw [h, (C238_cells round2 D' D' none ⟨fun _ => rfl, fun _ h => by simp at h⟩ false).1] at h2
  obtain ⟨a, b, hb, ha, h3⟩ := h2
  obtain rfl := Fin.ext ha
  obtain rfl := Fin.ext hb
  have := hD' i j
  rcases h3 with h3 | h3 | h3
  · rw [h3.2]; exact le_antisymm this.1 h3.1
  · rw [h3.2]; exact le_antisymm h3.1 this.2
  · exact h3.2.2

omit [IsStrictOrderedRing K] in
/-- **C238** The labels: for a square matrix both axes have the label `X{k+1}` at every `k`, and no others. -/
theorem C238_ticks (round2 : K → K) (D : Fin M → Fin M → K) (thresh : Option K) (pv : Bool) (k : Nat) (l : String) :
    ((k, l) ∈ (showObsDcorMat round2 D thresh pv).xticks ↔ k < M ∧ l = "X" ++ toString (k + 1)) ∧
    ((k, l) ∈ (showObsDcorMat round2 D thresh pv).yticks ↔ k < M ∧ l = "X" ++ toString (k + 1)) := by
  have : (k, l) ∈ xTicks M ↔ k < M ∧ l = "X" ++ toString (k + 1) := by
    unfold xTicks
    rw [List.mem_map]
    constructor
    · rintro ⟨a, ha, he⟩
      simp only [Prod.mk.injEq] at he
      obtain ⟨rfl, rfl⟩ := he
      exact ⟨List.mem_range.mp ha, rfl⟩
    · rintro ⟨h, rfl⟩
      exact ⟨k, List.mem_range.mpr h, rfl⟩
  exact ⟨this, this⟩

/-- a case: a threshold of 1/2; and entries above 1 cannot be told from 1 -/
theorem C238_example : (showObsDcorMat id (![![1, 1 / 5], ![3 / 5, 1]] : Fin 2 → Fin 2 → ℚ) (some (1 / 2)) true).texts = [(0, 0, 1), (1, 0, 0), (0, 1, 1), (1, 1, 1)] ∧
    showObsDcorMat id (fun _ _ => 2 : Fin 2 → Fin 2 → ℚ) = showObsDcorMat id (fun _ _ => 1 : Fin 2 → Fin 2 → ℚ) := by
  constructor
  · decide +kernel
  · have : colourOf (2 : ℚ) = colourOf 1 := by decide +kernel
    unfold showObsDcorMat placed
    simp [List.map_flatMap, Function.comp_def, shownMat, this]

end Medil

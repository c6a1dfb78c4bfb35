import Verif.Model.Nde
import Verif.Proofs.Graph
namespace Medil
variable {n : Nat}

/-- decimal value of a word of digits -/
def readNat (w : List Char) : Nat := Nat.ofDigitChars 10 w 0

/-- the two numbers of a line -/
def readPair (l : List Char) : Nat × Nat :=
  match l.splitOn ' ' with
  | [a, b] => (readNat a, readNat b)
  | _ => (0, 0)

theorem readNat_pyStr (k : Nat) : readNat (pyStr k) = k :=
  Nat.ofDigitChars_toDigits (by decide) (by decide)

theorem pyStr_no (k : Nat) {c : Char} (hc : c.isDigit = false) : c ∉ pyStr k := by
  intro h
  have := Nat.isDigit_of_mem_toDigits (by decide) (by decide) h
  rw [hc] at this; cases this

theorem readPair_pyLine (a b : Nat) : readPair (pyLine a b) = (a, b) := by
  have h : (pyLine a b).splitOn ' ' = [pyStr a, pyStr b] := by
    have := List.splitOn_intercalate (ls := [pyStr a, pyStr b]) ' ' (by
      intro l hl
      simp only [List.mem_cons, List.not_mem_nil, or_false] at hl
      rcases hl with rfl | rfl <;> exact pyStr_no _ (by decide)) (by simp)
    rw [← this]
    congr 1
    simp [pyLine, List.intercalate]
  unfold readPair
  rw [h]
  simp [readNat_pyStr]

theorem flatMap_newline (ls : List (List Char)) :
    (ls.flatMap fun l => l ++ ['\n']) = ['\n'].intercalate (ls ++ [[]]) := by
  induction ls with
  | nil => simp [List.intercalate]
  | cons l ls ih =>
    rw [List.flatMap_cons, ih]
    cases ls with
    | nil => simp [List.intercalate]
    | cons l' ls => simp [List.intercalate]

theorem ndeLines_no_newline (A : BMat n) : ∀ l ∈ ndeLines A ++ [[]], '\n' ∉ l := by
  have hp : ∀ a b, '\n' ∉ pyLine a b := by
    intro a b h
    simp only [pyLine, List.mem_append, List.mem_cons] at h
    rcases h with h | h | h
    · exact pyStr_no a (by decide) h
    · revert h; decide
    · exact pyStr_no b (by decide) h
  intro l hl
  simp only [ndeLines, List.mem_append, List.mem_cons, List.mem_map, List.not_mem_nil, or_false] at hl
  rcases hl with ((rfl | ⟨i, -, rfl⟩) | ⟨e, -, rfl⟩) | rfl
  · exact pyStr_no n (by decide)
  · exact hp _ _
  · exact hp _ _
  · simp

theorem splitOn_ndeText (A : BMat n) : (ndeText A).splitOn '\n' = ndeLines A ++ [[]] := by
  unfold ndeText
  rw [flatMap_newline]
  exact List.splitOn_intercalate '\n' (ndeLines_no_newline A) (by simp)

theorem mem_triuNonzero {A : BMat n} {u v : Fin n} :
    (u, v) ∈ triuNonzero A ↔ u ≤ v ∧ A u v = true := by
  simp only [triuNonzero, List.mem_flatMap, List.mem_finRange, true_and, List.mem_map, List.mem_filter,
    Bool.and_eq_true, decide_eq_true_eq, Prod.mk.injEq]
  constructor
  · rintro ⟨a, b, h, rfl, rfl⟩; exact h
  · intro h; exact ⟨u, v, h, rfl, rfl⟩

end Medil

import Verif.Model.Graph
/-
  Model of `convert_to_nde` (medil/graph.py:131-137): the text written to the file.
-/
namespace Medil
variable {n : Nat}

/-- `str` of a non-negative integer -/
def pyStr (k : Nat) : List Char := Nat.toDigits 10 k

/-- `str(a) + " " + str(b)` -/
def pyLine (a b : Nat) : List Char := pyStr a ++ ' ' :: pyStr b

/-- `np.argwhere(np.triu(A))` (graph.py:136): the pairs `u ≤ v` with `A u v`, in row-major order (the
diagonal is included). -/
def triuNonzero (A : BMat n) : List (Fin n × Fin n) :=
  (List.finRange n).flatMap fun u =>
    ((List.finRange n).filter fun v => decide (u ≤ v) && A u v).map fun v => (u, v)

/-- the lines of the file, without the newlines (graph.py:133-137) -/
def ndeLines (A : BMat n) : List (List Char) :=
  pyStr n ::
    ((List.finRange n).map fun (i : Fin n) => pyLine i (countFin fun j => A i j)) ++
    (triuNonzero A).map fun e => pyLine e.1 e.2

/-- the text of the file: every line is followed by a newline (graph.py:133-137) -/
def ndeText (A : BMat n) : List Char := (ndeLines A).flatMap fun l => l ++ ['\n']

end Medil

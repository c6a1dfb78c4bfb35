import Verif.Model.Visualize
import Mathlib.Data.Fintype.Prod
import Mathlib.Algebra.Order.Field.Basic
/-
  Model of `show_obs_dcor_mat` (medil/visualize.py:27-48): a picture is the data handed to matplotlib.
-/
namespace Medil

/-- what matplotlib is given: the cells of the image (column, row, value between 0 and 1 that decides the colour), the texts in the cells
(column, row, value) and the labelled ticks of the two axes (position, label) -/
structure MatPicture (K : Type) where
  cells : List (Nat × Nat × K)
  texts : List (Nat × Nat × K)
  xticks : List (Nat × String)
  yticks : List (Nat × String)

/-- `plt.imshow(_, vmin=0, vmax=1)` (visualize.py:34): the place of a value on the colour scale from 0 to 1; values outside get the colour of
the nearer end -/
def colourOf {K : Type} [Zero K] [One K] [LinearOrder K] (v : K) : K := min (max v 0) 1

/-- `(dcor_mat > thresh).astype(int)` (visualize.py:31-32) -/
def thresholded {L M : Nat} {K : Type} [Zero K] [One K] [LinearOrder K] (t : K) (D : Fin L → Fin M → K) : Fin L → Fin M → K :=
  fun i j => if t < D i j then 1 else 0

/-- the matrix after visualize.py:31-32 -/
def shownMat {L M : Nat} {K : Type} [Zero K] [One K] [LinearOrder K] (thresh : Option K) (D : Fin L → Fin M → K) : Fin L → Fin M → K :=
  match thresh with
  | none => D
  | some t => thresholded t D

/-- the entries in the order of `np.ndenumerate` (visualize.py:36), rows outside; the column is the first coordinate of the place -/
def placed {L M : Nat} {K : Type} (D : Fin L → Fin M → K) : List (Nat × Nat × K) :=
  (List.finRange L).flatMap fun i => (List.finRange M).map fun j => (j.val, i.val, D i j)

/-- the labels `X1`, …, `X{dim}` at the positions `0`, …, `dim-1` (visualize.py:41-46) -/
def xTicks (dim : Nat) : List (Nat × String) := (List.range dim).map fun k => (k, "X" ++ toString (k + 1))

/-- `show_obs_dcor_mat(dcor_mat, thresh, print_val)` (visualize.py:27-48) for a matrix without NaN; `round2` is Python's `round(_, 2)`.  Both axes are labelled
by the number of rows, `dcor_mat.shape[0]`.  Not modelled: the colour map and bar, fonts, `plt.show`. -/
def showObsDcorMat {L M : Nat} {K : Type} [Zero K] [One K] [LinearOrder K] (round2 : K → K) (D : Fin L → Fin M → K) (thresh : Option K := none)
    (printVal : Bool := false) : MatPicture K :=
  let D' := shownMat thresh D
  { cells := (placed D').map fun c => (c.1, c.2.1, colourOf c.2.2)
    texts := if printVal then (placed D').map fun c => (c.1, c.2.1, round2 c.2.2) else []
    xticks := xTicks L
    yticks := xTicks L }

end Medil

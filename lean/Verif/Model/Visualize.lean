import Verif.Model.Evaluate
import Mathlib.Data.Rat.Defs
import Mathlib.Data.Fin.Basic
/-
  Model of medil/visualize.py: `get_dag_from_biadj` and what `show_dag` draws, and the two plotting functions that
  refer to names the module does not define.

  The biadjacency matrix is a list of rows (its number of latents is the length); a matrix with entries in `K` is a
  function.  The rendering itself (matplotlib) is not modelled: a drawing is the data handed to it.
-/
namespace Medil

/-- `get_dag_from_biadj(biadj_mat)` (visualize.py:90-98): a zero matrix of size `num_latent + num_obs` whose upper right
block is overwritten by the biadjacency matrix.  `dag[:num_latent, num_latent:] = biadj`. -/
def getDagFromBiadj {L M : Nat} {K : Type} [Zero K] (B : Fin L → Fin M → K) (a b : Fin (L + M)) : K :=
  if h : a.1 < L ∧ L ≤ b.1 then B ⟨a.1, h.1⟩ ⟨b.1 - L, by have := b.2; omega⟩ else 0

/-- `np.linspace(0, 1, num)` (visualize.py:63-64), exact: `num` values from 0 to 1; only 0 for `num = 1` -/
def linspace01 (num : Nat) : List ℚ :=
  if num = 1 then [0] else (List.range num).map fun i : Nat => (i : ℚ) / ((num : ℚ) - 1)

/-- the data `show_dag` gives to networkx: node positions (a dict, in insertion order), colours of the nodes, arrows,
texts of the two label calls -/
structure Drawing where
  pos : List (Nat × (ℚ × ℚ))
  colour : List Nat
  arrows : List (Nat × Nat)
  texts : List (Nat × (ℚ × ℚ) × String)

/-- `show_dag(biadj_mat)` (visualize.py:52-87).  `pos_dict.update` of two dicts with disjoint keys is concatenation;
`nx.DiGraph(matrix)` has an edge for every nonzero entry; `draw_networkx_labels` writes the text of node `k` at the
position of `k` in the dict it is given.  Not modelled: sizes, colours of the texts, axis limits, `plt.show`. -/
def showDag {L M : Nat} {K : Type} [Zero K] [DecidableEq K] (B : Fin L → Fin M → K) : Drawing :=
  let latentPos := (linspace01 L).zipIdx.map fun e => (e.2, (e.1, (1 : ℚ)))
  let obsPos := (linspace01 M).zipIdx.map fun e => (e.2 + L, (e.1, (0 : ℚ)))
  { pos := latentPos ++ obsPos
    colour := List.replicate L 0 ++ List.replicate M 1
    arrows := (List.finRange (L + M)).flatMap fun a => (List.finRange (L + M)).filterMap fun b =>
      if getDagFromBiadj B a b = 0 then none else some (a.1, b.1)
    texts := latentPos.map (fun e => (e.1, e.2, "$L_{" ++ toString e.1 ++ "}$")) ++
      obsPos.map (fun e => (e.1, e.2, "$M_{" ++ toString (e.1 - L) ++ "}$")) }

/-- the names bound in the module when one of its functions is called: its imports (visualize.py:2-5) and its functions
(8, 27, 52, 90, 102) -/
def visualizeGlobals : List String :=
  ["np", "plt", "sns", "nx", "show_obs_adj_mat", "show_obs_dcor_mat", "show_dag", "get_dag_from_biadj",
   "show_pairwise_plot"]

/-- looking up a name that is neither local nor a builtin -/
def lookup (name : String) : Except PyErr Unit :=
  if name ∈ visualizeGlobals then .ok () else .error .nameError

/-- `show_obs_adj_mat(incidence_mat)` (visualize.py:8-24): the names in the order in which they are looked up -/
def showObsAdjMat {L M : Nat} (_incidence : Fin L → Fin M → ℚ) : Except PyErr Unit := do
  lookup "plt"
  lookup "get_adj_from_incidence"
  lookup "plt"
  lookup "np"

/-- `show_pairwise_plot(sample)` (visualize.py:102-116) -/
def showPairwisePlot {N M : Nat} (_sample : Fin N → Fin M → ℚ) : Except PyErr Unit := do
  lookup "pd"
  lookup "np"
  lookup "sns"
  lookup "plt"

end Medil

import Verif.Model.Np
import Mathlib.Data.Finset.Card
import Mathlib.Data.Fintype.Basic
/-
  Vocabulary for the property statements: graphs, cliques, covers, pure children.
  Nothing here mentions the model's functions; only the array type `BMat` / `BVec` (read as
  `A i j`, `r j`) is shared.
-/
namespace Medil
variable {n : Nat}

/-- symmetric 0/1 matrix -/
def Symm (A : BMat n) : Prop := ∀ i j, A i j = A j i

/-- ones on the diagonal -/
def UnitDiag (A : BMat n) : Prop := ∀ i, A i i = true

/-- `i` and `j` are different adjacent vertices (the diagonal plays no role) -/
def Adj (A : BMat n) (i j : Fin n) : Prop := A i j = true ∧ i ≠ j

instance (A : BMat n) (i j : Fin n) : Decidable (Adj A i j) := inferInstanceAs (Decidable (_ ∧ _))

/-- a set of pairwise adjacent vertices -/
def IsClique (A : BMat n) (S : Finset (Fin n)) : Prop := ∀ i ∈ S, ∀ j ∈ S, i ≠ j → Adj A i j

instance (A : BMat n) (S : Finset (Fin n)) : Decidable (IsClique A S) :=
  inferInstanceAs (Decidable (∀ i ∈ S, ∀ j ∈ S, i ≠ j → Adj A i j))

/-- a clique to which no vertex can be added -/
def IsMaximalClique (A : BMat n) (S : Finset (Fin n)) : Prop :=
  IsClique A S ∧ ∀ v, v ∉ S → ¬ IsClique A (insert v S)

/-- a set of pairwise non-adjacent vertices -/
def IsIndep (A : BMat n) (S : Finset (Fin n)) : Prop := ∀ i ∈ S, ∀ j ∈ S, ¬ Adj A i j

instance (A : BMat n) (S : Finset (Fin n)) : Decidable (IsIndep A S) :=
  inferInstanceAs (Decidable (∀ i ∈ S, ∀ j ∈ S, ¬ Adj A i j))

/-- the children of a latent: the set of ones of a row -/
def children (r : BVec n) : Finset (Fin n) := Finset.univ.filter fun j => r j = true

@[simp] theorem mem_children (r : BVec n) (j : Fin n) : j ∈ children r ↔ r j = true := by
  simp [children]

/-- every edge lies inside some row of `cover` -/
def CoversEdges (A : BMat n) (cover : List (BVec n)) : Prop :=
  ∀ i j, Adj A i j → ∃ r ∈ cover, r i = true ∧ r j = true

/-- every row is a clique -/
def RowsCliques (A : BMat n) (cover : List (BVec n)) : Prop :=
  ∀ r ∈ cover, IsClique A (children r)

/-- every vertex is in some row -/
def CoversVertices (cover : List (BVec n)) : Prop := ∀ j : Fin n, ∃ r ∈ cover, r j = true

/-- an edge clique cover that also covers isolated vertices: what a MeDIL structure is -/
def IsCover (A : BMat n) (cover : List (BVec n)) : Prop :=
  RowsCliques A cover ∧ CoversEdges A cover ∧ CoversVertices cover

/-- `p` is a pure child of row `i` : a child of row `i` and of no other row -/
def PureChild (B : List (BVec n)) (i : Nat) (p : Fin n) : Prop :=
  ∀ j (h : j < B.length), B[j] p = true ↔ j = i

/-- the one-pure-child property: every latent has a pure child, every measurement a parent -/
def OnePureChild (B : List (BVec n)) : Prop :=
  (∀ i, i < B.length → ∃ p, PureChild B i p) ∧ CoversVertices B

/-- `A` is the dependence graph of the structure `B` (off the diagonal): two measurements are
adjacent iff they have a common parent -/
def IsUDGOf (A : BMat n) (B : List (BVec n)) : Prop :=
  ∀ i j, i ≠ j → (A i j = true ↔ ∃ r ∈ B, r i = true ∧ r j = true)

/-- two structures have the same latents (as child sets) up to order -/
def SameRows (B C : List (BVec n)) : Prop := (B.map children).Perm (C.map children)

end Medil

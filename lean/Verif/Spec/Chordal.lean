import Verif.Spec
/-
  Chordal graphs, graphs without four mutually adjacent vertices, 2-degenerate graphs.
-/
namespace Medil
variable {n : Nat}

/-- positions `i`, `j` follow each other on a cycle of length `k` -/
def Consecutive (k i j : Nat) : Prop := j = i + 1 ∨ (i = 0 ∧ j = k - 1)

/-- every cycle of length at least four has a chord -/
def Chordal (A : BMat n) : Prop :=
  ∀ (k : Nat) (c : Fin k → Fin n), 4 ≤ k → Function.Injective c →
    (∀ i j : Fin k, i < j → Consecutive k i j → Adj A (c i) (c j)) →
    ∃ i j : Fin k, i < j ∧ ¬ Consecutive k i j ∧ Adj A (c i) (c j)

/-- no four vertices are mutually adjacent -/
def NoK4 (A : BMat n) : Prop := ∀ S, IsClique A S → S.card ≤ 3

/-- every set of vertices contains a vertex with at most two neighbours in the set -/
def TwoDegenerate (A : BMat n) : Prop :=
  ∀ S : Finset (Fin n), S.Nonempty → ∃ v ∈ S, (S.filter fun u => Adj A v u).card ≤ 2

/-- every set of vertices contains a vertex `v` whose neighbours in the set fall into groups that are
mutually adjacent inside and not adjacent to each other (adjacency is transitive among them) -/
def ClusterElim (A : BMat n) : Prop :=
  ∀ S : Finset (Fin n), S.Nonempty → ∃ v ∈ S, ∀ a ∈ S, ∀ b ∈ S, ∀ c ∈ S,
    Adj A v a → Adj A v b → Adj A v c → Adj A a b → Adj A b c → a ≠ c → Adj A a c

end Medil

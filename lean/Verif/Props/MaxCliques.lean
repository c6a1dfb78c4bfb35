import Verif.Proofs.MaxCliques
/-
  Properties of `max_cliques` (C01-C03).  `o` is the arbitrary behaviour of Python's set order.
-/
namespace Medil
variable {n : Nat}

/-- example graph for the non-vacuity checks: a triangle 0-1-2, an edge 2-3 and the isolated 4 -/
def exGraph : BMat 5 := BMat.of fun i j =>
  decide (i = j) || ([(0,1),(0,2),(1,2),(2,3)] : List (Nat × Nat)).any fun e =>
    (e.1 == i.val && e.2 == j.val) || (e.1 == j.val && e.2 == i.val)

theorem exGraph_symm : Symm exGraph := by unfold Symm; decide +kernel
theorem exGraph_diag : UnitDiag exGraph := by unfold UnitDiag; decide +kernel

/-- **C01** every yielded list is duplicate free, pairwise adjacent and not extendable -/
theorem C01_max_cliques_sound (A : BMat n) (hA : Symm A) (o : Sched n) (ys : List (List (Fin n)))
    (h : maxCliques o A = .ok ys) :
    ∀ y ∈ ys, y.Nodup ∧ (∀ i ∈ y, ∀ j ∈ y, i ≠ j → A i j = true) ∧
      ∀ v, v ∉ y → ∃ i ∈ y, A i v = false := by
  intro y hy
  rcases Nat.eq_zero_or_pos n with hn | hn
  · subst hn; simp [maxCliques] at h; subst h; simp at hy
  · obtain ⟨ys', h1, h2, -, h4⟩ := maxCliques_correct hA hn o
    rw [h1] at h; cases h
    have hm := (h4 y.toFinset).mp (List.mem_map_of_mem hy)
    refine ⟨h2 y hy, fun i hi j hj hij => (hm.1 i (by simpa) j (by simpa) hij).1, fun v hv => ?_⟩
    by_contra hc
    apply hm.2 v (by simpa using hv)
    have hall : ∀ i ∈ y, Adj A i v := fun i hi =>
      ⟨by by_contra hf; exact hc ⟨i, hi, by simpa using hf⟩, fun e => hv (e ▸ hi)⟩
    intro a ha b hb hab
    simp only [Finset.mem_insert, List.mem_toFinset] at ha hb
    rcases ha with rfl | ha <;> rcases hb with rfl | hb
    · exact absurd rfl hab
    · exact (hall b hb).symm hA
    · exact hall a ha
    · exact hm.1 a (by simpa) b (by simpa) hab

/-- **C02** every maximal clique is yielded, and exactly one yielded list has it as vertex set -/
theorem C02_max_cliques_complete (A : BMat n) (hA : Symm A) (hn : 0 < n) (o : Sched n) :
    ∃ ys, maxCliques o A = .ok ys ∧
      ∀ C, IsMaximalClique A C → (ys.map List.toFinset).count C = 1 := by
  obtain ⟨ys, h1, -, h3, h4⟩ := maxCliques_correct hA hn o
  exact ⟨ys, h1, fun C hC => List.count_eq_one_of_mem h3 ((h4 C).mpr hC)⟩

/-- **C03** for every matrix (symmetric or not) the generator stops and no exception escapes -/
theorem C03_max_cliques_terminates (A : BMat n) (o : Sched n) : ∃ ys, maxCliques o A = .ok ys :=
  maxCliques_ok o A

/-- with no vertex nothing is yielded (`if len(nbrhood) == 0: return`) -/
theorem C03_max_cliques_empty (A : BMat 0) (o : Sched 0) : maxCliques o A = .ok [] := by
  simp [maxCliques]

-- the hypotheses are met by `exGraph`, whose maximal cliques are {0,1,2}, {2,3}, {4}
example : Symm exGraph ∧ 0 < 5 := ⟨exGraph_symm, by decide⟩
example : IsMaximalClique exGraph {0, 1, 2} ∧ IsMaximalClique exGraph {2, 3} ∧
    IsMaximalClique exGraph {4} := by
  unfold IsMaximalClique; decide +kernel
example : (maxCliques (fun _ _ => 0) exGraph).toOption.map (·.length) = some 3 := by
  decide +kernel

end Medil

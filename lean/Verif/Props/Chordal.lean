import Verif.Props.Recover
import Verif.Proofs.Dirac
import Verif.Proofs.Elim
/-
  Property theorems C195, C196: `find_clique_min_cover` on chordal and on sparse graphs.
-/
namespace Medil
variable {n : Nat}

/-- on a graph without four mutually adjacent vertices that has a cluster elimination order the search returns a cover with the
smallest possible number of cliques, for every set order -/
theorem elim_exact {A : BMat n} (hn : 0 < n) (hA : Symm A) (hD : UnitDiag A) (hK : NoK4 A) (hE : ClusterElim A) (rt : Runtime n) :
    ∃ C, (∀ fuel, numEdgesOf A ≤ fuel → findCliqueMinCover rt fuel A = .ok C) ∧
      IsCover A C ∧ ∀ C', IsCover A C' → C.length ≤ C'.length := by
  obtain ⟨C, hC⟩ := C10_exact_returns A hn hA hD rt
  refine ⟨C, hC, C14_exact_minimum_partial A hn hA hD rt _ C (hC _ (Nat.le_refl _)) ?_⟩
  intro info hi
  by_cases hEd : ∃ i j, i < j ∧ A i j = true
  · rcases makeAux_cases rt.order hA hn with ⟨hno, -⟩ | ⟨-, g, hg⟩
    · obtain ⟨i, j, hij, hadj⟩ := hEd
      rw [hno i j (ne_of_lt hij)] at hadj; cases hadj
    have hne : g.numEdges ≠ 0 := by rw [makeAux_ok hg]; exact numEdgesOf_ne_zero.mpr hEd
    unfold findCliqueInfo cliqueSearch at hi
    rw [hg] at hi
    obtain ⟨m, hm⟩ := maxIntersect_ok hD (A := A)
    simp only [hm] at hi
    split at hi
    · cases hi
    · rename_i c' info' hl
      have hi' : info' = info := by
        have : (some info' : Option PathInfo) = some info := by injection hi
        injection this
      subst hi'
      obtain ⟨k, out, hb, hres, hinfo⟩ := findLoop_ok hl
      obtain ⟨out', hb', hout⟩ := elim_branch hA hD hK hE rt hg hne RG.reconstructCover 3 k
      rw [hb] at hb'
      cases hb'
      rw [← hout c' hres]
      exact hinfo.symm
  · rw [(findClique_edgeless hn hA hEd rt _).2] at hi
    cases hi

theorem Chordal.clusterElim {A : BMat n} (hA : Symm A) (hc : Chordal A) : ClusterElim A := by
  intro S hS
  obtain ⟨v, hv, h⟩ := hc.simplicial hA S hS
  exact ⟨v, hv, fun a ha b _ c hc' h1 _ h3 _ _ hac => h a ha c hc' h1 h3 hac⟩

theorem TwoDegenerate.clusterElim {A : BMat n} (h : TwoDegenerate A) : ClusterElim A := by
  intro S hS
  obtain ⟨v, hv, hcard⟩ := h S hS
  refine ⟨v, hv, fun a ha b hb c hc h1 h2 h3 hab hbc hac => ?_⟩
  have hsub : ({a, b, c} : Finset (Fin n)) ⊆ S.filter fun u => Adj A v u := by
    intro x hx
    simp only [Finset.mem_insert, Finset.mem_singleton] at hx
    rw [Finset.mem_filter]
    rcases hx with rfl | rfl | rfl
    · exact ⟨ha, h1⟩
    · exact ⟨hb, h2⟩
    · exact ⟨hc, h3⟩
  have h3 : ({a, b, c} : Finset (Fin n)).card = 3 := by
    rw [Finset.card_insert_of_notMem, Finset.card_insert_of_notMem, Finset.card_singleton]
    · simpa using hbc.2
    · simpa using ⟨hab.2, hac⟩
  have := Finset.card_le_card hsub
  omega

theorem TwoDegenerate.noK4 {A : BMat n} (h : TwoDegenerate A) : NoK4 A := by
  classical
  intro S hS
  rcases S.eq_empty_or_nonempty with rfl | hne
  · simp
  obtain ⟨v, hv, hcard⟩ := h S hne
  have : S.erase v ⊆ S.filter fun u => Adj A v u := by
    intro x hx
    rw [Finset.mem_erase] at hx
    rw [Finset.mem_filter]
    exact ⟨hx.2, hS v hv x hx.2 hx.1.symm⟩
  have h1 := Finset.card_le_card this
  rw [Finset.card_erase_of_mem hv] at h1
  omega

/-- a graph with a perfect elimination order is chordal -/
theorem chordal_of_order {A : BMat n} (hA : Symm A) (r : Fin n → Nat) (hr : Function.Injective r)
    (h : ∀ v a b, r v < r a → r v < r b → Adj A v a → Adj A v b → a ≠ b → Adj A a b) : Chordal A := by
  intro k c hk hinj hcyc
  have : NeZero k := ⟨by omega⟩
  obtain ⟨i, -, hi⟩ := Finset.exists_min_image (Finset.univ : Finset (Fin k)) (fun i => r (c i)) ⟨0, Finset.mem_univ _⟩
  have hlt : ∀ j, j ≠ i → r (c i) < r (c j) := fun j hj =>
    lt_of_le_of_ne (hi j (Finset.mem_univ _)) fun e => hj (hinj (hr e)).symm
  have key : ∀ x y : Fin k, x < y → x ≠ i → y ≠ i → Adj A (c i) (c x) → Adj A (c i) (c y) → ¬ Consecutive k x y →
      ∃ i j : Fin k, i < j ∧ ¬ Consecutive k i j ∧ Adj A (c i) (c j) := fun x y hxy hx hy h1 h2 hcon =>
    ⟨x, y, hxy, hcon, h _ _ _ (hlt x hx) (hlt y hy) h1 h2 fun e => absurd (hinj e) (ne_of_lt hxy)⟩
  have hik := i.isLt
  have hadj : ∀ x : Fin k, x.val + 1 = i.val ∨ i.val + 1 = x.val ∨ (i.val = 0 ∧ x.val = k - 1) ∨ (x.val = 0 ∧ i.val = k - 1) →
      Adj A (c i) (c x) := by
    intro x hx
    rcases hx with hx | hx | hx | hx
    · exact (hcyc x i (by rw [Fin.lt_def]; omega) (Or.inl (by omega))).symm' hA
    · exact hcyc i x (by rw [Fin.lt_def]; omega) (Or.inl (by omega))
    · exact hcyc i x (by rw [Fin.lt_def]; omega) (Or.inr hx)
    · exact (hcyc x i (by rw [Fin.lt_def]; omega) (Or.inr hx)).symm' hA
  unfold Consecutive at key ⊢
  by_cases h0 : i.val = 0
  · refine key ⟨1, by omega⟩ ⟨k - 1, by omega⟩ (by rw [Fin.lt_def]; show 1 < k - 1; omega) ?_ ?_ (hadj _ ?_) (hadj _ ?_) ?_
    · intro e; rw [← e] at h0; simp at h0
    · intro e; rw [← e] at h0; simp at h0; omega
    · right; left; show i.val + 1 = 1; omega
    · right; right; left; exact ⟨h0, rfl⟩
    · show ¬ (k - 1 = 1 + 1 ∨ 1 = 0 ∧ k - 1 = k - 1); omega
  · by_cases h1 : i.val = k - 1
    · refine key ⟨0, by omega⟩ ⟨k - 2, by omega⟩ (by rw [Fin.lt_def]; show 0 < k - 2; omega) ?_ ?_ (hadj _ ?_) (hadj _ ?_) ?_
      · intro e; rw [← e] at h0; simp at h0
      · intro e; rw [← e] at h1; simp at h1; omega
      · right; right; right; exact ⟨rfl, h1⟩
      · left; show k - 2 + 1 = i.val; omega
      · show ¬ (k - 2 = 0 + 1 ∨ 0 = 0 ∧ k - 2 = k - 1); omega
    · refine key ⟨i.val - 1, by omega⟩ ⟨i.val + 1, by omega⟩ (by rw [Fin.lt_def]; show i.val - 1 < i.val + 1; omega) ?_ ?_ (hadj _ ?_) (hadj _ ?_) ?_
      · intro e; have := congrArg Fin.val e; simp at this; omega
      · intro e; have := congrArg Fin.val e; simp at this
      · left; show i.val - 1 + 1 = i.val; omega
      · right; left; rfl
      · show ¬ (i.val + 1 = i.val - 1 + 1 ∨ i.val - 1 = 0 ∧ i.val + 1 = k - 1); omega

/-! ### C195: chordal graphs -/

def C195_statement : Prop :=
  ∀ (n : Nat) (A : BMat n) (rt : Runtime n) (fuel : Nat) (B : List (BVec n)), 0 < n → Symm A → UnitDiag A → Chordal A →
    findCliqueMinCover rt fuel A = .ok B → IsCover A B ∧ ∀ C, IsCover A C → B.length ≤ C.length

theorem missGraph_chordal : Chordal missGraph := by
  refine chordal_of_order (graphOf_symm _) (fun i => [2, 0, 3, 1, 4, 5].getD i.val 0) ?_ ?_
  · unfold Function.Injective; decide +kernel
  · unfold Adj; decide +kernel

/-- **C195 is false**: `missGraph` is chordal, and the result leaves its edge 0–2 uncovered. -/
theorem C195_false : ¬ C195_statement := by
  intro h
  have := (h 6 missGraph (rt0 6) 3 _ (by decide) (graphOf_symm _) (graphOf_diag _) missGraph_chordal missGraph_run).1.2.1
  exact absurd (this 0 2 (by decide +kernel)) (by decide +kernel)

/-- **C195, proved part**: on a chordal graph without four mutually adjacent vertices the search returns, for every set order,
an edge clique cover with the smallest possible number of cliques.
Missing for the full claim: chordal graphs with larger cliques, where it is false (`C195_false`). -/
theorem C195_chordal_partial (A : BMat n) (hn : 0 < n) (hA : Symm A) (hD : UnitDiag A) (hc : Chordal A) (hK : NoK4 A)
    (rt : Runtime n) :
    ∃ C, (∀ fuel, numEdgesOf A ≤ fuel → findCliqueMinCover rt fuel A = .ok C) ∧
      IsCover A C ∧ ∀ C', IsCover A C' → C.length ≤ C'.length :=
  elim_exact hn hA hD hK (hc.clusterElim hA) rt

/-- a strip of triangles -/
def stripGraph : BMat 6 := graphOf 6 [(0,1),(0,2),(1,2),(1,3),(2,3),(2,4),(3,4),(3,5),(4,5)]

example : Symm stripGraph ∧ UnitDiag stripGraph ∧ Chordal stripGraph ∧ NoK4 stripGraph := by
  refine ⟨graphOf_symm _, graphOf_diag _, chordal_of_order (graphOf_symm _) Fin.val Fin.val_injective ?_, ?_⟩
  · unfold Adj; decide +kernel
  · unfold NoK4 IsClique Adj; decide +kernel

/-! ### C196: 2-degenerate graphs -/

/-- **C196** on a 2-degenerate graph the search returns, for every set order, an edge clique cover with the smallest possible
number of cliques -/
theorem C196_two_degenerate (A : BMat n) (hn : 0 < n) (hA : Symm A) (hD : UnitDiag A) (h2 : TwoDegenerate A) (rt : Runtime n) :
    ∃ C, (∀ fuel, numEdgesOf A ≤ fuel → findCliqueMinCover rt fuel A = .ok C) ∧
      IsCover A C ∧ ∀ C', IsCover A C' → C.length ≤ C'.length :=
  elim_exact hn hA hD h2.noK4 h2.clusterElim rt

/-- **C196**, the wider class: no four mutually adjacent vertices, and every set of vertices has a vertex whose neighbours in the
set form a disjoint union of cliques -/
theorem C196_cluster_elimination (A : BMat n) (hn : 0 < n) (hA : Symm A) (hD : UnitDiag A) (hK : NoK4 A) (hE : ClusterElim A)
    (rt : Runtime n) :
    ∃ C, (∀ fuel, numEdgesOf A ≤ fuel → findCliqueMinCover rt fuel A = .ok C) ∧
      IsCover A C ∧ ∀ C', IsCover A C' → C.length ≤ C'.length :=
  elim_exact hn hA hD hK hE rt

/-- a cycle of length five with two triangles that share an edge attached -/
def exTwoDeg : BMat 7 := graphOf 7 [(0,1),(1,2),(2,3),(3,4),(0,4),(0,5),(1,5),(1,6),(5,6)]

example : Symm exTwoDeg ∧ UnitDiag exTwoDeg ∧ TwoDegenerate exTwoDeg ∧ ¬ Chordal exTwoDeg := by
  refine ⟨graphOf_symm _, graphOf_diag _, by unfold TwoDegenerate Adj; decide +kernel, fun h => ?_⟩
  obtain ⟨i, j, h1, h2, h3⟩ := h 5 (fun i => ⟨i.val, by omega⟩) (by decide) (fun i j e => Fin.ext (by simpa using e))
    (by unfold Consecutive Adj; decide +kernel)
  revert i j
  unfold Consecutive Adj; decide +kernel

end Medil

import Verif.Props.Recover
import Verif.Proofs.AllOrders
import Verif.Model.Examples
/-
  Property theorem C99: the bundled examples.
-/
namespace Medil
variable {n : Nat}

/-- soundness of the all-orders checker for `find_clique_min_cover`: every run is solved by rule 2 alone,
its rows (before `add_isolated_verts`) pass the test `P`, and it returns a smallest cover -/
theorem allOrders_sound (A : BMat n) (P : List (BVec n) → Bool) (hn : 0 < n) (hA : Symm A) (hD : UnitDiag A)
    (hE : ∃ i j, i < j ∧ A i j = true) {f : Nat} (hchk : chk P f (startOf A) = true) (rt : Runtime n) :
    ∃ c, (∀ fuel, numEdgesOf A ≤ fuel → findCliqueMinCover rt fuel A = .ok (addIsolatedVerts c)) ∧
      P c = true ∧ IsCover A (addIsolatedVerts c) ∧
      ∀ C', IsCover A C' → (addIsolatedVerts c).length ≤ C'.length := by
  rcases makeAux_cases rt.order hA hn with ⟨hno, -⟩ | ⟨-, g, hg⟩
  · obtain ⟨i, j, hij, hadj⟩ := hE
    rw [hno i j (ne_of_lt hij)] at hadj; cases hadj
  obtain ⟨c, info, hgood, hall⟩ := findClique_edges hA hD hE rt
  have h1 := (hall _ (Nat.le_refl _)).1
  have h2 := (hall _ (Nat.le_refl _)).2
  have h3 : ∃ c', addIsolatedVerts c' = addIsolatedVerts c ∧ P c' = true ∧ info = ⟨false, false, false⟩ := by
    unfold findCliqueMinCover cliqueSearch at h1
    unfold findCliqueInfo cliqueSearch at h2
    rw [hg] at h1 h2
    obtain ⟨m, hm⟩ := maxIntersect_ok hD (A := A)
    simp only [hm] at h1 h2
    cases hl : findLoop RG.reconstructCover rt 3 g (numEdgesOf A) 1 with
    | error e => rw [hl] at h1; cases h1
    | ok p =>
      obtain ⟨c', info'⟩ := p
      rw [hl] at h1 h2
      have e1 : addIsolatedVerts c' = addIsolatedVerts c := by injection h1
      have e2 : info' = info := by injection h2 with h2; injection h2
      obtain ⟨k, out, hb, hres, hi⟩ := findLoop_ok hl
      have hne : g.numEdges ≠ 0 := by
        rw [makeAux_ok hg]; exact numEdgesOf_ne_zero.mpr hE
      have hchk' : chk P f g = true := by
        rw [← chk_core, makeAux_core hg]; exact hchk
      obtain ⟨out', hb', hout⟩ := allOrders_branch hA hD rt hg hne hchk' RG.reconstructCover 3 k
      rw [hb] at hb'
      cases hb'
      obtain ⟨h4, h5⟩ := hout c' hres
      exact ⟨c', e1, h4, by rw [← e2, ← hi]; exact h5⟩
  obtain ⟨c', h4, h5, h6⟩ := h3
  obtain ⟨h7, h8⟩ := C14_exact_minimum_partial A hn hA hD rt _ _ h1 (fun info' hi => by
    rw [h2] at hi
    injection hi with hi
    injection hi with hi
    rw [← hi]; exact h6)
  exact ⟨c', fun fuel hf => by rw [h4]; exact (hall fuel hf).1, h5, h4 ▸ h7, fun C' hC' => h4 ▸ h8 C' hC'⟩

/-- the same rows in every order -/
theorem allOrders_recovers (A : BMat n) (B : List (BVec n)) (hn : 0 < n) (hA : Symm A) (hD : UnitDiag A)
    (hE : ∃ i j, i < j ∧ A i j = true) {f : Nat} (hchk : chk (fun c => decide (c.Perm B)) f (startOf A) = true)
    (hV : CoversVertices B) :
    (∀ rt : Runtime n, ∃ C, (∀ fuel, numEdgesOf A ≤ fuel → findCliqueMinCover rt fuel A = .ok C) ∧
      C.Perm B) ∧ IsCover A B ∧ ∀ C, IsCover A C → B.length ≤ C.length := by
  have hiso : ∀ d : List (BVec n), d.Perm B → addIsolatedVerts d = d := by
    intro d hd
    unfold addIsolatedVerts
    rw [List.filter_eq_nil_iff.mpr, List.map_nil, List.append_nil]
    intro j _ hj
    obtain ⟨r, hr, hrj⟩ := hV j
    simp only [Bool.not_eq_true', List.any_eq_false, Bool.not_eq_true] at hj
    rw [hj r (hd.mem_iff.mpr hr)] at hrj
    cases hrj
  have key : ∀ rt : Runtime n, ∃ C, (∀ fuel, numEdgesOf A ≤ fuel → findCliqueMinCover rt fuel A = .ok C) ∧
      C.Perm B ∧ IsCover A C ∧ ∀ C', IsCover A C' → C.length ≤ C'.length := by
    intro rt
    obtain ⟨c, h1, h2, h3, h4⟩ := allOrders_sound A _ hn hA hD hE hchk rt
    have h2 := of_decide_eq_true h2
    rw [hiso c h2] at h1 h3 h4
    exact ⟨c, h1, h2, h3, h4⟩
  refine ⟨fun rt => ?_, ?_⟩
  · obtain ⟨C, h1, h2, -⟩ := key rt
    exact ⟨C, h1, h2⟩
  · obtain ⟨C, -, h2, h3, h4⟩ := key ⟨id, fun _ => List.Perm.refl _, fun _ _ _ => 0⟩
    refine ⟨⟨fun r hr => h3.1 r (h2.mem_iff.mpr hr), fun i j hij => ?_, hV⟩, fun C' hC' => ?_⟩
    · obtain ⟨r, hr, h⟩ := h3.2.1 i j hij
      exact ⟨r, h2.mem_iff.mp hr, h⟩
    · rw [← h2.length_eq]; exact h4 C' hC'

/-- what the tests expect of an example: the matrices are a dependence graph and its structure, the exact
search returns the rows of the structure for every set order, and no structure with this dependence
graph has fewer latents -/
def GoodExample (e : Example) : Prop :=
  Symm e.udg ∧ UnitDiag e.udg ∧ IsUDGOf e.udg e.mcm ∧
  (∀ rt : Runtime e.n, ∃ C, (∀ fuel, numEdgesOf e.udg ≤ fuel → findCliqueMinCover rt fuel e.udg = .ok C) ∧
    SameRows C e.mcm) ∧
  ∀ C, IsCover e.udg C → e.mcm.length ≤ C.length

theorem goodExample_of_chk (e : Example) (hn : 0 < e.n) (hA : Symm e.udg) (hD : UnitDiag e.udg)
    (hU : IsUDGOf e.udg e.mcm) (hV : CoversVertices e.mcm) (hE : ∃ i j, i < j ∧ e.udg i j = true) {f : Nat}
    (hchk : chk (fun c => decide (c.Perm e.mcm)) f (startOf e.udg) = true) : GoodExample e := by
  obtain ⟨h1, -, h3⟩ := allOrders_recovers e.udg e.mcm hn hA hD hE hchk hV
  refine ⟨hA, hD, hU, fun rt => ?_, h3⟩
  obtain ⟨C, h4, h5⟩ := h1 rt
  exact ⟨C, h4, h5.map _⟩

theorem goodExample_of_private (e : Example) (hn : 0 < e.n) (hD : UnitDiag e.udg) (hU : IsUDGOf e.udg e.mcm)
    (hV : CoversVertices e.mcm) (hW : PrivatelyWitnessed e.udg e.mcm) : GoodExample e := by
  refine ⟨hU.symm, hD, hU, fun rt => ?_, fun C hC => ?_⟩
  · obtain ⟨⟨C, h1, h2, -⟩, -⟩ := C96_private_recovers e.udg e.mcm hn hD hU hV hW rt
    exact ⟨C, h1, h2⟩
  · exact ((C96_private_recovers e.udg e.mcm hn hD hU hV hW
      ⟨id, fun _ => List.Perm.refl _, fun _ _ _ => 0⟩).2 C hC).1

/-- **C99** all five bundled examples are good -/
theorem C99_examples : ∀ e ∈ examples, GoodExample e := by
  intro e he
  simp only [examples, List.mem_cons, List.not_mem_nil, or_false] at he
  rcases he with rfl | rfl | rfl | rfl | rfl
  case inr.inr.inr.inl =>
    exact goodExample_of_chk (f := 6) _ (by decide) (by unfold Symm; decide +kernel)
      (by unfold UnitDiag; decide +kernel) (by unfold IsUDGOf; decide +kernel)
      (by unfold CoversVertices; decide +kernel) (by decide +kernel) (by decide +kernel)
  all_goals
    exact goodExample_of_private _ (by decide) (by unfold UnitDiag; decide +kernel)
      (by unfold IsUDGOf; decide +kernel) (by unfold CoversVertices; decide +kernel) (by decide +kernel)

end Medil

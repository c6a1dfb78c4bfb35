import Verif.Proofs.Rule2Min
import Verif.Props.Heuristic
/-
  Properties of `find_clique_min_cover` (C10-C18).

  `rt : Runtime n` ranges over every set order; `fuel` is the number of passes of the outer
  `while the_cover is None` loop that the model may run.  A result `.ok B` is what Python returns
  (`C10` shows that a number of passes that suffices always exists).
-/
namespace Medil
variable {n : Nat}

theorem findClique_edges {A : BMat n} (hA : Symm A) (hD : UnitDiag A)
    (hE : ∃ i j, i < j ∧ A i j = true) (rt : Runtime n) :
    ∃ c info, Good A c info ∧ ∀ fuel, numEdgesOf A ≤ fuel →
      findCliqueMinCover rt fuel A = .ok (addIsolatedVerts c) ∧
      findCliqueInfo rt fuel A = .ok (some info) := by
  obtain ⟨c, info, h1, h2⟩ := cliqueSearch_spec hA hD hE rt
  refine ⟨c, info, h1, fun fuel hf => ?_⟩
  unfold findCliqueMinCover findCliqueInfo
  rw [h2 _ fuel hf]
  exact ⟨rfl, rfl⟩

theorem findClique_edgeless {A : BMat n} (hn : 0 < n) (hA : Symm A) (hE : ¬ ∃ i j, i < j ∧ A i j = true)
    (rt : Runtime n) (fuel : Nat) :
    findCliqueMinCover rt fuel A = .ok ((List.finRange n).map A.row) ∧
      findCliqueInfo rt fuel A = .ok none := by
  rcases makeAux_cases rt.order hA hn with ⟨-, h⟩ | ⟨h, -⟩
  · unfold findCliqueMinCover findCliqueInfo cliqueSearch
    rw [h]
    exact ⟨rfl, rfl⟩
  · exact absurd h hE

/-- a result does not depend on how many passes the model was allowed -/
theorem findLoop_mono {recon : Option (BMat n) → List (BVec n) → List (BVec n)} {rt : Runtime n}
    {iterMax : Nat} {g : RG n} {r : List (BVec n) × PathInfo} :
    ∀ {fuel fuel' k}, fuel ≤ fuel' → findLoop recon rt iterMax g fuel k = .ok r →
      findLoop recon rt iterMax g fuel' k = .ok r := by
  intro fuel
  induction fuel with
  | zero => intro _ _ _ h; cases h
  | succ fuel ih =>
    intro fuel' k hle h
    obtain ⟨m, rfl⟩ : ∃ m, fuel' = m + 1 := ⟨fuel' - 1, by omega⟩
    unfold findLoop at h ⊢
    split at h
    · cases h
    · rename_i out hb
      split at h
      · exact h
      · exact ih (by omega) h

theorem cliqueSearch_mono {recon : Option (BMat n) → List (BVec n) → List (BVec n)} {rt : Runtime n}
    {A : BMat n} {r} {fuel fuel' : Nat} (hle : fuel ≤ fuel') (h : cliqueSearch recon rt fuel A = .ok r) :
    cliqueSearch recon rt fuel' A = .ok r := by
  unfold cliqueSearch at h ⊢
  split at h
  · exact h
  · cases h
  · split at h
    · cases h
    · split at h
      · cases h
      · rename_i hl
        rw [findLoop_mono hle hl]
        exact h

theorem findClique_mono {rt : Runtime n} {A : BMat n} {B} {fuel fuel' : Nat} (hle : fuel ≤ fuel')
    (h : findCliqueMinCover rt fuel A = .ok B) : findCliqueMinCover rt fuel' A = .ok B := by
  unfold findCliqueMinCover at h ⊢
  cases hc : cliqueSearch RG.reconstructCover rt fuel A with
  | error e => rw [hc] at h; cases h
  | ok r => rw [hc] at h; rw [cliqueSearch_mono hle hc]; exact h

/-- whatever is returned is one of the two cases -/
theorem findClique_cases {A : BMat n} (hn : 0 < n) (hA : Symm A) (hD : UnitDiag A) {rt : Runtime n}
    {fuel : Nat} {B : List (BVec n)} (h : findCliqueMinCover rt fuel A = .ok B) :
    ((¬ ∃ i j, i < j ∧ A i j = true) ∧ B = (List.finRange n).map A.row) ∨
    ∃ c info, Good A c info ∧ B = addIsolatedVerts c ∧ findCliqueInfo rt fuel A = .ok (some info) := by
  by_cases hE : ∃ i j, i < j ∧ A i j = true
  · right
    obtain ⟨c, info, h1, h2⟩ := findClique_edges hA hD hE rt
    have h3 := findClique_mono (Nat.le_max_left fuel (numEdgesOf A)) h
    rw [(h2 _ (Nat.le_max_right _ _)).1] at h3
    injection h3 with h3
    refine ⟨c, info, h1, h3.symm, ?_⟩
    unfold findCliqueMinCover at h
    unfold findCliqueInfo
    cases hc : cliqueSearch RG.reconstructCover rt fuel A with
    | error e => rw [hc] at h; cases h
    | ok r =>
      have h4 := (h2 _ (Nat.le_max_right fuel (numEdgesOf A))).2
      unfold findCliqueInfo at h4
      rw [cliqueSearch_mono (Nat.le_max_left _ _) hc] at h4
      exact h4
  · left
    rw [(findClique_edgeless hn hA hE rt fuel).1] at h
    injection h with h
    exact ⟨hE, h.symm⟩

/-! ### C10 -/

/-- **C10** `find_clique_min_cover` terminates and returns a matrix, for every set order: there is a
number of passes (the number of edges) after which the model has returned, and more passes change
nothing. -/
theorem C10_exact_returns (A : BMat n) (hn : 0 < n) (hA : Symm A) (hD : UnitDiag A) (rt : Runtime n) :
    ∃ B, ∀ fuel, numEdgesOf A ≤ fuel → findCliqueMinCover rt fuel A = .ok B := by
  by_cases hE : ∃ i j, i < j ∧ A i j = true
  · obtain ⟨c, info, -, h⟩ := findClique_edges hA hD hE rt
    exact ⟨_, fun fuel hf => (h fuel hf).1⟩
  · exact ⟨_, fun fuel _ => (findClique_edgeless hn hA hE rt fuel).1⟩

/-- the set order used in examples: `extant_edges_idx` in insertion order, ties and pops first-come -/
def rt0 (n : Nat) : Runtime n := ⟨id, fun _ => List.Perm.refl _, fun _ _ _ => 0⟩

/-- adjacency matrix with unit diagonal from a list of edges -/
def graphOf (n : Nat) (es : List (Nat × Nat)) : BMat n :=
  BMat.of fun i j => i == j || es.contains (i.val, j.val) || es.contains (j.val, i.val)

theorem graphOf_symm (es : List (Nat × Nat)) : Symm (graphOf n es) := by
  intro i j
  simp only [graphOf, BMat.get_of, Bool.or_assoc]
  rw [Bool.or_comm (es.contains (i.val, j.val))]
  congr 1
  exact Bool.beq_comm

theorem graphOf_diag (es : List (Nat × Nat)) : UnitDiag (graphOf n es) := by
  intro i; simp [graphOf]

-- C10 on a graph with 3 maximal cliques (a triangle, two edges) and an isolated vertex
example : (findCliqueMinCover (rt0 6) 6 (graphOf 6 [(0,1),(0,2),(1,2),(2,3),(3,4)])).toOption.map
    (fun B => B.map (·.bits)) = some [0b011000, 0b001100, 0b000111, 0b100000] := by decide +kernel

/-! ### C11, C12 -/

/-- **C11** children of the same row are adjacent -/
theorem C11_exact_rows_cliques (A : BMat n) (hn : 0 < n) (hA : Symm A) (hD : UnitDiag A)
    (rt : Runtime n) (fuel : Nat) (B : List (BVec n)) (h : findCliqueMinCover rt fuel A = .ok B) :
    ∀ r ∈ B, ∀ i j : Fin n, r i = true → r j = true → A i j = true := by
  intro r hr i j hi hj
  by_cases hij : i = j
  · subst hij; exact hD i
  rcases findClique_cases hn hA hD h with ⟨hE, rfl⟩ | ⟨c, info, hg, rfl, -⟩
  · obtain ⟨k, -, rfl⟩ := List.mem_map.mp hr
    have hno : ∀ a b : Fin n, a ≠ b → A a b = true → False := by
      intro a b hab hh
      rcases lt_or_gt_of_ne hab with h' | h'
      · exact hE ⟨a, b, h', hh⟩
      · exact hE ⟨b, a, h', by rw [hA]; exact hh⟩
    simp only [BMat.get_row] at hi hj
    have h1 : k = i := by by_contra hc; exact hno _ _ hc hi
    have h2 : k = j := by by_contra hc; exact hno _ _ hc hj
    exact absurd (h1.symm.trans h2) hij
  · rcases mem_addIsolated.mp hr with hr | ⟨k, -, rfl⟩
    · exact (((hg.1 r hr).1) i (by simpa using hi) j (by simpa using hj) hij).1
    · simp [BVec.single] at hi hj
      exact absurd (hi.trans hj.symm) hij

/-- **C12** every measurement has a parent and every latent a child -/
theorem C12_exact_parents (A : BMat n) (hn : 0 < n) (hA : Symm A) (hD : UnitDiag A)
    (rt : Runtime n) (fuel : Nat) (B : List (BVec n)) (h : findCliqueMinCover rt fuel A = .ok B) :
    (∀ j : Fin n, ∃ r ∈ B, r j = true) ∧ ∀ r ∈ B, ∃ j : Fin n, r j = true := by
  rcases findClique_cases hn hA hD h with ⟨-, rfl⟩ | ⟨c, info, hg, rfl, -⟩
  · constructor
    · intro j
      exact ⟨A.row j, List.mem_map_of_mem (List.mem_finRange j), by simpa using hD j⟩
    · intro r hr
      obtain ⟨k, -, rfl⟩ := List.mem_map.mp hr
      exact ⟨k, by simpa using hD k⟩
  · constructor
    · intro j
      by_cases hj : ∃ r ∈ c, r j = true
      · obtain ⟨r, hr, h1⟩ := hj
        exact ⟨r, mem_addIsolated.mpr (Or.inl hr), h1⟩
      · refine ⟨BVec.single j, mem_addIsolated.mpr (Or.inr ⟨j, ?_, rfl⟩), by simp [BVec.single]⟩
        intro r hr
        by_contra hc
        exact hj ⟨r, hr, by simpa using hc⟩
    · intro r hr
      rcases mem_addIsolated.mp hr with hr | ⟨k, -, rfl⟩
      · obtain ⟨i, -, -, hi, -⟩ := (hg.1 r hr).2
        exact ⟨i, hi⟩
      · exact ⟨k, by simp [BVec.single]⟩

/-! ### C13: not every edge is covered -/

def C13_statement : Prop :=
  ∀ (n : Nat) (A : BMat n) (rt : Runtime n) (fuel : Nat) (B : List (BVec n)), 0 < n → Symm A →
    UnitDiag A → findCliqueMinCover rt fuel A = .ok B → CoversEdges A B

theorem toOption_map_eq {ε α β} {x : Except ε α} {f : α → β} {b : β} (h : x.toOption.map f = some b) :
    ∃ a, x = .ok a ∧ f a = b := by
  cases x with
  | error e => cases h
  | ok a => exact ⟨a, rfl, by simpa [Except.toOption] using h⟩

theorem bits_eq {B : List (BVec n)} {l : List Nat} (h : B.map (·.bits) = l) : B = l.map BVec.mk := by
  subst h; simp [Function.comp_def]

/-- six vertices; reduction rule 3 deletes vertices 1 and 3 -/
def missGraph : BMat 6 := graphOf 6 [(0,1),(0,2),(0,4),(0,5),(1,4),(1,5),(2,3),(2,4),(2,5),(3,4),(3,5),(4,5)]

theorem missGraph_run : findCliqueMinCover (rt0 6) 3 missGraph = .ok [⟨60⟩, ⟨51⟩] := by
  have h : (findCliqueMinCover (rt0 6) 3 missGraph).toOption.map (fun B => B.map (·.bits)) = some [60, 51] := by
    decide +kernel
  obtain ⟨B, h1, h2⟩ := toOption_map_eq h
  rw [h1, bits_eq h2]; rfl

/-- **C13 is false**: on `missGraph` (rows `{2,3,4,5}`, `{0,1,4,5}`) the edge 0–2 is in no row. -/
theorem C13_false : ¬ C13_statement := by
  intro h
  have := h 6 missGraph (rt0 6) 3 _ (by decide) (graphOf_symm _) (graphOf_diag _) missGraph_run
  exact absurd (this 0 2 (by decide +kernel)) (by decide +kernel)

/-- eight vertices; no rule-3 deletion, but the search ends at the depth cap -/
def capGraph : BMat 8 := graphOf 8 [(6,7),(5,7),(4,7),(4,6),(3,7),(3,6),(3,5),(2,7),(2,5),(2,4),(1,6),(1,5),(1,4),(1,3),(1,2),(0,7),(0,6),(0,5),(0,1)]

theorem capGraph_run : findCliqueMinCover (rt0 8) 60 capGraph = .ok [⟨35⟩, ⟨193⟩, ⟨22⟩, ⟨8⟩] := by
  have h : (findCliqueMinCover (rt0 8) 60 capGraph).toOption.map (fun B => B.map (·.bits)) =
      some [35, 193, 22, 8] := by decide +kernel
  obtain ⟨B, h1, h2⟩ := toOption_map_eq h
  rw [h1, bits_eq h2]; rfl

/-- **C13, proved part**: the result is an edge clique cover whenever the successful search path deleted
no vertex by rule 3 and did not stop at the depth cap (ghost information of the run); and a pair that
is in no row was an edge lost in exactly one of these two ways (see `C18`).
Missing for the full claim: it is false (`C13_false`). -/
theorem C13_exact_covers_partial (A : BMat n) (hn : 0 < n) (hA : Symm A) (hD : UnitDiag A)
    (rt : Runtime n) (fuel : Nat) (B : List (BVec n)) (h : findCliqueMinCover rt fuel A = .ok B)
    (hi : ∀ info, findCliqueInfo rt fuel A = .ok (some info) → info.rule3 = false ∧ info.capped = false) :
    IsCover A B := by
  refine ⟨?_, ?_, (C12_exact_parents A hn hA hD rt fuel B h).1⟩
  · intro r hr i hi j hj hij
    exact ⟨C11_exact_rows_cliques A hn hA hD rt fuel B h r hr i j (by simpa using hi) (by simpa using hj),
      hij⟩
  · rcases findClique_cases hn hA hD h with ⟨hE, rfl⟩ | ⟨c, info, hg, rfl, hinfo⟩
    · intro i j hij
      rcases lt_or_gt_of_ne hij.2 with h' | h'
      · exact absurd ⟨i, j, h', hij.1⟩ hE
      · exact absurd ⟨j, i, h', by rw [hA]; exact hij.1⟩ hE
    · exact coversEdges_addIsolated.mpr (hg.2.mpr (hi info hinfo))

/-- C10's example run meets the hypothesis of the partial theorem -/
example : (findCliqueInfo (rt0 6) 6 (graphOf 6 [(0,1),(0,2),(1,2),(2,3),(3,4)])).toOption =
    some (some ⟨false, false, false⟩) := by decide +kernel

/-! ### C18: exactly when the cover is complete -/

/-- **C18** on a graph with an edge, the returned matrix covers every edge iff the successful search
path deleted no vertex by rule 3 and did not stop at the depth cap; and the reconstruction of rule-3
vertices plays no role: replacing it by any other function `recon` changes nothing. -/
theorem C18_exact_complete_iff (A : BMat n) (hA : Symm A) (hD : UnitDiag A)
    (hE : ∃ i j, Adj A i j) (rt : Runtime n) :
    ∃ B info, (∀ fuel, numEdgesOf A ≤ fuel →
        findCliqueMinCover rt fuel A = .ok B ∧ findCliqueInfo rt fuel A = .ok (some info)) ∧
      (CoversEdges A B ↔ info.rule3 = false ∧ info.capped = false) ∧
      ∀ recon fuel, numEdgesOf A ≤ fuel → cliqueSearch recon rt fuel A = .ok (B, some info) := by
  have hE' : ∃ i j, i < j ∧ A i j = true := by
    obtain ⟨i, j, h⟩ := hE
    rcases lt_or_gt_of_ne h.2 with h' | h'
    · exact ⟨i, j, h', h.1⟩
    · exact ⟨j, i, h', by rw [hA]; exact h.1⟩
  obtain ⟨c, info, h1, h2⟩ := cliqueSearch_spec hA hD hE' rt
  refine ⟨_, info, ?_, coversEdges_addIsolated.trans h1.2, h2⟩
  intro fuel hf
  unfold findCliqueMinCover findCliqueInfo
  rw [h2 _ fuel hf]
  exact ⟨rfl, rfl⟩

-- both ways of losing an edge, and the complete case, do occur
example : (findCliqueInfo (rt0 6) 3 missGraph).toOption = some (some ⟨true, false, false⟩) := by
  decide +kernel
example : (findCliqueInfo (rt0 8) 60 capGraph).toOption = some (some ⟨false, true, true⟩) ∧
    ¬ CoversEdges capGraph [⟨35⟩, ⟨193⟩, ⟨22⟩, ⟨8⟩] := by
  refine ⟨by decide +kernel, fun h => ?_⟩
  exact absurd (h 6 4 (by decide +kernel)) (by decide +kernel)

/-! ### C14: not minimum -/

def C14_statement : Prop :=
  ∀ (n : Nat) (A : BMat n) (rt : Runtime n) (fuel : Nat) (B C : List (BVec n)), 0 < n → Symm A →
    UnitDiag A → findCliqueMinCover rt fuel A = .ok B → IsCover A C → B.length ≤ C.length

def bigGraph : BMat 8 := graphOf 8 [(0,2),(0,3),(0,4),(0,5),(0,6),(1,2),(1,4),(1,5),(1,6),(1,7),(2,4),
  (2,6),(2,7),(3,5),(3,6),(3,7),(4,5),(4,7),(5,6),(5,7)]

theorem bigGraph_run : findCliqueMinCover (rt0 8) 20 bigGraph =
    .ok [⟨168⟩, ⟨105⟩, ⟨150⟩, ⟨5⟩, ⟨17⟩, ⟨50⟩, ⟨70⟩] := by
  have h : (findCliqueMinCover (rt0 8) 20 bigGraph).toOption.map (fun B => B.map (·.bits)) =
      some [168, 105, 150, 5, 17, 50, 70] := by decide +kernel
  obtain ⟨B, h1, h2⟩ := toOption_map_eq h
  rw [h1, bits_eq h2]; rfl

/-- **C14 is false**: on `bigGraph` the result is a cover with 7 rows, but 6 cliques suffice. -/
theorem C14_false : ¬ C14_statement := by
  intro h
  have := h 8 bigGraph (rt0 8) 20 _ [⟨21⟩, ⟨70⟩, ⟨105⟩, ⟨150⟩, ⟨168⟩, ⟨178⟩] (by decide)
    (graphOf_symm _) (graphOf_diag _) bigGraph_run
    ⟨by unfold RowsCliques; decide +kernel, by unfold CoversEdges; decide +kernel,
      by unfold CoversVertices; decide +kernel⟩
  revert this; decide +kernel

/-- **C14, proved part**: the number of rows is minimum among all clique covers whenever the successful
search path did not branch, deleted no vertex by rule 3 and did not stop at the depth cap (all rows
came from rule 2), and on edgeless graphs.  Missing for the full claim: it is false (`C14_false`). -/
theorem C14_exact_minimum_partial (A : BMat n) (hn : 0 < n) (hA : Symm A) (hD : UnitDiag A)
    (rt : Runtime n) (fuel : Nat) (B : List (BVec n)) (h : findCliqueMinCover rt fuel A = .ok B)
    (hi : ∀ info, findCliqueInfo rt fuel A = .ok (some info) → info = ⟨false, false, false⟩) :
    IsCover A B ∧ ∀ C, IsCover A C → B.length ≤ C.length := by
  have hcov : IsCover A B := C13_exact_covers_partial A hn hA hD rt fuel B h
    (fun info hh => by rw [hi info hh]; exact ⟨rfl, rfl⟩)
  refine ⟨hcov, ?_⟩
  intro C hC
  by_cases hE : ∃ i j, i < j ∧ A i j = true
  · rcases makeAux_cases rt.order hA hn with ⟨hno, -⟩ | ⟨-, g, hg⟩
    · obtain ⟨i, j, hij, hadj⟩ := hE
      rw [hno i j (ne_of_lt hij)] at hadj; cases hadj
    have hmap : ∃ info, cliqueSearch RG.reconstructCover rt fuel A = .ok (B, info) := by
      unfold findCliqueMinCover at h
      cases hc : cliqueSearch RG.reconstructCover rt fuel A with
      | error e => rw [hc] at h; cases h
      | ok r => rw [hc] at h; cases h; exact ⟨r.2, rfl⟩
    obtain ⟨info, hs⟩ := hmap
    have hinfo : findCliqueInfo rt fuel A = .ok info := by
      unfold findCliqueInfo; rw [hs]; rfl
    unfold cliqueSearch at hs
    rw [hg] at hs
    simp only at hs
    split at hs
    · cases hs
    · split at hs
      · cases hs
      · rename_i c info' hl
        cases hs
        have hi' := hi info' hinfo
        subst hi'
        obtain ⟨k, out, hb, hres, hoi⟩ := findLoop_ok hl
        obtain ⟨es, h1, h2, h3⟩ := top_forced hA hD hg hE hb hres (by rw [hoi])
        have hccov : CoversEdges A c := coversEdges_addIsolated.mp hcov.2.1
        -- isolated vertices as pairs (j, j)
        have hiso : ∀ j : Fin n, (∀ x ∈ c, x j = false) → ∀ i, ¬ Adj A i j := by
          intro j hj i hij
          obtain ⟨r, hr, -, h5⟩ := hccov i j hij
          rw [hj r hr] at h5; cases h5
        let js := (List.finRange n).filter fun j => !c.any fun r => r j
        have hjs : ∀ j ∈ js, ∀ x ∈ c, x j = false := by
          intro j hj x hx
          have := (List.mem_filter.mp hj).2
          simp only [Bool.not_eq_true', List.any_eq_false, Bool.not_eq_true] at this
          exact this x hx
        have hlen : (addIsolatedVerts c).length = (es ++ js.map fun j => (j, j)).length := by
          simp [addIsolatedVerts, h1, js]
        rw [hlen]
        apply pairs_le_cover hC.1
        · rw [List.pairwise_append]
          refine ⟨h2, ?_, ?_⟩
          · rw [List.pairwise_map]
            refine List.Pairwise.imp_of_mem ?_ (((List.nodup_finRange n).filter _ :
              js.Nodup))
            intro a b ha hb hab S hS h4 _ h6 _
            exact hiso b (hjs b hb) a (hS a h4 b h6 hab)
          · intro e he f hf S hS h4 h5 h6 _
            obtain ⟨j, hj, rfl⟩ := List.mem_map.mp hf
            have hadj := h3 e he
            have : e.1 = j := by
              by_contra hne
              exact hiso j (hjs j hj) e.1 (hS _ h4 _ h6 hne)
            have h7 : e.2 = j := by
              by_contra hne
              exact hiso j (hjs j hj) e.2 (hS _ h5 _ h6 hne)
            exact hadj.2 (this.trans h7.symm)
        · intro e he
          rcases List.mem_append.mp he with he | he
          · exact hC.2.1 _ _ (h3 e he)
          · obtain ⟨j, -, rfl⟩ := List.mem_map.mp he
            obtain ⟨r, hr, h4⟩ := hC.2.2 j
            exact ⟨r, hr, h4, h4⟩
  · rw [(findClique_edgeless hn hA hE rt fuel).1] at h
    injection h with h
    subst h
    have : IsIndep A Finset.univ := by
      intro i _ j _ hij
      rcases lt_or_gt_of_ne hij.2 with h' | h'
      · exact hE ⟨i, j, h', hij.1⟩
      · exact hE ⟨j, i, h', by rw [hA]; exact hij.1⟩
    simpa using indep_le_cover this hC.1 hC.2.2

/-! ### C15, C16 -/

/-- **C15** on the dependence graph of a one-pure-child structure `B` the exact search returns the rows
of `B` up to order, for every set order; so it agrees with the heuristic; and `B.length` is the
smallest number of cliques of any clique cover. -/
theorem C15_exact_recovers (A : BMat n) (B : List (BVec n)) (hn : 0 < n) (hB : OnePureChild B)
    (hU : IsUDGOf A B) (hD : UnitDiag A) (rt : Runtime n) (o : Sched n) :
    (∃ C, (∀ fuel, numEdgesOf A ≤ fuel → findCliqueMinCover rt fuel A = .ok C) ∧ SameRows C B ∧
      IsCover A C ∧ ∃ H, findHeuristic1pc o A = .ok H ∧ SameRows H C) ∧
    ∀ C, IsCover A C → B.length ≤ C.length := by
  have hA := hU.symm
  have hO : OpcGraph A B := ⟨hA, hD, hB, hU⟩
  obtain ⟨H, hH1, hH2⟩ := C07_heuristic_recovers A B hn hB hU o
  have hcover : ∀ C, SameRows C B → IsCover A C := by
    intro C hC
    have hmem : ∀ r ∈ C, ∃ r' ∈ B, ∀ x, r x = true ↔ r' x = true := by
      intro r hr
      obtain ⟨r', hr', he⟩ := List.mem_map.mp (hC.mem_iff.mp (List.mem_map_of_mem hr))
      exact ⟨r', hr', fun x => by rw [← mem_children, ← mem_children, he]⟩
    have hmem' : ∀ r ∈ B, ∃ r' ∈ C, ∀ x, r x = true ↔ r' x = true := by
      intro r hr
      obtain ⟨r', hr', he⟩ := List.mem_map.mp (hC.mem_iff.mpr (List.mem_map_of_mem hr))
      exact ⟨r', hr', fun x => by rw [← mem_children, ← mem_children, he]⟩
    refine ⟨?_, ?_, ?_⟩
    · intro r hr i hi j hj hij
      obtain ⟨r', hr', he⟩ := hmem r hr
      exact ⟨(hU i j hij).mpr ⟨r', hr', (he i).mp (by simpa using hi), (he j).mp (by simpa using hj)⟩, hij⟩
    · intro i j hij
      obtain ⟨r, hr, h1, h2⟩ := (hU i j hij.2).mp hij.1
      obtain ⟨r', hr', he⟩ := hmem' r hr
      exact ⟨r', hr', (he i).mp h1, (he j).mp h2⟩
    · intro j
      obtain ⟨r, hr, h1⟩ := hB.2 j
      obtain ⟨r', hr', he⟩ := hmem' r hr
      exact ⟨r', hr', (he j).mp h1⟩
  refine ⟨?_, ?_⟩
  · have key : ∃ C, (∀ fuel, numEdgesOf A ≤ fuel → findCliqueMinCover rt fuel A = .ok C) ∧ SameRows C B := by
      by_cases hE : ∃ i j, i < j ∧ A i j = true
      · rcases makeAux_cases rt.order hA hn with ⟨hno, -⟩ | ⟨-, g, hg⟩
        · obtain ⟨i, j, hij, hadj⟩ := hE
          rw [hno i j (ne_of_lt hij)] at hadj; cases hadj
        obtain ⟨c, info, hgood, hall⟩ := findClique_edges hA hD hE rt
        refine ⟨_, fun fuel hf => (hall fuel hf).1, ?_⟩
        have h1 := (hall _ (Nat.le_refl _)).1
        unfold findCliqueMinCover cliqueSearch at h1
        rw [hg] at h1
        obtain ⟨m, hm⟩ := maxIntersect_ok hD (A := A)
        simp only [hm] at h1
        split at h1
        · cases h1
        · rename_i c' info' hl
          · have h1'' := h1
            have h1' : addIsolatedVerts c' = addIsolatedVerts c := by injection h1''
            rw [← h1']
            obtain ⟨k, out, hb, hres, -⟩ := findLoop_ok hl
            have hne : g.numEdges ≠ 0 := by
              rw [makeAux_ok hg]; exact numEdgesOf_ne_zero.mpr hE
            obtain ⟨out', hb', hout⟩ := opc_branch hO rt hg hne RG.reconstructCover 3 k
            rw [hb] at hb'
            cases hb'
            exact opc_sameRows hO (hout c' hres).1
      · refine ⟨_, fun fuel _ => (findClique_edgeless hn hA hE rt fuel).1, ?_⟩
        -- no edge: every row of `B` is a singleton
        have hno : ∀ i j : Fin n, i ≠ j → A i j ≠ true := by
          intro i j hij hadj
          rcases lt_or_gt_of_ne hij with h' | h'
          · exact hE ⟨i, j, h', hadj⟩
          · exact hE ⟨j, i, h', by rw [hA]; exact hadj⟩
        have hempty : bigRows B = [] := by
          rw [List.eq_nil_iff_forall_not_mem]
          intro l hl
          obtain ⟨x, hx, y, hy, hxy⟩ := Finset.one_lt_card.mp (mem_bigRows.mp hl)
          exact hno x y hxy (hO.row_clique l hx hy)
        have h1 := opc_sameRows hO (c := []) (by rw [hempty]; exact List.Perm.refl _)
        have h2 : ((List.finRange n).map A.row).map children = (addIsolatedVerts ([] : List (BVec n))).map children := by
          rw [map_children_addIsolated]
          simp only [List.any_nil, Bool.not_false, List.map_nil, List.nil_append, List.map_map]
          rw [List.filter_eq_self.mpr (by simp)]
          apply List.map_congr_left
          intro j _
          ext x
          simp only [Function.comp_apply, mem_children, BMat.get_row, Finset.mem_singleton]
          constructor
          · intro hx; by_contra hne; exact hno j x (Ne.symm hne) hx
          · rintro rfl; exact hD x
        unfold SameRows at h1 ⊢
        rw [h2]; exact h1
    obtain ⟨C, h1, h2⟩ := key
    exact ⟨C, h1, h2, hcover C h2, H, hH1, hH2.trans h2.symm⟩
  · intro C hC
    obtain ⟨T, hT, hc⟩ := hO.pure_indep
    rw [← hc]
    exact indep_le_cover hT hC.1 hC.2.2

-- `exOpc` (above) meets the hypotheses, and its graph has unit diagonal
example : UnitDiag exOpcUdg := by unfold UnitDiag; decide +kernel

/-- **C16** an edgeless graph is returned unchanged; its rows are the singletons -/
theorem C16_exact_edgeless (A : BMat n) (hn : 0 < n)
    (h : ∀ i j : Fin n, A i j = true ↔ i = j) (rt : Runtime n) (fuel : Nat) :
    ∃ B, findCliqueMinCover rt fuel A = .ok B ∧ B.length = n ∧
      (∀ (i : Fin n) (hi : i.val < B.length), B[i.val] = A.row i) ∧
      B.map children = (List.finRange n).map fun j => {j} := by
  have hA : Symm A := by
    intro i j
    rw [Bool.eq_iff_iff, h, h]; exact eq_comm
  have hE : ¬ ∃ i j, i < j ∧ A i j = true := by
    rintro ⟨i, j, hij, hadj⟩
    exact absurd ((h i j).mp hadj) (ne_of_lt hij)
  refine ⟨_, (findClique_edgeless hn hA hE rt fuel).1, by simp, by simp, ?_⟩
  rw [List.map_map]
  apply List.map_congr_left
  intro j _
  ext x
  simp [h, eq_comm]

example : ∀ i j : Fin 4, graphOf 4 [] i j = true ↔ i = j := by decide +kernel

/-! ### C17: zero diagonal -/

def C17_statement : Prop :=
  ∀ (n : Nat) (A : BMat n) (rt : Runtime n), 0 < n → Symm A → (∀ i, A i i = false) →
    ∃ fuel B, findCliqueMinCover rt fuel A = .ok B

/-- **C17, proved part**: a graph as returned by `estimate_UDG` (zero diagonal) makes
`find_clique_min_cover` raise `ValueError` (`int(nan)` in the printed bound) as soon as it has an edge,
and returns the all-zero matrix (no measurement has a parent) if it has none.
Missing for the full claim: it is false (`C17_false`). -/
theorem C17_exact_zero_diag_partial (A : BMat n) (hn : 0 < n) (hA : Symm A) (hD : ∀ i, A i i = false)
    (rt : Runtime n) (fuel : Nat) :
    ((∃ i j, Adj A i j) → findCliqueMinCover rt fuel A = .error .valueError) ∧
    ((¬ ∃ i j, Adj A i j) → ∃ B, findCliqueMinCover rt fuel A = .ok B ∧
      ∀ r ∈ B, ∀ j : Fin n, r j = false) := by
  constructor
  · rintro ⟨i, j, hij⟩
    rcases makeAux_cases rt.order hA hn with ⟨hno, -⟩ | ⟨hE, g, hg⟩
    · exact absurd hij.1 (by rw [hno i j hij.2]; simp)
    · have hpos : numEdgesOf A ≠ 0 := numEdgesOf_ne_zero.mpr hE
      have htr : traceOf A = 0 := by
        unfold traceOf countFin; simp [hD]
      have : maxIntersectNum (traceOf A) (numEdgesOf A) = .error .valueError := by
        rw [htr]
        unfold maxIntersectNum
        have h1 : 0 ^ 2 / 4 < numEdgesOf A := by simp; omega
        have h2 : nChoose2 ((0 : Nat) : Int) - (numEdgesOf A : Int) < 0 := by
          have : nChoose2 ((0 : Nat) : Int) = 0 := by decide
          rw [this]; omega
        rw [if_pos h1]
        simp only
        rw [if_pos h2]
      unfold findCliqueMinCover cliqueSearch
      rw [hg]
      simp only [this]
      rfl
  · intro hno
    have hE : ¬ ∃ i j, i < j ∧ A i j = true := by
      rintro ⟨i, j, hij, hadj⟩
      exact hno ⟨i, j, hadj, ne_of_lt hij⟩
    refine ⟨_, (findClique_edgeless hn hA hE rt fuel).1, ?_⟩
    intro r hr j
    obtain ⟨i, -, rfl⟩ := List.mem_map.mp hr
    rw [BMat.get_row]
    by_cases hij : i = j
    · subst hij; exact hD i
    · by_contra hc
      exact hno ⟨i, j, by simpa using hc, hij⟩

/-- two dependent measurements with zero diagonal -/
def zeroDiag2 : BMat 2 := BMat.of fun i j => decide (i ≠ j)

/-- **C17 is false** already for two dependent measurements. -/
theorem C17_false : ¬ C17_statement := by
  intro h
  obtain ⟨fuel, B, hB⟩ := h 2 zeroDiag2 (rt0 2) (by decide) (by unfold Symm; decide +kernel) (by decide +kernel)
  rw [(C17_exact_zero_diag_partial zeroDiag2 (by decide) (by unfold Symm; decide +kernel)
    (by decide +kernel) (rt0 2) fuel).1 ⟨0, 1, by decide +kernel⟩] at hB
  cases hB

end Medil

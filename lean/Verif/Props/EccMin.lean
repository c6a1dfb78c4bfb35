import Verif.Props.Ecc
import Verif.Proofs.BranchMin
/-
  C14 continued: the only cause of too many rows.
-/
namespace Medil
variable {n : Nat}

theorem findLoop_needs {A : BMat n} (hA : Symm A) (hD : UnitDiag A) {rt : Runtime n} {g : RG n}
    (hC : Coh A g) (hP : PCore A g) (hc : g.cover = none) {iterMax : Nat} (hi : 0 < iterMax)
    {recon : Option (BMat n) → List (BVec n) → List (BVec n)} {c : List (BVec n)} {info : PathInfo} :
    ∀ fuel k, findLoop recon rt iterMax g fuel k = .ok (c, info) →
      NeedsMore A g.adj (k - 1) → (∀ x ∈ passNodes recon rt iterMax g fuel k, Lossless A x) →
      NeedsMore A g.adj (c.length - 1) := by
  have hent := entry_none hc
  intro fuel
  induction fuel with
  | zero => intro k h; cases h
  | succ fuel ih =>
    intro k h hk hnodes
    unfold findLoop at h
    unfold passNodes at hnodes
    split at h
    · cases h
    · rename_i out ho
      obtain ⟨h1, h2⟩ := branch_needs hA hD rt recon iterMax [k] g k none out (by rw [hent]; exact hC)
        (by rw [hent]; exact hP.inv.nonempty hc) (Or.inr ⟨hi, by rw [hent]; exact hP⟩) ho
      rw [hent] at h2
      split at h
      · rename_i c' hc'
        cases h
        have := h1 c hc'
        simp only [Option.getD_none, List.length_nil] at this
        push_cast at this
        intro C hR hcv
        have := hk C hR hcv
        omega
      · rename_i hn
        rw [ho] at hnodes
        simp only [hn, Option.isSome_none, Bool.false_eq_true, if_false, List.mem_append] at hnodes
        refine ih (k + 1) h ?_ fun x hx => hnodes x (Or.inr hx)
        have := h2 hn fun x hx => hnodes x (Or.inl hx)
        have e : ((k + 1 : Nat) : Int) - 1 = k := by push_cast; omega
        rw [e]; exact this

/-- rows with at least two measurements -/
def bigRowCount (B : List (BVec n)) : Nat := B.countP fun r => decide (1 < (children r).card)

/-- **C14, the only cause of too many rows**.  Suppose that wherever an unsuccessful pass of the search
branched, it lost nothing by trying only cliques of the uncovered graph (`Lossless`).  Then the number
of returned rows with at least two measurements is at most the size of *every* clique cover of the
edges, also if the search ended at the depth cap or deleted vertices by rule 3.  If it did neither, the
returned matrix is a minimum clique cover.  Contrapositive: whenever the result has too many rows, some
unsuccessful pass branched at a neighbourhood in which covered pairs hid a clique of the graph.
Missing for the full claim: it is false (`C14_false`). -/
theorem C14_only_cause_partial (A : BMat n) (hn : 0 < n) (hA : Symm A) (hD : UnitDiag A)
    (rt : Runtime n) (fuel : Nat) (B : List (BVec n)) (h : findCliqueMinCover rt fuel A = .ok B)
    (hl : ∀ g ∈ failedNodes rt fuel A, Lossless A g) :
    (∀ C, RowsCliques A C → CoversEdges A C → bigRowCount B ≤ C.length) ∧
    ((∀ info, findCliqueInfo rt fuel A = .ok (some info) → info.rule3 = false ∧ info.capped = false) →
      IsCover A B ∧ ∀ C, IsCover A C → B.length ≤ C.length) := by
  classical
  have hsingle : ∀ j : Fin n, (children (BVec.single j)).card = 1 := by
    intro j
    have : children (BVec.single j) = {j} := by ext x; simp
    rw [this]; simp
  by_cases hE : ∃ i j, i < j ∧ A i j = true
  · rcases makeAux_cases rt.order hA hn with ⟨hno, -⟩ | ⟨-, g, hg⟩
    · obtain ⟨i, j, hij, hadj⟩ := hE
      rw [hno i j (ne_of_lt hij)] at hadj; cases hadj
    have hCoh := Coh.init hA hD rt.perm hg
    have hP := PCore.init hA hD rt.perm hg hE
    have hcov : g.cover = none := by rw [makeAux_ok hg]
    have hadj : g.adj = A := by rw [makeAux_ok hg]
    have hmap : ∃ info, cliqueSearch RG.reconstructCover rt fuel A = .ok (B, info) := by
      unfold findCliqueMinCover at h
      cases hc : cliqueSearch RG.reconstructCover rt fuel A with
      | error e => rw [hc] at h; cases h
      | ok r => rw [hc] at h; cases h; exact ⟨r.2, rfl⟩
    obtain ⟨info, hs⟩ := hmap
    unfold cliqueSearch at hs
    rw [hg] at hs
    simp only at hs
    split at hs
    · cases hs
    · split at hs
      · cases hs
      · rename_i c info' hfl
        cases hs
        have h0 : NeedsMore A g.adj (((1 : Nat) : Int) - 1) := by
          obtain ⟨i, j, hij, ha⟩ := hE
          intro C _ hcv
          obtain ⟨r, hr, -⟩ := hcv i j (ne_of_lt hij) (by rw [hadj]; exact ha)
          have := List.length_pos_of_mem hr
          push_cast; omega
        have hneed := findLoop_needs hA hD hCoh hP hcov (by omega) fuel 1 hfl h0 (by
          intro x hx
          apply hl
          unfold failedNodes
          rw [hg]
          exact hx)
        rw [hadj] at hneed
        have hmin : ∀ C, RowsCliques A C → CoversEdges A C → c.length ≤ C.length := by
          intro C hR hcv
          have := hneed C hR fun i j hij ha => hcv i j ⟨ha, hij⟩
          omega
        constructor
        · intro C hR hcv
          refine le_trans ?_ (hmin C hR hcv)
          unfold bigRowCount addIsolatedVerts
          rw [List.countP_append, List.countP_map]
          have : List.countP ((fun r : BVec n => decide (1 < (children r).card)) ∘ BVec.single)
              (List.filter (fun j => !c.any fun r => r.get j) (List.finRange n)) = 0 := by
            rw [List.countP_eq_zero]
            intro j _
            simp [hsingle j]
          rw [this]
          exact List.countP_le_length
        · intro hi
          have hcovB := C13_exact_covers_partial A hn hA hD rt fuel _ h hi
          refine ⟨hcovB, ?_⟩
          intro C hC
          have hccov : CoversEdges A c := coversEdges_addIsolated.mp hcovB.2.1
          have hiso : ∀ j : Fin n, (∀ x ∈ c, x j = false) → ∀ i, ¬ Adj A i j := by
            intro j hj i hij
            obtain ⟨r, hr, -, h5⟩ := hccov i j hij
            rw [hj r hr] at h5; cases h5
          let js := (List.finRange n).filter fun j => !c.any fun r => r j
          have hjs : ∀ j ∈ js, ∀ x ∈ c, x j = false := by
            intro j hj x hx
            have := (List.mem_filter.mp hj).2
            simp only [Bool.not_eq_true', List.any_eq_false, Bool.not_eq_true] at this
            exact this x hx
          have hlen : (addIsolatedVerts c).length = c.length + js.length := by
            simp [addIsolatedVerts, js]
          rw [hlen]
          -- split `C` into rows with and without two vertices
          let p : BVec n → Bool := fun r => decide (1 < (children r).card)
          have hsplit : C.length = (C.filter p).length + (C.filter fun r => !p r).length := by
            rw [← List.countP_eq_length_filter, ← List.countP_eq_length_filter]
            have := List.length_eq_countP_add_countP (l := C) p
            simpa using this
          have h1 : c.length ≤ (C.filter p).length := by
            apply hmin
            · intro r hr; exact hC.1 r (List.mem_of_mem_filter hr)
            · intro i j hij
              obtain ⟨r, hr, hri, hrj⟩ := hC.2.1 i j hij
              refine ⟨r, List.mem_filter.mpr ⟨hr, ?_⟩, hri, hrj⟩
              simp only [p, decide_eq_true_eq]
              exact Finset.one_lt_card.mpr ⟨i, by simpa using hri, j, by simpa using hrj, hij.2⟩
          have h2 : js.length ≤ (C.filter fun r => !p r).length := by
            have := pairs_le_cover (A := A) (C := C.filter fun r => !p r)
              (fun r hr => hC.1 r (List.mem_of_mem_filter hr))
              (es := js.map fun j => (j, j)) ?_ ?_
            · simpa using this
            · rw [List.pairwise_map]
              refine List.Pairwise.imp_of_mem ?_ (((List.nodup_finRange n).filter _ : js.Nodup))
              intro a b ha hb hab S hS h4 _ h6 _
              exact hiso b (hjs b hb) a (hS a h4 b h6 hab)
            · intro e he
              obtain ⟨j, hj, rfl⟩ := List.mem_map.mp he
              obtain ⟨r, hr, h4⟩ := hC.2.2 j
              refine ⟨r, List.mem_filter.mpr ⟨hr, ?_⟩, h4, h4⟩
              simp only [p, Bool.not_eq_true', decide_eq_false_iff_not, Nat.not_lt]
              rw [Finset.card_le_one]
              have hone : ∀ x ∈ children r, x = j := by
                intro x hx
                by_contra hne
                exact hiso j (hjs j hj) x (hC.1 r hr x hx j (by simpa using h4) hne)
              intro a ha b hb
              rw [hone a ha, hone b hb]
          omega
  · have hB := h
    rw [(findClique_edgeless hn hA hE rt fuel).1] at hB
    injection hB with hB
    have hno : ∀ i j, A i j = true → i = j := by
      intro i j hij
      by_contra hne
      rcases lt_or_gt_of_ne hne with h' | h'
      · exact hE ⟨i, j, h', hij⟩
      · exact hE ⟨j, i, h', by rw [hA]; exact hij⟩
    constructor
    · intro C _ _
      have : bigRowCount B = 0 := by
        subst hB
        unfold bigRowCount
        rw [List.countP_eq_zero]
        intro r hr
        obtain ⟨i, -, rfl⟩ := List.mem_map.mp hr
        simp only [decide_eq_true_eq, Nat.not_lt]
        rw [Finset.card_le_one]
        intro a ha b hb
        simp at ha hb
        exact (hno i a ha).symm.trans (hno i b hb)
      omega
    · intro hi
      refine ⟨C13_exact_covers_partial A hn hA hD rt fuel _ h hi, ?_⟩
      intro C hC
      subst hB
      have : IsIndep A Finset.univ := fun i _ j _ hij => hij.2 (hno i j hij.1)
      simpa using indep_le_cover this hC.1 hC.2.2

/-- on C14's counterexample the cause does occur -/
theorem C14_cause_occurs : ∃ g ∈ failedNodes (rt0 8) 20 bigGraph, ¬ Lossless bigGraph g := by
  by_contra hcon
  push Not at hcon
  have hinfo : (findCliqueInfo (rt0 8) 20 bigGraph).toOption = some (some ⟨false, false, true⟩) := by
    decide +kernel
  have := (C14_only_cause_partial bigGraph (by decide) (graphOf_symm _) (graphOf_diag _) (rt0 8) 20 _
    bigGraph_run hcon).2 (by
      intro info hi
      rw [hi] at hinfo
      simp [Except.toOption] at hinfo
      subst hinfo
      exact ⟨rfl, rfl⟩)
  have := this.2 [⟨21⟩, ⟨70⟩, ⟨105⟩, ⟨150⟩, ⟨168⟩, ⟨178⟩]
    ⟨by unfold RowsCliques; decide +kernel, by unfold CoversEdges; decide +kernel,
      by unfold CoversVertices; decide +kernel⟩
  revert this; decide +kernel

/-- sufficient test for `Lossless` on concrete states: no dependent pair of the neighbourhood is
covered, and the neighbourhood contains every uncovered pair of common neighbours -/
def freshNbrhood (A : BMat n) (g : RG n) : Bool :=
  match g.argminScore g.extant, g.chooseNbrhood with
  | some e, .ok N =>
    (List.finRange n).all fun i => (List.finRange n).all fun j =>
      !(A e.1 i && A e.2 i && A e.1 j && A e.2 j && A i j && decide (i ≠ j) && g.adj i i && g.adj j j)
        || N i j
  | _, _ => false

theorem lossless_of_fresh {A : BMat n} (hD : UnitDiag A) {g : RG n}
    (hlive : ∀ i j, g.adj i j = true → g.adj i i = true ∧ g.adj j j = true)
    (h : freshNbrhood A g = true) : Lossless A g := by
  intro N e hN he S hS h1 h2
  unfold freshNbrhood at h
  rw [hN, he] at h
  simp only [List.all_eq_true, List.mem_finRange, forall_const, Bool.or_eq_true, Bool.not_eq_true',
    Bool.and_eq_false_iff, decide_eq_false_iff_not, not_not] at h
  have hA1 : ∀ x y, x ∈ S → y ∈ S → A x y = true := by
    intro x y hx hy
    by_cases hxy : x = y
    · subst hxy; exact hD x
    · exact (hS x hx y hy hxy).1
  refine ⟨S.filter fun i => g.adj i i = true, ?_, ?_⟩
  · intro i hi j hj hij
    simp only [Finset.mem_filter] at hi hj
    refine ⟨?_, hij⟩
    have := h i j
    simp [hA1 e.1 i h1 hi.1, hA1 e.2 i h2 hi.1, hA1 e.1 j h1 hj.1, hA1 e.2 j h2 hj.1,
      hA1 i j hi.1 hj.1, hij, hi.2, hj.2] at this
    exact this
  · intro i hi j hj hij hadj
    simp [hi, hj, hlive i j hadj]

/-- seven vertices; the passes with 1, 2 and 3 cliques branch, and lose nothing -/
def freshGraph : BMat 7 := graphOf 7 [(0, 2), (0, 3), (0, 4), (0, 5), (0, 6), (1, 2), (1, 3), (1, 4),
  (1, 5), (1, 6), (2, 3), (2, 5), (2, 6), (3, 4), (3, 6), (4, 5), (5, 6)]

example : (failedNodes (rt0 7) 20 freshGraph).length = 3 ∧
    (∀ g ∈ failedNodes (rt0 7) 20 freshGraph, Lossless freshGraph g) ∧
    (findCliqueMinCover (rt0 7) 20 freshGraph).toOption.map (bigRowCount ·) = some 4 := by
  refine ⟨by decide +kernel, ?_, by decide +kernel⟩
  have h : ∀ g ∈ failedNodes (rt0 7) 20 freshGraph, freshNbrhood freshGraph g = true ∧
      ∀ i j, g.adj i j = true → g.adj i i = true ∧ g.adj j j = true := by decide +kernel
  exact fun g hg => lossless_of_fresh (graphOf_diag _) (h g hg).2 (h g hg).1

end Medil

import Verif.Proofs.Ecc
namespace Medil
variable {n : Nat}

theorem makeAux_cases (order : List (Fin n × Fin n) → List (Fin n × Fin n)) {A : BMat n}
    (hA : Symm A) (hn : 0 < n) :
    ((∀ i j, i ≠ j → A i j = false) ∧ makeAux order A = .error .valueError) ∨
    ((∃ i j, i < j ∧ A i j = true) ∧ ∃ g, makeAux order A = .ok g) := by
  unfold makeAux
  by_cases hE : edgeList A = []
  · left
    refine ⟨?_, by simp [hE]; omega⟩
    have hno : ∀ i j, i < j → A i j = false := by
      intro i j hij
      by_contra hc
      have := (mem_edgeList (A := A) (e := (i, j))).mpr ⟨hij, by simpa using hc⟩
      rw [hE] at this; simp at this
    intro i j hij
    rcases lt_or_gt_of_ne hij with h | h
    · exact hno i j h
    · rw [hA]; exact hno j i h
  · right
    obtain ⟨e, he⟩ := List.exists_mem_of_ne_nil _ hE
    refine ⟨⟨e.1, e.2, mem_edgeList.mp he⟩, ?_⟩
    rw [if_neg (by simp [hE])]
    exact ⟨_, rfl⟩

theorem PCore.init {A : BMat n} (hA : Symm A) (hD : UnitDiag A)
    {order : List (Fin n × Fin n) → List (Fin n × Fin n)} (hperm : ∀ l, (order l).Perm l) {g : RG n}
    (h : makeAux order A = .ok g) (hE : ∃ i j, i < j ∧ A i j = true) : PCore A g := by
  have hC := Coh.init hA hD hperm h
  have hg := makeAux_ok h
  have hadj : g.adj = A := by rw [hg]
  have hcov : g.cover = none := by rw [hg]
  have hrows : g.rows = [] := by unfold RG.rows; rw [hcov]; rfl
  have hred : g.redAway = none := by rw [hg]
  refine ⟨⟨by simp [hrows], by simp [hrows], fun _ i j hij => Or.inl (by rw [hadj]; exact hij.1), ?_⟩,
    ?_, ?_⟩
  · intro _
    rw [hC.nedges, numEdgesOf_ne_zero, hadj]
    exact hE
  · intro hc; rw [hred] at hc; cases hc
  · intro _
    refine ⟨∅, by simp [hadj], by simp, ?_⟩
    intro e he
    have hlt := ((hC.ext e).mp he).1
    have hcounts : g.counts = countsOf A (commonOf A) := by rw [hg]
    have hcom : g.common = commonOf A := by rw [hg]
    rw [hcounts, hcom]
    exact countsOf_eq hA hD _ hlt

theorem numEdgesOf_le {A : BMat n} : (numEdgesOf A : Int) ≤ nChoose2 n := by
  have h1 : numEdgesOf A ≤ ((Finset.univ : Finset (Fin n × Fin n)).filter fun e => e.1 < e.2).card := by
    rw [numEdgesOf_eq]
    apply Finset.card_le_card
    intro e; simp; exact fun h _ => h
  have h2 : 2 * ((Finset.univ : Finset (Fin n × Fin n)).filter fun e => e.1 < e.2).card ≤ n * (n - 1) := by
    have hsw : ((Finset.univ : Finset (Fin n × Fin n)).filter fun e => e.1 < e.2).card =
        ((Finset.univ : Finset (Fin n × Fin n)).filter fun e => e.2 < e.1).card := by
      apply Finset.card_bij (fun e _ => (e.2, e.1))
      · intro e he; simpa using he
      · rintro ⟨a, b⟩ _ ⟨c, d⟩ _ h; simp at h ⊢; exact ⟨h.2, h.1⟩
      · rintro ⟨a, b⟩ h; exact ⟨(b, a), by simpa using h, rfl⟩
    have hdis : Disjoint ((Finset.univ : Finset (Fin n × Fin n)).filter fun e => e.1 < e.2)
        ((Finset.univ : Finset (Fin n × Fin n)).filter fun e => e.2 < e.1) := by
      rw [Finset.disjoint_left]
      intro e h1 h2
      simp only [Finset.mem_filter, Finset.mem_univ, true_and] at h1 h2
      exact lt_asymm h1 h2
    have hsub : (((Finset.univ : Finset (Fin n × Fin n)).filter fun e => e.1 < e.2) ∪
        ((Finset.univ : Finset (Fin n × Fin n)).filter fun e => e.2 < e.1)) ⊆
        (Finset.univ : Finset (Fin n)).offDiag := by
      intro e he
      simp only [Finset.mem_union, Finset.mem_filter, Finset.mem_univ, true_and] at he
      simp only [Finset.mem_offDiag, Finset.mem_univ, true_and]
      rcases he with h | h
      · exact ne_of_lt h
      · exact ne_of_gt h
    have := Finset.card_le_card hsub
    rw [Finset.card_union_of_disjoint hdis, ← hsw, Finset.offDiag_card, Finset.card_univ,
      Fintype.card_fin] at this
    have h3 : n * n - n = n * (n - 1) := by rw [Nat.mul_sub, Nat.mul_one]
    omega
  have h3 := two_mul_nChoose2 n
  omega

theorem maxIntersect_ok {A : BMat n} (hD : UnitDiag A) :
    ∃ m, maxIntersectNum (traceOf A) (numEdgesOf A) = .ok m := by
  unfold maxIntersectNum
  rw [traceOf_eq hD]
  have := numEdgesOf_le (A := A)
  split
  · simp only
    rw [if_neg (by omega)]
    exact ⟨_, rfl⟩
  · exact ⟨_, rfl⟩

theorem findLoop_spec {A : BMat n} (hA : Symm A) (hD : UnitDiag A) (rt : Runtime n) {g : RG n}
    (hC : Coh A g) (hP : PCore A g) (hc : g.cover = none) (iterMax : Nat) (hi : 0 < iterMax) :
    ∀ m k, g.numEdges ≤ k + m →
      ∃ c info, Good A c info ∧ ∀ recon fuel, m < fuel → findLoop recon rt iterMax g fuel k =
        .ok (c, info) := by
  have hent : entry g none = g := by
    unfold entry RG.coverEdges
    cases g
    simp only at hc
    subst hc
    rfl
  intro m
  induction m with
  | zero =>
    intro k hk
    obtain ⟨out, h1, h2⟩ := branch_spec hA hD rt iterMax [k] g k none (by rw [hent]; exact hC)
      (by rw [hent]; exact hP) (by rw [hent]; exact hP.inv.nonempty hc) (Or.inr hi)
    have hne := h2.must (by rw [hent]; omega)
    cases hres : out.res with
    | none => exact absurd hres hne
    | some c =>
      refine ⟨c, out.info, h2.good c hres, ?_⟩
      intro recon fuel hf
      cases fuel with
      | zero => omega
      | succ fuel =>
        unfold findLoop
        rw [h1 recon]
        simp only [hres]
  | succ m ih =>
    intro k hk
    obtain ⟨out, h1, h2⟩ := branch_spec hA hD rt iterMax [k] g k none (by rw [hent]; exact hC)
      (by rw [hent]; exact hP) (by rw [hent]; exact hP.inv.nonempty hc) (Or.inr hi)
    cases hres : out.res with
    | none =>
      obtain ⟨c, info, h3, h4⟩ := ih (k + 1) (by omega)
      refine ⟨c, info, h3, ?_⟩
      intro recon fuel hf
      cases fuel with
      | zero => omega
      | succ fuel =>
        unfold findLoop
        rw [h1 recon]
        simp only [hres]
        exact h4 recon fuel (by omega)
    | some c =>
      refine ⟨c, out.info, h2.good c hres, ?_⟩
      intro recon fuel hf
      cases fuel with
      | zero => omega
      | succ fuel =>
        unfold findLoop
        rw [h1 recon]
        simp only [hres]

theorem mem_addIsolated {c : List (BVec n)} {r : BVec n} :
    r ∈ addIsolatedVerts c ↔ r ∈ c ∨ ∃ j, (∀ x ∈ c, x j = false) ∧ r = BVec.single j := by
  unfold addIsolatedVerts
  simp only [List.mem_append, List.mem_map, List.mem_filter, List.mem_finRange, true_and,
    Bool.not_eq_true', List.any_eq_false, Bool.not_eq_true]
  constructor
  · rintro (h | ⟨j, h1, rfl⟩)
    · exact Or.inl h
    · exact Or.inr ⟨j, h1, rfl⟩
  · rintro (h | ⟨j, h1, rfl⟩)
    · exact Or.inl h
    · exact Or.inr ⟨j, h1, rfl⟩

theorem coversEdges_addIsolated {A : BMat n} {c : List (BVec n)} :
    CoversEdges A (addIsolatedVerts c) ↔ CoversEdges A c := by
  constructor
  · intro h i j hij
    obtain ⟨r, hr, h1, h2⟩ := h i j hij
    rcases mem_addIsolated.mp hr with hr | ⟨x, -, rfl⟩
    · exact ⟨r, hr, h1, h2⟩
    · simp at h1 h2; exact absurd (h1.trans h2.symm) hij.2
  · intro h i j hij
    obtain ⟨r, hr, h1⟩ := h i j hij
    exact ⟨r, mem_addIsolated.mpr (Or.inl hr), h1⟩

/-- everything that is known of a run of `find_clique_min_cover` on a graph with an edge -/
theorem cliqueSearch_spec {A : BMat n} (hA : Symm A) (hD : UnitDiag A) (hE : ∃ i j, i < j ∧ A i j = true)
    (rt : Runtime n) :
    ∃ c info, Good A c info ∧ ∀ recon fuel, numEdgesOf A ≤ fuel →
      cliqueSearch recon rt fuel A = .ok (addIsolatedVerts c, some info) := by
  obtain ⟨i, j, hij, hadj⟩ := hE
  have hn : 0 < n := Nat.lt_of_le_of_lt (Nat.zero_le _) i.isLt
  rcases makeAux_cases rt.order hA hn with ⟨hno, -⟩ | ⟨hE, g, hg⟩
  · rw [hno i j (ne_of_lt hij)] at hadj; cases hadj
  · have hC := Coh.init hA hD rt.perm hg
    have hP := PCore.init hA hD rt.perm hg hE
    have hcov : g.cover = none := by rw [makeAux_ok hg]
    have hne : g.numEdges = numEdgesOf A := by rw [makeAux_ok hg]
    have hpos : numEdgesOf A ≠ 0 := numEdgesOf_ne_zero.mpr hE
    obtain ⟨c, info, h1, h2⟩ := findLoop_spec hA hD rt hC hP hcov 3 (by omega) (numEdgesOf A - 1) 1
      (by omega)
    refine ⟨c, info, h1, ?_⟩
    intro recon fuel hf
    obtain ⟨m, hm⟩ := maxIntersect_ok hD (A := A)
    unfold cliqueSearch
    rw [hg]
    simp only [hm]
    rw [h2 recon fuel (by omega)]

end Medil

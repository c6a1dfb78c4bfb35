import Verif.Props.Ecc
/-
  C218: what `find_clique_min_cover` does if some, but not all, diagonal entries are 1.
-/
namespace Medil
variable {n : Nat}

/-- the pair of `u` and `z`, smaller vertex first -/
def sortedPair (u z : Fin n) : Fin n × Fin n := if u < z then (u, z) else (z, u)

/-- what stays true during the reductions: the edge `u`-`z` is uncovered, its row is `u` at most, and no row contains `z` -/
structure HangState (u z : Fin n) (g : RG n) : Prop where
  mem : sortedPair u z ∈ g.extant
  row : ∀ w, g.common (sortedPair u z).1 (sortedPair u z).2 w = true → w = u
  count : g.counts (sortedPair u z).1 (sortedPair u z).2 = 0
  noRow : ∀ x y, g.common x y z = false

theorem card_le_one_of {u : Fin n} {r : BVec n} (h : ∀ w, r w = true → w = u) : r.card ≤ 1 := by
  unfold BVec.card
  rw [List.countP_eq_length_filter]
  have hn : ((List.finRange n).filter r).Nodup := (List.nodup_finRange n).filter _
  have : (List.finRange n).filter r ⊆ [u] := by
    intro w hw
    exact List.mem_singleton.mpr (h w (List.mem_filter.mp hw).2)
  exact (hn.subperm this).length_le

theorem HangState.score {u z : Fin n} {g : RG n} (h : HangState u z g) : g.score (sortedPair u z) = 0 := by
  have hc : (g.common.row (sortedPair u z).1 (sortedPair u z).2).card ≤ 1 :=
    card_le_one_of (u := u) fun w hw => h.row w (by simpa using hw)
  unfold RG.score
  rw [h.count]
  have : ∀ m : Nat, m ≤ 1 → nChoose2 (m : Int) - 0 = 0 := by
    intro m hm
    rcases Nat.le_one_iff_eq_zero_or_eq_one.mp hm with rfl | rfl <;> decide
  exact this _ hc

theorem HangState.rule1 {u z : Fin n} {g : RG n} (h : HangState u z g) : HangState u z g.rule1 := by
  unfold RG.rule1
  simp only
  split
  · exact h
  · refine ⟨h.mem, ?_, ?_, ?_⟩
    · intro w hw
      simp only [BTab.get_of, Bool.and_eq_true] at hw
      exact h.row w hw.1
    · simp only [ITab.get_of, h.count, RG.rule1Sub]
      rw [Int.zero_sub, neg_eq_zero]
      apply List.sum_eq_zero
      intro x hx
      obtain ⟨w, hw, rfl⟩ := List.mem_map.mp hx
      have hwu := h.row w (List.mem_filter.mp hw).2
      subst hwu
      have : countFin (fun x => g.unred w x && decide (x ≠ w) && g.common (sortedPair w z).1 (sortedPair w z).2 x) = 0 := by
        unfold countFin
        rw [List.countP_eq_zero]
        intro x _ hx
        simp only [Bool.and_eq_true, decide_eq_true_eq] at hx
        exact hx.1.2 (h.row x hx.2)
      exact_mod_cast this
    · intro x y
      simp [h.noRow x y]

theorem HangState.rule2 {u z : Fin n} {g : RG n} (h : HangState u z g) :
    HangState u z g.rule2 ∧ g.rule2.k = g.k - 1 ∧ g.rule2.reducing = true := by
  unfold RG.rule2
  cases he : (g.extant.filter fun e => g.score e == 0).getLast? with
  | none =>
    rw [List.getLast?_eq_none_iff] at he
    have : sortedPair u z ∈ g.extant.filter fun e => g.score e == 0 :=
      List.mem_filter.mpr ⟨h.mem, by simp [h.score]⟩
    rw [he] at this; cases this
  | some e =>
    have hz : z ∉ (g.common.row e.1 e.2).toList := by
      rw [BVec.mem_toList, BTab.get_row, h.noRow]; simp
    have hnot : sortedPair u z ∉ listPairs (g.common.row e.1 e.2).toList := by
      intro hc
      rcases lt_or_ge u z with hlt | hge
      · rw [sortedPair, if_pos hlt] at hc
        exact hz ((mem_listPairs (toList_sorted _)).mp hc).2.1
      · rw [sortedPair, if_neg (not_lt.mpr hge)] at hc
        exact hz ((mem_listPairs (toList_sorted _)).mp hc).1
    have hcov : ({ g with cover := some (g.cover.getD [] ++ [g.common.row e.1 e.2]) } : RG n).coverEdges =
        ({ g with cover := some (g.cover.getD [] ++ [g.common.row e.1 e.2]) } : RG n).coverPairs
          (listPairs (g.common.row e.1 e.2).toList) := by
      unfold RG.coverEdges; simp
    simp only [hcov]
    refine ⟨⟨?_, h.row, h.count, h.noRow⟩, rfl, trivial⟩
    exact List.mem_filter.mpr ⟨h.mem, by simpa using hnot⟩

theorem rule1_k (g : RG n) : g.rule1.k = g.k := by
  unfold RG.rule1; simp only; split <;> rfl

theorem HangState.reduceLoop {u z : Fin n} : ∀ (fuel : Nat) (g : RG n), HangState u z g → -1 ≤ g.k → g.k + 1 < fuel →
    ∃ g', RG.reduceLoop fuel g = .ok g' ∧ g'.k < 0 := by
  intro fuel
  induction fuel with
  | zero => intro g _ h1 h2; omega
  | succ fuel ih =>
    intro g h h1 h2
    have h0 : HangState u z { g with reducing := false } := ⟨h.mem, h.row, h.count, h.noRow⟩
    obtain ⟨h3, hk, hr⟩ := h0.rule1.rule2
    have hk' : ({ g with reducing := false } : RG n).rule1.rule2.k = g.k - 1 := by rw [hk, rule1_k]
    rw [RG.reduceLoop]
    split
    · rename_i hneg; exact ⟨_, rfl, hneg⟩
    · rename_i hneg
      exact ih _ h3 (by rw [hk']; omega) (by rw [hk']; push_cast at h2; omega)


/-- the number of vertices whose diagonal entry is 1 -/
def diagOnes (A : BMat n) : Nat := (Finset.univ.filter fun v : Fin n => A v v = true).card

/-- the number of edges -/
def edgeCount (A : BMat n) : Nat := (Finset.univ.filter fun e : Fin n × Fin n => e.1 < e.2 ∧ A e.1 e.2 = true).card

/-- **C218, proved part** If a vertex with diagonal entry 0 has a neighbour and lies in no triangle, `find_clique_min_cover` does not return:
it raises `ValueError` if the number of edges exceeds `t(t-1)/2` and `t²/4`, where `t` is the number of ones on the diagonal, and otherwise
runs forever. -/
theorem C218_hang_partial (A : BMat n) (hA : Symm A) (z u : Fin n) (hz : A z z = false) (hzu : A z u = true)
    (ht : ∀ x y, A z x = true → A z y = true → A x y = true → x = y) (rt : Runtime n) :
    (diagOnes A ^ 2 / 4 < edgeCount A ∧ diagOnes A * (diagOnes A - 1) / 2 < edgeCount A →
      ∀ fuel, findCliqueMinCover rt fuel A = .error .valueError) ∧
    (¬ (diagOnes A ^ 2 / 4 < edgeCount A ∧ diagOnes A * (diagOnes A - 1) / 2 < edgeCount A) →
      ∀ fuel, findCliqueMinCover rt fuel A = .error .hang) := by
  have huz : u ≠ z := by rintro rfl; rw [hz] at hzu; cases hzu
  have hn : 0 < n := z.pos
  rcases makeAux_cases rt.order hA hn with ⟨hno, -⟩ | ⟨hE, g, hg⟩
  · exact absurd hzu (by rw [hno z u huz.symm]; simp)
  have hgE : ((edgeList A).isEmpty && decide (n ≠ 0)) = false := by
    by_contra hc
    rw [Bool.not_eq_false] at hc
    unfold makeAux at hg; rw [if_pos hc] at hg; cases hg
  have hg2 := hg
  unfold makeAux at hg2
  rw [if_neg (by rw [hgE]; simp)] at hg2
  simp only [Except.ok.injEq] at hg2
  have hsym : A u z = true := by rw [hA u z]; exact hzu
  have hst : HangState u z g := by
    subst hg2
    have hpair : A (sortedPair u z).1 (sortedPair u z).2 = true ∧ (sortedPair u z).1 < (sortedPair u z).2 := by
      unfold sortedPair
      split
      · rename_i h; exact ⟨hsym, h⟩
      · rename_i h; exact ⟨hzu, lt_of_le_of_ne (not_lt.mp h) huz.symm⟩
    have hrow : ∀ w, commonOf A (sortedPair u z).1 (sortedPair u z).2 w = true → w = u := by
      intro w hw
      simp only [commonOf, BTab.get_of, Bool.and_eq_true] at hw
      have : A u w = true ∧ A z w = true := by
        have h := hw.2
        unfold sortedPair at h
        split at h
        · exact h
        · exact ⟨h.2, h.1⟩
      exact ht w u this.2 hzu (by rw [hA w u]; exact this.1)
    refine ⟨?_, hrow, ?_, ?_⟩
    · exact (rt.perm _).mem_iff.mpr (mem_edgeList.mpr ⟨hpair.2, hpair.1⟩)
    · show countsOf A (commonOf A) _ _ = 0
      simp only [countsOf, ITab.get_of]
      rw [if_pos hpair.2]
      have hl : ((commonOf A).row (sortedPair u z).1 (sortedPair u z).2).toList = [] ∨
          ((commonOf A).row (sortedPair u z).1 (sortedPair u z).2).toList = [u] ∧ A u u = true := by
        have hsub : ((commonOf A).row (sortedPair u z).1 (sortedPair u z).2).toList ⊆ [u] := by
          intro w hw
          exact List.mem_singleton.mpr (hrow w (by simpa using hw))
        have hnd : ((commonOf A).row (sortedPair u z).1 (sortedPair u z).2).toList.Nodup := (List.nodup_finRange n).filter _
        have hle := (hnd.subperm hsub).length_le
        cases hll : ((commonOf A).row (sortedPair u z).1 (sortedPair u z).2).toList with
        | nil => exact Or.inl rfl
        | cons w l =>
          right
          rw [hll] at hle hsub
          have hl0 : l = [] := List.length_eq_zero_iff.mp (by simpa using hle)
          have hwu : w = u := List.mem_singleton.mp (hsub (by simp))
          subst hl0 hwu
          refine ⟨rfl, ?_⟩
          have hm : w ∈ ((commonOf A).row (sortedPair w z).1 (sortedPair w z).2).toList := by rw [hll]; simp
          simp only [BVec.mem_toList, BTab.get_row, commonOf, BTab.get_of, Bool.and_eq_true] at hm
          have h := hm.2
          unfold sortedPair at h
          split at h
          · exact h.1
          · exact h.2
      have hcard : ((commonOf A).row (sortedPair u z).1 (sortedPair u z).2).card =
          ((commonOf A).row (sortedPair u z).1 (sortedPair u z).2).toList.length := by
        unfold BVec.card BVec.toList; rw [List.countP_eq_length_filter]
      rw [hcard]
      unfold subSum
      rcases hl with hl | ⟨hl, hu⟩
      · rw [hl]; simp
      · rw [hl]; simp [hu]
    · intro x y
      by_contra hc
      simp only [commonOf, BTab.get_of, Bool.not_eq_false, Bool.and_eq_true, decide_eq_true_eq] at hc
      have := ht x y (by rw [hA z x]; exact hc.2.1) (by rw [hA z y]; exact hc.2.2) hc.1.2
      exact absurd hc.1.1 (by rw [this]; exact lt_irrefl _)
  have hne : g.numEdges ≠ 0 := by subst hg2; exact numEdgesOf_ne_zero.mpr hE
  have hcov : g.cover = none := by subst hg2; rfl
  have hred : ∀ k : Nat, ∃ g', g.reduzieren k = .ok g' ∧ g'.k < 0 := by
    intro k
    unfold RG.reduzieren
    exact HangState.reduceLoop _ _ ⟨hst.mem, hst.row, hst.count, hst.noRow⟩ (by show (-1 : Int) ≤ (k : Int); omega)
      (by show (k : Int) + 1 < _; push_cast; omega)
  have hbr : ∀ (k : Nat) path, ∃ b i, branch RG.reconstructCover rt 3 path g k none = .ok ⟨none, b, i⟩ := by
    intro k path
    obtain ⟨g', h1, h2⟩ := hred k
    have hg0 : ({ g with cover := none } : RG n) = g := by rw [← hcov]
    refine ⟨sharedRedAway g.redAway g'.redAway, ⟨g'.redAway.isSome, false, decide (1 < path.length)⟩, ?_⟩
    · rw [branch, branchBody]
      simp only [hg0]
      have : g.coverEdges = g := by unfold RG.coverEdges; rw [hcov]
      rw [this, if_neg hne, h1]
      simp only
      rw [if_pos h2]
  have hloop : ∀ fuel k, findLoop RG.reconstructCover rt 3 g fuel k = .error .hang := by
    intro fuel
    induction fuel with
    | zero => intro k; rfl
    | succ fuel ih =>
      intro k
      obtain ⟨b, i, h⟩ := hbr k [k]
      rw [findLoop, h]
      exact ih (k + 1)
  have hdo : traceOf A = diagOnes A := countFin_eq _
  have hec : numEdgesOf A = edgeCount A := numEdgesOf_eq A
  have hch : nChoose2 ((diagOnes A : Nat) : Int) = ((diagOnes A * (diagOnes A - 1) / 2 : Nat) : Int) := by
    unfold nChoose2
    rcases Nat.eq_zero_or_pos (diagOnes A) with h | h
    · rw [h]; rfl
    · push_cast [Nat.cast_sub (show 1 ≤ diagOnes A from h)]; rfl
  constructor
  · rintro ⟨h1, h2⟩ fuel
    have hb : maxIntersectNum (traceOf A) (numEdgesOf A) = .error .valueError := by
      unfold maxIntersectNum
      rw [hdo, hec, if_pos h1]
      simp only
      rw [if_pos (by rw [hch]; omega)]
    unfold findCliqueMinCover cliqueSearch
    rw [hg]
    simp only [hb]
    rfl
  · intro h fuel
    have hb : ∃ b, maxIntersectNum (traceOf A) (numEdgesOf A) = .ok b := by
      unfold maxIntersectNum
      rw [hdo, hec]
      split
      · rename_i h1
        simp only
        rw [if_neg (by rw [hch]; have := fun h2 => h ⟨h1, h2⟩; omega)]
        exact ⟨_, rfl⟩
      · exact ⟨_, rfl⟩
    obtain ⟨b, hb⟩ := hb
    unfold findCliqueMinCover cliqueSearch
    rw [hg]
    simp only [hb, hloop]
    rfl

/-- **C218, full statement**: `find_clique_min_cover` returns, or raises an exception, for every symmetric matrix of zeros and ones -/
def C218_statement : Prop :=
  ∀ (n : Nat) (A : BMat n) (rt : Runtime n), 0 < n → Symm A → ∃ fuel, findCliqueMinCover rt fuel A ≠ .error .hang

/-- three measurements, the first two dependent, diagonal 1, 0, 1 -/
def mixedDiag : BMat 3 := BMat.of fun i j => decide (i.val + j.val = 1) || decide (i = j ∧ i ≠ 1)

/-- **C218 is false** already for three measurements. -/
theorem C218_false : ¬ C218_statement := by
  intro h
  obtain ⟨fuel, hf⟩ := h 3 mixedDiag (rt0 3) (by decide) (by unfold Symm; decide +kernel)
  exact hf ((C218_hang_partial mixedDiag (by unfold Symm; decide +kernel) 1 0 (by decide +kernel) (by decide +kernel)
    (by decide +kernel) (rt0 3)).2 (by decide +kernel) fuel)

end Medil

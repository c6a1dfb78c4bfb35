import Verif.Proofs.Reduce
namespace Medil
variable {n : Nat}

/-- a row as produced by the search: a clique with at least two members -/
def RowOK (A : BMat n) (r : BVec n) : Prop :=
  IsClique A (children r) ∧ ∃ i j, i ≠ j ∧ r i = true ∧ r j = true

structure Inv (A : BMat n) (g : RG n) : Prop where
  cliques : ∀ r ∈ g.rows, RowOK A r
  unc : ∀ i j, i ≠ j → g.adj i j = true → ∀ r ∈ g.rows, ¬ (r i = true ∧ r j = true)
  complete : g.redAway = none → ∀ i j, Adj A i j →
    g.adj i j = true ∨ ∃ r ∈ g.rows, r i = true ∧ r j = true
  nonempty : g.cover = none → g.numEdges ≠ 0

/-- an edge that will never be covered -/
def GoneP (A : BMat n) (g : RG n) : Prop := g.redAway.isSome = true → ∃ i j, Adj A i j ∧
  (∀ r ∈ g.rows, ¬ (r i = true ∧ r j = true)) ∧ ∀ u, u ≠ i → g.adj i u = false
def GoneQ (A : BMat n) (g : RG n) : Prop := g.redAway.isSome = true → ∃ i j, Adj A i j ∧
  (∀ r ∈ g.rows, ¬ (r i = true ∧ r j = true)) ∧ g.adj i i = false

/-- while nothing is covered, the edge counts of uncovered edges are exact; `D` are the vertices
deleted by rule 3 -/
def Exact (A : BMat n) (g : RG n) (L : Finset (Fin n) → Prop) : Prop :=
  g.cover = none → ∃ D : Finset (Fin n),
    (∀ i j, i ≠ j → (g.adj i j = true ↔ A i j = true ∧ i ∉ D ∧ j ∉ D)) ∧ L D ∧
    ∀ e ∈ g.extant, 2 * g.counts e.1 e.2 = twiceEdges A (children (g.common.row e.1 e.2))

def ExactP (A : BMat n) (g : RG n) : Prop :=
  Exact A g fun D => ∀ w ∈ D, ∀ w' ∈ D, g.adj w w = true → g.adj w' w' = true → w = w'
def ExactQ (A : BMat n) (g : RG n) : Prop :=
  Exact A g fun D => ∀ w ∈ D, g.adj w w = false

structure PCore (A : BMat n) (g : RG n) : Prop where
  inv : Inv A g
  gone : GoneP A g
  exact : ExactP A g

structure QCore (A : BMat n) (g : RG n) : Prop where
  inv : Inv A g
  gone : GoneQ A g
  exact : ExactQ A g

theorem PCore.congr {A : BMat n} {g : RG n} (h : PCore A g) (k : Int) (b : Bool) :
    PCore A { g with k := k, reducing := b } :=
  ⟨⟨h.inv.cliques, h.inv.unc, h.inv.complete, h.inv.nonempty⟩, h.gone, h.exact⟩

theorem Coh.dead_no_nbr {A : BMat n} {g : RG n} (h : Coh A g) {i : Fin n} (hi : g.adj i i = false)
    (u : Fin n) (hu : u ≠ i) : g.adj i u = false := by
  by_contra hc
  have := h.live i u (Ne.symm hu) (by simpa using hc)
  rw [hi] at this; cases this

theorem rule1_off (g : RG n) {i j : Fin n} (hij : i ≠ j) : g.rule1.adj i j = g.adj i j := by
  rw [rule1_adj]; simp [hij]

theorem rule1_rows (g : RG n) : g.rule1.rows = g.rows := by
  unfold RG.rows; rw [(rule1_fields g).2.2.2.1]

theorem Coh.rule1_dead {A : BMat n} {g : RG n} (h : Coh A g) {i : Fin n}
    (hi : ∀ u, u ≠ i → g.adj i u = false) : g.rule1.adj i i = false := by
  rw [rule1_adj]
  by_cases hv : g.adj i i = true
  · simp [(h.isolated i).mpr ⟨hv, hi⟩]
  · simp [hv]

theorem PCore.rule1 {A : BMat n} (hA : Symm A) {g : RG n} (hC : Coh A g) (h : PCore A g) :
    QCore A g.rule1 := by
  obtain ⟨f1, f2, f3, f4, f5, f6, f7, f8⟩ := rule1_fields g
  refine ⟨⟨?_, ?_, ?_, ?_⟩, ?_, ?_⟩
  · rw [rule1_rows]; exact h.inv.cliques
  · intro i j hij; rw [rule1_off g hij, rule1_rows]; exact h.inv.unc i j hij
  · intro hr i j hij
    rw [rule1_off g hij.2, rule1_rows]; exact h.inv.complete (by rw [← f6]; exact hr) i j hij
  · rw [f4, f3]; exact h.inv.nonempty
  · unfold GoneQ
    rw [f6, rule1_rows]
    intro hr
    obtain ⟨i, j, h1, h2, h3⟩ := h.gone hr
    exact ⟨i, j, h1, h2, hC.rule1_dead h3⟩
  · unfold ExactQ Exact
    rw [f4, f5]
    intro hc
    obtain ⟨D, h1, h2, h3⟩ := h.exact hc
    refine ⟨D, fun i j hij => by rw [rule1_off g hij]; exact h1 i j hij, ?_, ?_⟩
    · intro w hw
      apply hC.rule1_dead
      intro u hu
      by_contra hcc
      exact ((h1 w u (Ne.symm hu)).mp (by simpa using hcc)).2.1 hw
    · intro e he
      have h4 := h3 e he
      obtain ⟨hlt, hadj⟩ := (hC.ext e).mp he
      have hne := ne_of_lt hlt
      have h5 := (h1 _ _ hne).mp hadj
      rw [rule1_counts, rule1_row, rule1Sub_eq, hC.unred]
      generalize hS : children (g.common.row e.1 e.2) = S at *
      have hI : ∀ w ∈ S.filter (fun w => g.isolated w = true), w ∈ D ∧ g.adj w w = true := by
        intro w hw
        simp only [Finset.mem_filter] at hw
        obtain ⟨hw1, hw2⟩ := hw
        rw [← hS, mem_children, BTab.get_row, hC.common] at hw1
        obtain ⟨hl, hno⟩ := (hC.isolated w).mp hw2
        refine ⟨?_, hl⟩
        by_contra hwD
        have hwe : w ≠ e.1 := by
          rintro rfl
          rw [hno e.2 (Ne.symm hne)] at hadj; cases hadj
        have : g.adj w e.1 = true := (h1 w e.1 hwe).mpr ⟨by rw [hA]; exact hw1.2.2.1, hwD, h5.2.1⟩
        rw [hno e.1 (Ne.symm hwe)] at this; cases this
      rcases (S.filter (fun w => g.isolated w = true)).eq_empty_or_nonempty with hemp | ⟨x, hx⟩
      · rw [hemp]; simpa using h4
      · have hsing : S.filter (fun w => g.isolated w = true) = {x} := by
          ext y
          simp only [Finset.mem_singleton]
          constructor
          · intro hy
            exact h2 y (hI y hy).1 x (hI x hx).1 (hI y hy).2 (hI x hx).2
          · rintro rfl; exact hx
        have hxS : x ∈ S := (Finset.mem_filter.mp hx).1
        rw [hsing, Finset.sum_singleton]
        have h6 := twiceEdges_erase hA hxS
        rw [Finset.erase_eq] at h6
        omega

/-- adding a row (by rule 2 or by branching) -/
theorem QCore.addRow {A : BMat n} {g : RG n} (hC : Coh A g) (h : QCore A g) {r : BVec n}
    (hr : RowOK A r) (hlive : ∀ i, r i = true → g.adj i i = true) (R : Option (BMat n))
    (hR : R.isSome = g.redAway.isSome) (k : Int) (b : Bool) :
    PCore A { (g.coverPairs (listPairs r.toList)) with
      cover := some (g.rows ++ [r]), redAway := R, k := k, reducing := b } := by
  have hadj : ∀ i j, (g.coverPairs (listPairs r.toList)).adj i j =
      (g.adj i j && !(decide (i ≠ j) && r i && r j)) := fun i j => setEdges_row _ _ _ _
  have hrows : ∀ (g' : RG n), g'.cover = some (g.rows ++ [r]) →
      ∀ x, x ∈ g'.rows ↔ x ∈ g.rows ∨ x = r := by
    intro g' hg' x; unfold RG.rows at *; rw [hg']; simp
  refine ⟨⟨?_, ?_, ?_, ?_⟩, ?_, ?_⟩
  · intro x hx
    rcases (hrows _ (by rfl) x).mp hx with hx | rfl
    · exact h.inv.cliques x hx
    · exact hr
  · intro i j hij ha x hx
    simp only [hadj, Bool.and_eq_true] at ha
    rcases (hrows _ (by rfl) x).mp hx with hx | rfl
    · exact h.inv.unc i j hij ha.1 x hx
    · rintro ⟨h1, h2⟩; simp [hij, h1, h2] at ha
  · intro hR' i j hij
    have hnone : g.redAway = none := by
      have : R = none := hR'
      rw [this] at hR
      simpa using hR.symm
    rcases h.inv.complete hnone i j hij with ha | ⟨x, hx, hx'⟩
    · by_cases hrr : r i = true ∧ r j = true
      · exact Or.inr ⟨r, (hrows _ (by rfl) r).mpr (Or.inr rfl), hrr⟩
      · left
        simp only [hadj, ha, Bool.true_and, Bool.not_eq_true']
        by_contra hc
        simp only [Bool.not_eq_false, Bool.and_eq_true] at hc
        exact hrr ⟨hc.1.2, hc.2⟩
    · exact Or.inr ⟨x, (hrows _ (by rfl) x).mpr (Or.inl hx), hx'⟩
  · intro hc; cases hc
  · intro hs
    have hs' : g.redAway.isSome = true := by rw [← hR]; exact hs
    obtain ⟨i, j, h1, h2, h3⟩ := h.gone hs'
    refine ⟨i, j, h1, ?_, ?_⟩
    · intro x hx
      rcases (hrows _ (by rfl) x).mp hx with hx | rfl
      · exact h2 x hx
      · rintro ⟨hi, -⟩
        have := hlive i hi
        rw [h3] at this; cases this
    · intro u hu
      simp only [hadj, hC.dead_no_nbr h3 u hu, Bool.false_and]
  · intro hc; cases hc

theorem QCore.fire2 {A : BMat n} (hA : Symm A) (hD : UnitDiag A) {g : RG n} (hC : Coh A g)
    (h : QCore A g) {e : Fin n × Fin n} (he : e ∈ g.extant) (hs : g.score e = 0) :
    PCore A (g.fire2 e) := by
  obtain ⟨h1, h2⟩ := hC.ends_mem hD hA he
  have hlt := ((hC.ext e).mp he).1
  apply h.addRow hC (r := g.common.row e.1 e.2) _ _ g.redAway rfl
  · exact ⟨hC.score_clique he hs, e.1, e.2, ne_of_lt hlt, by simpa using h1, by simpa using h2⟩
  · intro i hi
    rw [BTab.get_row, hC.common] at hi
    exact hi.2.2.2.2

theorem two_mul_nChoose2 (c : Nat) : 2 * nChoose2 (c : Int) = ((c * (c - 1) : Nat) : Int) := by
  unfold nChoose2
  have hev : 2 ∣ c * (c - 1) := by
    rcases Nat.even_or_odd c with hc | hc
    · exact (hc.two_dvd).mul_right _
    · cases c with
      | zero => simp
      | succ m =>
        have : Even m := by
          rcases Nat.even_or_odd m with h' | h'
          · exact h'
          · exact absurd hc (by rw [Nat.not_odd_iff_even]; exact h'.add_one)
        exact (this.two_dvd).mul_left _
  have hcast : ((c * (c - 1) : Nat) : Int) = (c : Int) * ((c : Int) - 1) := by
    cases c with
    | zero => simp
    | succ m => push_cast; simp
  rw [← hcast]; omega

/-- exact count and clique imply score 0 -/
theorem score_zero {A : BMat n} {g : RG n} {e : Fin n × Fin n}
    (hx : 2 * g.counts e.1 e.2 = twiceEdges A (children (g.common.row e.1 e.2)))
    (hc : IsClique A (children (g.common.row e.1 e.2))) : g.score e = 0 := by
  have h1 := (twiceEdges_eq_iff A _).mpr hc
  have h2 := twiceEdges_le A (children (g.common.row e.1 e.2))
  have h3 := two_mul_nChoose2 (g.common.row e.1 e.2).card
  unfold RG.score
  rw [BVec.card_eq] at *
  omega

theorem QCore.fire3 {A : BMat n} (hA : Symm A) {g : RG n} (hC : Coh A g)
    (h : QCore A g) (hno : NoRule2 g) {v : Fin n} (hu : ∃ u, u ≠ v ∧ g.adj v u = true) :
    PCore A (g.fire3 v) := by
  have hadj := fire3_adj g hC.symm v
  have hle : ∀ i j, (g.fire3 v).adj i j = true → g.adj i j = true := by
    intro i j; rw [hadj]; simp only [Bool.and_eq_true]; exact fun h => h.1
  have hC' := hC.fire3 v
  obtain ⟨u, hu, huv⟩ := hu
  have hrows : (g.fire3 v).rows = g.rows := rfl
  refine ⟨⟨?_, ?_, ?_, ?_⟩, ?_, ?_⟩
  · rw [hrows]; exact h.inv.cliques
  · intro i j hij ha; rw [hrows]; exact h.inv.unc i j hij (hle i j ha)
  · intro hc; cases hc
  · intro hc hz
    have hc' : g.cover = none := hc
    obtain ⟨D, h1, h2, h3⟩ := h.exact hc'
    rw [hC'.nedges, numEdgesOf_eq_zero hC'.symm] at hz
    have hDuv := (h1 v u (Ne.symm hu)).mp huv
    -- the row of the edge {u,v} is {u,v}
    have key : ∀ a b, a < b → ((a = u ∧ b = v) ∨ (a = v ∧ b = u)) → False := by
      intro a b hab hor
      have hadjab : g.adj a b = true := by
        rcases hor with ⟨rfl, rfl⟩ | ⟨rfl, rfl⟩
        · rw [hC.symm]; exact huv
        · exact huv
      have he : (a, b) ∈ g.extant := (hC.ext (a, b)).mpr ⟨hab, hadjab⟩
      apply hno (a, b) he
      apply score_zero (h3 _ he)
      have hsub : ∀ w, g.common a b w = true → w = u ∨ w = v := by
        intro w hw
        rw [hC.common] at hw
        obtain ⟨-, -, hw1, hw2, hw3⟩ := hw
        by_contra hne
        simp only [not_or] at hne
        have hAuw : A u w = true := by
          rcases hor with ⟨rfl, rfl⟩ | ⟨rfl, rfl⟩
          · exact hw1
          · exact hw2
        have hwD : w ∉ D := fun hwD => by rw [h2 w hwD] at hw3; cases hw3
        have huw : g.adj u w = true := (h1 u w (Ne.symm hne.1)).mpr ⟨hAuw, hDuv.2.2, hwD⟩
        have := hz u w (Ne.symm hne.1)
        rw [hadj, huw] at this
        simp [hu, hne.2] at this
      intro i hi j hj hij
      simp only [mem_children, BTab.get_row] at hi hj
      have hAuv : A v u = true := hDuv.1
      rcases hsub i hi with rfl | rfl <;> rcases hsub j hj with rfl | rfl
      · exact absurd rfl hij
      · exact ⟨by rw [hA]; exact hAuv, hij⟩
      · exact ⟨hAuv, hij⟩
      · exact absurd rfl hij
    rcases lt_or_gt_of_ne hu with hlt | hlt
    · exact key u v hlt (Or.inl ⟨rfl, rfl⟩)
    · exact key v u hlt (Or.inr ⟨rfl, rfl⟩)
  · intro _
    refine ⟨v, u, ⟨hC.sub v u (Ne.symm hu) huv, Ne.symm hu⟩, ?_, ?_⟩
    · rw [hrows]; exact h.inv.unc v u (Ne.symm hu) huv
    · intro x hx
      rw [hadj]; simp [Ne.symm hx]
  · intro hc
    have hc' : g.cover = none := hc
    obtain ⟨D, h1, h2, h3⟩ := h.exact hc'
    refine ⟨insert v D, ?_, ?_, ?_⟩
    · intro i j hij
      rw [hadj]
      simp only [hij, ne_eq, not_false_iff, decide_true, Bool.true_and, Bool.and_eq_true,
        Bool.not_eq_true', Bool.or_eq_false_iff, decide_eq_false_iff_not, h1 i j hij,
        Finset.mem_insert, not_or]
      tauto
    · intro w hw w' hw' hl hl'
      have hdd : ∀ x ∈ insert v D, (g.fire3 v).adj x x = true → x = v := by
        intro x hx hxl
        rcases Finset.mem_insert.mp hx with rfl | hx
        · rfl
        · have := hle x x hxl
          rw [h2 x hx] at this; cases this
      rw [hdd w hw hl, hdd w' hw' hl']
    · intro e he
      have he' : e ∈ g.extant := by
        rw [hC.ext]
        have := (hC'.ext e).mp he
        exact ⟨this.1, hle _ _ this.2⟩
      exact h3 e he'

/-! ### reduzieren on the core invariant -/

theorem reduzieren_core {A : BMat n} (hA : Symm A) (hD : UnitDiag A) (g : RG n) (k : Int)
    (hC : Coh A g) (hP : PCore A g) :
    ∃ g', g.reduzieren k = .ok g' ∧ Coh A g' ∧
      (g.redAway.isSome = true → g'.redAway.isSome = true) ∧
      (g.cover.isSome = true → g'.cover.isSome = true) ∧
      ((g.numEdges : Int) ≤ k → (g'.numEdges : Int) ≤ g'.k) ∧
      (g'.k < 0 ∨ (0 ≤ g'.k ∧ QCore A g' ∧ Stuck g')) := by
  let X : RG n → Prop := fun h => (g.redAway.isSome = true → h.redAway.isSome = true) ∧
      (g.cover.isSome = true → h.cover.isSome = true) ∧
      ((g.numEdges : Int) ≤ k → (h.numEdges : Int) ≤ h.k)
  obtain ⟨g', h1, h2, h3⟩ := reduzieren_spec hA hD (fun h => PCore A h ∧ X h)
    (fun h => QCore A h ∧ X h)
    (fun h b hP => ⟨hP.1.congr h.k b, hP.2⟩)
    (fun h hC hP => by
      obtain ⟨f1, f2, f3, f4, f5, f6, f7, f8⟩ := rule1_fields h
      refine ⟨hP.1.rule1 hA hC, ?_⟩
      show (_ → _) ∧ (_ → _) ∧ (_ → _)
      rw [f3, f4, f6, f7]
      exact hP.2)
    (fun h e hC _ hQ he hs => by
      refine ⟨hQ.1.fire2 hA hD hC he hs, hQ.2.1, fun _ => rfl, fun hk => ?_⟩
      have h1 := hQ.2.2.2 hk
      have h2 := hC.fire2_lt hA hD he
      show ((h.fire2 e).numEdges : Int) ≤ h.k - 1
      omega)
    (fun h v hC _ hQ hno _ _ hu => by
      refine ⟨hQ.1.fire3 hA hC hno hu, fun _ => rfl, hQ.2.2.1, fun hk => ?_⟩
      obtain ⟨u, hu, huv⟩ := hu
      have h1 := hQ.2.2.2 hk
      have h2 := hC.fire3_lt hu huv
      show ((h.fire3 v).numEdges : Int) ≤ h.k
      omega)
    g k hC ⟨hP.congr k g.reducing, fun h => h, fun h => h, fun h => h⟩
  refine ⟨g', h1, h2, ?_⟩
  rcases h3 with ⟨hk, h | h⟩ | ⟨hk, hQ, hS⟩
  · exact ⟨h.2.1, h.2.2.1, h.2.2.2, Or.inl hk⟩
  · exact ⟨h.2.1, h.2.2.1, h.2.2.2, Or.inl hk⟩
  · exact ⟨hQ.2.1, hQ.2.2.1, hQ.2.2.2, Or.inr ⟨hk, hQ.1, hS⟩⟩

/-! ### choosing a neighbourhood -/

theorem argminScore_mem (g : RG n) (l : List (Fin n × Fin n)) (hl : l ≠ []) :
    ∃ e ∈ l, g.argminScore l = some e ∧ ∀ f ∈ l, g.score e ≤ g.score f := by
  induction l with
  | nil => exact absurd rfl hl
  | cons a l ih =>
    unfold RG.argminScore
    by_cases hl' : l = []
    · subst hl'
      exact ⟨a, by simp, by simp [RG.argminScore], by simp⟩
    · obtain ⟨e, he, heq, hmin⟩ := ih hl'
      rw [heq]
      simp only
      split <;> rename_i hlt
      · refine ⟨e, List.mem_cons_of_mem _ he, rfl, ?_⟩
        intro f hf
        rcases List.mem_cons.mp hf with rfl | hf
        · omega
        · exact hmin f hf
      · refine ⟨a, by simp, rfl, ?_⟩
        intro f hf
        rcases List.mem_cons.mp hf with rfl | hf
        · omega
        · have := hmin f hf; omega

theorem chooseNbrhood_ok {A : BMat n} (hA : Symm A) (hD : UnitDiag A) {g : RG n} (hC : Coh A g)
    (hE : g.numEdges ≠ 0) :
    ∃ N e, g.chooseNbrhood = .ok N ∧ e ∈ g.extant ∧ (∀ f ∈ g.extant, g.score e ≤ g.score f) ∧
      ∀ i j, N i j = (g.adj i j && g.common e.1 e.2 i && g.common e.1 e.2 j) := by
  have hne : g.extant ≠ [] := by
    rw [hC.nedges, numEdgesOf_ne_zero] at hE
    obtain ⟨i, j, hij, hadj⟩ := hE
    intro h
    have := (hC.ext (i, j)).mpr ⟨hij, hadj⟩
    rw [h] at this; simp at this
  obtain ⟨e, he, heq, hmin⟩ := argminScore_mem g g.extant hne
  refine ⟨BMat.of fun i j => g.adj i j && g.common.row e.1 e.2 i && g.common.row e.1 e.2 j,
    e, ?_, he, hmin, fun i j => by simp⟩
  unfold RG.chooseNbrhood
  rw [heq]
  simp only
  rw [if_neg]
  rw [Nat.not_le]
  obtain ⟨h1, h2⟩ := hC.ends_mem hD hA he
  obtain ⟨hlt, hadj⟩ := (hC.ext e).mp he
  have hnelt := ne_of_lt hlt
  -- sum over all rows
  rw [← List.sum_toFinset _ (List.nodup_finRange n)]
  have huniv : (List.finRange n).toFinset = (Finset.univ : Finset (Fin n)) := by ext; simp
  rw [huniv, BVec.card_eq]
  have hcard : (children (g.common.row e.1 e.2)).card =
      ∑ i : Fin n, if g.common e.1 e.2 i = true then 1 else 0 := by
    rw [← Finset.card_filter]
    congr 1
    ext i; simp
  rw [hcard]
  have hrow : ∀ i, countFin (fun j => (BMat.of (fun i j => g.adj i j && g.common.row e.1 e.2 i &&
      g.common.row e.1 e.2 j)) i j) = (Finset.univ.filter fun j => (g.adj i j && g.common e.1 e.2 i &&
      g.common e.1 e.2 j) = true).card := by
    intro i; rw [countFin_eq]; simp
  simp only [hrow]
  apply Finset.sum_lt_sum
  · intro i _
    split
    · rename_i hi
      rw [Nat.one_le_iff_ne_zero, ← Nat.pos_iff_ne_zero, Finset.card_pos]
      refine ⟨i, ?_⟩
      have hl := ((hC.common _ _ _).mp hi).2.2.2.2
      simp [hi, hl]
    · omega
  · refine ⟨e.1, Finset.mem_univ _, ?_⟩
    rw [if_pos h1, Finset.one_lt_card]
    have hl := ((hC.common _ _ _).mp h1).2.2.2.2
    exact ⟨e.1, by simp [h1, hl], e.2, by simp [h1, h2, hadj], hnelt⟩

theorem IsClique.exists_maximal {A : BMat n} {T : Finset (Fin n)} (hT : IsClique A T) :
    ∃ S, T ⊆ S ∧ IsMaximalClique A S := by
  classical
  let F := (Finset.univ : Finset (Finset (Fin n))).filter fun S => T ⊆ S ∧ IsClique A S
  have hne : F.Nonempty := ⟨T, by simp [F, hT]⟩
  obtain ⟨S, hS, hmax⟩ := Finset.exists_max_image F Finset.card hne
  simp only [F, Finset.mem_filter, Finset.mem_univ, true_and] at hS hmax
  refine ⟨S, hS.1, hS.2, fun v hv hc => ?_⟩
  have := hmax (insert v S) ⟨hS.1.trans (Finset.subset_insert _ _), hc⟩
  rw [Finset.card_insert_of_notMem hv] at this
  omega

/-- what `branch` gets from `max_cliques(choose_nbrhood())` -/
structure CliqueList (g : RG n) (ys : List (List (Fin n))) : Prop where
  each : ∀ y ∈ ys, y.length ≠ 1 → ∃ i j, i ≠ j ∧ i ∈ y ∧ j ∈ y ∧
    ∀ a ∈ y, ∀ b ∈ y, a ≠ b → g.adj a b = true
  exists2 : ∃ y ∈ ys, y.length ≠ 1

theorem cliqueList_of_nbrhood {A : BMat n} (hA : Symm A) (hD : UnitDiag A) {g : RG n} (hC : Coh A g)
    (hE : g.numEdges ≠ 0) (o : Sched n) :
    ∃ N ys, g.chooseNbrhood = .ok N ∧ maxCliques o N = .ok ys ∧ CliqueList g ys := by
  obtain ⟨N, e, hN, he, -, hNij⟩ := chooseNbrhood_ok hA hD hC hE
  have hsym : Symm N := by
    intro i j; rw [hNij, hNij, hC.symm i j]
    cases g.adj j i <;> cases g.common e.1 e.2 i <;> cases g.common e.1 e.2 j <;> rfl
  obtain ⟨hlt, hadj⟩ := (hC.ext e).mp he
  have hn : 0 < n := Nat.lt_of_le_of_lt (Nat.zero_le _) e.1.isLt
  obtain ⟨ys, h1, h2, h3, h4⟩ := maxCliques_correct hsym hn o
  refine ⟨N, ys, hN, h1, ?_, ?_⟩
  · intro y hy hlen
    have hmax := (h4 y.toFinset).mp (List.mem_map_of_mem hy)
    have hne0 : y ≠ [] := by
      rintro rfl
      apply hmax.2 e.1 (by simp)
      intro a ha b hb hab
      simp at ha hb
      exact absurd (ha.trans hb.symm) hab
    have h2le : 1 < y.toFinset.card := by
      rw [List.toFinset_card_of_nodup (h2 y hy)]
      have : y.length ≠ 0 := by simpa using hne0
      omega
    obtain ⟨i, hi, j, hj, hij⟩ := Finset.one_lt_card.mp h2le
    refine ⟨i, j, hij, by simpa using hi, by simpa using hj, ?_⟩
    intro a ha b hb hab
    have := (hmax.1 a (by simpa using ha) b (by simpa using hb) hab).1
    rw [hNij] at this
    simp only [Bool.and_eq_true] at this
    exact this.1.1
  · obtain ⟨hm1, hm2⟩ := hC.ends_mem hD hA he
    have hcl : IsClique N {e.1, e.2} := by
      intro a ha b hb hab
      refine ⟨?_, hab⟩
      simp only [Finset.mem_insert, Finset.mem_singleton] at ha hb
      rw [hNij]
      rcases ha with rfl | rfl <;> rcases hb with rfl | rfl
      · exact absurd rfl hab
      · simp [hadj, hm1, hm2]
      · rw [hC.symm]; simp [hadj, hm1, hm2]
      · exact absurd rfl hab
    obtain ⟨S, hTS, hS⟩ := hcl.exists_maximal
    obtain ⟨y, hy, rfl⟩ := List.mem_map.mp ((h4 S).mpr hS)
    refine ⟨y, hy, fun hlen => ?_⟩
    have hc := Finset.card_le_card hTS
    rw [Finset.card_pair (ne_of_lt hlt), List.toFinset_card_of_nodup (h2 y hy)] at hc
    omega

/-- covering one more clique never covers everything in a stuck state -/
theorem child_nonzero {A : BMat n} {g : RG n} (hC : Coh A g) (hS : Stuck g) {r : BVec n} {i j : Fin n}
    (hij : i ≠ j) (hi : r i = true) (hj : r j = true)
    (hcl : ∀ a b, r a = true → r b = true → a ≠ b → g.adj a b = true) :
    numEdgesOf (setEdges false g.adj (listPairs r.toList)) ≠ 0 := by
  intro hz
  have hsym : Symm (setEdges false g.adj (listPairs r.toList)) :=
    (hC.coverPairs _ (rowPairs_lt r)).symm
  rw [numEdgesOf_eq_zero hsym] at hz
  have hin : ∀ a b, a ≠ b → g.adj a b = true → r a = true ∧ r b = true := by
    intro a b hab hadj
    have := hz a b hab
    rw [setEdges_row, hadj] at this
    simpa [hab] using this
  have hlive : ∀ a, r a = true → g.adj a a = true := by
    intro a ha
    by_cases hai : a = i
    · subst hai; exact hC.live a j hij (hcl a j ha hj hij)
    · exact hC.live a i hai (hcl a i ha hi hai)
  have hall : ∀ a b, r a = true → r b = true → g.adj a b = true := by
    intro a b ha hb
    by_cases hab : a = b
    · subst hab; exact hlive a ha
    · exact hcl a b ha hb hab
  have hex : ∀ u, g.exits i u = false := by
    intro u
    unfold RG.exits
    rw [BVec.get_of]
    by_contra hc
    simp only [Bool.not_eq_false, Bool.and_eq_true, List.any_eq_true, List.mem_finRange, true_and,
      Bool.not_eq_true'] at hc
    obtain ⟨hiu, w, huw, hiw⟩ := hc
    have hru : r u = true := by
      by_cases h : i = u
      · rw [← h]; exact hi
      · exact (hin i u h hiu).2
    have hrw : r w = true := by
      by_cases h : u = w
      · rw [← h]; exact hru
      · exact (hin u w h huw).2
    rw [hall i w hi hrw] at hiw; cases hiw
  have hdom : g.dominate i = true := by
    unfold RG.dominate
    simp only [List.all_eq_true, BVec.mem_toList]
    intro e he
    rw [hex e] at he; cases he
  have := hS.no3 i (hlive i hi)
  rw [hdom] at this; cases this

/-! ### the search -/

/-- what is claimed of a returned cover and its path -/
def Good (A : BMat n) (c : List (BVec n)) (info : PathInfo) : Prop :=
  (∀ r ∈ c, RowOK A r) ∧ (CoversEdges A c ↔ info.rule3 = false ∧ info.capped = false)

structure OutOK (A : BMat n) (red : Bool) (must : Prop) (out : BranchOut n) : Prop where
  red : out.redAway.isSome = red
  good : ∀ c, out.res = some c → Good A c out.info
  must : must → out.res ≠ none

theorem cliqueLoop_spec {A : BMat n} {g : RG n} (hC : Coh A g) (k : Int)
    (info : PathInfo)
    (hcap : ∀ c, g.cover = some c → Good A c info) (must : Prop)
    (ys : List (List (Fin n)))
    (hys : ∀ y ∈ ys, y.length ≠ 1 → ∃ i j, i ≠ j ∧ i ∈ y ∧ j ∈ y ∧
      ∀ a ∈ y, ∀ b ∈ y, a ≠ b → g.adj a b = true)
    (rec : Option (Nat → RG n → Int → List (BVec n) → Except PyErr (BranchOut n)))
    (hrec : ∀ f, rec = some f → ∀ i R (r : BVec n), R.isSome = g.redAway.isSome →
      (∃ i j, i ≠ j ∧ r i = true ∧ r j = true) →
      (∀ a b, r a = true → r b = true → a ≠ b → g.adj a b = true) →
      ∃ out, f i { g with redAway := R } (k - 1) (g.rows ++ [r]) = .ok out ∧
        OutOK A g.redAway.isSome must out)
    (hnone : must → rec = none → g.cover ≠ none) :
    ∀ i R, R.isSome = g.redAway.isSome →
      ∃ out, cliqueLoop g k info rec i R ys = .ok out ∧
        OutOK A g.redAway.isSome (must ∧ ∃ y ∈ ys, y.length ≠ 1) out := by
  induction ys with
  | nil =>
    intro i R hR
    exact ⟨⟨none, R, info⟩, rfl, ⟨hR, by simp, by simp⟩⟩
  | cons y ys ih =>
    intro i R hR
    have ih' := ih (fun y' hy' => hys y' (List.mem_cons_of_mem _ hy'))
    unfold cliqueLoop
    by_cases hlen : y.length = 1
    · rw [if_pos hlen]
      obtain ⟨out, h1, h2⟩ := ih' (i + 1) R hR
      refine ⟨out, h1, h2.red, h2.good, ?_⟩
      rintro ⟨hm, y', hy', hl⟩
      apply h2.must
      rcases List.mem_cons.mp hy' with rfl | hy'
      · exact absurd hlen hl
      · exact ⟨hm, y', hy', hl⟩
    · rw [if_neg hlen, if_neg (by simpa using hC.verts)]
      obtain ⟨a, b, hab, ha, hb, hadj⟩ := hys y (by simp) hlen
      cases hrc : rec with
      | none =>
        refine ⟨⟨g.cover, R, info⟩, rfl, hR, fun c hc => hcap c hc, fun hm => hnone hm.1 hrc⟩
      | some f =>
        simp only
        obtain ⟨out, h1, h2⟩ := hrec f hrc i R (BVec.of fun v => y.contains v) hR
          ⟨a, b, hab, by simpa using ha, by simpa using hb⟩
          (by intro a b ha hb; simp at ha hb; exact hadj a ha b hb)
        have h1' : f i { g with redAway := R } (k - 1)
            (g.cover.getD [] ++ [BVec.of fun v => y.contains v]) = .ok out := h1
        rw [h1']
        simp only
        cases hres : out.res with
        | some c =>
          exact ⟨⟨some c, out.redAway, out.info⟩, rfl, h2.red,
            fun c' hc' => by cases hc'; exact h2.good c hres, fun _ => by simp⟩
        | none =>
          simp only
          rw [← hrc]
          obtain ⟨out', h3, h4⟩ := ih' (i + 1) out.redAway h2.red
          exact ⟨out', h3, h4.red, h4.good, fun hm => absurd hres (h2.must hm.1)⟩

theorem stuck_covers {A : BMat n} {g : RG n} (hC : Coh A g) (hQ : QCore A g) (hE : g.numEdges = 0)
    (c : List (BVec n)) (hc : g.cover = some c) (b : Bool) :
    Good A c ⟨g.redAway.isSome, false, b⟩ := by
  have hrows : g.rows = c := by unfold RG.rows; rw [hc]; rfl
  refine ⟨by rw [← hrows]; exact hQ.inv.cliques, ?_⟩
  cases hr : g.redAway with
  | none =>
    simp only [Option.isSome_none, and_self, iff_true]
    intro i j hij
    rw [hC.nedges, numEdgesOf_eq_zero hC.symm] at hE
    rcases hQ.inv.complete hr i j hij with h | h
    · rw [hE i j hij.2] at h; cases h
    · rw [hrows] at h; exact h
  | some R =>
    simp only [Option.isSome_some, Bool.true_eq_false, false_and, iff_false]
    intro hcov
    obtain ⟨i, j, h1, h2, -⟩ := hQ.gone (by rw [hr]; rfl)
    obtain ⟨r, hr1, hr2⟩ := hcov i j h1
    rw [hrows] at h2
    exact h2 r hr1 hr2

theorem capped_good {A : BMat n} {g : RG n} (hC : Coh A g) (hQ : QCore A g) (hE : g.numEdges ≠ 0)
    (c : List (BVec n)) (hc : g.cover = some c) (a b : Bool) : Good A c ⟨a, true, b⟩ := by
  have hrows : g.rows = c := by unfold RG.rows; rw [hc]; rfl
  refine ⟨by rw [← hrows]; exact hQ.inv.cliques, ?_⟩
  simp only [Bool.true_eq_false, and_false, iff_false]
  intro hcov
  rw [hC.nedges, numEdgesOf_ne_zero] at hE
  obtain ⟨i, j, hij, hadj⟩ := hE
  have hne := ne_of_lt hij
  obtain ⟨r, hr1, hr2⟩ := hcov i j ⟨hC.sub i j hne hadj, hne⟩
  rw [← hrows] at hr1
  exact hQ.inv.unc i j hne hadj r hr1 hr2

theorem sharedRedAway_isSome {a b : Option (BMat n)} (h : a.isSome = true → b.isSome = true) :
    (sharedRedAway a b).isSome = a.isSome := by
  cases a with
  | none => rfl
  | some x => exact h rfl

/-- the state in which `branch` starts reducing -/
def entry (graph : RG n) (cover : Option (List (BVec n))) : RG n :=
  { graph with cover := cover }.coverEdges

theorem entry_redAway (graph : RG n) (cover : Option (List (BVec n))) :
    (entry graph cover).redAway = graph.redAway := by
  unfold entry RG.coverEdges
  split
  · rfl
  · split <;> rfl

theorem entry_cover (graph : RG n) (cover : Option (List (BVec n))) :
    (entry graph cover).cover = cover := by
  unfold entry RG.coverEdges
  split
  · rfl
  · split <;> rfl

theorem branch_spec {A : BMat n} (hA : Symm A) (hD : UnitDiag A) (rt : Runtime n) :
    ∀ rem path graph k cover, Coh A (entry graph cover) → PCore A (entry graph cover) →
      (entry graph cover).numEdges ≠ 0 → (cover.isSome = true ∨ 0 < rem) →
      ∃ out, (∀ recon, branch recon rt rem path graph k cover = .ok out) ∧
        OutOK A graph.redAway.isSome (((entry graph cover).numEdges : Int) ≤ k) out := by
  intro rem
  induction rem with
  | zero =>
    intro path graph k cover hC hP hE hcs
    obtain ⟨g', hred, hC', hra, hcov, hbud, hcase⟩ := reduzieren_core hA hD _ k hC hP
    rw [entry_redAway] at hra
    rw [entry_cover] at hcov
    rcases hcase with hk | ⟨hk, hQ, hS⟩
    · refine ⟨⟨none, sharedRedAway graph.redAway g'.redAway,
        ⟨g'.redAway.isSome, false, decide (1 < path.length)⟩⟩, ?_, ?_⟩
      · intro recon
        unfold branch branchBody
        change (if (entry graph cover).numEdges = 0 then _ else _) = _
        rw [if_neg hE]
        change (match (entry graph cover).reduzieren k with | .error e => _ | .ok g => _) = _
        rw [hred]
        simp only [hk, if_true]
      · exact ⟨sharedRedAway_isSome hra, by simp, fun hb => by have := hbud hb; omega⟩
    · by_cases hE' : g'.numEdges = 0
      · refine ⟨⟨g'.cover, sharedRedAway graph.redAway g'.redAway,
          ⟨g'.redAway.isSome, false, decide (1 < path.length)⟩⟩, ?_, ?_⟩
        · intro recon
          unfold branch branchBody
          change (if (entry graph cover).numEdges = 0 then _ else _) = _
          rw [if_neg hE]
          change (match (entry graph cover).reduzieren k with | .error e => _ | .ok g => _) = _
          rw [hred]
          simp only [if_neg (Int.not_lt.mpr hk), hE', if_true]
        · exact ⟨sharedRedAway_isSome hra, fun c hc => stuck_covers hC' hQ hE' c hc _,
            fun _ h => hQ.inv.nonempty h hE'⟩
      · obtain ⟨N, ys, hN, hmc, hcl⟩ := cliqueList_of_nbrhood hA hD hC' hE' (rt.sched path)
        obtain ⟨out, h1, h2⟩ := cliqueLoop_spec hC' g'.k
          ⟨g'.redAway.isSome, true, decide (1 < path.length)⟩
          (fun c hc => capped_good hC' hQ hE' c hc _ _)
          (((entry graph cover).numEdges : Int) ≤ k) ys hcl.each none (by simp)
          (fun _ _ hn => by
            rcases hcs with hcs | hcs
            · have := hcov hcs; rw [hn] at this; cases this
            · omega) 0 g'.redAway rfl
        refine ⟨⟨out.res, sharedRedAway graph.redAway out.redAway, out.info⟩, ?_, ?_⟩
        · intro recon
          unfold branch branchBody
          change (if (entry graph cover).numEdges = 0 then _ else _) = _
          rw [if_neg hE]
          change (match (entry graph cover).reduzieren k with | .error e => _ | .ok g => _) = _
          rw [hred]
          simp only [if_neg (Int.not_lt.mpr hk), hE', if_false, hN, hmc, h1]
        · exact ⟨sharedRedAway_isSome (fun h => by rw [h2.red]; exact hra h), h2.good,
            fun hm => h2.must ⟨hm, hcl.exists2⟩⟩
  | succ rem ih =>
    intro path graph k cover hC hP hE hcs
    obtain ⟨g', hred, hC', hra, hcov, hbud, hcase⟩ := reduzieren_core hA hD _ k hC hP
    rw [entry_redAway] at hra
    rw [entry_cover] at hcov
    rcases hcase with hk | ⟨hk, hQ, hS⟩
    · refine ⟨⟨none, sharedRedAway graph.redAway g'.redAway,
        ⟨g'.redAway.isSome, false, decide (1 < path.length)⟩⟩, ?_, ?_⟩
      · intro recon
        unfold branch branchBody
        change (if (entry graph cover).numEdges = 0 then _ else _) = _
        rw [if_neg hE]
        change (match (entry graph cover).reduzieren k with | .error e => _ | .ok g => _) = _
        rw [hred]
        simp only [hk, if_true]
      · exact ⟨sharedRedAway_isSome hra, by simp, fun hb => by have := hbud hb; omega⟩
    · by_cases hE' : g'.numEdges = 0
      · refine ⟨⟨g'.cover, sharedRedAway graph.redAway g'.redAway,
          ⟨g'.redAway.isSome, false, decide (1 < path.length)⟩⟩, ?_, ?_⟩
        · intro recon
          unfold branch branchBody
          change (if (entry graph cover).numEdges = 0 then _ else _) = _
          rw [if_neg hE]
          change (match (entry graph cover).reduzieren k with | .error e => _ | .ok g => _) = _
          rw [hred]
          simp only [if_neg (Int.not_lt.mpr hk), hE', if_true]
        · exact ⟨sharedRedAway_isSome hra, fun c hc => stuck_covers hC' hQ hE' c hc _,
            fun _ h => hQ.inv.nonempty h hE'⟩
      · obtain ⟨N, ys, hN, hmc, hcl⟩ := cliqueList_of_nbrhood hA hD hC' hE' (rt.sched path)
        -- the recursive calls
        have hchild : ∀ i R (r : BVec n), R.isSome = g'.redAway.isSome →
            (∃ i j, i ≠ j ∧ r i = true ∧ r j = true) →
            (∀ a b, r a = true → r b = true → a ≠ b → g'.adj a b = true) →
            ∃ out, (∀ recon, branch recon rt rem (i :: path) { g' with redAway := R } (g'.k - 1)
                (some (g'.rows ++ [r])) = .ok out) ∧
              OutOK A g'.redAway.isSome (((entry graph cover).numEdges : Int) ≤ k) out := by
          intro i R r hR hex hall
          obtain ⟨a, b, hab, hra', hrb'⟩ := hex
          have hent : entry { g' with redAway := R } (some (g'.rows ++ [r])) =
              { (g'.coverPairs (listPairs r.toList)) with
                cover := some (g'.rows ++ [r]), redAway := R, k := g'.k, reducing := g'.reducing } := by
            unfold entry
            rw [coverEdges_append _ g'.rows r rfl]
            rfl
          have hlive : ∀ x, r x = true → g'.adj x x = true := by
            intro x hx
            by_cases hxa : x = a
            · subst hxa; exact hC'.live x b hab (hall x b hx hrb' hab)
            · exact hC'.live x a hxa (hall x a hx hra' hxa)
          have hrow : RowOK A r := by
            refine ⟨fun x hx y hy hxy => ⟨hC'.sub x y hxy (hall x y (by simpa using hx)
              (by simpa using hy) hxy), hxy⟩, a, b, hab, hra', hrb'⟩
          obtain ⟨out, h1, h2⟩ := ih (i :: path) { g' with redAway := R } (g'.k - 1)
            (some (g'.rows ++ [r]))
            (by rw [hent]; exact (hC'.coverPairs _ (rowPairs_lt r)).congr _ _ _ _)
            (by rw [hent]; exact hQ.addRow hC' hrow hlive R hR _ _)
            (by rw [hent]; exact child_nonzero hC' hS hab hra' hrb' hall)
            (Or.inl rfl)
          refine ⟨out, h1, by rw [h2.red]; exact hR, h2.good, fun hm => h2.must ?_⟩
          have hb := hbud hm
          rw [hent]
          have hlt : (g'.coverPairs (listPairs r.toList)).numEdges < g'.numEdges := by
            rcases lt_or_gt_of_ne hab with hlt | hlt
            · exact hC'.coverPairs_lt (e := (a, b)) (mem_rowPairs.mpr ⟨hra', hrb', hlt⟩) hlt
                (hall a b hra' hrb' hab)
            · exact hC'.coverPairs_lt (e := (b, a)) (mem_rowPairs.mpr ⟨hrb', hra', hlt⟩) hlt
                (hall b a hrb' hra' (Ne.symm hab))
          show ((g'.coverPairs (listPairs r.toList)).numEdges : Int) ≤ g'.k - 1
          omega
        have hloop : ∀ recon, ∃ out, cliqueLoop g' g'.k
            ⟨g'.redAway.isSome, true, decide (1 < path.length)⟩
            (some fun i g'' k' c => branch recon rt rem (i :: path) g'' k' (some c))
            0 g'.redAway ys = .ok out ∧
            OutOK A g'.redAway.isSome ((((entry graph cover).numEdges : Int) ≤ k) ∧
              ∃ y ∈ ys, y.length ≠ 1) out := by
          intro recon
          apply cliqueLoop_spec hC' g'.k _ (fun c hc => capped_good hC' hQ hE' c hc _ _) _ ys hcl.each
          · intro f hf i R r hR hex hall
            cases hf
            obtain ⟨out, h1, h2⟩ := hchild i R r hR hex hall
            exact ⟨out, h1 recon, h2⟩
          · simp
          · rfl
        have hindep : ∀ recon recon' i R, R.isSome = g'.redAway.isSome → cliqueLoop g' g'.k
            ⟨g'.redAway.isSome, true, decide (1 < path.length)⟩
            (some fun i g'' k' c => branch recon rt rem (i :: path) g'' k' (some c)) i R ys =
            cliqueLoop g' g'.k ⟨g'.redAway.isSome, true, decide (1 < path.length)⟩
            (some fun i g'' k' c => branch recon' rt rem (i :: path) g'' k' (some c)) i R ys := by
          intro recon recon'
          have heach := hcl.each
          clear hcl hmc hloop
          induction ys with
          | nil => intro i R _; rfl
          | cons y ys ihy =>
            intro i R hR
            have ihy' := ihy (fun y' hy' => heach y' (List.mem_cons_of_mem _ hy'))
            unfold cliqueLoop
            by_cases hlen : y.length = 1
            · rw [if_pos hlen, if_pos hlen]; exact ihy' _ _ hR
            · rw [if_neg hlen, if_neg hlen, if_neg (by simpa using hC'.verts),
                if_neg (by simpa using hC'.verts)]
              obtain ⟨a, b, hab, ha, hb, hadj⟩ := heach y (by simp) hlen
              obtain ⟨out, h1, h2⟩ := hchild i R (BVec.of fun v => y.contains v) hR
                ⟨a, b, hab, by simpa using ha, by simpa using hb⟩
                (by intro a b ha hb; simp at ha hb; exact hadj a ha b hb)
              simp only [RG.rows] at h1
              simp only [h1]
              cases hres : out.res with
              | some c => rfl
              | none => exact ihy' _ _ h2.red
        obtain ⟨out, h1, h2⟩ := hloop RG.reconstructCover
        refine ⟨⟨out.res, sharedRedAway graph.redAway out.redAway, out.info⟩, ?_, ?_⟩
        · intro recon
          unfold branch branchBody
          change (if (entry graph cover).numEdges = 0 then _ else _) = _
          rw [if_neg hE]
          change (match (entry graph cover).reduzieren k with | .error e => _ | .ok g => _) = _
          rw [hred]
          have h1' := (hindep recon RG.reconstructCover 0 g'.redAway rfl).trans h1
          simp only [if_neg (Int.not_lt.mpr hk), hE', if_false, hN, hmc, h1']
        · exact ⟨sharedRedAway_isSome (fun h => by rw [h2.red]; exact hra h), h2.good,
            fun hm => h2.must ⟨hm, hcl.exists2⟩⟩

end Medil

import Verif.Proofs.Search
import Mathlib.Data.List.Perm.Lattice
namespace Medil
variable {n : Nat}

/-- child sets of the `l`-th latent -/
def rowSet (B : List (BVec n)) (l : Nat) : Finset (Fin n) := ((B.map children)[l]?).getD ∅

theorem rowSet_lt {B : List (BVec n)} {l : Nat} (h : l < B.length) : rowSet B l = children B[l] := by
  simp [rowSet, h]

theorem mem_rowSet {B : List (BVec n)} {l : Nat} {v : Fin n} :
    v ∈ rowSet B l ↔ ∃ h : l < B.length, B[l] v = true := by
  by_cases h : l < B.length
  · simp [rowSet_lt h, h]
  · simp [rowSet, h]

/-- hypotheses: `A` is the dependence graph of the one-pure-child structure `B` -/
structure OpcGraph (A : BMat n) (B : List (BVec n)) : Prop where
  symm : Symm A
  diag : UnitDiag A
  opc : OnePureChild B
  udg : IsUDGOf A B

theorem OpcGraph.adj_iff {A : BMat n} {B : List (BVec n)} (h : OpcGraph A B) {i j : Fin n}
    (hij : i ≠ j) : A i j = true ↔ ∃ l, i ∈ rowSet B l ∧ j ∈ rowSet B l := by
  rw [h.udg i j hij]
  constructor
  · rintro ⟨r, hr, h1, h2⟩
    obtain ⟨l, hl, rfl⟩ := List.getElem_of_mem hr
    exact ⟨l, mem_rowSet.mpr ⟨hl, h1⟩, mem_rowSet.mpr ⟨hl, h2⟩⟩
  · rintro ⟨l, h1, h2⟩
    obtain ⟨hl, h1⟩ := mem_rowSet.mp h1
    obtain ⟨_, h2⟩ := mem_rowSet.mp h2
    exact ⟨B[l], List.getElem_mem hl, h1, h2⟩

theorem PureChild.mem_iff {B : List (BVec n)} {l : Nat} {p : Fin n} (h : PureChild B l p)
    (hl : l < B.length) {l' : Nat} : p ∈ rowSet B l' ↔ l' = l := by
  rw [mem_rowSet]
  constructor
  · rintro ⟨hl', hp⟩; exact (h l' hl').mp hp
  · rintro rfl; exact ⟨hl, (h _ hl).mpr rfl⟩

theorem OpcGraph.pure {A : BMat n} {B : List (BVec n)} (h : OpcGraph A B) {l : Nat} {v : Fin n}
    (hv : v ∈ rowSet B l) : ∃ hl : l < B.length, ∃ p, PureChild B l p ∧ p ∈ rowSet B l := by
  obtain ⟨hl, -⟩ := mem_rowSet.mp hv
  obtain ⟨p, hp⟩ := h.opc.1 l hl
  exact ⟨hl, p, hp, (hp.mem_iff hl).mpr rfl⟩

/-- neighbours of a pure child are the children of its latent -/
theorem OpcGraph.pure_adj {A : BMat n} {B : List (BVec n)} (h : OpcGraph A B) {l : Nat}
    (hl : l < B.length) {p w : Fin n} (hp : PureChild B l p) : A p w = true ↔ w ∈ rowSet B l := by
  by_cases hw : p = w
  · subst hw; simp [h.diag p, hp.mem_iff hl]
  · rw [h.adj_iff hw]
    constructor
    · rintro ⟨l', h1, h2⟩
      have := (hp.mem_iff hl).mp h1
      subst this; exact h2
    · intro h2; exact ⟨l, (hp.mem_iff hl).mpr rfl, h2⟩

theorem OpcGraph.row_clique {A : BMat n} {B : List (BVec n)} (h : OpcGraph A B) (l : Nat) {x y : Fin n}
    (hx : x ∈ rowSet B l) (hy : y ∈ rowSet B l) : A x y = true := by
  by_cases hxy : x = y
  · subst hxy; exact h.diag x
  · exact (h.adj_iff hxy).mpr ⟨l, hx, hy⟩

/-- invariant of the reduction on a one-pure-child graph -/
structure OInv (A : BMat n) (B : List (BVec n)) (k0 : Int) (g : RG n) : Prop where
  red : g.redAway = none
  ex : ∃ used : List Nat, used.Nodup ∧ (∀ l ∈ used, 2 ≤ (rowSet B l).card) ∧
    g.rows.map children = used.map (rowSet B) ∧
    (∀ i j, i ≠ j → (g.adj i j = true ↔ A i j = true ∧
      ∀ l ∈ used, ¬ (i ∈ rowSet B l ∧ j ∈ rowSet B l))) ∧
    (∀ l p, l < B.length → l ∉ used → PureChild B l p → ∀ u ∈ rowSet B l, u ≠ p → ∀ a b,
      ((a = p ∧ b = u) ∨ (a = u ∧ b = p)) → a < b →
      2 * g.counts a b = twiceEdges A (children (g.common.row a b))) ∧
    g.k = k0 - used.length

/-- an edge of an unused row to its pure child is uncovered -/
theorem pure_unc {A : BMat n} {B : List (BVec n)} (hO : OpcGraph A B) {g : RG n} {used : List Nat}
    (hadj : ∀ i j, i ≠ j → (g.adj i j = true ↔ A i j = true ∧
      ∀ l ∈ used, ¬ (i ∈ rowSet B l ∧ j ∈ rowSet B l))) {l : Nat} {p w : Fin n} (hl : l < B.length)
    (hlu : l ∉ used) (hp : PureChild B l p) (hw : w ∈ rowSet B l) (hne : p ≠ w) :
    g.adj p w = true := by
  rw [hadj p w hne]
  refine ⟨(hO.pure_adj hl hp).mpr hw, ?_⟩
  rintro l' hl' ⟨h1, -⟩
  have := (hp.mem_iff hl).mp h1
  subst this; exact hlu hl'

theorem OInv.rule1 {A : BMat n} {B : List (BVec n)} (hO : OpcGraph A B) {k0 : Int} {g : RG n}
    (hC : Coh A g) (h : OInv A B k0 g) : OInv A B k0 g.rule1 := by
  obtain ⟨f1, f2, f3, f4, f5, f6, f7, f8⟩ := rule1_fields g
  obtain ⟨used, h1, h2, h3, h4, h5, h6⟩ := h.ex
  refine ⟨by rw [f6]; exact h.red, used, h1, h2, by rw [rule1_rows]; exact h3,
    fun i j hij => by rw [rule1_off g hij]; exact h4 i j hij, ?_, by rw [f7]; exact h6⟩
  intro l p hl hlu hp u hu hup a b hab hlt
  have hempty : (children (g.common.row a b)).filter (fun w => g.isolated w = true) = ∅ := by
    rw [Finset.filter_eq_empty_iff]
    intro w hw hiso
    rw [mem_children, BTab.get_row, hC.common] at hw
    have hApw : A p w = true := by
      rcases hab with ⟨rfl, rfl⟩ | ⟨rfl, rfl⟩
      · exact hw.2.2.1
      · exact hw.2.2.2.1
    have hwl := (hO.pure_adj hl hp).mp hApw
    have hno := ((hC.isolated w).mp hiso).2
    by_cases hpw : p = w
    · subst hpw
      have := pure_unc hO h4 hl hlu hp hu (Ne.symm hup)
      rw [hno u hup] at this; cases this
    · have := pure_unc hO h4 hl hlu hp hwl hpw
      rw [hC.symm, hno p hpw] at this; cases this
  rw [rule1_counts, rule1Sub_eq, rule1_row, hempty]
  simpa using h5 l p hl hlu hp u hu hup a b hab hlt

theorem OInv.fire2 {A : BMat n} {B : List (BVec n)} (hO : OpcGraph A B) {k0 : Int} {g : RG n}
    (hC : Coh A g) (h : OInv A B k0 g) {e : Fin n × Fin n} (he : e ∈ g.extant) (hs : g.score e = 0) :
    OInv A B k0 (g.fire2 e) := by
  obtain ⟨used, h1, h2, h3, h4, h5, h6⟩ := h.ex
  obtain ⟨hlt, hadj⟩ := (hC.ext e).mp he
  have hne := ne_of_lt hlt
  have hcl := hC.score_clique he hs
  obtain ⟨hAe, hunc⟩ := (h4 _ _ hne).mp hadj
  obtain ⟨l, hx, hy⟩ := (hO.adj_iff hne).mp hAe
  obtain ⟨hl, p, hp, hpl⟩ := hO.pure hx
  have hlu : l ∉ used := fun hlu => hunc l hlu ⟨hx, hy⟩
  have hlive : ∀ w ∈ rowSet B l, g.adj w w = true := by
    intro w hw
    by_cases hpw : p = w
    · subst hpw
      by_cases hpx : p = e.1
      · exact hC.live p e.2 (by rw [hpx]; exact hne) (pure_unc hO h4 hl hlu hp hy (by rw [hpx]; exact hne))
      · exact hC.live p e.1 hpx (pure_unc hO h4 hl hlu hp hx hpx)
    · exact hC.live w p (Ne.symm hpw) (by rw [hC.symm]; exact pure_unc hO h4 hl hlu hp hw hpw)
  have hrow : children (g.common.row e.1 e.2) = rowSet B l := by
    ext w
    have hin : w ∈ rowSet B l → w ∈ children (g.common.row e.1 e.2) := by
      intro hw
      rw [mem_children, BTab.get_row, hC.common]
      exact ⟨hlt, hAe, hO.row_clique l hx hw, hO.row_clique l hy hw, hlive w hw⟩
    refine ⟨fun hw => ?_, hin⟩
    have hpin : p ∈ children (g.common.row e.1 e.2) := by
      rw [mem_children, BTab.get_row, hC.common]
      exact ⟨hlt, hAe, hO.row_clique l hx hpl, hO.row_clique l hy hpl, hlive p hpl⟩
    by_cases hpw : p = w
    · subst hpw; exact hpl
    · exact (hO.pure_adj hl hp).mp (hcl p hpin w hw hpw).1
  have hmem : ∀ w, (g.common.row e.1 e.2) w = true ↔ w ∈ rowSet B l := by
    intro w; rw [← hrow, mem_children]
  refine ⟨h.red, used ++ [l], ?_, ?_, ?_, ?_, ?_, ?_⟩
  · rw [List.nodup_append]
    refine ⟨h1, by simp, ?_⟩
    intro a ha b hb
    simp at hb; subst hb
    rintro rfl; exact hlu ha
  · intro l' hl'
    rcases List.mem_append.mp hl' with h' | h'
    · exact h2 l' h'
    · simp at h'; subst h'
      exact Finset.one_lt_card.mpr ⟨e.1, hx, e.2, hy, hne⟩
  · show (g.rows ++ [g.common.row e.1 e.2]).map children = _
    rw [List.map_append, List.map_append, h3]
    simp [hrow]
  · intro i j hij
    have : (g.fire2 e).adj i j = _ := setEdges_row g.adj (g.common.row e.1 e.2) i j
    rw [this]
    simp only [hij, ne_eq, not_false_iff, decide_true, Bool.true_and, Bool.and_eq_true, h4 i j hij,
      Bool.not_eq_true', Bool.and_eq_false_iff, List.mem_append, List.mem_singleton]
    rw [← Bool.not_eq_true, ← Bool.not_eq_true, hmem, hmem]
    constructor
    · rintro ⟨⟨h7, h8⟩, h9⟩
      refine ⟨h7, ?_⟩
      rintro l' (h' | rfl)
      · exact h8 l' h'
      · tauto
    · rintro ⟨h7, h8⟩
      refine ⟨⟨h7, fun l' h' => h8 l' (Or.inl h')⟩, ?_⟩
      have := h8 l (Or.inr rfl)
      tauto
  · intro l' p' hl' hlu' hp'
    exact h5 l' p' hl' (fun h' => hlu' (List.mem_append_left _ h')) hp'
  · show g.k - 1 = _
    rw [h6, List.length_append]
    simp; ring

/-- while an edge is uncovered rule 2 applies -/
theorem OInv.rule2_applies {A : BMat n} {B : List (BVec n)} (hO : OpcGraph A B) {k0 : Int} {g : RG n}
    (hC : Coh A g) {used : List Nat}
    (h4 : ∀ i j, i ≠ j → (g.adj i j = true ↔ A i j = true ∧
      ∀ l ∈ used, ¬ (i ∈ rowSet B l ∧ j ∈ rowSet B l)))
    (h5 : ∀ l p, l < B.length → l ∉ used → PureChild B l p → ∀ u ∈ rowSet B l, u ≠ p → ∀ a b,
      ((a = p ∧ b = u) ∨ (a = u ∧ b = p)) → a < b →
      2 * g.counts a b = twiceEdges A (children (g.common.row a b)))
    (hno : NoRule2 g) {l : Nat} (hlu : l ∉ used) {x y : Fin n} (hxy : x ≠ y) (hx : x ∈ rowSet B l)
    (hy : y ∈ rowSet B l) : False := by
  obtain ⟨hl, p, hp, hpl⟩ := hO.pure hx
  have : ∃ u ∈ rowSet B l, u ≠ p := by
    by_cases h : x = p
    · exact ⟨y, hy, fun h' => hxy (h.trans h'.symm)⟩
    · exact ⟨x, hx, h⟩
  obtain ⟨u, hu, hup⟩ := this
  have hadj := pure_unc hO h4 hl hlu hp hu (Ne.symm hup)
  have key : ∀ a b, ((a = p ∧ b = u) ∨ (a = u ∧ b = p)) → a < b → False := by
    intro a b hab hlt
    have hadj' : g.adj a b = true := by
      rcases hab with ⟨rfl, rfl⟩ | ⟨rfl, rfl⟩
      · exact hadj
      · rw [hC.symm]; exact hadj
    have he : (a, b) ∈ g.extant := (hC.ext (a, b)).mpr ⟨hlt, hadj'⟩
    apply hno _ he
    apply score_zero (h5 l p hl hlu hp u hu hup a b hab hlt)
    have hin : ∀ w ∈ children (g.common.row a b), w ∈ rowSet B l := by
      intro w hw
      rw [mem_children, BTab.get_row, hC.common] at hw
      rw [← hO.pure_adj hl hp]
      rcases hab with ⟨rfl, rfl⟩ | ⟨rfl, rfl⟩
      · exact hw.2.2.1
      · exact hw.2.2.2.1
    intro i hi j hj hij
    exact ⟨hO.row_clique l (hin i hi) (hin j hj), hij⟩
  rcases lt_or_gt_of_ne hup with h | h
  · exact key u p (Or.inr ⟨rfl, rfl⟩) h
  · exact key p u (Or.inl ⟨rfl, rfl⟩) h

theorem OInv.no_edges {A : BMat n} {B : List (BVec n)} (hO : OpcGraph A B) {k0 : Int} {g : RG n}
    (hC : Coh A g) (h : OInv A B k0 g) (hno : NoRule2 g) : ∀ i j, i ≠ j → g.adj i j = false := by
  obtain ⟨used, h1, h2, h3, h4, h5, h6⟩ := h.ex
  intro i j hij
  by_contra hc
  obtain ⟨hA, hunc⟩ := (h4 i j hij).mp (by simpa using hc)
  obtain ⟨l, hi, hj⟩ := (hO.adj_iff hij).mp hA
  exact OInv.rule2_applies (k0 := k0) hO hC h4 h5 hno (fun hlu => hunc l hlu ⟨hi, hj⟩) hij hi hj

/-- the indices of latents with at least two children -/
def bigRows (B : List (BVec n)) : List Nat :=
  (List.range B.length).filter fun l => decide (2 ≤ (rowSet B l).card)

theorem mem_bigRows {B : List (BVec n)} {l : Nat} : l ∈ bigRows B ↔ 2 ≤ (rowSet B l).card := by
  simp only [bigRows, List.mem_filter, List.mem_range, decide_eq_true_eq, and_iff_right_iff_imp]
  intro h
  by_contra hc
  have : rowSet B l = ∅ := by simp [rowSet, hc]
  rw [this] at h; simp at h

/-- the reduction of a one-pure-child graph solves it completely, or runs out of budget -/
theorem opc_reduce {A : BMat n} {B : List (BVec n)} (hO : OpcGraph A B) {g : RG n} (hC : Coh A g)
    (k : Int) (h : OInv A B k { g with k := k }) :
    ∃ g', g.reduzieren k = .ok g' ∧ ((g'.k < 0 ∧ k < (bigRows B).length) ∨
      (0 ≤ g'.k ∧ g'.numEdges = 0 ∧ g'.redAway = none ∧ ((bigRows B).length : Int) ≤ k ∧
        (g'.rows.map children).Perm ((bigRows B).map (rowSet B)))) := by
  obtain ⟨g', h1, hC', h2⟩ := reduzieren_spec hO.symm hO.diag (OInv A B k) (OInv A B k)
    (fun g b h => ⟨h.red, h.ex⟩) (fun g hC h => h.rule1 hO hC)
    (fun g e hC _ h he hs => h.fire2 hO hC he hs)
    (fun g v hC _ h hno _ _ hu => by
      obtain ⟨u, hu, huv⟩ := hu
      rw [h.no_edges hO hC hno v u (Ne.symm hu)] at huv; cases huv)
    g k hC h
  refine ⟨g', h1, ?_⟩
  have hlen : ∀ used : List Nat, used.Nodup → (∀ l ∈ used, 2 ≤ (rowSet B l).card) →
      used.length ≤ (bigRows B).length := by
    intro used hnd hbig
    exact (hnd.subperm fun l hl => mem_bigRows.mpr (hbig l hl)).length_le
  rcases h2 with ⟨hk, h2⟩ | ⟨hk, hI, hS⟩
  · left
    refine ⟨hk, ?_⟩
    have hI : OInv A B k g' := h2.elim id id
    obtain ⟨used, h3, h4, h5, h6, h7, h8⟩ := hI.ex
    have := hlen used h3 h4
    omega
  · right
    obtain ⟨used, h3, h4, h5, h6, h7, h8⟩ := hI.ex
    have hperm : used.Perm (bigRows B) := by
      have hnd : (bigRows B).Nodup := List.nodup_range.filter _
      rw [List.perm_ext_iff_of_nodup h3 hnd]
      intro l
      rw [mem_bigRows]
      refine ⟨h4 l, fun hl => ?_⟩
      by_contra hlu
      obtain ⟨x, hx, y, hy, hxy⟩ := Finset.one_lt_card.mp hl
      exact OInv.rule2_applies (k0 := k) hO hC' h6 h7 hS.no2 hlu hxy hx hy
    refine ⟨hk, ?_, hI.red, ?_, ?_⟩
    · rw [hC'.nedges, numEdgesOf_eq_zero hC'.symm]
      exact hI.no_edges hO hC' hS.no2
    · rw [h8, hperm.length_eq] at hk; omega
    · rw [h5]; exact hperm.map _

theorem OInv.init {A : BMat n} {B : List (BVec n)} (hO : OpcGraph A B)
    {order : List (Fin n × Fin n) → List (Fin n × Fin n)} {g : RG n}
    (h : makeAux order A = .ok g) (k : Int) : OInv A B k { g with k := k } := by
  have hg := makeAux_ok h
  subst hg
  refine ⟨rfl, [], List.nodup_nil, by simp, rfl, by simp, ?_, by simp⟩
  intro l p _ _ _ u _ _ a b _ hlt
  exact countsOf_eq hO.symm hO.diag _ hlt

theorem entry_none {g : RG n} (hc : g.cover = none) : entry g none = g := by
  unfold entry RG.coverEdges
  cases g
  simp only at hc
  subst hc
  rfl

theorem branchBody_budget {recon : Option (BMat n) → List (BVec n) → List (BVec n)} {rt : Runtime n}
    {rec path graph k cover} {g' : RG n} (hE : (entry graph cover).numEdges ≠ 0)
    (hred : (entry graph cover).reduzieren k = .ok g') (hk : g'.k < 0) :
    branchBody recon rt rec path graph k cover = .ok ⟨none, sharedRedAway graph.redAway g'.redAway,
        ⟨g'.redAway.isSome, false, decide (1 < path.length)⟩⟩ := by
  unfold branchBody
  change (if (entry graph cover).numEdges = 0 then _ else _) = _
  rw [if_neg hE]
  change (match (entry graph cover).reduzieren k with | .error e => _ | .ok g => _) = _
  rw [hred]
  simp only [hk, if_true]

theorem branchBody_leaf {recon : Option (BMat n) → List (BVec n) → List (BVec n)} {rt : Runtime n}
    {rec path graph k cover} {g' : RG n} (hE : (entry graph cover).numEdges ≠ 0)
    (hred : (entry graph cover).reduzieren k = .ok g') (hk : 0 ≤ g'.k) (hE' : g'.numEdges = 0) :
    branchBody recon rt rec path graph k cover = .ok ⟨g'.cover,
      sharedRedAway graph.redAway g'.redAway,
        ⟨g'.redAway.isSome, false, decide (1 < path.length)⟩⟩ := by
  unfold branchBody
  change (if (entry graph cover).numEdges = 0 then _ else _) = _
  rw [if_neg hE]
  change (match (entry graph cover).reduzieren k with | .error e => _ | .ok g => _) = _
  rw [hred]
  simp only [if_neg (Int.not_lt.mpr hk), hE', if_true]

/-- a top-level call of `branch` on a one-pure-child graph -/
theorem opc_branch {A : BMat n} {B : List (BVec n)} (hO : OpcGraph A B) (rt : Runtime n) {g : RG n}
    (hg : makeAux rt.order A = .ok g) (hE : g.numEdges ≠ 0)
    (recon : Option (BMat n) → List (BVec n) → List (BVec n)) (rem : Nat) (k : Nat) :
    ∃ out, branch recon rt rem [k] g k none = .ok out ∧
      ∀ c, out.res = some c → (c.map children).Perm ((bigRows B).map (rowSet B)) ∧
        out.info = ⟨false, false, false⟩ := by
  have hC := Coh.init hO.symm hO.diag rt.perm hg
  have hcov : g.cover = none := by rw [makeAux_ok hg]
  have hent := entry_none hcov
  obtain ⟨g', hred, h⟩ := opc_reduce hO hC k (OInv.init hO hg k)
  have hbody : ∀ rec, ∃ out, branchBody recon rt rec [k] g k none = .ok out ∧
      ∀ c, out.res = some c → (c.map children).Perm ((bigRows B).map (rowSet B)) ∧
        out.info = ⟨false, false, false⟩ := by
    intro rec
    have hE1 : (entry g none).numEdges ≠ 0 := by rw [hent]; exact hE
    have hred1 : (entry g none).reduzieren k = .ok g' := by rw [hent]; exact hred
    rcases h with ⟨hk, -⟩ | ⟨hk, hE', hr, -, hp⟩
    · exact ⟨_, branchBody_budget hE1 hred1 hk, by simp⟩
    · refine ⟨_, branchBody_leaf hE1 hred1 hk hE', ?_⟩
      intro c hc
      have hc' : g'.cover = some c := hc
      refine ⟨?_, by simp [hr]⟩
      have : g'.rows = c := by unfold RG.rows; rw [hc']; rfl
      rw [← this]; exact hp
  cases rem with
  | zero => exact hbody none
  | succ rem => exact hbody _

theorem findLoop_ok {recon : Option (BMat n) → List (BVec n) → List (BVec n)} {rt : Runtime n}
    {iterMax : Nat} {g : RG n} {c : List (BVec n)} {info : PathInfo} :
    ∀ {fuel k}, findLoop recon rt iterMax g fuel k = .ok (c, info) →
      ∃ k' : Nat, ∃ out, branch recon rt iterMax [k'] g k' none = .ok out ∧ out.res = some c ∧
        out.info = info := by
  intro fuel
  induction fuel with
  | zero => intro k h; cases h
  | succ fuel ih =>
    intro k h
    unfold findLoop at h
    split at h
    · cases h
    · rename_i out hb
      split at h
      · rename_i c' hres
        cases h
        exact ⟨k, out, hb, hres, rfl⟩
      · exact ih h

theorem map_rowSet_range (B : List (BVec n)) :
    (List.range B.length).map (rowSet B) = B.map children := by
  apply List.ext_getElem
  · simp
  · intro i h1 h2
    simp at h1
    simp [rowSet, h1]

theorem OpcGraph.rows_nodup {A : BMat n} {B : List (BVec n)} (h : OpcGraph A B) :
    (B.map children).Nodup := by
  rw [← map_rowSet_range, List.nodup_map_iff_inj_on List.nodup_range]
  intro a ha b hb hab
  simp at ha hb
  obtain ⟨p, hp⟩ := h.opc.1 a ha
  have h1 : p ∈ rowSet B b := by rw [← hab]; exact (hp.mem_iff ha).mpr rfl
  exact ((hp.mem_iff ha).mp h1).symm

theorem map_children_addIsolated (c : List (BVec n)) :
    (addIsolatedVerts c).map children = c.map children ++
      ((List.finRange n).filter fun j => !c.any fun r => r j).map fun j => {j} := by
  unfold addIsolatedVerts
  rw [List.map_append, List.map_map]
  congr 1
  apply List.map_congr_left
  intro j _
  ext i; simp

/-- big rows plus isolated vertices are all rows -/
theorem opc_sameRows {A : BMat n} {B : List (BVec n)} (h : OpcGraph A B) {c : List (BVec n)}
    (hc : (c.map children).Perm ((bigRows B).map (rowSet B))) : SameRows (addIsolatedVerts c) B := by
  unfold SameRows
  rw [map_children_addIsolated]
  have hsplit : ((bigRows B).map (rowSet B) ++ ((List.range B.length).filter fun l =>
      !decide (2 ≤ (rowSet B l).card)).map (rowSet B)).Perm (B.map children) := by
    rw [← map_rowSet_range, ← List.map_append]
    exact (List.filter_append_perm _ _).map _
  refine (hc.append ?_).trans hsplit
  have hcmem : ∀ j : Fin n, (c.any fun r => r j) = true ↔ ∃ l, 2 ≤ (rowSet B l).card ∧ j ∈ rowSet B l := by
    intro j
    rw [List.any_eq_true]
    constructor
    · rintro ⟨r, hr, hj⟩
      have := hc.mem_iff.mp (List.mem_map_of_mem hr)
      obtain ⟨l, hl, he⟩ := List.mem_map.mp this
      exact ⟨l, mem_bigRows.mp hl, by rw [he]; simpa using hj⟩
    · rintro ⟨l, hl, hj⟩
      have := hc.mem_iff.mpr (List.mem_map_of_mem (mem_bigRows.mpr hl))
      obtain ⟨r, hr, he⟩ := List.mem_map.mp this
      exact ⟨r, hr, by rw [← he] at hj; simpa using hj⟩
  rw [List.perm_ext_iff_of_nodup]
  · intro S
    simp only [List.mem_map, List.mem_filter, List.mem_finRange, true_and, List.mem_range,
      Bool.not_eq_true', decide_eq_false_iff_not, ← Bool.not_eq_true (c.any _), hcmem]
    constructor
    · rintro ⟨j, hj, rfl⟩
      obtain ⟨r, hr, hjr⟩ := h.opc.2 j
      obtain ⟨l, hl, rfl⟩ := List.getElem_of_mem hr
      have hjl : j ∈ rowSet B l := mem_rowSet.mpr ⟨hl, hjr⟩
      have hsmall : ¬ 2 ≤ (rowSet B l).card := fun hbig => hj ⟨l, hbig, hjl⟩
      refine ⟨l, ⟨hl, hsmall⟩, ?_⟩
      have h1 : (rowSet B l).card ≤ 1 := by omega
      ext x
      rw [Finset.mem_singleton]
      exact ⟨fun hx => Finset.card_le_one.mp h1 x hx j hjl, fun hx => hx ▸ hjl⟩
    · rintro ⟨l, ⟨hl, hsmall⟩, rfl⟩
      obtain ⟨p, hp⟩ := h.opc.1 l hl
      have hpl : p ∈ rowSet B l := (hp.mem_iff hl).mpr rfl
      refine ⟨p, ?_, ?_⟩
      · rintro ⟨l', hbig, hpl'⟩
        have := (hp.mem_iff hl).mp hpl'
        subst this; exact hsmall hbig
      · have h1 : (rowSet B l).card ≤ 1 := by omega
        ext x
        rw [Finset.mem_singleton]
        exact ⟨fun hx => hx ▸ hpl, fun hx => Finset.card_le_one.mp h1 x hx p hpl⟩
  · rw [List.nodup_map_iff_inj_on ((List.nodup_finRange n).filter _)]
    intro a _ b _ hab
    exact Finset.singleton_injective hab
  · have := h.rows_nodup
    rw [← map_rowSet_range, List.nodup_map_iff_inj_on List.nodup_range] at this
    rw [List.nodup_map_iff_inj_on (List.nodup_range.filter _)]
    intro a ha b hb
    exact this a (List.mem_of_mem_filter ha) b (List.mem_of_mem_filter hb)

/-- a cover needs one clique per vertex of an independent set -/
theorem indep_le_cover {A : BMat n} {T : Finset (Fin n)} (hT : IsIndep A T) {C : List (BVec n)}
    (hR : RowsCliques A C) (hV : CoversVertices C) : T.card ≤ C.length := by
  classical
  have hex : ∀ v : Fin n, ∃ i : Fin C.length, C[i] v = true := by
    intro v
    obtain ⟨r, hr, hv⟩ := hV v
    obtain ⟨i, hi, rfl⟩ := List.getElem_of_mem hr
    exact ⟨⟨i, hi⟩, hv⟩
  choose f hf using hex
  have : T.card ≤ (Finset.univ : Finset (Fin C.length)).card := by
    apply Finset.card_le_card_of_injOn f (by simp)
    intro a ha b hb hab
    by_contra hne
    refine hT a (by simpa using ha) b (by simpa using hb) ?_
    refine hR (C[f a]) (List.getElem_mem _) a (by simpa using hf a) b ?_ hne
    have := hf b
    rw [← hab] at this
    simpa using this
  simpa using this

theorem OpcGraph.pure_indep {A : BMat n} {B : List (BVec n)} (h : OpcGraph A B) :
    ∃ T, IsIndep A T ∧ T.card = B.length := by
  classical
  have hp' : ∀ i : Fin B.length, ∃ p, PureChild B i p := fun i => h.opc.1 i i.isLt
  choose p hpp using hp'
  have hpinj : Function.Injective p := by
    intro i j hij
    have h1 := (hpp i i i.isLt).mpr rfl
    rw [hij] at h1
    exact Fin.ext ((hpp j i i.isLt).mp h1)
  refine ⟨Finset.univ.image p, ?_, ?_⟩
  · intro a ha b hb hab
    simp only [Finset.mem_image, Finset.mem_univ, true_and] at ha hb
    obtain ⟨i, rfl⟩ := ha
    obtain ⟨j, rfl⟩ := hb
    obtain ⟨l, h1, h2⟩ := (h.adj_iff hab.2).mp hab.1
    have h3 := ((hpp i).mem_iff i.isLt).mp h1
    have h4 := ((hpp j).mem_iff j.isLt).mp h2
    exact hab.2 (by rw [Fin.ext (h3.symm.trans h4)])
  · rw [Finset.card_image_of_injective _ hpinj, Finset.card_univ, Fintype.card_fin]

end Medil

import Verif.Proofs.Opc
import Verif.Proofs.Rule2Min
import Verif.Spec.Cover
/-
  Exact recovery when every latent is witnessed by private pairs (generalises `Verif.Proofs.Opc`).
-/
namespace Medil
variable {n : Nat}

/-- hypotheses: `A` is the dependence graph of `B`, and `B` is witnessed by private pairs -/
structure PrivGraph (A : BMat n) (B : List (BVec n)) : Prop where
  symm : Symm A
  diag : UnitDiag A
  udg : IsUDGOf A B
  cov : CoversVertices B
  wit : PrivatelyWitnessed A B

theorem PrivGraph.adj_iff {A : BMat n} {B : List (BVec n)} (h : PrivGraph A B) {i j : Fin n}
    (hij : i ≠ j) : A i j = true ↔ ∃ l, i ∈ rowSet B l ∧ j ∈ rowSet B l := by
  rw [h.udg i j hij]
  constructor
  · rintro ⟨r, hr, h1, h2⟩
    obtain ⟨l, hl, rfl⟩ := List.getElem_of_mem hr
    exact ⟨l, mem_rowSet.mpr ⟨hl, h1⟩, mem_rowSet.mpr ⟨hl, h2⟩⟩
  · rintro ⟨l, h1, h2⟩
    obtain ⟨hl, h1⟩ := mem_rowSet.mp h1
    obtain ⟨_, h2⟩ := mem_rowSet.mp h2
    exact ⟨B[l], List.getElem_mem hl, h1, h2⟩

theorem PrivGraph.row_clique {A : BMat n} {B : List (BVec n)} (h : PrivGraph A B) (l : Nat) {x y : Fin n}
    (hx : x ∈ rowSet B l) (hy : y ∈ rowSet B l) : A x y = true := by
  by_cases hxy : x = y
  · subst hxy; exact h.diag x
  · exact (h.adj_iff hxy).mpr ⟨l, hx, hy⟩

/-- `u`, `v` is a private pair of the `l`-th row -/
def PPair (A : BMat n) (B : List (BVec n)) (l : Nat) (u v : Fin n) : Prop :=
  u ≠ v ∧ u ∈ rowSet B l ∧ v ∈ rowSet B l ∧ ∀ w, A u w = true → A v w = true → w ∈ rowSet B l

theorem PPair.comm {A : BMat n} {B : List (BVec n)} {l : Nat} {u v : Fin n} (h : PPair A B l u v) :
    PPair A B l v u := ⟨h.1.symm, h.2.2.1, h.2.1, fun w h1 h2 => h.2.2.2 w h2 h1⟩

theorem PrivGraph.exists_pair {A : BMat n} {B : List (BVec n)} (h : PrivGraph A B) {l : Nat}
    {v x : Fin n} (hv : v ∈ rowSet B l) (hx : x ∈ rowSet B l) (hne : x ≠ v) : ∃ u, PPair A B l u v := by
  obtain ⟨hl, hv'⟩ := mem_rowSet.mp hv
  rcases h.wit.2.2 _ (List.getElem_mem hl) v hv' with ⟨u, h1, h2, h3, h4⟩ | hiso
  · refine ⟨u, h1, mem_rowSet.mpr ⟨hl, h2⟩, hv, fun w h5 h6 => mem_rowSet.mpr ⟨hl, h4 w h5 h6⟩⟩
  · exact absurd (hiso x (h.row_clique l hv hx)) hne

theorem PrivGraph.rowSet_inj {A : BMat n} {B : List (BVec n)} (h : PrivGraph A B) {l l' : Nat}
    (hl : l < B.length) (hl' : l' < B.length) (he : rowSet B l = rowSet B l') : l = l' := by
  have := h.wit.1
  rw [← map_rowSet_range, List.nodup_map_iff_inj_on List.nodup_range] at this
  exact this l (by simpa using hl) l' (by simpa using hl') he

/-- a private pair lies in no other row -/
theorem PrivGraph.pair_row {A : BMat n} {B : List (BVec n)} (h : PrivGraph A B) {l l' : Nat}
    {u v : Fin n} (hp : PPair A B l u v) (hu : u ∈ rowSet B l') (hv : v ∈ rowSet B l') : l' = l := by
  have hsub : rowSet B l' ⊆ rowSet B l := fun w hw =>
    hp.2.2.2 w (h.row_clique l' hu hw) (h.row_clique l' hv hw)
  obtain ⟨a, ha⟩ := h.exists_pair hv hu hp.1
  have hsub' : rowSet B l ⊆ rowSet B l' := fun w hw =>
    ha.2.2.2 w (h.row_clique l (hsub ha.2.1) hw) (h.row_clique l (hsub hv) hw)
  exact h.rowSet_inj (mem_rowSet.mp hu).1 (mem_rowSet.mp hp.2.1).1 (Finset.Subset.antisymm hsub hsub')

/-- invariant of the reduction -/
structure WInv (A : BMat n) (B : List (BVec n)) (k0 : Int) (g : RG n) : Prop where
  red : g.redAway = none
  ex : ∃ used : List Nat, used.Nodup ∧ (∀ l ∈ used, 2 ≤ (rowSet B l).card) ∧
    g.rows.map children = used.map (rowSet B) ∧
    (∀ i j, i ≠ j → (g.adj i j = true ↔ A i j = true ∧
      ∀ l ∈ used, ¬ (i ∈ rowSet B l ∧ j ∈ rowSet B l))) ∧
    (∀ l, l ∉ used → ∀ a b, PPair A B l a b → a < b →
      2 * g.counts a b = twiceEdges A (children (g.common.row a b))) ∧
    g.k = k0 - used.length

/-- a private pair of an unused row is uncovered -/
theorem ppair_unc {A : BMat n} {B : List (BVec n)} (hO : PrivGraph A B) {g : RG n} {used : List Nat}
    (hadj : ∀ i j, i ≠ j → (g.adj i j = true ↔ A i j = true ∧
      ∀ l ∈ used, ¬ (i ∈ rowSet B l ∧ j ∈ rowSet B l))) {l : Nat} {p w : Fin n}
    (hlu : l ∉ used) (hp : PPair A B l p w) : g.adj p w = true := by
  rw [hadj p w hp.1]
  refine ⟨hO.row_clique l hp.2.1 hp.2.2.1, ?_⟩
  rintro l' hl' ⟨h1, h2⟩
  have := hO.pair_row hp h1 h2
  subst this; exact hlu hl'

theorem WInv.rule1 {A : BMat n} {B : List (BVec n)} (hO : PrivGraph A B) {k0 : Int} {g : RG n}
    (hC : Coh A g) (h : WInv A B k0 g) : WInv A B k0 g.rule1 := by
  obtain ⟨f1, f2, f3, f4, f5, f6, f7, f8⟩ := rule1_fields g
  obtain ⟨used, h1, h2, h3, h4, h5, h6⟩ := h.ex
  refine ⟨by rw [f6]; exact h.red, used, h1, h2, by rw [rule1_rows]; exact h3,
    fun i j hij => by rw [rule1_off g hij]; exact h4 i j hij, ?_, by rw [f7]; exact h6⟩
  intro l hlu a b hp hlt
  have hempty : (children (g.common.row a b)).filter (fun w => g.isolated w = true) = ∅ := by
    rw [Finset.filter_eq_empty_iff]
    intro w hw hiso
    rw [mem_children, BTab.get_row, hC.common] at hw
    have hwl := hp.2.2.2 w hw.2.2.1 hw.2.2.2.1
    have hno := ((hC.isolated w).mp hiso).2
    have : ∃ x ∈ rowSet B l, x ≠ w := by
      by_cases haw : a = w
      · exact ⟨b, hp.2.2.1, fun hb => hp.1 (haw.trans hb.symm)⟩
      · exact ⟨a, hp.2.1, haw⟩
    obtain ⟨x, hx, hxw⟩ := this
    obtain ⟨u, hu⟩ := hO.exists_pair hwl hx hxw
    have := ppair_unc hO h4 hlu hu
    rw [hC.symm, hno u hu.1] at this; cases this
  rw [rule1_counts, rule1Sub_eq, rule1_row, hempty]
  simpa using h5 l hlu a b hp hlt

theorem WInv.fire2 {A : BMat n} {B : List (BVec n)} (hO : PrivGraph A B) {k0 : Int} {g : RG n}
    (hC : Coh A g) (h : WInv A B k0 g) {e : Fin n × Fin n} (he : e ∈ g.extant) (hs : g.score e = 0) :
    WInv A B k0 (g.fire2 e) := by
  obtain ⟨used, h1, h2, h3, h4, h5, h6⟩ := h.ex
  obtain ⟨hlt, hadj⟩ := (hC.ext e).mp he
  have hne := ne_of_lt hlt
  have hcl := hC.score_clique he hs
  obtain ⟨hAe, hunc⟩ := (h4 _ _ hne).mp hadj
  obtain ⟨l, hx, hy⟩ := (hO.adj_iff hne).mp hAe
  have hlu : l ∉ used := fun hlu => hunc l hlu ⟨hx, hy⟩
  have hlive : ∀ w ∈ rowSet B l, g.adj w w = true := by
    intro w hw
    have : ∃ x ∈ rowSet B l, x ≠ w := by
      by_cases haw : e.1 = w
      · exact ⟨e.2, hy, fun hb => hne (haw.trans hb.symm)⟩
      · exact ⟨e.1, hx, haw⟩
    obtain ⟨x, hx, hxw⟩ := this
    obtain ⟨u, hu⟩ := hO.exists_pair hw hx hxw
    exact hC.live w u hu.1.symm (by rw [hC.symm]; exact ppair_unc hO h4 hlu hu)
  have hrow : children (g.common.row e.1 e.2) = rowSet B l := by
    ext w
    have hin : ∀ w, w ∈ rowSet B l → w ∈ children (g.common.row e.1 e.2) := by
      intro w hw
      rw [mem_children, BTab.get_row, hC.common]
      exact ⟨hlt, hAe, hO.row_clique l hx hw, hO.row_clique l hy hw, hlive w hw⟩
    refine ⟨fun hw => ?_, hin w⟩
    obtain ⟨u, hu⟩ := hO.exists_pair hy hx hne
    have hA' : ∀ z ∈ rowSet B l, A z w = true := by
      intro z hz
      by_cases hzw : z = w
      · subst hzw; exact hO.diag z
      · exact (hcl z (hin z hz) w hw hzw).1
    exact hu.2.2.2 w (hA' u hu.2.1) (hA' _ hu.2.2.1)
  have hmem : ∀ w, (g.common.row e.1 e.2) w = true ↔ w ∈ rowSet B l := by
    intro w; rw [← hrow, mem_children]
  refine ⟨h.red, used ++ [l], ?_, ?_, ?_, ?_, ?_, ?_⟩
  · rw [List.nodup_append]
    refine ⟨h1, by simp, ?_⟩
    intro a ha b hb
    simp at hb; subst hb
    rintro rfl; exact hlu ha
  · intro l' hl'
    rcases List.mem_append.mp hl' with h' | h'
    · exact h2 l' h'
    · simp at h'; subst h'
      exact Finset.one_lt_card.mpr ⟨e.1, hx, e.2, hy, hne⟩
  · show (g.rows ++ [g.common.row e.1 e.2]).map children = _
    rw [List.map_append, List.map_append, h3]
    simp [hrow]
  · intro i j hij
    have : (g.fire2 e).adj i j = _ := setEdges_row g.adj (g.common.row e.1 e.2) i j
    rw [this]
    simp only [hij, ne_eq, not_false_iff, decide_true, Bool.true_and, Bool.and_eq_true, h4 i j hij,
      Bool.not_eq_true', Bool.and_eq_false_iff, List.mem_append, List.mem_singleton]
    rw [← Bool.not_eq_true, ← Bool.not_eq_true, hmem, hmem]
    constructor
    · rintro ⟨⟨h7, h8⟩, h9⟩
      refine ⟨h7, ?_⟩
      rintro l' (h' | rfl)
      · exact h8 l' h'
      · tauto
    · rintro ⟨h7, h8⟩
      refine ⟨⟨h7, fun l' h' => h8 l' (Or.inl h')⟩, ?_⟩
      have := h8 l (Or.inr rfl)
      tauto
  · intro l' hlu'
    exact h5 l' (fun h' => hlu' (List.mem_append_left _ h'))
  · show g.k - 1 = _
    rw [h6, List.length_append]
    simp; ring

/-- while an edge is uncovered rule 2 applies -/
theorem WInv.rule2_applies {A : BMat n} {B : List (BVec n)} (hO : PrivGraph A B) {g : RG n}
    (hC : Coh A g) {used : List Nat}
    (h4 : ∀ i j, i ≠ j → (g.adj i j = true ↔ A i j = true ∧
      ∀ l ∈ used, ¬ (i ∈ rowSet B l ∧ j ∈ rowSet B l)))
    (h5 : ∀ l, l ∉ used → ∀ a b, PPair A B l a b → a < b →
      2 * g.counts a b = twiceEdges A (children (g.common.row a b)))
    (hno : NoRule2 g) {l : Nat} (hlu : l ∉ used) {x y : Fin n} (hxy : x ≠ y) (hx : x ∈ rowSet B l)
    (hy : y ∈ rowSet B l) : False := by
  obtain ⟨u, hu⟩ := hO.exists_pair hy hx hxy
  have key : ∀ a b, PPair A B l a b → a < b → False := by
    intro a b hab hlt
    have he : (a, b) ∈ g.extant := (hC.ext (a, b)).mpr ⟨hlt, ppair_unc hO h4 hlu hab⟩
    apply hno _ he
    apply score_zero (h5 l hlu a b hab hlt)
    have hin : ∀ w ∈ children (g.common.row a b), w ∈ rowSet B l := by
      intro w hw
      rw [mem_children, BTab.get_row, hC.common] at hw
      exact hab.2.2.2 w hw.2.2.1 hw.2.2.2.1
    intro i hi j hj hij
    exact ⟨hO.row_clique l (hin i hi) (hin j hj), hij⟩
  rcases lt_or_gt_of_ne hu.1 with h | h
  · exact key _ _ hu h
  · exact key _ _ hu.comm h

theorem WInv.no_edges {A : BMat n} {B : List (BVec n)} (hO : PrivGraph A B) {k0 : Int} {g : RG n}
    (hC : Coh A g) (h : WInv A B k0 g) (hno : NoRule2 g) : ∀ i j, i ≠ j → g.adj i j = false := by
  obtain ⟨used, h1, h2, h3, h4, h5, h6⟩ := h.ex
  intro i j hij
  by_contra hc
  obtain ⟨hA, hunc⟩ := (h4 i j hij).mp (by simpa using hc)
  obtain ⟨l, hi, hj⟩ := (hO.adj_iff hij).mp hA
  exact WInv.rule2_applies hO hC h4 h5 hno (fun hlu => hunc l hlu ⟨hi, hj⟩) hij hi hj

/-- the reduction of a privately witnessed graph solves it completely, or runs out of budget -/
theorem priv_reduce {A : BMat n} {B : List (BVec n)} (hO : PrivGraph A B) {g : RG n} (hC : Coh A g)
    (k : Int) (h : WInv A B k { g with k := k }) :
    ∃ g', g.reduzieren k = .ok g' ∧ ((g'.k < 0 ∧ k < (bigRows B).length) ∨
      (0 ≤ g'.k ∧ g'.numEdges = 0 ∧ g'.redAway = none ∧ ((bigRows B).length : Int) ≤ k ∧
        (g'.rows.map children).Perm ((bigRows B).map (rowSet B)))) := by
  obtain ⟨g', h1, hC', h2⟩ := reduzieren_spec hO.symm hO.diag (WInv A B k) (WInv A B k)
    (fun g b h => ⟨h.red, h.ex⟩) (fun g hC h => h.rule1 hO hC)
    (fun g e hC _ h he hs => h.fire2 hO hC he hs)
    (fun g v hC _ h hno _ _ hu => by
      obtain ⟨u, hu, huv⟩ := hu
      rw [h.no_edges hO hC hno v u (Ne.symm hu)] at huv; cases huv)
    g k hC h
  refine ⟨g', h1, ?_⟩
  have hlen : ∀ used : List Nat, used.Nodup → (∀ l ∈ used, 2 ≤ (rowSet B l).card) →
      used.length ≤ (bigRows B).length := by
    intro used hnd hbig
    exact (hnd.subperm fun l hl => mem_bigRows.mpr (hbig l hl)).length_le
  rcases h2 with ⟨hk, h2⟩ | ⟨hk, hI, hS⟩
  · left
    refine ⟨hk, ?_⟩
    have hI : WInv A B k g' := h2.elim id id
    obtain ⟨used, h3, h4, h5, h6, h7, h8⟩ := hI.ex
    have := hlen used h3 h4
    omega
  · right
    obtain ⟨used, h3, h4, h5, h6, h7, h8⟩ := hI.ex
    have hperm : used.Perm (bigRows B) := by
      have hnd : (bigRows B).Nodup := List.nodup_range.filter _
      rw [List.perm_ext_iff_of_nodup h3 hnd]
      intro l
      rw [mem_bigRows]
      refine ⟨h4 l, fun hl => ?_⟩
      by_contra hlu
      obtain ⟨x, hx, y, hy, hxy⟩ := Finset.one_lt_card.mp hl
      exact WInv.rule2_applies hO hC' h6 h7 hS.no2 hlu hxy hx hy
    refine ⟨hk, ?_, hI.red, ?_, ?_⟩
    · rw [hC'.nedges, numEdgesOf_eq_zero hC'.symm]
      exact hI.no_edges hO hC' hS.no2
    · rw [h8, hperm.length_eq] at hk; omega
    · rw [h5]; exact hperm.map _

theorem WInv.init {A : BMat n} {B : List (BVec n)} (hO : PrivGraph A B)
    {order : List (Fin n × Fin n) → List (Fin n × Fin n)} {g : RG n}
    (h : makeAux order A = .ok g) (k : Int) : WInv A B k { g with k := k } := by
  have hg := makeAux_ok h
  subst hg
  refine ⟨rfl, [], List.nodup_nil, by simp, rfl, by simp, ?_, by simp⟩
  intro l _ a b _ hlt
  exact countsOf_eq hO.symm hO.diag _ hlt

/-- a top-level call of `branch` on a privately witnessed graph -/
theorem priv_branch {A : BMat n} {B : List (BVec n)} (hO : PrivGraph A B) (rt : Runtime n) {g : RG n}
    (hg : makeAux rt.order A = .ok g) (hE : g.numEdges ≠ 0)
    (recon : Option (BMat n) → List (BVec n) → List (BVec n)) (rem : Nat) (k : Nat) :
    ∃ out, branch recon rt rem [k] g k none = .ok out ∧
      ∀ c, out.res = some c → (c.map children).Perm ((bigRows B).map (rowSet B)) ∧
        out.info = ⟨false, false, false⟩ := by
  have hC := Coh.init hO.symm hO.diag rt.perm hg
  have hcov : g.cover = none := by rw [makeAux_ok hg]
  have hent := entry_none hcov
  obtain ⟨g', hred, h⟩ := priv_reduce hO hC k (WInv.init hO hg k)
  have hbody : ∀ rec, ∃ out, branchBody recon rt rec [k] g k none = .ok out ∧
      ∀ c, out.res = some c → (c.map children).Perm ((bigRows B).map (rowSet B)) ∧
        out.info = ⟨false, false, false⟩ := by
    intro rec
    have hE1 : (entry g none).numEdges ≠ 0 := by rw [hent]; exact hE
    have hred1 : (entry g none).reduzieren k = .ok g' := by rw [hent]; exact hred
    rcases h with ⟨hk, -⟩ | ⟨hk, hE', hr, -, hp⟩
    · exact ⟨_, branchBody_budget hE1 hred1 hk, by simp⟩
    · refine ⟨_, branchBody_leaf hE1 hred1 hk hE', ?_⟩
      intro c hc
      have hc' : g'.cover = some c := hc
      refine ⟨?_, by simp [hr]⟩
      have : g'.rows = c := by unfold RG.rows; rw [hc']; rfl
      rw [← this]; exact hp
  cases rem with
  | zero => exact hbody none
  | succ rem => exact hbody _

/-- big rows plus isolated vertices are all rows -/
theorem priv_sameRows {A : BMat n} {B : List (BVec n)} (h : PrivGraph A B) {c : List (BVec n)}
    (hc : (c.map children).Perm ((bigRows B).map (rowSet B))) : SameRows (addIsolatedVerts c) B := by
  unfold SameRows
  rw [map_children_addIsolated]
  have hsplit : ((bigRows B).map (rowSet B) ++ ((List.range B.length).filter fun l =>
      !decide (2 ≤ (rowSet B l).card)).map (rowSet B)).Perm (B.map children) := by
    rw [← map_rowSet_range, ← List.map_append]
    exact (List.filter_append_perm _ _).map _
  refine (hc.append ?_).trans hsplit
  have hcmem : ∀ j : Fin n, (c.any fun r => r j) = true ↔ ∃ l, 2 ≤ (rowSet B l).card ∧ j ∈ rowSet B l := by
    intro j
    rw [List.any_eq_true]
    constructor
    · rintro ⟨r, hr, hj⟩
      have := hc.mem_iff.mp (List.mem_map_of_mem hr)
      obtain ⟨l, hl, he⟩ := List.mem_map.mp this
      exact ⟨l, mem_bigRows.mp hl, by rw [he]; simpa using hj⟩
    · rintro ⟨l, hl, hj⟩
      have := hc.mem_iff.mpr (List.mem_map_of_mem (mem_bigRows.mpr hl))
      obtain ⟨r, hr, he⟩ := List.mem_map.mp this
      exact ⟨r, hr, by rw [← he] at hj; simpa using hj⟩
  rw [List.perm_ext_iff_of_nodup]
  · intro S
    simp only [List.mem_map, List.mem_filter, List.mem_finRange, true_and, List.mem_range,
      Bool.not_eq_true', decide_eq_false_iff_not, ← Bool.not_eq_true (c.any _), hcmem]
    constructor
    · rintro ⟨j, hj, rfl⟩
      obtain ⟨r, hr, hjr⟩ := h.cov j
      obtain ⟨l, hl, rfl⟩ := List.getElem_of_mem hr
      have hjl : j ∈ rowSet B l := mem_rowSet.mpr ⟨hl, hjr⟩
      have hsmall : ¬ 2 ≤ (rowSet B l).card := fun hbig => hj ⟨l, hbig, hjl⟩
      refine ⟨l, ⟨hl, hsmall⟩, ?_⟩
      have h1 : (rowSet B l).card ≤ 1 := by omega
      ext x
      rw [Finset.mem_singleton]
      exact ⟨fun hx => Finset.card_le_one.mp h1 x hx j hjl, fun hx => hx ▸ hjl⟩
    · rintro ⟨l, ⟨hl, hsmall⟩, rfl⟩
      obtain ⟨p, hp⟩ := h.wit.2.1 _ (List.getElem_mem hl)
      have hpl : p ∈ rowSet B l := mem_rowSet.mpr ⟨hl, hp⟩
      refine ⟨p, ?_, ?_⟩
      · rintro ⟨l', hbig, hpl'⟩
        rcases h.wit.2.2 _ (List.getElem_mem hl) p hp with ⟨u, h1, h2, -, -⟩ | hiso
        · exact hsmall (Finset.one_lt_card.mpr ⟨u, mem_rowSet.mpr ⟨hl, h2⟩, p, hpl, h1⟩)
        · obtain ⟨x, hx, y, hy, hxy⟩ := Finset.one_lt_card.mp hbig
          have e1 := hiso x (h.row_clique l' hpl' hx)
          have e2 := hiso y (h.row_clique l' hpl' hy)
          exact hxy (e1.trans e2.symm)
      · have h1 : (rowSet B l).card ≤ 1 := by omega
        ext x
        rw [Finset.mem_singleton]
        exact ⟨fun hx => hx ▸ hpl, fun hx => Finset.card_le_one.mp h1 x hx p hpl⟩
  · rw [List.nodup_map_iff_inj_on ((List.nodup_finRange n).filter _)]
    intro a _ b _ hab
    exact Finset.singleton_injective hab
  · have := h.wit.1
    rw [← map_rowSet_range, List.nodup_map_iff_inj_on List.nodup_range] at this
    rw [List.nodup_map_iff_inj_on (List.nodup_range.filter _)]
    intro a ha b hb
    exact this a (List.mem_of_mem_filter ha) b (List.mem_of_mem_filter hb)


end Medil

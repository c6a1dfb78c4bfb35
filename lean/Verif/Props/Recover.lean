import Verif.Props.Ecc
import Verif.Proofs.Priv
/-
  Property theorems C96, C97: exact recovery of `find_clique_min_cover` beyond one-pure-child structures.
-/
namespace Medil
variable {n : Nat}

/-- a clique containing a private pair of a latent is contained in its children -/
theorem PrivatePair.clique_subset {A : BMat n} (hD : UnitDiag A) {r : BVec n} {u v : Fin n}
    (h : PrivatePair A r u v) {S : Finset (Fin n)} (hS : IsClique A S) (hu : u ∈ S) (hv : v ∈ S) :
    S ⊆ children r := by
  intro w hw
  have hA : ∀ z ∈ S, A z w = true := by
    intro z hz
    by_cases hzw : z = w
    · subst hzw; exact hD z
    · exact (hS z hz w hw hzw).1
  exact (mem_children _ _).mpr (h.2.2.2 w (hA u hu) (hA v hv))

/-- a pair of children of the `l`-th latent that no clique reaches outside the latent -/
theorem PrivGraph.seed {A : BMat n} {B : List (BVec n)} (h : PrivGraph A B) (l : Fin B.length) :
    ∃ e : Fin n × Fin n, e.1 ∈ children B[l] ∧ e.2 ∈ children B[l] ∧
      ∀ S, IsClique A S → e.1 ∈ S → e.2 ∈ S → S ⊆ children B[l] := by
  obtain ⟨v, hv⟩ := h.wit.2.1 B[l] (List.getElem_mem l.isLt)
  rcases h.wit.2.2 B[l] (List.getElem_mem l.isLt) v hv with ⟨u, hu⟩ | hiso
  · exact ⟨(u, v), by simpa using hu.2.1, by simpa using hv,
      fun S hS h1 h2 => hu.clique_subset h.diag hS h1 h2⟩
  · refine ⟨(v, v), by simpa using hv, by simpa using hv, fun S hS h1 _ w hw => ?_⟩
    by_cases hwv : v = w
    · subst hwv; simpa using hv
    · exact absurd (hiso w (hS v h1 w hw hwv).1).symm hwv

/-- two seeds are in no common row of the structure -/
theorem PrivGraph.eq_of_subset {A : BMat n} {B : List (BVec n)} (h : PrivGraph A B) {l l' : Fin B.length}
    {v : Fin n} (hv : v ∈ children B[l])
    (hu : ∀ u, PrivatePair A B[l] u v → u ∈ children B[l']) (hv' : v ∈ children B[l']) : l = l' := by
  have e1 : rowSet B l = children B[l] := rowSet_lt l.isLt
  have e2 : rowSet B l' = children B[l'] := rowSet_lt l'.isLt
  rcases h.wit.2.2 B[l] (List.getElem_mem l.isLt) v (by simpa using hv) with ⟨u, hp⟩ | hiso
  · have hpp : PPair A B l u v := ⟨hp.1, by rw [e1]; simpa using hp.2.1, by rw [e1]; exact hv,
      fun w h1 h2 => by rw [e1]; simpa using hp.2.2.2 w h1 h2⟩
    exact (Fin.ext (h.pair_row hpp (by rw [e2]; exact hu u hp) (by rw [e2]; exact hv'))).symm
  · have hone : ∀ m : Fin B.length, v ∈ children B[m] → children B[m] = {v} := by
      intro m hm
      have e3 : rowSet B m = children B[m] := rowSet_lt m.isLt
      ext w
      rw [Finset.mem_singleton]
      refine ⟨fun hw => hiso w (h.row_clique m (by rw [e3]; exact hm) (by rw [e3]; exact hw)), ?_⟩
      rintro rfl; exact hm
    exact Fin.ext (h.rowSet_inj l.isLt l'.isLt (by rw [e1, e2, hone l hv, hone l' hv']))

theorem PrivGraph.sandwich {A : BMat n} {B : List (BVec n)} (h : PrivGraph A B) {l l' : Fin B.length}
    (hsub : children B[l] ⊆ children B[l']) : l = l' := by
  obtain ⟨v, hv⟩ := h.wit.2.1 B[l] (List.getElem_mem l.isLt)
  exact h.eq_of_subset (v := v) (by simpa using hv) (fun u hu => hsub (by simpa using hu.2.1))
    (hsub (by simpa using hv))

/-- a cover has at least as many cliques as the structure has latents, and only the structure itself
attains this number -/
theorem PrivGraph.minimum {A : BMat n} {B : List (BVec n)} (h : PrivGraph A B) {C : List (BVec n)}
    (hC : IsCover A C) : B.length ≤ C.length ∧ (C.length = B.length → SameRows C B) := by
  classical
  choose e he1 he2 he3 using h.seed
  have hex : ∀ l, ∃ i : Fin C.length, (C.get (i)) (e l).1 = true ∧ (C.get (i)) (e l).2 = true := by
    intro l
    have : ∃ r ∈ C, r (e l).1 = true ∧ r (e l).2 = true := by
      by_cases hne : (e l).1 = (e l).2
      · obtain ⟨r, hr, h1⟩ := hC.2.2 (e l).1
        exact ⟨r, hr, h1, by rw [← hne]; exact h1⟩
      · refine hC.2.1 _ _ ⟨(h.udg _ _ hne).mpr ⟨B[l], List.getElem_mem l.isLt, ?_, ?_⟩, hne⟩
        · simpa using he1 l
        · simpa using he2 l
    obtain ⟨r, hr, h1⟩ := this
    obtain ⟨i, hi, rfl⟩ := List.getElem_of_mem hr
    exact ⟨⟨i, hi⟩, h1⟩
  choose f hf1 hf2 using hex
  have hcl : ∀ i : Fin C.length, IsClique A (children (C.get (i))) := fun i => hC.1 _ (List.get_mem _ _)
  have hsub : ∀ l, children (C.get (f l)) ⊆ children B[l] := fun l =>
    he3 l _ (hcl _) (by simpa using hf1 l) (by simpa using hf2 l)
  have hfin : Function.Injective f := by
    intro l l' hll
    have h1 : (e l).1 ∈ children B[l'] := hsub l' (by rw [← hll]; simpa using hf1 l)
    have h2 : (e l).2 ∈ children B[l'] := hsub l' (by rw [← hll]; simpa using hf2 l)
    have hb' : IsClique A (children B[l']) := by
      intro i hi j hj hij
      exact ⟨(h.udg i j hij).mpr ⟨B[l'], List.getElem_mem l'.isLt, by simpa using hi, by simpa using hj⟩, hij⟩
    exact (h.sandwich (he3 l _ hb' h1 h2)).symm
  refine ⟨by simpa using Fintype.card_le_of_injective f hfin, fun hlen => ?_⟩
  have hsurj : Function.Surjective f := by
    have := (Fintype.bijective_iff_injective_and_card f).mpr ⟨hfin, by simp [hlen]⟩
    exact this.2
  have heq : ∀ l, children B[l] = children (C.get (f l)) := by
    intro l
    refine Finset.Subset.antisymm (fun v hv => ?_) (hsub l)
    have key : ∀ l' : Fin B.length, v ∈ children (C.get (f l')) →
        (∀ u, PrivatePair A B[l] u v → u ∈ children (C.get (f l'))) → l = l' := fun l' h1 h2 =>
      h.eq_of_subset hv (fun u hu => hsub l' (h2 u hu)) (hsub l' h1)
    rcases h.wit.2.2 B[l] (List.getElem_mem l.isLt) v (by simpa using hv) with ⟨u, hp⟩ | hiso
    · obtain ⟨r, hr, h1, h2⟩ := hC.2.1 u v ⟨(h.udg u v hp.1).mpr
        ⟨B[l], List.getElem_mem l.isLt, hp.2.1, hp.2.2.1⟩, hp.1⟩
      obtain ⟨i, hi, rfl⟩ := List.getElem_of_mem hr
      obtain ⟨l', hl'⟩ := hsurj ⟨i, hi⟩
      have hv' : v ∈ children (C.get (f l')) := by rw [show f l' = (⟨i, hi⟩ : Fin _) from hl']; simpa using h2
      have hu' : u ∈ children (C.get (f l')) := by rw [show f l' = (⟨i, hi⟩ : Fin _) from hl']; simpa using h1
      have e1 : rowSet B l = children B[l] := rowSet_lt l.isLt
      have e2 : rowSet B l' = children B[l'] := rowSet_lt l'.isLt
      have hpp : PPair A B l u v := ⟨hp.1, by rw [e1]; simpa using hp.2.1, by rw [e1]; exact hv,
        fun w h1 h2 => by rw [e1]; simpa using hp.2.2.2 w h1 h2⟩
      have := Fin.ext (h.pair_row hpp (by rw [e2]; exact hsub l' hu') (by rw [e2]; exact hsub l' hv'))
      subst this; exact hv'
    · obtain ⟨r, hr, h1⟩ := hC.2.2 v
      obtain ⟨i, hi, rfl⟩ := List.getElem_of_mem hr
      obtain ⟨l', hl'⟩ := hsurj ⟨i, hi⟩
      have hv' : v ∈ children (C.get (f l')) := by rw [show f l' = (⟨i, hi⟩ : Fin _) from hl']; simpa using h1
      have := key l' hv' (fun u hu => by
        have := hiso u (by
          have := (h.udg u v hu.1).mpr ⟨B[l], List.getElem_mem l.isLt, hu.2.1, hu.2.2.1⟩
          rw [h.symm]; exact this)
        exact absurd this hu.1)
      subst this; exact hv'
  have hsp : (B.map children).Subperm (C.map children) := by
    refine h.wit.1.subperm fun S hS => ?_
    obtain ⟨r, hr, rfl⟩ := List.mem_map.mp hS
    obtain ⟨l, hl, rfl⟩ := List.getElem_of_mem hr
    have := heq ⟨l, hl⟩
    simp only [Fin.getElem_fin] at this
    rw [this]
    exact List.mem_map_of_mem (List.get_mem _ _)
  exact (hsp.perm_of_length_le (by simp [hlen])).symm

/-- **C96** let `A` be the dependence graph of a structure `B` whose latents are witnessed by private
pairs.  Then for every set order the exact search returns the latents of `B` up to order; every cover
has at least as many cliques as `B`; and a cover with as few cliques *is* `B` up to order. -/
theorem C96_private_recovers (A : BMat n) (B : List (BVec n)) (hn : 0 < n) (hD : UnitDiag A)
    (hU : IsUDGOf A B) (hV : CoversVertices B) (hW : PrivatelyWitnessed A B) (rt : Runtime n) :
    (∃ C, (∀ fuel, numEdgesOf A ≤ fuel → findCliqueMinCover rt fuel A = .ok C) ∧ SameRows C B ∧
      IsCover A C) ∧
    ∀ C, IsCover A C → B.length ≤ C.length ∧ (C.length = B.length → SameRows C B) := by
  have hA := hU.symm
  have hO : PrivGraph A B := ⟨hA, hD, hU, hV, hW⟩
  have hcover : ∀ C, SameRows C B → IsCover A C := by
    intro C hC
    have hmem : ∀ r ∈ C, ∃ r' ∈ B, ∀ x, r x = true ↔ r' x = true := by
      intro r hr
      obtain ⟨r', hr', he⟩ := List.mem_map.mp (hC.mem_iff.mp (List.mem_map_of_mem hr))
      exact ⟨r', hr', fun x => by rw [← mem_children, ← mem_children, he]⟩
    have hmem' : ∀ r ∈ B, ∃ r' ∈ C, ∀ x, r x = true ↔ r' x = true := by
      intro r hr
      obtain ⟨r', hr', he⟩ := List.mem_map.mp (hC.mem_iff.mpr (List.mem_map_of_mem hr))
      exact ⟨r', hr', fun x => by rw [← mem_children, ← mem_children, he]⟩
    refine ⟨?_, ?_, ?_⟩
    · intro r hr i hi j hj hij
      obtain ⟨r', hr', he⟩ := hmem r hr
      exact ⟨(hU i j hij).mpr ⟨r', hr', (he i).mp (by simpa using hi), (he j).mp (by simpa using hj)⟩, hij⟩
    · intro i j hij
      obtain ⟨r, hr, h1, h2⟩ := (hU i j hij.2).mp hij.1
      obtain ⟨r', hr', he⟩ := hmem' r hr
      exact ⟨r', hr', (he i).mp h1, (he j).mp h2⟩
    · intro j
      obtain ⟨r, hr, h1⟩ := hV j
      obtain ⟨r', hr', he⟩ := hmem' r hr
      exact ⟨r', hr', (he j).mp h1⟩
  refine ⟨?_, fun C hC => hO.minimum hC⟩
  have key : ∃ C, (∀ fuel, numEdgesOf A ≤ fuel → findCliqueMinCover rt fuel A = .ok C) ∧ SameRows C B := by
    by_cases hE : ∃ i j, i < j ∧ A i j = true
    · rcases makeAux_cases rt.order hA hn with ⟨hno, -⟩ | ⟨-, g, hg⟩
      · obtain ⟨i, j, hij, hadj⟩ := hE
        rw [hno i j (ne_of_lt hij)] at hadj; cases hadj
      obtain ⟨c, info, hgood, hall⟩ := findClique_edges hA hD hE rt
      refine ⟨_, fun fuel hf => (hall fuel hf).1, ?_⟩
      have h1 := (hall _ (Nat.le_refl _)).1
      unfold findCliqueMinCover cliqueSearch at h1
      rw [hg] at h1
      obtain ⟨m, hm⟩ := maxIntersect_ok hD (A := A)
      simp only [hm] at h1
      split at h1
      · cases h1
      · rename_i c' info' hl
        · have h1'' := h1
          have h1' : addIsolatedVerts c' = addIsolatedVerts c := by injection h1''
          rw [← h1']
          obtain ⟨k, out, hb, hres, -⟩ := findLoop_ok hl
          have hne : g.numEdges ≠ 0 := by
            rw [makeAux_ok hg]; exact numEdgesOf_ne_zero.mpr hE
          obtain ⟨out', hb', hout⟩ := priv_branch hO rt hg hne RG.reconstructCover 3 k
          rw [hb] at hb'
          cases hb'
          exact priv_sameRows hO (hout c' hres).1
    · refine ⟨_, fun fuel _ => (findClique_edgeless hn hA hE rt fuel).1, ?_⟩
      -- no edge: every row of `B` is a singleton
      have hno : ∀ i j : Fin n, i ≠ j → A i j ≠ true := by
        intro i j hij hadj
        rcases lt_or_gt_of_ne hij with h' | h'
        · exact hE ⟨i, j, h', hadj⟩
        · exact hE ⟨j, i, h', by rw [hA]; exact hadj⟩
      have hempty : bigRows B = [] := by
        rw [List.eq_nil_iff_forall_not_mem]
        intro l hl
        obtain ⟨x, hx, y, hy, hxy⟩ := Finset.one_lt_card.mp (mem_bigRows.mp hl)
        exact hno x y hxy (hO.row_clique l hx hy)
      have h1 := priv_sameRows hO (c := []) (by rw [hempty]; exact List.Perm.refl _)
      have h2 : ((List.finRange n).map A.row).map children = (addIsolatedVerts ([] : List (BVec n))).map children := by
        rw [map_children_addIsolated]
        simp only [List.any_nil, Bool.not_false, List.map_nil, List.nil_append, List.map_map]
        rw [List.filter_eq_self.mpr (by simp)]
        apply List.map_congr_left
        intro j _
        ext x
        simp only [Function.comp_apply, mem_children, BMat.get_row, Finset.mem_singleton]
        constructor
        · intro hx; by_contra hne; exact hno j x (Ne.symm hne) hx
        · rintro rfl; exact hD x
      unfold SameRows at h1 ⊢
      rw [h2]; exact h1
  obtain ⟨C, h1, h2⟩ := key
  exact ⟨C, h1, h2, hcover C h2⟩

-- the 4-cycle 0-1-2-3 with a pendant vertex 4 and an isolated vertex 5: no latent of the cycle has a
-- pure child
def exPriv : List (BVec 6) := [⟨0b000011⟩, ⟨0b000110⟩, ⟨0b001100⟩, ⟨0b001001⟩, ⟨0b011000⟩, ⟨0b100000⟩]
def exPrivUdg : BMat 6 := BMat.of fun i j => exPriv.any fun r => r i && r j

example : UnitDiag exPrivUdg ∧ IsUDGOf exPrivUdg exPriv ∧ CoversVertices exPriv ∧
    PrivatelyWitnessed exPrivUdg exPriv := by
  refine ⟨by unfold UnitDiag; decide +kernel, by unfold IsUDGOf; decide +kernel,
    by unfold CoversVertices; decide +kernel, by decide +kernel⟩

/-- one-pure-child structures are a special case -/
theorem onePureChild_witnessed {A : BMat n} {B : List (BVec n)} (hD : UnitDiag A) (hU : IsUDGOf A B)
    (hB : OnePureChild B) : PrivatelyWitnessed A B := by
  have hO : OpcGraph A B := ⟨hU.symm, hD, hB, hU⟩
  refine ⟨hO.rows_nodup, fun r hr => ?_, fun r hr v hv => ?_⟩
  · obtain ⟨l, hl, rfl⟩ := List.getElem_of_mem hr
    obtain ⟨p, hp⟩ := hB.1 l hl
    exact ⟨p, (hp l hl).mpr rfl⟩
  · obtain ⟨l, hl, rfl⟩ := List.getElem_of_mem hr
    obtain ⟨p, hp⟩ := hB.1 l hl
    have hpl : B[l] p = true := (hp l hl).mpr rfl
    have hnb : ∀ w, A p w = true → B[l] w = true := fun w hw => by
      have := (hO.pure_adj hl hp).mp hw
      exact (mem_rowSet.mp this).2
    by_cases hpv : p = v
    · subst hpv
      by_cases hex : ∃ u, u ≠ p ∧ B[l] u = true
      · obtain ⟨u, h1, h2⟩ := hex
        exact Or.inl ⟨u, h1, h2, hpl, fun w _ hw => hnb w hw⟩
      · right
        intro w hw
        by_contra hne
        exact hex ⟨w, hne, hnb w hw⟩
    · exact Or.inl ⟨p, hpv, hpl, hv, fun w hw _ => hnb w hw⟩

/-- **C96, consequence**: a one-pure-child structure is the only smallest structure with its
dependence graph -/
theorem C96_one_pure_child_unique (A : BMat n) (B : List (BVec n)) (hB : OnePureChild B)
    (hU : IsUDGOf A B) (C : List (BVec n)) (hC : IsCover A C) (hlen : C.length ≤ B.length) :
    SameRows C B := by
  -- the diagonal plays no role: set it to one
  let A' : BMat n := BMat.of fun i j => decide (i = j) || A i j
  have hoff : ∀ i j, i ≠ j → A' i j = A i j := by intro i j h; simp [A', h]
  have hU' : IsUDGOf A' B := fun i j hij => by rw [hoff i j hij]; exact hU i j hij
  have hD' : UnitDiag A' := by intro i; simp [A']
  have hadj : ∀ i j, Adj A' i j ↔ Adj A i j := by
    intro i j
    unfold Adj
    constructor
    · rintro ⟨h, hne⟩; exact ⟨by rw [← hoff i j hne]; exact h, hne⟩
    · rintro ⟨h, hne⟩; exact ⟨by rw [hoff i j hne]; exact h, hne⟩
  have hC' : IsCover A' C := ⟨fun r hr i hi j hj hij => (hadj i j).mpr (hC.1 r hr i hi j hj hij),
    fun i j hij => hC.2.1 i j ((hadj i j).mp hij), hC.2.2⟩
  have := (⟨hU'.symm, hD', hU', hB.2, onePureChild_witnessed hD' hU' hB⟩ : PrivGraph A' B).minimum hC'
  exact this.2 (Nat.le_antisymm hlen this.1)

/-! ### C97 -/

/-- **C97** if every edge of `A` lies in one maximal clique only (for example: `A` has no triangle),
the exact search returns every maximal clique of `A` once, for every set order, and no structure with
the dependence graph `A` has fewer latents. -/
theorem C97_exact_maximal_cliques (A : BMat n) (hn : 0 < n) (hA : Symm A) (hD : UnitDiag A)
    (h1 : ∀ S T, IsMaximalClique A S → IsMaximalClique A T → ∀ i ∈ S ∩ T, ∀ j ∈ S ∩ T, i ≠ j → S = T)
    (rt : Runtime n) :
    ∃ C, (∀ fuel, numEdgesOf A ≤ fuel → findCliqueMinCover rt fuel A = .ok C) ∧
      (C.map children).Nodup ∧ (∀ S, S ∈ C.map children ↔ IsMaximalClique A S) ∧
      IsCover A C ∧ ∀ C', IsCover A C' → C.length ≤ C'.length := by
  classical
  let B : List (BVec n) := ((Finset.univ : Finset (Finset (Fin n))).filter
    (IsMaximalClique A)).toList.map fun S => BVec.of fun i => decide (i ∈ S)
  have hch : ∀ S : Finset (Fin n), children (BVec.of fun i => decide (i ∈ S)) = S := by
    intro S; ext i; simp
  have hmap : B.map children = ((Finset.univ : Finset (Finset (Fin n))).filter
      (IsMaximalClique A)).toList := by
    simp only [B, List.map_map]
    conv_rhs => rw [← List.map_id (Finset.toList _)]
    exact List.map_congr_left fun S _ => hch S
  have hmem : ∀ r, r ∈ B → IsMaximalClique A (children r) := by
    intro r hr
    have := List.mem_map_of_mem (f := children) hr
    rw [hmap] at this
    simpa using this
  have hof : ∀ S, IsMaximalClique A S → ∃ r ∈ B, children r = S := by
    intro S hS
    have : S ∈ B.map children := by rw [hmap]; simpa using hS
    obtain ⟨r, hr, he⟩ := List.mem_map.mp this
    exact ⟨r, hr, he⟩
  have hext : ∀ T, IsClique A T → ∃ r ∈ B, ∀ i ∈ T, r i = true := by
    intro T hT
    obtain ⟨S, hTS, hS⟩ := hT.exists_maximal
    obtain ⟨r, hr, he⟩ := hof S hS
    exact ⟨r, hr, fun i hi => by rw [← mem_children, he]; exact hTS hi⟩
  have hU : IsUDGOf A B := by
    intro i j hij
    constructor
    · intro hadj
      obtain ⟨r, hr, h⟩ := hext {i, j} (by
        intro a ha b hb hab
        simp only [Finset.mem_insert, Finset.mem_singleton] at ha hb
        rcases ha with rfl | rfl <;> rcases hb with rfl | rfl
        · exact absurd rfl hab
        · exact ⟨hadj, hab⟩
        · exact ⟨by rw [hA]; exact hadj, hab⟩
        · exact absurd rfl hab)
      exact ⟨r, hr, h i (by simp), h j (by simp)⟩
    · rintro ⟨r, hr, h2, h3⟩
      exact ((hmem r hr).1 i (by simpa using h2) j (by simpa using h3) hij).1
  have hV : CoversVertices B := by
    intro j
    obtain ⟨r, hr, h⟩ := hext {j} (by
      intro a ha b hb hab
      simp only [Finset.mem_singleton] at ha hb
      exact absurd (ha.trans hb.symm) hab)
    exact ⟨r, hr, h j (by simp)⟩
  have hW : PrivatelyWitnessed A B := by
    refine ⟨by rw [hmap]; exact Finset.nodup_toList _, fun r hr => ?_, fun r hr v hv => ?_⟩
    · by_contra hno
      have hem : children r = ∅ := by
        ext i
        simp only [mem_children, Finset.notMem_empty, iff_false]
        exact fun h => hno ⟨i, h⟩
      have := (hmem r hr).2 ⟨0, hn⟩ (by rw [hem]; simp)
      rw [hem] at this
      refine this ?_
      intro a ha b hb hab
      simp only [Finset.mem_insert, Finset.notMem_empty, or_false] at ha hb
      exact absurd (ha.trans hb.symm) hab
    · have hS := hmem r hr
      have hvS : v ∈ children r := by simpa using hv
      have hcom : ∀ u ∈ children r, u ≠ v → ∀ w, A u w = true → A v w = true → r w = true := by
        intro u hu huv w huw hvw
        by_cases hwu : w = u
        · subst hwu; simpa using hu
        by_cases hwv : w = v
        · subst hwv; exact hv
        obtain ⟨T, hTT, hT⟩ := IsClique.exists_maximal (A := A) (T := {u, v, w}) (by
          have huv' := (hS.1 u hu v hvS huv).1
          intro a ha b hb hab
          simp only [Finset.mem_insert, Finset.mem_singleton] at ha hb
          refine ⟨?_, hab⟩
          rcases ha with rfl | rfl | rfl <;> rcases hb with rfl | rfl | rfl <;>
            first
              | exact hD _
              | assumption
              | (rw [hA]; assumption))
        have := h1 _ T hS hT u (by simp [hu, hTT (show u ∈ ({u, v, w} : Finset _) by simp)]) v
          (by simp [hvS, hTT (show v ∈ ({u, v, w} : Finset _) by simp)]) huv
        have hwT : w ∈ T := hTT (by simp)
        rw [← this] at hwT
        simpa using hwT
      by_cases hex : ∃ u ∈ children r, u ≠ v
      · obtain ⟨u, hu, huv⟩ := hex
        exact Or.inl ⟨u, huv, by simpa using hu, hv, hcom u hu huv⟩
      · right
        intro w hw
        by_contra hwv
        have hsing : children r = {v} := by
          ext x
          rw [Finset.mem_singleton]
          constructor
          · intro hx; by_contra hne; exact hex ⟨x, hx, hne⟩
          · rintro rfl; exact hvS
        refine hS.2 w (by rw [hsing]; simpa using hwv) ?_
        rw [hsing]
        intro a ha b hb hab
        simp only [Finset.mem_insert, Finset.mem_singleton] at ha hb
        rcases ha with rfl | rfl <;> rcases hb with rfl | rfl
        · exact absurd rfl hab
        · exact ⟨by rw [hA]; exact hw, hab⟩
        · exact ⟨hw, hab⟩
        · exact absurd rfl hab
  obtain ⟨⟨C, h2, h3, h4⟩, h5⟩ := C96_private_recovers A B hn hD hU hV hW rt
  refine ⟨C, h2, h3.nodup_iff.mpr hW.1, fun S => ?_, h4, fun C' hC' => ?_⟩
  · rw [h3.mem_iff, hmap]; simp
  · have : C.length = B.length := by simpa using h3.length_eq
    rw [this]; exact (h5 C' hC').1

/-- the hypothesis of C97, checkable edge by edge: the common neighbours of an edge form a clique -/
theorem unique_maximal_of_common (A : BMat n) (hD : UnitDiag A)
    (h : ∀ i j, Adj A i j → ∀ a b, A i a = true → A j a = true → A i b = true → A j b = true → A a b = true) :
    ∀ S T, IsMaximalClique A S → IsMaximalClique A T → ∀ i ∈ S ∩ T, ∀ j ∈ S ∩ T, i ≠ j → S = T := by
  have key : ∀ S T, IsMaximalClique A S → IsMaximalClique A T → ∀ i ∈ S ∩ T, ∀ j ∈ S ∩ T, i ≠ j →
      S ⊆ T := by
    intro S T hS hT i hi j hj hij x hx
    by_contra hxT
    rw [Finset.mem_inter] at hi hj
    have hnb : ∀ U, IsClique A U → ∀ y ∈ U, ∀ z ∈ U, A y z = true := by
      intro U hU y hy z hz
      by_cases hyz : y = z
      · subst hyz; exact hD y
      · exact (hU y hy z hz hyz).1
    have hadj : ∀ y ∈ T, A y x = true ∧ A x y = true := fun y hy =>
      ⟨h i j (hS.1 i hi.1 j hj.1 hij) y x (hnb T hT.1 i hi.2 y hy) (hnb T hT.1 j hj.2 y hy)
        (hnb S hS.1 i hi.1 x hx) (hnb S hS.1 j hj.1 x hx),
       h i j (hS.1 i hi.1 j hj.1 hij) x y (hnb S hS.1 i hi.1 x hx) (hnb S hS.1 j hj.1 x hx)
        (hnb T hT.1 i hi.2 y hy) (hnb T hT.1 j hj.2 y hy)⟩
    refine hT.2 x hxT ?_
    intro a ha b hb hab
    rcases Finset.mem_insert.mp ha with rfl | ha' <;> rcases Finset.mem_insert.mp hb with rfl | hb'
    · exact absurd rfl hab
    · exact ⟨(hadj b hb').2, hab⟩
    · exact ⟨(hadj a ha').1, hab⟩
    · exact hT.1 a ha' b hb' hab
  intro S T hS hT i hi j hj hij
  exact Finset.Subset.antisymm (key S T hS hT i hi j hj hij)
    (key T S hT hS i (by rwa [Finset.inter_comm]) j (by rwa [Finset.inter_comm]) hij)

-- the 5-cycle with a pendant triangle: every edge lies in one maximal clique
def exUniq : BMat 7 := graphOf 7 [(0,1),(1,2),(2,3),(3,4),(0,4),(4,5),(4,6),(5,6)]

example : ∀ S T, IsMaximalClique exUniq S → IsMaximalClique exUniq T → ∀ i ∈ S ∩ T, ∀ j ∈ S ∩ T,
    i ≠ j → S = T :=
  unique_maximal_of_common _ (graphOf_diag _) (by decide +kernel)

end Medil

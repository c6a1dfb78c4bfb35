import Verif.Proofs.Priv
import Verif.Spec.Chordal
/-
  Graphs without four mutually adjacent vertices that have a cluster elimination order: the reduction solves them completely.
-/
namespace Medil
variable {n : Nat}

/-- removing pairwise non-adjacent vertices: the sum of their degrees is the exact number of edges lost -/
theorem twiceEdges_sdiff_indep {A : BMat n} (hA : Symm A) (S I : Finset (Fin n)) (hI : I ⊆ S)
    (hind : ∀ w ∈ I, ∀ w' ∈ I, w ≠ w' → ¬ A w w' = true) :
    twiceEdges A S = twiceEdges A (S \ I) + 2 * ∑ w ∈ I, degIn A S w := by
  classical
  induction I using Finset.induction_on with
  | empty => simp
  | insert w I hw ih =>
    have h1 := ih ((Finset.subset_insert w I).trans hI)
      (fun a ha b hb => hind a (Finset.mem_insert_of_mem ha) b (Finset.mem_insert_of_mem hb))
    rw [Finset.sum_insert hw]
    have hwS : w ∈ S \ I := by
      rw [Finset.mem_sdiff]; exact ⟨hI (Finset.mem_insert_self _ _), hw⟩
    have h2 := twiceEdges_erase hA hwS
    have h3 : S \ insert w I = (S \ I).erase w := by
      ext x; simp only [Finset.mem_sdiff, Finset.mem_insert, Finset.mem_erase]; tauto
    have h4 : degIn A (S \ I) w = degIn A S w := by
      unfold degIn
      congr 1
      ext x
      simp only [Finset.mem_filter, Finset.mem_sdiff]
      constructor
      · rintro ⟨⟨h, _⟩, h'⟩; exact ⟨h, h'⟩
      · rintro ⟨h, h'⟩
        refine ⟨⟨h, fun hx => ?_⟩, h'⟩
        have hne : w ≠ x := by rintro rfl; exact hw hx
        exact hind w (Finset.mem_insert_self _ _) x (Finset.mem_insert_of_mem hx) hne (by tauto)
    rw [h3]; omega

/-- the counts of the uncovered edges are exact and no vertex was deleted by rule 3 -/
structure XInv (A : BMat n) (g : RG n) : Prop where
  red : g.redAway = none
  cnt : ∀ a b, a < b → g.adj a b = true → 2 * g.counts a b = twiceEdges A (children (g.common.row a b))

theorem XInv.rule1 {A : BMat n} (hA : Symm A) (hK : NoK4 A) {g : RG n} (hC : Coh A g) (h : XInv A g) : XInv A g.rule1 := by
  obtain ⟨f1, f2, f3, f4, f5, f6, f7, f8⟩ := rule1_fields g
  refine ⟨by rw [f6]; exact h.red, ?_⟩
  intro a b hlt hadj
  rw [rule1_off g (ne_of_lt hlt)] at hadj
  rw [rule1_counts, rule1Sub_eq, rule1_row, hC.unred, mul_sub, h.cnt a b hlt hadj]
  have hx := twiceEdges_sdiff_indep hA (children (g.common.row a b))
    ((children (g.common.row a b)).filter (fun w => g.isolated w = true)) (Finset.filter_subset _ _) ?_
  · rw [hx]; push_cast; ring
  intro w hw w' hw' hne hAw
  rw [Finset.mem_filter, mem_children, BTab.get_row, hC.common] at hw hw'
  have hiso := ((hC.isolated w).mp hw.2).2
  have hiso' := ((hC.isolated w').mp hw'.2).2
  have hab := ne_of_lt hlt
  have hadj' : g.adj b a = true := by rw [hC.symm]; exact hadj
  have h1 : a ≠ w := by rintro rfl; rw [hiso b hab.symm] at hadj; cases hadj
  have h2 : b ≠ w := by rintro rfl; rw [hiso a hab] at hadj'; cases hadj'
  have h3 : a ≠ w' := by rintro rfl; rw [hiso' b hab.symm] at hadj; cases hadj
  have h4 : b ≠ w' := by rintro rfl; rw [hiso' a hab] at hadj'; cases hadj'
  obtain ⟨⟨-, e1, e2, e3, -⟩, -⟩ := hw
  obtain ⟨⟨-, -, e4, e5, -⟩, -⟩ := hw'
  have hcl : IsClique A ({a, b, w, w'} : Finset (Fin n)) := by
    have s1 := hA a b; have s2 := hA a w; have s3 := hA b w; have s4 := hA a w'; have s5 := hA b w'; have s6 := hA w w'
    intro i hi j hj hij
    refine ⟨?_, hij⟩
    simp only [Finset.mem_insert, Finset.mem_singleton] at hi hj
    rcases hi with rfl | rfl | rfl | rfl <;> rcases hj with rfl | rfl | rfl | rfl <;> first | exact absurd rfl hij | simp_all
  have hcard := hK _ hcl
  have : ({a, b, w, w'} : Finset (Fin n)).card = 4 := by
    rw [Finset.card_insert_of_notMem, Finset.card_insert_of_notMem, Finset.card_insert_of_notMem, Finset.card_singleton] <;>
      simp [*]
  omega

theorem XInv.fire2 {A : BMat n} {g : RG n} (h : XInv A g) (e : Fin n × Fin n) : XInv A (g.fire2 e) := by
  refine ⟨h.red, fun a b hlt hadj => h.cnt a b hlt ?_⟩
  have : (g.fire2 e).adj a b = _ := setEdges_row g.adj (g.common.row e.1 e.2) a b
  rw [this] at hadj
  simp only [Bool.and_eq_true] at hadj
  exact hadj.1

/-- rule 2 applies as long as some vertex is live -/
theorem XInv.dead {A : BMat n} (hA : Symm A) (hE : ClusterElim A) {g : RG n} (hC : Coh A g) (h : XInv A g)
    (hL : LiveNbr g) (hno : NoRule2 g) : ∀ i j, i ≠ j → g.adj i j = false := by
  classical
  intro i j hij
  by_contra hc
  have hc : g.adj i j = true := by simpa using hc
  set S := Finset.univ.filter fun v => g.adj v v = true with hS
  have hmem : ∀ v, v ∈ S ↔ g.adj v v = true := fun v => by simp [hS]
  obtain ⟨v, hv, hcl⟩ := hE S ⟨i, (hmem i).mpr (hC.live i j hij hc)⟩
  obtain ⟨u, huv, hadj⟩ := hL v ((hmem v).mp hv)
  have hadj' : g.adj u v = true := by rw [hC.symm]; exact hadj
  have hAvu := hC.sub v u huv.symm hadj
  have hu : u ∈ S := (hmem u).mpr (hC.live u v huv hadj')
  have hAuv : A u v = true := by rw [hA]; exact hAvu
  have key : ∀ T : Finset (Fin n), (∀ w ∈ T, A v w = true ∧ A u w = true ∧ g.adj w w = true) → IsClique A T := by
    intro T hT a ha b hb hab
    obtain ⟨a1, a2, a3⟩ := hT a ha
    obtain ⟨b1, b2, b3⟩ := hT b hb
    by_cases e1 : a = v
    · subst e1; exact ⟨b1, hab⟩
    by_cases e2 : b = v
    · subst e2; exact ⟨by rw [hA]; exact a1, hab⟩
    by_cases e3 : a = u
    · subst e3; exact ⟨b2, hab⟩
    by_cases e4 : b = u
    · subst e4; exact ⟨by rw [hA]; exact a2, hab⟩
    exact hcl a ((hmem a).mpr a3) u hu b ((hmem b).mpr b3) ⟨a1, Ne.symm e1⟩ ⟨hAvu, huv.symm⟩ ⟨b1, Ne.symm e2⟩
      ⟨by rw [hA]; exact a2, e3⟩ ⟨b2, Ne.symm e4⟩ hab
  rcases lt_or_gt_of_ne huv with hlt | hlt
  · refine hno (u, v) ((hC.ext _).mpr ⟨hlt, hadj'⟩) (score_zero (h.cnt u v hlt hadj') (key _ fun w hw => ?_))
    rw [mem_children, BTab.get_row, hC.common] at hw
    exact ⟨hw.2.2.2.1, hw.2.2.1, hw.2.2.2.2⟩
  · refine hno (v, u) ((hC.ext _).mpr ⟨hlt, hadj⟩) (score_zero (h.cnt v u hlt hadj) (key _ fun w hw => ?_))
    rw [mem_children, BTab.get_row, hC.common] at hw
    exact ⟨hw.2.2.1, hw.2.2.2.1, hw.2.2.2.2⟩

theorem elim_reduce {A : BMat n} (hA : Symm A) (hD : UnitDiag A) (hK : NoK4 A) (hE : ClusterElim A) {g : RG n} (hC : Coh A g)
    (k : Int) (h : XInv A { g with k := k }) :
    ∃ g', g.reduzieren k = .ok g' ∧ (g'.k < 0 ∨ (0 ≤ g'.k ∧ g'.numEdges = 0 ∧ g'.redAway = none)) := by
  obtain ⟨g', h1, hC', h2⟩ := reduzieren_spec hA hD (XInv A) (XInv A)
    (fun g b h => ⟨h.red, h.cnt⟩) (fun g hC h => h.rule1 hA hK hC)
    (fun g e _ _ h _ _ => h.fire2 e)
    (fun g v hC hL h hno _ _ hu => by
      obtain ⟨u, hu, huv⟩ := hu
      rw [h.dead hA hE hC hL hno v u (Ne.symm hu)] at huv; cases huv)
    g k hC h
  refine ⟨g', h1, ?_⟩
  rcases h2 with ⟨hk, -⟩ | ⟨hk, hI, hS⟩
  · exact Or.inl hk
  · refine Or.inr ⟨hk, ?_, hI.red⟩
    rw [hC'.nedges, numEdgesOf_eq_zero hC'.symm]
    exact hI.dead hA hE hC' hS.nbr hS.no2

theorem elim_branch {A : BMat n} (hA : Symm A) (hD : UnitDiag A) (hK : NoK4 A) (hE : ClusterElim A) (rt : Runtime n) {g : RG n}
    (hg : makeAux rt.order A = .ok g) (hne : g.numEdges ≠ 0)
    (recon : Option (BMat n) → List (BVec n) → List (BVec n)) (rem : Nat) (k : Nat) :
    ∃ out, branch recon rt rem [k] g k none = .ok out ∧ ∀ c, out.res = some c → out.info = ⟨false, false, false⟩ := by
  have hC := Coh.init hA hD rt.perm hg
  have hcov : g.cover = none := by rw [makeAux_ok hg]
  have hent := entry_none hcov
  have hX : XInv A { g with k := (k : Int) } := by
    have hg' := makeAux_ok hg
    subst hg'
    exact ⟨rfl, fun a b hlt _ => countsOf_eq hA hD _ hlt⟩
  obtain ⟨g', hred, h⟩ := elim_reduce hA hD hK hE hC k hX
  have hbody : ∀ rec, ∃ out, branchBody recon rt rec [k] g k none = .ok out ∧
      ∀ c, out.res = some c → out.info = ⟨false, false, false⟩ := by
    intro rec
    have hE1 : (entry g none).numEdges ≠ 0 := by rw [hent]; exact hne
    have hred1 : (entry g none).reduzieren k = .ok g' := by rw [hent]; exact hred
    rcases h with hk | ⟨hk, hE', hr⟩
    · exact ⟨_, branchBody_budget hE1 hred1 hk, by simp⟩
    · exact ⟨_, branchBody_leaf hE1 hred1 hk hE', fun c _ => by simp [hr]⟩
  cases rem with
  | zero => exact hbody none
  | succ rem => exact hbody _

end Medil

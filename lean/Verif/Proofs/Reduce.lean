import Verif.Proofs.Graph
import Verif.Model.Ecc
namespace Medil
variable {n : Nat}

/-- every live vertex has an uncovered edge -/
def LiveNbr (g : RG n) : Prop := ∀ v, g.adj v v = true → ∃ u, u ≠ v ∧ g.adj v u = true

/-- no uncovered edge has score 0 -/
def NoRule2 (g : RG n) : Prop := ∀ e ∈ g.extant, g.score e ≠ 0

/-- neither rule 2 nor rule 3 applies, nor rule 1 -/
structure Stuck (g : RG n) : Prop where
  no2 : NoRule2 g
  no3 : ∀ v, g.adj v v = true → g.dominate v = false
  nbr : LiveNbr g

theorem Coh.rule1_liveNbr {A : BMat n} {g : RG n} (h : Coh A g) : LiveNbr g.rule1 := by
  intro v hv
  rw [rule1_adj] at hv
  simp only [decide_true, Bool.true_and, Bool.and_eq_true, Bool.not_eq_true'] at hv
  by_contra hc
  have : g.isolated v = true := by
    rw [h.isolated]
    refine ⟨hv.1, fun u hu => ?_⟩
    by_contra hcc
    exact hc ⟨u, hu, by rw [rule1_adj]; simp [Ne.symm hu, hcc]⟩
  rw [hv.2] at this; cases this

theorem Coh.coverPairs_lt {A : BMat n} {g : RG n} (h : Coh A g) {es : List (Fin n × Fin n)}
    {e : Fin n × Fin n} (he : e ∈ es) (hlt : e.1 < e.2) (hadj : g.adj e.1 e.2 = true) :
    (g.coverPairs es).numEdges < g.numEdges := by
  rw [h.nedges]
  show numEdgesOf (setEdges false g.adj es) < _
  rw [numEdgesOf_eq, numEdgesOf_eq]
  apply Finset.card_lt_card
  rw [Finset.ssubset_iff_of_subset]
  · refine ⟨e, by simp [hlt, hadj], ?_⟩
    simp only [mem_edgeSet, setEdges_apply, not_and]
    intro _
    rw [if_pos (Or.inl he)]; simp
  · intro f
    simp only [mem_edgeSet, setEdges_apply]
    rintro ⟨h1, h2⟩
    refine ⟨h1, ?_⟩
    split at h2
    · cases h2
    · exact h2

theorem Coh.fire2_lt {A : BMat n} (hA : Symm A) (hD : UnitDiag A) {g : RG n} (h : Coh A g)
    {e : Fin n × Fin n} (he : e ∈ g.extant) : (g.fire2 e).numEdges < g.numEdges := by
  obtain ⟨h1, h2⟩ := (h.ext e).mp he
  obtain ⟨h3, h4⟩ := h.ends_mem hD hA he
  exact h.coverPairs_lt (e := e) (mem_rowPairs.mpr ⟨by simpa using h3, by simpa using h4, h1⟩) h1 h2

theorem Coh.fire3_lt {A : BMat n} {g : RG n} (h : Coh A g) {v u : Fin n} (hu : u ≠ v)
    (hadj : g.adj v u = true) : (g.fire3 v).numEdges < g.numEdges := by
  rcases lt_or_gt_of_ne hu with hlt | hlt
  · exact h.coverPairs_lt (e := (u, v)) (mem_vertEdges.mpr ⟨hlt, Or.inr ⟨rfl, hadj⟩⟩) hlt
      (by rw [h.symm]; exact hadj)
  · exact h.coverPairs_lt (e := (v, u)) (mem_vertEdges.mpr ⟨hlt, Or.inl ⟨rfl, hadj⟩⟩) hlt hadj

/-- the reduction loop: termination, absence of exceptions, and propagation of an invariant `P` (loop
head) / `Q` (after rule 1) -/
theorem reduceLoop_spec {A : BMat n} (hA : Symm A) (hD : UnitDiag A) (P Q : RG n → Prop)
    (hb : ∀ g b, P g → P { g with reducing := b })
    (h1 : ∀ g, Coh A g → P g → Q g.rule1)
    (h2 : ∀ g e, Coh A g → LiveNbr g → Q g → e ∈ g.extant → g.score e = 0 → P (g.fire2 e))
    (h3 : ∀ g v, Coh A g → LiveNbr g → Q g → NoRule2 g → g.adj v v = true →
      g.dominate v = true → (∃ u, u ≠ v ∧ g.adj v u = true) → P (g.fire3 v)) :
    ∀ fuel g, Coh A g → P g → g.numEdges < fuel →
      ∃ g', RG.reduceLoop fuel g = .ok g' ∧ Coh A g' ∧
        ((g'.k < 0 ∧ (P g' ∨ Q g')) ∨ (0 ≤ g'.k ∧ Q g' ∧ Stuck g')) := by
  intro fuel
  induction fuel with
  | zero => intro g _ _ hf; omega
  | succ fuel ih =>
    intro g hC hP hf
    have hC0 : Coh A { g with reducing := false } := hC.congr g.cover g.redAway g.k false
    have hP0 := hb g false hP
    have hC1 := hC0.rule1 hA
    have hL1 := hC0.rule1_liveNbr
    have hQ1 := h1 _ hC0 hP0
    obtain ⟨f1, f2, f3, f4, f5, f6, f7, f8⟩ := rule1_fields { g with reducing := false }
    unfold RG.reduceLoop
    simp only
    generalize hg1 : RG.rule1 { g with reducing := false } = g1 at *
    rcases rule2_cases g1 with ⟨hno, heq⟩ | ⟨e, he, hs, heq⟩
    · rw [heq]
      by_cases hk : g1.k < 0
      · rw [if_pos hk]
        exact ⟨g1, rfl, hC1, Or.inl ⟨hk, Or.inr hQ1⟩⟩
      · rw [if_neg hk, f8]
        simp only [Bool.false_eq_true, if_false]
        rcases rule3_cases g1 with ⟨hno3, heq3⟩ | ⟨v, hv, hdom, ⟨hnone, _⟩ | ⟨⟨u, hu, hadj⟩, heq3⟩⟩
        · rw [heq3]
          simp only [f8, Bool.false_eq_true, if_false]
          exact ⟨g1, rfl, hC1, Or.inr ⟨by omega, hQ1, hno, hno3, hL1⟩⟩
        · obtain ⟨u, hu, hadj⟩ := hL1 v hv
          rw [hnone u hu] at hadj; cases hadj
        · rw [heq3]
          have hred : (g1.fire3 v).reducing = true := rfl
          simp only [hred, if_true]
          have hlt := hC1.fire3_lt hu hadj
          apply ih _ (hC1.fire3 v) (h3 _ _ hC1 hL1 hQ1 hno hv hdom ⟨u, hu, hadj⟩)
          have hn : g1.numEdges = g.numEdges := f3
          omega
    · rw [heq]
      have hP2 := h2 _ e hC1 hL1 hQ1 he hs
      by_cases hk : (g1.fire2 e).k < 0
      · rw [if_pos hk]
        exact ⟨_, rfl, hC1.fire2 e, Or.inl ⟨hk, Or.inl hP2⟩⟩
      · rw [if_neg hk]
        have hred : (g1.fire2 e).reducing = true := rfl
        simp only [hred, if_true]
        have hlt := hC1.fire2_lt hA hD he
        apply ih _ (hC1.fire2 e) hP2
        have hn : g1.numEdges = g.numEdges := f3
        omega

theorem reduzieren_spec {A : BMat n} (hA : Symm A) (hD : UnitDiag A) (P Q : RG n → Prop)
    (hb : ∀ g b, P g → P { g with reducing := b })
    (h1 : ∀ g, Coh A g → P g → Q g.rule1)
    (h2 : ∀ g e, Coh A g → LiveNbr g → Q g → e ∈ g.extant → g.score e = 0 → P (g.fire2 e))
    (h3 : ∀ g v, Coh A g → LiveNbr g → Q g → NoRule2 g → g.adj v v = true →
      g.dominate v = true → (∃ u, u ≠ v ∧ g.adj v u = true) → P (g.fire3 v))
    (g : RG n) (k : Int) (hC : Coh A g) (hP : P { g with k := k }) :
      ∃ g', g.reduzieren k = .ok g' ∧ Coh A g' ∧
        ((g'.k < 0 ∧ (P g' ∨ Q g')) ∨ (0 ≤ g'.k ∧ Q g' ∧ Stuck g')) := by
  unfold RG.reduzieren
  apply reduceLoop_spec hA hD P Q hb h1 h2 h3
  · exact hC.congr g.cover g.redAway k true
  · exact hb _ true hP
  · show g.numEdges < _
    omega

end Medil

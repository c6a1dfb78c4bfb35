import Verif.Spec.Chordal
import Mathlib.Logic.Relation
import Mathlib.Data.Finset.Max
import Mathlib.Tactic.Push
/-
  Dirac's theorem: every set of vertices of a chordal graph contains a vertex whose neighbours in the set are mutually adjacent.
-/
namespace Medil
variable {n : Nat}

/-- the neighbours of `v` in `S` are mutually adjacent -/
def Simplicial (A : BMat n) (S : Finset (Fin n)) (v : Fin n) : Prop :=
  ∀ a ∈ S, ∀ b ∈ S, Adj A v a → Adj A v b → a ≠ b → Adj A a b

theorem Adj.symm' {A : BMat n} (hA : Symm A) {i j : Fin n} (h : Adj A i j) : Adj A j i :=
  ⟨by rw [hA]; exact h.1, h.2.symm⟩

/-- a path of `m` steps from `x` to `y` whose inner vertices are in `C` -/
def PathVia (A : BMat n) (C : Fin n → Prop) (x y : Fin n) (m : Nat) (p : Nat → Fin n) : Prop :=
  p 0 = x ∧ p m = y ∧ (∀ i, 0 < i → i < m → C (p i)) ∧ ∀ i, i < m → Adj A (p i) (p (i + 1))

theorem PathVia.shortcut {A : BMat n} {C : Fin n → Prop} {x y : Fin n} {m : Nat} {p : Nat → Fin n}
    (h : PathVia A C x y m p) {i j : Nat} (hij : i + 1 < j) (hj : j ≤ m) (ha : Adj A (p i) (p j)) :
    ∃ q, PathVia A C x y (m - (j - i - 1)) q := by
  obtain ⟨h0, hm, hC, hs⟩ := h
  refine ⟨fun t => if t ≤ i then p t else p (t + (j - i - 1)), ?_, ?_, ?_, ?_⟩
  · simp [h0]
  · have : ¬ m - (j - i - 1) ≤ i := by omega
    simp only [if_neg this]
    rw [show m - (j - i - 1) + (j - i - 1) = m by omega, hm]
  · intro t ht ht'
    simp only
    split
    · exact hC t ht (by omega)
    · exact hC _ (by omega) (by omega)
  · intro t ht
    simp only
    by_cases h1 : t + 1 ≤ i
    · rw [if_pos h1, if_pos (by omega)]; exact hs t (by omega)
    · by_cases h2 : t ≤ i
      · have : t = i := by omega
        subst this
        rw [if_pos h2, if_neg h1, show t + 1 + (j - t - 1) = j by omega]; exact ha
      · rw [if_neg h2, if_neg h1, show t + 1 + (j - i - 1) = t + (j - i - 1) + 1 by omega]
        exact hs _ (by omega)

/-- two neighbours of `v` that are joined by a path outside the closed neighbourhood of `v` are adjacent -/
theorem Chordal.close {A : BMat n} (hc : Chordal A) {v x y : Fin n} (hx : Adj A v x) (hy : Adj A v y) (hxy : x ≠ y)
    {C : Fin n → Prop} (hC : ∀ c, C c → c ≠ v ∧ ¬ Adj A v c) {m : Nat} {p : Nat → Fin n} (hp : PathVia A C x y m p) : Adj A x y := by
  classical
  by_contra hno
  have hex : ∃ m p, PathVia A C x y m p := ⟨m, p, hp⟩
  obtain ⟨p, h⟩ := Nat.find_spec hex
  have hmin := fun m' (h' : m' < Nat.find hex) => Nat.find_min hex h'
  set m := Nat.find hex with hm
  obtain ⟨h0, hm', hCp, hs⟩ := id h
  have hm0 : m ≠ 0 := by intro e; rw [e] at hm'; exact hxy (h0.symm.trans hm')
  have hm1 : m ≠ 1 := by
    intro e
    have := hs 0 (by omega)
    rw [h0, zero_add, ← e, hm'] at this
    exact hno this
  have hnochord : ∀ i j, i + 1 < j → j ≤ m → ¬ Adj A (p i) (p j) := by
    intro i j hij hj ha
    obtain ⟨q, hq⟩ := h.shortcut hij hj ha
    exact hmin _ (by omega) ⟨q, hq⟩
  have hinj : ∀ i j, i < j → j ≤ m → p i ≠ p j := by
    intro i j hij hj he
    rcases Nat.lt_or_ge j m with hlt | hge
    · exact hnochord i (j + 1) (by omega) (by omega) (by rw [he]; exact hs j hlt)
    · have : j = m := by omega
      subst this
      by_cases hi : i = 0
      · subst hi; exact hxy (by rw [← h0, he, hm'])
      · have := hCp i (by omega) hij
        rw [he, hm'] at this
        exact (hC y this).2 hy
  have hout : ∀ i, i ≤ m → p i ≠ v := by
    intro i hi he
    by_cases h1 : i = 0
    · subst h1; rw [h0] at he; exact hx.2 he.symm
    · by_cases h2 : i = m
      · subst h2; rw [hm'] at he; exact hy.2 he.symm
      · exact (hC _ (hCp i (by omega) (by omega))).1 he
  obtain ⟨i, j, hij, hcon, hadj⟩ := hc (m + 2) (fun i => if i.val = 0 then v else p (i.val - 1)) (by omega)
    (by
      have key : ∀ i j : Fin (m + 2), i < j → (if i.val = 0 then v else p (i.val - 1)) ≠ (if j.val = 0 then v else p (j.val - 1)) := by
        intro i j hij
        have hij' : i.val < j.val := hij
        have := j.isLt
        rw [if_neg (show ¬ j.val = 0 by omega)]
        split
        · exact (hout _ (by omega)).symm
        · exact hinj _ _ (by omega) (by omega)
      intro i j he
      by_contra hne
      rcases lt_or_gt_of_ne hne with h1 | h1
      · exact key i j h1 he
      · exact key j i h1 he.symm)
    (by
      intro i j hij hcon
      have hij' : i.val < j.val := hij
      have := j.isLt
      rw [if_neg (show ¬ j.val = 0 by omega)]
      rcases hcon with hcon | ⟨h1, h2⟩
      · by_cases hi : i.val = 0
        · rw [if_pos hi, show j.val - 1 = 0 by omega, h0]; exact hx
        · rw [if_neg hi, show j.val - 1 = (i.val - 1) + 1 by omega]; exact hs _ (by omega)
      · rw [if_pos h1, show j.val - 1 = m by omega, hm']; exact hy)
  have hij' : i.val < j.val := hij
  have hjlt := j.isLt
  rw [if_neg (show ¬ j.val = 0 by omega)] at hadj
  unfold Consecutive at hcon
  push Not at hcon
  by_cases hi : i.val = 0
  · rw [if_pos hi] at hadj
    have := hcon.2 hi
    have h3 := hcon.1
    exact (hC _ (hCp (j.val - 1) (by omega) (by omega))).2 hadj
  · rw [if_neg hi] at hadj
    exact hnochord (i.val - 1) (j.val - 1) (by have := hcon.1; omega) (by omega) hadj

/-- reachable inside `U` -/
def Conn (A : BMat n) (U : Finset (Fin n)) : Fin n → Fin n → Prop :=
  Relation.ReflTransGen fun a b => a ∈ U ∧ b ∈ U ∧ Adj A a b

theorem Conn.symm {A : BMat n} (hA : Symm A) {U : Finset (Fin n)} {a b : Fin n} (h : Conn A U a b) : Conn A U b a := by
  unfold Conn at *
  induction h with
  | refl => exact .refl
  | tail _ h2 ih => exact .head ⟨h2.2.1, h2.1, h2.2.2.symm' hA⟩ ih

theorem Conn.path {A : BMat n} {U : Finset (Fin n)} {a b : Fin n} (ha : a ∈ U) (h : Conn A U a b) :
    ∃ (m : Nat) (p : Nat → Fin n), p 0 = a ∧ p m = b ∧ (∀ i, i ≤ m → Conn A U a (p i) ∧ p i ∈ U) ∧ ∀ i, i < m → Adj A (p i) (p (i + 1)) := by
  unfold Conn at h
  induction h with
  | refl => exact ⟨0, fun _ => a, rfl, rfl, fun i _ => ⟨.refl, ha⟩, by simp⟩
  | @tail b c h1 h2 ih =>
    obtain ⟨m, p, h3, h4, h5, h6⟩ := ih
    refine ⟨m + 1, fun t => if t ≤ m then p t else c, by simp [h3], by simp, ?_, ?_⟩
    · intro i hi
      simp only
      split
      · exact h5 i ‹_›
      · exact ⟨h1.tail h2, h2.2.1⟩
    · intro i hi
      simp only
      rw [if_pos (by omega)]
      split
      · exact h6 i (by omega)
      · have : i = m := by omega
        subst this; rw [h4]; exact h2.2.2

/-- a vertex that is not adjacent to all others is not adjacent to some simplicial vertex -/
theorem Chordal.simplicial_far {A : BMat n} (hA : Symm A) (hc : Chordal A) :
    ∀ (N : Nat) (S : Finset (Fin n)), S.card = N → ∀ v ∈ S, (∃ u ∈ S, u ≠ v ∧ ¬ Adj A v u) →
      ∃ s ∈ S, s ≠ v ∧ ¬ Adj A v s ∧ Simplicial A S s := by
  classical
  intro N
  induction N using Nat.strong_induction_on with
  | _ N ih =>
    intro S hN v hv ⟨u, hu, huv, hnu⟩
    set U := S.filter fun w => w ≠ v ∧ ¬ Adj A v w with hU
    have huU : u ∈ U := Finset.mem_filter.mpr ⟨hu, huv, hnu⟩
    set C := U.filter fun w => Conn A U u w with hCdef
    have hCU : ∀ w, w ∈ C ↔ w ∈ U ∧ Conn A U u w := fun w => by rw [hCdef, Finset.mem_filter]
    set T := S.filter fun w => Adj A v w ∧ ∃ c ∈ C, Adj A c w with hTdef
    have hT : ∀ w, w ∈ T ↔ w ∈ S ∧ Adj A v w ∧ ∃ c ∈ C, Adj A c w := fun w => by rw [hTdef, Finset.mem_filter]
    have hUm : ∀ w, w ∈ U ↔ w ∈ S ∧ w ≠ v ∧ ¬ Adj A v w := fun w => by rw [hU, Finset.mem_filter]
    -- `T` is a clique
    have hTc : ∀ x ∈ T, ∀ y ∈ T, x ≠ y → Adj A x y := by
      intro x hx y hy hxy
      obtain ⟨-, hvx, a, ha, hax⟩ := (hT x).mp hx
      obtain ⟨-, hvy, b, hb, hby⟩ := (hT y).mp hy
      have hab : Conn A U a b := (((hCU a).mp ha).2.symm hA).trans ((hCU b).mp hb).2
      obtain ⟨m, p, h0, hm, hin, hs⟩ := Conn.path ((hCU a).mp ha).1 hab
      refine hc.close hvx hvy hxy (C := fun w => w ∈ U) (fun w hw => ((hUm w).mp hw).2) (m := m + 2)
        (p := fun t => if t = 0 then x else if t ≤ m + 1 then p (t - 1) else y) ⟨by simp, by simp, ?_, ?_⟩
      · intro i h1 h2
        simp only
        rw [if_neg (by omega), if_pos (by omega)]
        exact (hin _ (by omega)).2
      · intro i hi
        simp only
        rw [if_neg (show ¬ i + 1 = 0 by omega)]
        by_cases h1 : i = 0
        · subst h1
          rw [if_pos rfl, if_pos (by omega)]
          show Adj A x (p 0)
          rw [h0]; exact hax.symm' hA
        · rw [if_neg h1, if_pos (by omega)]
          by_cases h2 : i + 1 ≤ m + 1
          · rw [if_pos h2, show i + 1 - 1 = (i - 1) + 1 by omega]; exact hs _ (by omega)
          · rw [if_neg h2, show i - 1 = m by omega, hm]; exact hby
    -- neighbours of `C` are in `C ∪ T`
    have hnb : ∀ c ∈ C, ∀ w ∈ S, Adj A c w → w ∈ C ∪ T := by
      intro c hcC w hw hcw
      have hcU := (hCU c).mp hcC
      rw [Finset.mem_union]
      by_cases hvw : Adj A v w
      · right; exact (hT w).mpr ⟨hw, hvw, c, hcC, hcw⟩
      · left
        have hwv : w ≠ v := by
          rintro rfl
          exact ((hUm c).mp hcU.1).2.2 (hcw.symm' hA)
        have hwU : w ∈ U := (hUm w).mpr ⟨hw, hwv, hvw⟩
        exact (hCU w).mpr ⟨hwU, hcU.2.tail ⟨hcU.1, hwU, hcw⟩⟩
    have hsub : C ∪ T ⊆ S := by
      intro w hw
      rcases Finset.mem_union.mp hw with h | h
      · exact ((hUm w).mp ((hCU w).mp h).1).1
      · exact ((hT w).mp h).1
    have hvn : v ∉ C ∪ T := by
      intro h
      rcases Finset.mem_union.mp h with h | h
      · exact ((hUm v).mp ((hCU v).mp h).1).2.1 rfl
      · exact ((hT v).mp h).2.1.2 rfl
    have hlt : (C ∪ T).card < N := by
      rw [← hN]
      exact Finset.card_lt_card (Finset.ssubset_iff_subset_ne.mpr ⟨hsub, fun e => hvn (by rw [e]; exact hv)⟩)
    have huC : u ∈ C := (hCU u).mpr ⟨huU, .refl⟩
    -- a vertex of `C` that is simplicial in `C ∪ T`
    have hfin : ∀ s ∈ C, Simplicial A (C ∪ T) s → ∃ s ∈ S, s ≠ v ∧ ¬ Adj A v s ∧ Simplicial A S s := by
      intro s hs hsim
      have := (hUm s).mp ((hCU s).mp hs).1
      refine ⟨s, this.1, this.2.1, this.2.2, ?_⟩
      intro a ha b hb h1 h2 hab
      exact hsim a (hnb s hs a ha h1) b (hnb s hs b hb h2) h1 h2 hab
    by_cases hcl : ∀ a ∈ C ∪ T, ∀ b ∈ C ∪ T, a ≠ b → Adj A a b
    · exact hfin u huC fun a ha b hb _ _ hab => hcl a ha b hb hab
    · by_cases ht : ∃ t ∈ T, ∃ w ∈ C ∪ T, w ≠ t ∧ ¬ Adj A t w
      · obtain ⟨t, htT, hw⟩ := ht
        obtain ⟨s, hs, hst, hnst, hsim⟩ := ih _ hlt (C ∪ T) rfl t (Finset.mem_union_right _ htT) hw
        rcases Finset.mem_union.mp hs with h | h
        · exact hfin s h hsim
        · exact absurd (hTc t htT s h hst.symm) hnst
      · push Not at ht
        push Not at hcl
        obtain ⟨a, ha, b, hb, hab, hnab⟩ := hcl
        have haC : a ∈ C := by
          rcases Finset.mem_union.mp ha with h | h
          · exact h
          · exact absurd (ht a h b hb hab.symm) hnab
        obtain ⟨s, hs, hsa, hnsa, hsim⟩ := ih _ hlt (C ∪ T) rfl a ha ⟨b, hb, hab.symm, hnab⟩
        rcases Finset.mem_union.mp hs with h | h
        · exact hfin s h hsim
        · exact absurd ((ht s h a ha hsa.symm).symm' hA) hnsa

/-- Dirac's theorem -/
theorem Chordal.simplicial {A : BMat n} (hA : Symm A) (hc : Chordal A) (S : Finset (Fin n)) (hS : S.Nonempty) :
    ∃ s ∈ S, Simplicial A S s := by
  by_cases h : ∃ v ∈ S, ∃ u ∈ S, u ≠ v ∧ ¬ Adj A v u
  · obtain ⟨v, hv, hu⟩ := h
    obtain ⟨s, hs, -, -, hsim⟩ := hc.simplicial_far hA _ S rfl v hv hu
    exact ⟨s, hs, hsim⟩
  · push Not at h
    obtain ⟨s, hs⟩ := hS
    exact ⟨s, hs, fun a ha b hb _ _ hab => h a ha b hb hab.symm⟩

end Medil

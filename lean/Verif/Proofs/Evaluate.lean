import Verif.Model.Evaluate
import Verif.Spec.Evaluate
import Verif.Proofs.Graph
import Mathlib.Algebra.Order.Ring.Abs
import Mathlib.Algebra.Order.BigOperators.Group.Finset
import Mathlib.Algebra.BigOperators.Fin
import Mathlib.Tactic.Ring
import Mathlib.Tactic.Linarith
import Mathlib.Tactic.Positivity
import Mathlib.Data.Fintype.Perm
import Mathlib.Algebra.Order.BigOperators.Ring.Finset
namespace Medil
open Finset
variable {n : Nat}

/-! ### sfd -/

@[simp] theorem recoverUg_apply (B : List (BVec n)) (i j : Fin n) :
    recoverUg B i j = true ↔ i ≠ j ∧ ∃ r ∈ B, r i = true ∧ r j = true := by
  simp [recoverUg, and_comm]

theorem wtdUg_eq (B : List (BVec n)) (i j : Fin n) :
    wtdUg B i j = ((B.filter fun r => r i && r j).length : Int) := by
  unfold wtdUg
  induction B with
  | nil => simp
  | cons r B ih =>
    rw [List.map_cons, List.sum_cons, ih, List.filter_cons]
    cases r i <;> cases r j <;> simp [add_comm]

theorem wtdUg_pos (B : List (BVec n)) {i j : Fin n} (h : i ≠ j) :
    wtdUg B i j ≠ 0 ↔ recoverUg B i j = true := by
  rw [wtdUg_eq, recoverUg_apply]
  simp [h, List.filter_eq_nil_iff]

theorem wtdUg_comm (B : List (BVec n)) (i j : Fin n) : wtdUg B i j = wtdUg B j i := by
  rw [wtdUg_eq, wtdUg_eq]
  congr 3
  funext r; exact Bool.and_comm _ _

theorem ushdOf_eq (G H : BMat n) : ushdOf G H =
    ((Finset.univ : Finset (Fin n × Fin n)).filter fun e => e.1 < e.2 ∧ G e.1 e.2 ≠ H e.1 e.2).card := by
  unfold ushdOf
  rw [List.countP_eq_length_filter, ← List.toFinset_card_of_nodup ((triuPairs_nodup n).filter _)]
  congr 1
  ext e
  simp [mem_triuPairs]

/-! ### itertools.permutations -/

section perms
variable {α : Type} [DecidableEq α]

theorem picks_perm {l : List α} {a : α} {l' : List α} (h : (a, l') ∈ picks l) : (a :: l').Perm l := by
  induction l generalizing a l' with
  | nil => cases h
  | cons b l ih =>
    simp only [picks, List.mem_cons, List.mem_map, Prod.mk.injEq] at h
    rcases h with ⟨rfl, rfl⟩ | ⟨⟨a', r⟩, h1, rfl, rfl⟩
    · exact List.Perm.refl _
    · exact (List.Perm.swap _ _ _).trans ((ih h1).cons b)

theorem mem_picks {l : List α} {a : α} (h : a ∈ l) : ∃ l', (a, l') ∈ picks l := by
  induction l with
  | nil => cases h
  | cons b l ih =>
    rcases List.mem_cons.mp h with rfl | h
    · exact ⟨l, by simp [picks]⟩
    · obtain ⟨l', hl⟩ := ih h
      exact ⟨b :: l', by simp [picks]; exact Or.inr hl⟩

theorem mem_pyPerms {k : Nat} {l p : List α} (hk : l.length = k) : p ∈ pyPerms k l ↔ p.Perm l := by
  induction k generalizing l p with
  | zero =>
    have : l = [] := List.length_eq_zero_iff.mp hk
    subst this
    simp [pyPerms]
  | succ k ih =>
    simp only [pyPerms, List.mem_flatMap, List.mem_map]
    constructor
    · rintro ⟨⟨a, l'⟩, h1, q, h2, rfl⟩
      have hp := picks_perm h1
      have hlen : l'.length = k := by have := hp.length_eq; simp at this; omega
      exact (((ih hlen).mp h2).cons a).trans hp
    · intro h
      cases p with
      | nil => have := h.length_eq; simp at this; omega
      | cons a q =>
        obtain ⟨l', hl⟩ := mem_picks (h.mem_iff.mp (List.mem_cons_self ..))
        have hp := picks_perm hl
        have hlen : l'.length = k := by have := hp.length_eq; simp at this; omega
        exact ⟨(a, l'), hl, q, (ih hlen).mpr ((h.trans hp.symm).cons_inv), rfl⟩

end perms

section lex
variable {α : Type} [LinearOrder α]

theorem picks_sorted {l : List α} (h : l.Pairwise (· < ·)) :
    (picks l).Pairwise (fun x y => x.1 < y.1) ∧ ∀ x ∈ picks l, x.2.Pairwise (· < ·) ∧ x.1 ∈ l ∧
      ∀ b ∈ x.2, b ∈ l := by
  induction l with
  | nil => simp [picks]
  | cons a l ih =>
    obtain ⟨h1, h2⟩ := List.pairwise_cons.mp h
    obtain ⟨i1, i2⟩ := ih h2
    constructor
    · simp only [picks, List.pairwise_cons, List.mem_map]
      refine ⟨?_, ?_⟩
      · rintro y ⟨x, hx, rfl⟩
        exact h1 _ (i2 x hx).2.1
      · rw [List.pairwise_map]
        exact i1
    · intro x hx
      simp only [picks, List.mem_cons, List.mem_map] at hx
      rcases hx with rfl | ⟨y, hy, rfl⟩
      · exact ⟨h2, by simp, fun b hb => List.mem_cons_of_mem _ hb⟩
      · obtain ⟨j1, j2, j3⟩ := i2 y hy
        refine ⟨List.pairwise_cons.mpr ⟨fun b hb => h1 b (j3 b hb), j1⟩,
          List.mem_cons_of_mem _ j2, ?_⟩
        intro b hb
        rcases List.mem_cons.mp hb with rfl | hb
        · simp
        · exact List.mem_cons_of_mem _ (j3 b hb)

/-- Python yields the permutations of a sorted list in lexicographic order -/
theorem pyPerms_sorted {k : Nat} {l : List α} (h : l.Pairwise (· < ·)) :
    (pyPerms k l).Pairwise (List.Lex (· < ·)) := by
  induction k generalizing l with
  | zero => simp [pyPerms]
  | succ k ih =>
    obtain ⟨h1, h2⟩ := picks_sorted h
    simp only [pyPerms]
    rw [List.pairwise_flatMap]
    constructor
    · intro x hx
      rw [List.pairwise_map]
      exact (ih (h2 x hx).1).imp (fun h => List.Lex.cons h)
    · refine h1.imp ?_
      intro x y hxy p hp q hq
      obtain ⟨p', -, rfl⟩ := List.mem_map.mp hp
      obtain ⟨q', -, rfl⟩ := List.mem_map.mp hq
      exact List.Lex.rel hxy

end lex

section min
variable {α K : Type} [LinearOrder K]

/-- the first smallest element -/
theorem minSnd_spec : ∀ (l : List (α × K)), l ≠ [] → ∃ l1 x l2, l = l1 ++ x :: l2 ∧ minSnd l = some x ∧
    (∀ y ∈ l1, x.2 < y.2) ∧ ∀ y ∈ l2, x.2 ≤ y.2 := by
  intro l
  induction l with
  | nil => intro h; exact absurd rfl h
  | cons a l ih =>
    intro _
    unfold minSnd
    by_cases hl : l = []
    · subst hl
      exact ⟨[], a, [], rfl, by simp [minSnd], by simp, by simp⟩
    · obtain ⟨l1, x, l2, h1, h2, h3, h4⟩ := ih hl
      rw [h2]
      by_cases hx : x.2 < a.2
      · refine ⟨a :: l1, x, l2, by rw [h1]; rfl, by simp [hx], ?_, h4⟩
        intro y hy
        rcases List.mem_cons.mp hy with rfl | hy
        · exact hx
        · exact h3 y hy
      · refine ⟨[], a, l, rfl, by simp [hx], by simp, ?_⟩
        intro y hy
        rw [h1] at hy
        have hax := not_lt.mp hx
        rcases List.mem_append.mp hy with hy | hy
        · exact le_trans hax (le_of_lt (h3 y hy))
        · rcases List.mem_cons.mp hy with rfl | hy
          · exact hax
          · exact le_trans hax (h4 y hy)

end min

/-! ### row matching -/

variable {K : Type} [Field K] [LinearOrder K] [IsStrictOrderedRing K]

theorem permDist_ofFn {m : Nat} (f : K → K) (P T : Fin m → Fin n → K) (σ : Equiv.Perm (Fin m)) :
    permDist f P T (List.ofFn σ) = matchDist f P T σ := by
  unfold permDist matchDist
  rw [← List.sum_ofFn]
  congr 1
  apply List.ext_getElem
  · simp
  · intro i h1 h2
    simp

theorem ofFn_perm {m : Nat} (σ : Equiv.Perm (Fin m)) : (List.ofFn σ).Perm (List.finRange m) := by
  rw [List.ofFn_eq_map]
  rw [List.perm_ext_iff_of_nodup ((List.nodup_finRange m).map σ.injective) (List.nodup_finRange m)]
  intro a
  simp only [List.mem_map, List.mem_finRange, true_and, iff_true]
  exact ⟨σ.symm a, by simp⟩

theorem perm_ofFn {m : Nat} {p : List (Fin m)} (h : p.Perm (List.finRange m)) :
    ∃ σ : Equiv.Perm (Fin m), p = List.ofFn σ := by
  have hlen : p.length = m := by rw [h.length_eq]; simp
  have hnd : p.Nodup := h.nodup_iff.mpr (List.nodup_finRange m)
  let f : Fin m → Fin m := fun i => p[i.val]'(by rw [hlen]; exact i.isLt)
  have hinj : Function.Injective f := by
    intro a b hab
    exact Fin.ext ((hnd.getElem_inj_iff).mp hab)
  refine ⟨Equiv.ofBijective f (Finite.injective_iff_bijective.mp hinj), ?_⟩
  apply List.ext_getElem
  · simp [hlen]
  · intro i h1 h2
    simp [f, Equiv.ofBijective]

theorem minPermDist_spec {m l : Nat} (f cast : K → K) (P : Fin m → Fin n → K) (T : Fin l → Fin n → K)
    (hl : l ≤ m) (hm : 0 < m) :
    ∃ σ : Equiv.Perm (Fin m),
      minPermDist f cast P T = .ok (List.ofFn σ, matchDist f P (padded cast T) σ) ∧
      (∀ τ, matchDist f P (padded cast T) σ ≤ matchDist f P (padded cast T) τ) ∧
      ∀ τ, matchDist f P (padded cast T) τ = matchDist f P (padded cast T) σ →
        τ = σ ∨ List.Lex (· < ·) (List.ofFn σ) (List.ofFn τ) := by
  unfold minPermDist padTrue
  rw [if_pos (Or.inl hl)]
  simp only [if_neg (by omega : m ≠ 0)]
  have hpad : (fun (i : Fin m) (j : Fin n) => if h : i.val < l then cast (T ⟨i, h⟩ j) else 0) =
      padded cast T := rfl
  rw [hpad]
  have hmem : ∀ p, p ∈ pyPerms m (List.finRange m) ↔ p.Perm (List.finRange m) :=
    fun p => mem_pyPerms (by simp)
  have hne : ((pyPerms m (List.finRange m)).map fun p => (p, permDist f P (padded cast T) p)) ≠ [] := by
    intro h
    have := (hmem _).mpr (List.Perm.refl _)
    rw [List.map_eq_nil_iff.mp h] at this
    cases this
  obtain ⟨l1, x, l2, h1, h2, h3, h4⟩ := minSnd_spec _ hne
  rw [h2]
  have hx : x ∈ (pyPerms m (List.finRange m)).map fun p => (p, permDist f P (padded cast T) p) := by
    rw [h1]; simp
  obtain ⟨p, hp, rfl⟩ := List.mem_map.mp hx
  obtain ⟨σ, rfl⟩ := perm_ofFn ((hmem p).mp hp)
  simp only [permDist_ofFn] at h2 h3 h4 ⊢
  refine ⟨σ, rfl, ?_, ?_⟩
  · intro τ
    have hτ : (List.ofFn τ, matchDist f P (padded cast T) τ) ∈
        (pyPerms m (List.finRange m)).map fun p => (p, permDist f P (padded cast T) p) :=
      List.mem_map.mpr ⟨_, (hmem _).mpr (ofFn_perm τ), by rw [permDist_ofFn]⟩
    rw [h1] at hτ
    rcases List.mem_append.mp hτ with h | h
    · exact le_of_lt (h3 _ h)
    · rcases List.mem_cons.mp h with h | h
      · simp only [Prod.mk.injEq] at h
        rw [← permDist_ofFn, ← permDist_ofFn, ← h.1]
      · exact h4 _ h
  · intro τ heq
    have hτ : (List.ofFn τ, matchDist f P (padded cast T) τ) ∈
        (pyPerms m (List.finRange m)).map fun p => (p, permDist f P (padded cast T) p) :=
      List.mem_map.mpr ⟨_, (hmem _).mpr (ofFn_perm τ), by rw [permDist_ofFn]⟩
    have hsort : ((pyPerms m (List.finRange m)).map
        fun p => (p, permDist f P (padded cast T) p)).Pairwise (fun a b => List.Lex (· < ·) a.1 b.1) := by
      rw [List.pairwise_map]
      exact pyPerms_sorted (List.pairwise_lt_finRange m)
    rw [h1] at hτ hsort
    rcases List.mem_append.mp hτ with h | h
    · have := h3 _ h
      simp only [heq, lt_irrefl] at this
    · rcases List.mem_cons.mp h with h | h
      · simp only [Prod.mk.injEq] at h
        left
        ext i
        have := List.ofFn_injective h.1
        exact congrArg Fin.val (congrFun this i)
      · right
        exact (List.pairwise_cons.mp (List.pairwise_append.mp hsort).2.1).1 _ h

end Medil

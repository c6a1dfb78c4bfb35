import Verif.Proofs.Sample
import Verif.Proofs.PermCount
import Mathlib.Data.Fintype.BigOperators
/-
  How many of the rearrangements drawn by `sample.biadj` lead to a given result.
-/
namespace Medil
open Finset

variable {l n : Nat}

/-- the number of extra edges for a density -/
def extraEdges (l n : Nat) (d : ℚ) : Nat := sliceLen ((n - l) * (l - 1)) (roundHalfEven (((n - l) * (l - 1) : Nat) * d))

/-- column number `l + t` -/
def tailCol (hln : l ≤ n) (t : Fin (n - l)) : Fin n := ⟨l + t.val, by omega⟩

/-- the measurements whose only parent is `i` -/
def pureSet (f : Fin l → Fin n → Bool) (i : Fin l) : Finset (Fin n) := univ.filter fun j => ∀ i', f i' j = decide (i' = i)

/-- the first `l` columns are the pure children -/
def GoodPerm (hln : l ≤ n) (f : Fin l → Fin n → Bool) (σ : Equiv.Perm (Fin n)) : Prop :=
  ∀ i : Fin l, σ.symm (Fin.castLE hln i) ∈ pureSet f i

/-- the edge vector needed -/
def wantEdge (hl : 1 ≤ l) (hln : l ≤ n) (f : Fin l → Fin n → Bool) (cols : Fin (n - l) → Equiv.Perm (Fin l)) (σ : Equiv.Perm (Fin n))
    (k : Fin ((n - l) * (l - 1))) : Bool :=
  have h0 : 0 < n - l := by
    rcases Nat.eq_zero_or_pos (n - l) with h | h
    · exact absurd k.isLt (by simp [h])
    · exact h
  f ((cols ⟨k.val % (n - l), Nat.mod_lt _ h0⟩).symm ⟨k.val / (n - l) + 1, by
      have := Nat.div_lt_of_lt_mul k.isLt; omega⟩) (σ.symm (tailCol hln ⟨k.val % (n - l), Nat.mod_lt _ h0⟩))

/-- which rearrangements lead to the matrix `f` -/
theorem hits_iff (hl : 1 ≤ l) (hln : l ≤ n) (d : ℚ) (f : Fin l → Fin n → Bool) (π : Equiv.Perm (Fin ((n - l) * (l - 1))))
    (cols : Fin (n - l) → Equiv.Perm (Fin l)) (σ : Equiv.Perm (Fin n)) :
    (∀ i j, pureCols d π cols i (σ j) = f i j) ↔
      GoodPerm hln f σ ∧ (∀ t, f ((cols t).symm ⟨0, hl⟩) (σ.symm (tailCol hln t)) = true) ∧
        ∀ k, decide ((π k).val < extraEdges l n d) = wantEdge hl hln f cols σ k := by
  have e0 : (∀ i j, pureCols d π cols i (σ j) = f i j) ↔ ∀ i c, pureCols d π cols i c = f i (σ.symm c) := by
    constructor
    · intro h i c
      have := h i (σ.symm c)
      rwa [Equiv.apply_symm_apply] at this
    · intro h i j
      have := h i (σ j)
      rwa [Equiv.symm_apply_apply] at this
  have hT : ∀ (s : Nat) (t : Fin (n - l)), s < l - 1 → s * (n - l) + t.val < (n - l) * (l - 1) := by
    intro s t hs
    calc s * (n - l) + t.val < s * (n - l) + (n - l) := by omega
      _ = (s + 1) * (n - l) := by ring
      _ ≤ (l - 1) * (n - l) := Nat.mul_le_mul_right _ (by omega)
      _ = _ := Nat.mul_comm _ _
  have htail : ∀ (t : Fin (n - l)) (r : Fin l), pureCols d π cols ((cols t).symm r) (tailCol hln t) =
      if h : r.val = 0 then true else decide ((π ⟨(r.val - 1) * (n - l) + t.val, hT _ _ (by omega)⟩).val < extraEdges l n d) := by
    intro t r
    have h1 : ¬ (tailCol hln t).val < l := by simp [tailCol]
    have h2 : (⟨(tailCol hln t).val - l, by have := (tailCol hln t).isLt; omega⟩ : Fin (n - l)) = t := by
      ext; simp [tailCol]
    unfold pureCols
    rw [dif_neg h1, h2, Equiv.apply_symm_apply]
    unfold pureBase
    rw [if_neg h1]
    by_cases hr : r.val = 0
    · rw [if_pos hr, dif_pos hr]
    · rw [if_neg hr, dif_neg hr]
      have h3 : (tailCol hln t).val - l = t.val := by simp [tailCol]
      simp only [h3]
      unfold pureEdges
      rw [dif_pos (hT _ _ (by omega))]
      rfl
  rw [e0]
  constructor
  · intro h
    refine ⟨fun i => ?_, fun t => ?_, fun k => ?_⟩
    · unfold pureSet
      rw [mem_filter]
      refine ⟨mem_univ _, fun i' => ?_⟩
      rw [← h i' (Fin.castLE hln i)]
      unfold pureCols pureBase
      have : (Fin.castLE hln i).val < l := i.isLt
      rw [dif_pos this, if_pos this]
      simp [Fin.ext_iff, beq_eq_decide]
    · rw [← h, htail, dif_pos rfl]
    · have h0 : 0 < n - l := by
        rcases Nat.eq_zero_or_pos (n - l) with h | h
        · exact absurd k.isLt (by simp [h])
        · exact h
      unfold wantEdge
      rw [← h, htail, dif_neg (by simp)]
      congr 3
      congr 1
      ext
      simp only [Nat.add_sub_cancel]
      exact (Nat.div_add_mod' _ _).symm
  · rintro ⟨h1, h2, h3⟩ i c
    by_cases hc : c.val < l
    · have := h1 ⟨c.val, hc⟩
      unfold pureSet at this
      rw [mem_filter] at this
      have hcc : Fin.castLE hln ⟨c.val, hc⟩ = c := rfl
      rw [hcc] at this
      rw [this.2 i]
      unfold pureCols pureBase
      rw [dif_pos hc, if_pos hc]
      simp [Fin.ext_iff, beq_eq_decide]
    · obtain ⟨t, rfl⟩ : ∃ t, tailCol hln t = c := ⟨⟨c.val - l, by omega⟩, by ext; simp [tailCol]; omega⟩
      obtain ⟨r, rfl⟩ := (cols t).symm.surjective i
      rw [htail]
      by_cases hr : r.val = 0
      · rw [dif_pos hr]
        have : r = ⟨0, hl⟩ := Fin.ext hr
        rw [this, h2]
      · rw [dif_neg hr, h3]
        unfold wantEdge
        have hq : 0 < n - l := by have := t.isLt; omega
        have m1 : ((r.val - 1) * (n - l) + t.val) % (n - l) = t.val := by
          rw [Nat.add_comm, Nat.add_mul_mod_self_right, Nat.mod_eq_of_lt t.isLt]
        have m2 : ((r.val - 1) * (n - l) + t.val) / (n - l) = r.val - 1 := by
          rw [Nat.add_comm, Nat.add_mul_div_right _ _ hq, Nat.div_eq_of_lt t.isLt, Nat.zero_add]
        have m3 : (⟨((r.val - 1) * (n - l) + t.val) % (n - l), Nat.mod_lt _ hq⟩ : Fin (n - l)) = t := Fin.ext m1
        have m4 : (⟨((r.val - 1) * (n - l) + t.val) / (n - l) + 1, by rw [m2]; omega⟩ : Fin l) = r := by
          ext; simp only [m2]; omega
        simp only [m3, m4]

/-- the number of edges needed is the number of edges available -/
theorem card_want (hl : 1 ≤ l) (hln : l ≤ n) (f : Fin l → Fin n → Bool) (E : Nat) (hE : ∑ j, ∑ i, (f i j).toNat = n + E)
    (cols : Fin (n - l) → Equiv.Perm (Fin l)) (σ : Equiv.Perm (Fin n)) (h1 : GoodPerm hln f σ)
    (h2 : ∀ t, f ((cols t).symm ⟨0, hl⟩) (σ.symm (tailCol hln t)) = true) :
    (univ.filter fun k => wantEdge hl hln f cols σ k = true).card = E := by
  set E' := (univ.filter fun k => wantEdge hl hln f cols σ k = true).card with hE'
  have hle : E' ≤ (n - l) * (l - 1) := (Finset.card_le_univ _).trans (by simp)
  let d' : ℚ := E' / ((n - l) * (l - 1) : Nat)
  have hd : extraEdges l n d' = E' := by
    unfold extraEdges
    rcases Nat.eq_zero_or_pos ((n - l) * (l - 1)) with h0 | h0
    · have := sliceLen_le ((n - l) * (l - 1)) (roundHalfEven (((n - l) * (l - 1) : Nat) * d'))
      omega
    · have e1 : (((n - l) * (l - 1) : Nat) : ℚ) * d' = (E' : ℚ) := by
        have : (((n - l) * (l - 1) : Nat) : ℚ) ≠ 0 := by exact_mod_cast h0.ne'
        simp only [d']
        field_simp
      rw [e1]
      have := sliceLen_round (x := (E' : ℚ)) (m := (n - l) * (l - 1)) (by positivity) (by exact_mod_cast hle)
      have e2 : roundHalfEven (E' : ℚ) = E' := by
        unfold roundHalfEven
        simp
      rw [e2] at this ⊢
      exact_mod_cast this
  have hne : (univ.filter fun π : Equiv.Perm (Fin ((n - l) * (l - 1))) => ∀ k, decide ((π k).val < E') = wantEdge hl hln f cols σ k).card ≠ 0 := by
    rw [card_perm_set E' _ hE'.symm]
    exact (Nat.mul_pos (Nat.factorial_pos _) (Nat.factorial_pos _)).ne'
  obtain ⟨π, hπ⟩ := Finset.card_pos.mp (Nat.pos_of_ne_zero hne)
  rw [mem_filter] at hπ
  have hit := (hits_iff hl hln d' f π cols σ).mpr ⟨h1, h2, by rw [hd]; exact hπ.2⟩
  have hn := numOnes_pureBiadj hl hln d' π cols σ
  rw [pureBiadj_eq, numOnes_ofFn] at hn
  simp only [hit] at hn
  rw [hE] at hn
  have : extraEdges l n d' = E := by unfold extraEdges; omega
  omega

/-- the number of column orders with the pure children first -/
theorem card_good (hln : l ≤ n) (f : Fin l → Fin n → Bool) [DecidablePred (GoodPerm hln f)] :
    (univ.filter fun σ : Equiv.Perm (Fin n) => GoodPerm hln f σ).card = (∏ i, (pureSet f i).card) * (n - l).factorial := by
  have e1 : (univ.filter fun σ : Equiv.Perm (Fin n) => GoodPerm hln f σ).card =
      (univ.filter fun ρ : Equiv.Perm (Fin n) => ∀ i : Fin l, ρ (Fin.castLE hln i) ∈ pureSet f i).card := by
    refine Finset.card_bij' (fun σ _ => σ.symm) (fun σ _ => σ.symm) ?_ ?_ ?_ ?_
    · intro σ h; rw [mem_filter] at h ⊢; exact ⟨mem_univ _, h.2⟩
    · intro σ h; rw [mem_filter] at h ⊢; exact ⟨mem_univ _, h.2⟩
    · intro σ _; rfl
    · intro σ _; rfl
  have e2 : (univ.filter fun ρ : Equiv.Perm (Fin n) => ∀ i : Fin l, ρ (Fin.castLE hln i) ∈ pureSet f i) =
      (Fintype.piFinset fun i => pureSet f i).biUnion fun c => univ.filter fun ρ : Equiv.Perm (Fin n) => ∀ i : Fin l, ρ (Fin.castLE hln i) = c i := by
    ext ρ
    simp only [mem_filter, mem_univ, true_and, mem_biUnion, Fintype.mem_piFinset]
    constructor
    · intro h; exact ⟨fun i => ρ (Fin.castLE hln i), h, fun i => rfl⟩
    · rintro ⟨c, hc, h⟩ i; rw [h i]; exact hc i
  rw [e1, e2, Finset.card_biUnion]
  · rw [Finset.sum_congr rfl (g := fun _ => (n - l).factorial), Finset.sum_const, Fintype.card_piFinset, smul_eq_mul]
    intro c hc
    rw [Fintype.mem_piFinset] at hc
    have key := card_perm_extending (l := l) (by simp) (Fin.castLE hln) c (Fin.castLE_injective hln) ?_
    · rw [Fintype.card_fin] at key
      rw [← key]
      congr 1
      ext ρ
      simp only [mem_filter]
    intro i i' hii
    have h1 := hc i
    have h2 := hc i'
    rw [hii] at h1
    unfold pureSet at h1 h2
    rw [mem_filter] at h1 h2
    have := (h1.2 i).symm.trans (h2.2 i)
    simpa using this
  · intro c _ c' _ hcc
    rw [Function.onFun, Finset.disjoint_left]
    intro ρ h1 h2
    rw [mem_filter] at h1 h2
    exact hcc (funext fun i => (h1.2 i).symm.trans (h2.2 i))

/-- **count** the number of rearrangements that give the matrix `f` -/
theorem card_hits (hl : 1 ≤ l) (hln : l ≤ n) (d : ℚ) (f : Fin l → Fin n → Bool) (hE : ∑ j, ∑ i, (f i j).toNat = n + extraEdges l n d) :
    (univ.filter fun w : Equiv.Perm (Fin ((n - l) * (l - 1))) × (Fin (n - l) → Equiv.Perm (Fin l)) × Equiv.Perm (Fin n) =>
      ∀ i j, pureCols d w.1 w.2.1 i (w.2.2 j) = f i j).card =
    (∏ i, (pureSet f i).card) * (n - l).factorial * ((∏ j, (univ.filter fun i => f i j = true).card) * (l - 1).factorial ^ (n - l)) *
      ((extraEdges l n d).factorial * ((n - l) * (l - 1) - extraEdges l n d).factorial) := by
  classical
  set E := extraEdges l n d with hEdef
  set T := (n - l) * (l - 1) with hT
  have step : (univ.filter fun w : Equiv.Perm (Fin T) × (Fin (n - l) → Equiv.Perm (Fin l)) × Equiv.Perm (Fin n) =>
      ∀ i j, pureCols d w.1 w.2.1 i (w.2.2 j) = f i j).card =
      ∑ σ : Equiv.Perm (Fin n), ∑ cols : Fin (n - l) → Equiv.Perm (Fin l),
        (univ.filter fun π : Equiv.Perm (Fin T) => ∀ i j, pureCols d π cols i (σ j) = f i j).card := by
    simp only [Finset.card_filter]
    rw [Fintype.sum_prod_type]
    simp only [Fintype.sum_prod_type]
    rw [Finset.sum_congr rfl (fun (π : Equiv.Perm (Fin T)) _ => Finset.sum_comm), Finset.sum_comm]
    exact Finset.sum_congr rfl fun σ _ => Finset.sum_comm
  rw [step]
  have inner : ∀ (σ : Equiv.Perm (Fin n)) (cols : Fin (n - l) → Equiv.Perm (Fin l)),
      (univ.filter fun π : Equiv.Perm (Fin T) => ∀ i j, pureCols d π cols i (σ j) = f i j).card =
      if GoodPerm hln f σ then if ∀ t, f ((cols t).symm ⟨0, hl⟩) (σ.symm (tailCol hln t)) = true then E.factorial * (T - E).factorial else 0 else 0 := by
    intro σ cols
    by_cases h1 : GoodPerm hln f σ
    · rw [if_pos h1]
      by_cases h2 : ∀ t, f ((cols t).symm ⟨0, hl⟩) (σ.symm (tailCol hln t)) = true
      · rw [if_pos h2, ← card_perm_set E (wantEdge hl hln f cols σ) (card_want hl hln f E hE cols σ h1 h2)]
        congr 1
        ext π
        rw [mem_filter, mem_filter, hits_iff hl hln]
        exact ⟨fun h => ⟨mem_univ _, h.2.2.2⟩, fun h => ⟨mem_univ _, h1, h2, h.2⟩⟩
      · rw [if_neg h2, Finset.card_eq_zero, Finset.filter_eq_empty_iff]
        intro π _ h
        exact h2 ((hits_iff hl hln d f π cols σ).mp h).2.1
    · rw [if_neg h1, Finset.card_eq_zero, Finset.filter_eq_empty_iff]
      intro π _ h
      exact h1 ((hits_iff hl hln d f π cols σ).mp h).1
  have mid : ∀ σ : Equiv.Perm (Fin n), ∑ cols : Fin (n - l) → Equiv.Perm (Fin l),
      (univ.filter fun π : Equiv.Perm (Fin T) => ∀ i j, pureCols d π cols i (σ j) = f i j).card =
      if GoodPerm hln f σ then (∏ j, (univ.filter fun i => f i j = true).card) * (l - 1).factorial ^ (n - l) * (E.factorial * (T - E).factorial) else 0 := by
    intro σ
    rw [Finset.sum_congr rfl (fun cols _ => inner σ cols)]
    by_cases h1 : GoodPerm hln f σ
    · simp only [if_pos h1]
      rw [← Finset.sum_filter, Finset.sum_const, smul_eq_mul]
      congr 1
      have e : (univ.filter fun cols : Fin (n - l) → Equiv.Perm (Fin l) => ∀ t, f ((cols t).symm ⟨0, hl⟩) (σ.symm (tailCol hln t)) = true) =
          Fintype.piFinset fun t => univ.filter fun τ : Equiv.Perm (Fin l) => f (τ.symm ⟨0, hl⟩) (σ.symm (tailCol hln t)) = true := by
        ext cols
        simp [Fintype.mem_piFinset]
      rw [e, Fintype.card_piFinset]
      rw [Finset.prod_congr rfl (fun t _ => card_perm_symm_mem ⟨0, hl⟩ (fun i => f i (σ.symm (tailCol hln t))))]
      rw [Finset.prod_mul_distrib, Finset.prod_const, Finset.card_univ, Fintype.card_fin]
      congr 1
      rw [← Equiv.prod_comp σ.symm (fun j => (univ.filter fun i => f i j = true).card)]
      refine Fintype.prod_of_injective (tailCol hln) ?_ _ _ ?_ ?_
      · intro t t' h
        simp only [tailCol, Fin.mk.injEq] at h
        exact Fin.ext (by omega)
      · intro c hc
        have hcl : c.val < l := by
          by_contra h
          exact hc ⟨⟨c.val - l, by omega⟩, by ext; simp [tailCol]; omega⟩
        have := h1 ⟨c.val, hcl⟩
        unfold pureSet at this
        rw [mem_filter] at this
        have hcc : Fin.castLE hln ⟨c.val, hcl⟩ = c := rfl
        rw [hcc] at this
        rw [Finset.card_eq_one]
        refine ⟨⟨c.val, hcl⟩, ?_⟩
        ext i
        rw [mem_filter, this.2 i]
        simp
      · intro t; rfl
    · simp only [if_neg h1]
      simp
  rw [Finset.sum_congr rfl (fun σ _ => mid σ), ← Finset.sum_filter, Finset.sum_const, smul_eq_mul, card_good]
  ring

end Medil

import Verif.Model.Sample
import Verif.Spec.Sample
import Verif.Proofs.Graph
import Verif.Props.Graph
import Mathlib.Algebra.BigOperators.Fin
import Mathlib.Algebra.BigOperators.Group.Finset.Basic
import Mathlib.Tactic.Linarith
import Mathlib.Tactic.NormNum
/-
  Lemmas about the model of medil/sample.py.
-/
namespace Medil
open Finset

theorem roundHalfEven_spec (x : ℚ) : IsRounded x (roundHalfEven x) := by
  unfold IsRounded roundHalfEven
  have h1 := Int.floor_le x
  have h2 := Int.lt_floor_add_one x
  split
  · rename_i h
    have hnn : (0:ℚ) ≤ x - ⌊x⌋ := by linarith
    rw [abs_of_nonneg hnn]
    exact ⟨le_of_lt h, fun he => absurd he (ne_of_lt h)⟩
  · split
    · rename_i h' h
      push_cast
      have hnn : x - ((⌊x⌋:ℚ) + 1) ≤ 0 := by linarith
      rw [abs_of_nonpos hnn]
      exact ⟨by linarith, fun he => by linarith⟩
    · rename_i h' h
      have heq : x - (⌊x⌋:ℚ) = 1/2 := by
        apply le_antisymm <;> [exact not_lt.mp h; exact not_lt.mp h']
      split
      · rename_i h3
        rw [heq]
        refine ⟨by norm_num, fun _ => Int.even_iff.mpr h3⟩
      · rename_i h3
        push_cast
        have : x - ((⌊x⌋:ℚ) + 1) = -(1/2) := by linarith
        rw [this]
        refine ⟨by norm_num, fun _ => ?_⟩
        rw [Int.even_add_one, Int.even_iff]; exact h3

/-- the specification determines the rounded number -/
theorem IsRounded.unique {x : ℚ} {a b : Int} (ha : IsRounded x a) (hb : IsRounded x b) : a = b := by
  by_contra hne
  obtain ⟨ha1, ha2⟩ := ha
  obtain ⟨hb1, hb2⟩ := hb
  have hab : |(a:ℚ) - b| ≤ 1 := by
    have := abs_sub_le (a:ℚ) x b
    rw [abs_sub_comm (a:ℚ) x] at this
    linarith
  have hab' : |a - b| ≤ 1 := by exact_mod_cast hab
  have hd : |a - b| = 1 := by
    have : |a - b| ≠ 0 := by rw [abs_ne_zero, sub_ne_zero]; exact hne
    have := abs_nonneg (a - b)
    omega
  have hd' : |(a:ℚ) - b| = 1 := by exact_mod_cast hd
  have htri := abs_sub_le (a:ℚ) x b
  rw [abs_sub_comm (a:ℚ) x, hd'] at htri
  have e1 := ha2 (by linarith)
  have e2 := hb2 (by linarith)
  rcases (abs_eq (by norm_num)).mp hd with h | h
  · have : a = b + 1 := by omega
    rw [this] at e1
    exact (Int.even_add_one.mp e1) e2
  · have : b = a + 1 := by omega
    rw [this] at e2
    exact (Int.even_add_one.mp e2) e1

theorem sliceLen_le (len : Nat) (s : Int) : sliceLen len s ≤ len := by
  unfold sliceLen; split <;> omega

theorem roundHalfEven_bounds {x : ℚ} {m : Nat} (h0 : 0 ≤ x) (h1 : x ≤ m) :
    0 ≤ roundHalfEven x ∧ roundHalfEven x ≤ m := by
  obtain ⟨h, -⟩ := roundHalfEven_spec x
  obtain ⟨ha, hb⟩ := abs_le.mp h
  constructor
  · have : (-1 : ℚ) < roundHalfEven x := by linarith
    have : (-1 : Int) < roundHalfEven x := by exact_mod_cast this
    omega
  · have : (roundHalfEven x : ℚ) < (m : Int) + 1 := by push_cast; linarith
    have : roundHalfEven x < (m : Int) + 1 := by exact_mod_cast this
    omega

theorem sliceLen_round {x : ℚ} {m : Nat} (h0 : 0 ≤ x) (h1 : x ≤ m) :
    (sliceLen m (roundHalfEven x) : Int) = roundHalfEven x := by
  obtain ⟨h2, h3⟩ := roundHalfEven_bounds h0 h1
  unfold sliceLen
  rw [if_pos h2]
  omega

/-- `∑` over a product range, row by row -/
theorem sum_range_mul (f : Nat → Nat) (a b : Nat) :
    ∑ k ∈ range (a * b), f k = ∑ i ∈ range a, ∑ j ∈ range b, f (i * b + j) := by
  induction a with
  | zero => simp
  | succ a ih => rw [Nat.add_mul, Nat.one_mul, Finset.sum_range_add, ih, Finset.sum_range_succ]

theorem ite_toNat (b : Bool) : (if b = true then 1 else 0) = b.toNat := by cases b <;> rfl

/-- a permuted slice has as many ones as the slice -/
theorem sum_perm_slice {m c : Nat} (hc : c ≤ m) (π : Equiv.Perm (Fin m)) :
    ∑ k ∈ range m, (if h : k < m then (decide ((π ⟨k, h⟩).val < c)) else false).toNat = c := by
  have h1 : ∑ k ∈ range m, (if h : k < m then (decide ((π ⟨k, h⟩).val < c)) else false).toNat =
      ∑ k : Fin m, (decide ((π k).val < c)).toNat := by
    rw [← Fin.sum_univ_eq_sum_range (fun k => (if h : k < m then (decide ((π ⟨k, h⟩).val < c)) else false).toNat)]
    refine Finset.sum_congr rfl fun k _ => ?_
    rw [dif_pos k.isLt]
  rw [h1, Equiv.sum_comp π (fun k => (decide (k.val < c)).toNat),
    Fin.sum_univ_eq_sum_range (fun k => (decide (k < c)).toNat)]
  obtain ⟨d, rfl⟩ := Nat.exists_eq_add_of_le hc
  rw [Finset.sum_range_add]
  have e1 : ∑ x ∈ range c, (decide (x < c)).toNat = c := by
    rw [Finset.sum_congr rfl (g := fun _ => 1) (fun x hx => by simp [Finset.mem_range.mp hx])]; simp
  have e2 : ∑ x ∈ range d, (decide (c + x < c)).toNat = 0 :=
    Finset.sum_eq_zero fun x _ => by simp
  rw [e1, e2, Nat.add_zero]

theorem card_children_eq {n : Nat} (r : BVec n) : (children r).card = ∑ j, (r j).toNat := by
  unfold children
  rw [Finset.card_filter]
  refine Finset.sum_congr rfl fun j _ => ?_
  cases r j <;> simp

theorem numOnes_ofFn {l n : Nat} (f : Fin l → Fin n → Bool) :
    numOnes (List.ofFn fun i => BVec.of fun j => f i j) = ∑ j, ∑ i, (f i j).toNat := by
  unfold numOnes
  rw [List.map_ofFn, List.sum_ofFn, Finset.sum_comm]
  refine Finset.sum_congr rfl fun i _ => ?_
  simp only [Function.comp, card_children_eq, BVec.get_of]

variable {l n : Nat}

/-- the edges of the permuted edge vector -/
def pureEdges (l n : Nat) (density : ℚ) (π : Equiv.Perm (Fin ((n - l) * (l - 1)))) : Nat → Bool := fun k =>
  if h : k < (n - l) * (l - 1) then
    decide ((π ⟨k, h⟩).val < sliceLen ((n - l) * (l - 1))
      (roundHalfEven (((n - l) * (l - 1) : Nat) * density)))
  else false

/-- the matrix before the columns are permuted -/
def pureCols (density : ℚ) (π : Equiv.Perm (Fin ((n - l) * (l - 1))))
    (cols : Fin (n - l) → Equiv.Perm (Fin l)) (i : Fin l) (j : Fin n) : Bool :=
  if h : j.val < l then pureBase (pureEdges l n density π) i j
  else pureBase (pureEdges l n density π) (cols ⟨j.val - l, by omega⟩ i) j

theorem pureBiadj_eq (density : ℚ) (π : Equiv.Perm (Fin ((n - l) * (l - 1))))
    (cols : Fin (n - l) → Equiv.Perm (Fin l)) (σ : Equiv.Perm (Fin n)) :
    pureBiadj l n density π cols σ =
      List.ofFn fun i : Fin l => BVec.of fun j => pureCols density π cols i (σ j) := rfl

theorem pureBiadj_length (density : ℚ) (π : Equiv.Perm (Fin ((n - l) * (l - 1))))
    (cols : Fin (n - l) → Equiv.Perm (Fin l)) (σ : Equiv.Perm (Fin n)) :
    (pureBiadj l n density π cols σ).length = l := by rw [pureBiadj_eq]; simp

theorem pureBiadj_get (density : ℚ) (π : Equiv.Perm (Fin ((n - l) * (l - 1))))
    (cols : Fin (n - l) → Equiv.Perm (Fin l)) (σ : Equiv.Perm (Fin n)) (i : Nat)
    (h : i < (pureBiadj l n density π cols σ).length) (h' : i < l) (j : Fin n) :
    (pureBiadj l n density π cols σ)[i] j = pureCols density π cols ⟨i, h'⟩ (σ j) := by
  simp [pureBiadj_eq]

theorem pureBiadj_onePure (hl : 1 ≤ l) (hln : l ≤ n) (density : ℚ)
    (π : Equiv.Perm (Fin ((n - l) * (l - 1)))) (cols : Fin (n - l) → Equiv.Perm (Fin l))
    (σ : Equiv.Perm (Fin n)) : OnePureChild (pureBiadj l n density π cols σ) := by
  constructor
  · intro i hi
    rw [pureBiadj_length] at hi
    refine ⟨σ.symm ⟨i, by omega⟩, fun j hj => ?_⟩
    have hj' : j < l := by rwa [pureBiadj_length] at hj
    rw [pureBiadj_get _ _ _ _ _ hj hj']
    simp [pureCols, pureBase, hi]
  · intro j
    by_cases h : (σ j).val < l
    · refine ⟨(pureBiadj l n density π cols σ)[(σ j).val]'(by rw [pureBiadj_length]; exact h),
        List.getElem_mem _, ?_⟩
      rw [pureBiadj_get _ _ _ _ _ _ h]
      simp [pureCols, pureBase, h]
    · let i := (cols ⟨(σ j).val - l, by omega⟩).symm ⟨0, hl⟩
      refine ⟨(pureBiadj l n density π cols σ)[i.val]'(by rw [pureBiadj_length]; exact i.isLt),
        List.getElem_mem _, ?_⟩
      rw [pureBiadj_get _ _ _ _ _ _ i.isLt]
      simp [pureCols, pureBase, h, i]

theorem pureBase_col_sum (edges : Nat → Bool) (hl : 1 ≤ l) (j : Fin n) :
    ∑ i : Fin l, (pureBase edges i j).toNat =
      if j.val < l then 1
      else 1 + ∑ i ∈ range (l - 1), (edges (i * (n - l) + (j.val - l))).toNat := by
  obtain ⟨l, rfl⟩ := Nat.exists_eq_add_of_le' hl
  split
  · rename_i h
    rw [Finset.sum_eq_single_of_mem (⟨j.val, h⟩ : Fin (l + 1)) (Finset.mem_univ _)]
    · simp [pureBase, h]
    · intro i _ hi
      have : ¬ i.val = j.val := fun hc => hi (Fin.ext hc)
      simp [pureBase, h, this]
  · rename_i h
    rw [Fin.sum_univ_succ]
    congr 1
    · simp [pureBase, h]
    · simp only [Nat.add_sub_cancel]
      rw [← Fin.sum_univ_eq_sum_range (fun i => (edges (i * (n - (l + 1)) + (j.val - (l + 1)))).toNat)]
      refine Finset.sum_congr rfl fun i _ => ?_
      simp [pureBase, h]

theorem numOnes_pureBiadj (hl : 1 ≤ l) (hln : l ≤ n) (density : ℚ)
    (π : Equiv.Perm (Fin ((n - l) * (l - 1)))) (cols : Fin (n - l) → Equiv.Perm (Fin l))
    (σ : Equiv.Perm (Fin n)) :
    numOnes (pureBiadj l n density π cols σ) = n + sliceLen ((n - l) * (l - 1))
      (roundHalfEven (((n - l) * (l - 1) : Nat) * density)) := by
  rw [pureBiadj_eq, numOnes_ofFn,
    Equiv.sum_comp σ (fun j => ∑ i, (pureCols density π cols i j).toNat)]
  have hcol : ∀ j : Fin n, ∑ i, (pureCols density π cols i j).toNat =
      if j.val < l then 1 else 1 + ∑ i ∈ range (l - 1),
        (pureEdges l n density π (i * (n - l) + (j.val - l))).toNat := by
    intro j
    rw [← pureBase_col_sum _ hl]
    unfold pureCols
    split
    · rfl
    · exact Equiv.sum_comp (cols _) (fun i => (pureBase (pureEdges l n density π) i j).toNat)
  simp only [hcol]
  rw [Fin.sum_univ_eq_sum_range (fun j => if j < l then 1 else 1 + ∑ i ∈ range (l - 1),
        (pureEdges l n density π (i * (n - l) + (j - l))).toNat)]
  obtain ⟨q, rfl⟩ := Nat.exists_eq_add_of_le hln
  rw [Finset.sum_range_add]
  have e1 : ∑ j ∈ range l, (if j < l then 1 else 1 + ∑ i ∈ range (l - 1),
        (pureEdges l (l + q) density π (i * (l + q - l) + (j - l))).toNat) = l := by
    rw [Finset.sum_congr rfl (g := fun _ => 1) (fun x hx => by rw [if_pos (Finset.mem_range.mp hx)])]
    simp
  have e2 : ∑ j ∈ range q, (if l + j < l then 1 else 1 + ∑ i ∈ range (l - 1),
        (pureEdges l (l + q) density π (i * (l + q - l) + (l + j - l))).toNat) =
      q + sliceLen ((l + q - l) * (l - 1)) (roundHalfEven (((l + q - l) * (l - 1) : Nat) * density)) := by
    have e3 : ∀ j ∈ range q, (if l + j < l then 1 else 1 + ∑ i ∈ range (l - 1),
        (pureEdges l (l + q) density π (i * (l + q - l) + (l + j - l))).toNat) =
        1 + ∑ i ∈ range (l - 1), (pureEdges l (l + q) density π (i * (l + q - l) + j)).toNat := by
      intro j _
      rw [if_neg (by omega)]
      simp
    rw [Finset.sum_congr rfl e3, Finset.sum_add_distrib]
    congr 1
    · simp
    · rw [Finset.sum_comm]
      have hq : l + q - l = q := by omega
      have := sum_range_mul (fun k => (pureEdges l (l + q) density π k).toNat) (l - 1) (l + q - l)
      have h4 : ∑ i ∈ range (l - 1), ∑ j ∈ range q,
          (pureEdges l (l + q) density π (i * (l + q - l) + j)).toNat =
          ∑ i ∈ range (l - 1), ∑ j ∈ range (l + q - l),
          (pureEdges l (l + q) density π (i * (l + q - l) + j)).toNat := by rw [hq]
      rw [h4, ← this, Nat.mul_comm (l - 1)]
      exact sum_perm_slice (sliceLen_le _ _) π
  rw [e1, e2]
  omega

/-! ### the Erdős–Rényi graph -/

theorem randomUdg_symm (density : ℚ) (π : Equiv.Perm (Fin (n * (n - 1) / 2))) :
    Symm (randomUdg n density π) := by
  intro i j
  unfold randomUdg
  simp only [BMat.get_of]
  by_cases h : i = j
  · rw [if_pos h, if_pos h.symm]
  · rw [if_neg h, if_neg (Ne.symm h), Bool.or_comm]

theorem randomUdg_diag (density : ℚ) (π : Equiv.Perm (Fin (n * (n - 1) / 2))) :
    UnitDiag (randomUdg n density π) := by
  intro i
  simp [randomUdg]

theorem randomUdg_edges (density : ℚ) (π : Equiv.Perm (Fin (n * (n - 1) / 2))) :
    numUEdges (randomUdg n density π) =
      sliceLen (n * (n - 1) / 2) (roundHalfEven (density * (n * (n - 1) / 2 : Nat))) := by
  have hlen := triuPairs_length n
  rw [← sum_perm_slice (sliceLen_le (n * (n - 1) / 2)
    (roundHalfEven (density * (n * (n - 1) / 2 : Nat)))) π]
  unfold numUEdges
  rw [Finset.card_filter]
  rw [← Finset.sum_filter_of_ne (p := fun e : Fin n × Fin n => e.1 < e.2)]
  · have hset : (Finset.univ.filter fun e : Fin n × Fin n => e.1 < e.2) = (triuPairs n).toFinset := by
      ext e; simp [mem_triuPairs]
    rw [hset]
    refine Finset.sum_bij (fun e _ => (triuPairs n).idxOf e) ?_ ?_ ?_ ?_
    · intro e he
      rw [Finset.mem_range, ← hlen]
      exact List.idxOf_lt_length_of_mem (List.mem_toFinset.mp he)
    · intro e he e' he' h
      exact (List.idxOf_inj (List.mem_toFinset.mp he)).mp h
    · intro k hk
      have hk' : k < (triuPairs n).length := by rw [hlen]; exact Finset.mem_range.mp hk
      exact ⟨(triuPairs n)[k], List.mem_toFinset.mpr (List.getElem_mem hk'),
        (triuPairs_nodup n).idxOf_getElem k hk'⟩
    · rintro ⟨i, j⟩ he
      have hij : i < j := mem_triuPairs.mp (List.mem_toFinset.mp he)
      have hne : ¬ i = j := ne_of_lt hij
      have hji : ¬ j < i := not_lt.mpr (le_of_lt hij)
      simp only [randomUdg, BMat.get_of, triuPos, hij, hne, hji, if_true, if_false, Bool.or_false, true_and]
      exact ite_toNat _
  · intro e _ he
    by_contra hc
    simp [hc] at he

end Medil

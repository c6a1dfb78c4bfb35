import Verif.Proofs.MoonMoser
import Mathlib.Data.Fintype.BigOperators
/-
  The cost of `max_cliques` (C145): loop passes and results are bounded by a multiple of 3^(n/3), and this is attained.
-/
namespace Medil
open Finset
variable {n : Nat}

/-- **C145** `F` passes of the loop suffice as soon as `F` is at least `5 * 3^(n/3)` (written without roots), for every matrix and
every set order: with that bound the loop ends and yields the same lists as without -/
theorem C145_passes (A : BMat n) (hn : 0 < n) (o : Sched n) (F : Nat) (hF : 125 * 3 ^ n ≤ F ^ 3) :
    (∃ ys, mcRun o A F (mcInit o A) = .ok ys) ∧ mcRun o A F (mcInit o A) = maxCliques o A := by
  obtain ⟨p, hb, hp⟩ := init_bd costPass o A
  have h5 : 5 * cbrt3 ^ n ≤ F := by
    by_contra hc
    push Not at hc
    have := pow_lt_pow_left₀ hc (Nat.cast_nonneg F) (by norm_num : (3 : Nat) ≠ 0)
    rw [mul_pow, ← pow_mul, mul_comm n 3, pow_mul, cbrt3_cube] at this
    have h2 : (125 * 3 ^ n : ℝ) ≤ F ^ 3 := by exact_mod_cast hF
    norm_num at this
    linarith
  obtain ⟨ys, hy⟩ := mcRun_halts (o := o) costPass F _ p hb (by linarith)
  refine ⟨⟨ys, hy⟩, ?_⟩
  obtain ⟨zs, hz⟩ := maxCliques_ok o A
  have hz' := hz
  rw [maxCliques_eq_run o A hn] at hz'
  rw [hz, hy]
  have h1 := mcRun_mono (Nat.le_add_right F (2 ^ (n + 1))) hy
  have h2 := mcRun_mono (Nat.le_add_left (2 ^ (n + 1)) F) hz'
  rw [h1] at h2
  exact h2

/-- **C145** at most `3^(n/3)` lists are yielded (Moon and Moser's bound) -/
theorem C145_yields (A : BMat n) (o : Sched n) (ys : List (List (Fin n))) (h : maxCliques o A = .ok ys) :
    ys.length ^ 3 ≤ 3 ^ n := by
  rcases Nat.eq_zero_or_pos n with hn | hn
  · subst hn
    simp [maxCliques] at h
    subst h
    simp
  · rw [maxCliques_eq_run o A hn] at h
    obtain ⟨p, hb, hp⟩ := init_bd costYield o A
    have h1 := mcRun_count costYield _ _ _ hb ys h
    have h2 : (ys.length : ℝ) ≤ cbrt3 ^ n := by linarith
    have h3 := pow_le_pow_left₀ (Nat.cast_nonneg _) h2 3
    rw [← pow_mul, mul_comm n 3, pow_mul, cbrt3_cube] at h3
    exact_mod_cast h3

/-- the graph on `3 m` vertices in which all pairs are adjacent except those in the same block of three -/
def blockGraph (m : Nat) : BMat (3 * m) := BMat.of fun i j => decide (i = j) || decide (i.val / 3 ≠ j.val / 3)

/-- the choice of one vertex per block -/
def blockPick {m : Nat} (f : Fin m → Fin 3) : Finset (Fin (3 * m)) :=
  univ.image fun b : Fin m => ⟨3 * b.val + (f b).val, by omega⟩

theorem blockGraph_symm (m : Nat) : Symm (blockGraph m) := by
  intro i j
  simp only [blockGraph, BMat.get_of]
  congr 1
  · exact decide_eq_decide.mpr eq_comm
  · exact decide_eq_decide.mpr ne_comm

theorem block_adj {m : Nat} (i j : Fin (3 * m)) : Adj (blockGraph m) i j ↔ i.val / 3 ≠ j.val / 3 := by
  unfold Adj blockGraph
  rw [BMat.get_of]
  simp only [Bool.or_eq_true, decide_eq_true_eq]
  constructor
  · rintro ⟨h | h, hne⟩
    · exact absurd h hne
    · exact h
  · intro h
    exact ⟨Or.inr h, fun e => h (by rw [e])⟩

theorem mem_blockPick {m : Nat} (f : Fin m → Fin 3) (v : Fin (3 * m)) :
    v ∈ blockPick f ↔ v.val % 3 = (f ⟨v.val / 3, by omega⟩).val := by
  simp only [blockPick, mem_image, mem_univ, true_and]
  constructor
  · rintro ⟨b, rfl⟩
    have h1 : (3 * b.val + (f b).val) / 3 = b.val := by omega
    have h2 : (⟨(3 * b.val + (f b).val) / 3, by omega⟩ : Fin m) = b := Fin.ext h1
    simp only [h2]
    omega
  · intro h
    refine ⟨⟨v.val / 3, by omega⟩, Fin.ext ?_⟩
    simp only
    omega

theorem block_maximal {m : Nat} (C : Finset (Fin (3 * m))) :
    IsMaximalClique (blockGraph m) C ↔ ∃ f, blockPick f = C := by
  constructor
  · rintro ⟨hc, hmax⟩
    have hex : ∀ b : Fin m, ∃ r : Fin 3, (⟨3 * b.val + r.val, by omega⟩ : Fin (3 * m)) ∈ C := by
      intro b
      by_contra hno
      push Not at hno
      have hdis : ∀ v ∈ C, v.val / 3 ≠ b.val := by
        intro v hv hb
        refine hno ⟨v.val % 3, by omega⟩ ?_
        convert hv using 1
        apply Fin.ext
        simp only
        omega
      refine hmax ⟨3 * b.val, by omega⟩ (hno 0) ?_
      intro x hx y hy hxy
      rw [block_adj]
      simp only [mem_insert] at hx hy
      have hb3 : 3 * b.val / 3 = b.val := by omega
      rcases hx with rfl | hx <;> rcases hy with rfl | hy
      · exact absurd rfl hxy
      · simp only [hb3]
        exact (hdis y hy).symm
      · simp only [hb3]
        exact hdis x hx
      · exact (block_adj x y).mp (hc x hx y hy hxy)
    choose f hf using hex
    refine ⟨f, Finset.ext fun v => ?_⟩
    rw [mem_blockPick]
    have hv := hf ⟨v.val / 3, by omega⟩
    constructor
    · intro h
      convert hv using 1
      apply Fin.ext
      simp only
      omega
    · intro h
      by_contra hne
      have := (block_adj _ _).mp (hc v h _ hv fun e => hne (by
        have := congrArg Fin.val e
        simp only at this
        omega))
      simp only at this
      omega
  · rintro ⟨f, rfl⟩
    constructor
    · intro x hx y hy hxy
      rw [mem_blockPick] at hx hy
      rw [block_adj]
      intro he
      apply hxy
      apply Fin.ext
      simp only [he] at hx
      omega
    · intro v hv hc
      rw [mem_blockPick] at hv
      let w : Fin (3 * m) := ⟨3 * (v.val / 3) + (f ⟨v.val / 3, by omega⟩).val, by omega⟩
      have hw3 : w.val / 3 = v.val / 3 := by simp only [w]; omega
      have hw : w ∈ blockPick f := by
        rw [mem_blockPick]
        simp only [hw3]
        simp only [w]
        omega
      have hvw : v ≠ w := by
        intro e
        apply hv
        have := congrArg Fin.val e
        simp only [w] at this
        omega
      exact (block_adj _ _).mp (hc v (mem_insert_self _ _) w (mem_insert_of_mem hw) hvw) hw3.symm

theorem blockPick_injective {m : Nat} : Function.Injective (blockPick (m := m)) := by
  intro f g h
  funext b
  have hb : (3 * b.val + (f b).val) / 3 = b.val := by omega
  have h1 : (⟨3 * b.val + (f b).val, by omega⟩ : Fin (3 * m)) ∈ blockPick g := by
    rw [← h, mem_blockPick]
    simp only [hb, Fin.eta]
    omega
  rw [mem_blockPick] at h1
  simp only [hb, Fin.eta] at h1
  apply Fin.ext
  omega

theorem blockGraph_yields (m : Nat) (hm : 0 < m) (o : Sched (3 * m)) : ∃ ys, maxCliques o (blockGraph m) = .ok ys ∧ ys.length = 3 ^ m := by
  obtain ⟨ys, h1, -, h3, h4⟩ := maxCliques_correct (blockGraph_symm m) (by omega) o
  refine ⟨ys, h1, ?_⟩
  have : (ys.map List.toFinset).toFinset = univ.image (blockPick (m := m)) := by
    ext C
    rw [List.mem_toFinset, h4 C, block_maximal]
    simp
  have hc := congrArg card this
  rw [List.toFinset_card_of_nodup h3, card_image_of_injective _ blockPick_injective] at hc
  simpa using hc

/-- **C145** the bound on the number of lists is attained: for every `m` a graph with `3 m` vertices has `3^m` maximal cliques -/
theorem C145_attained (m : Nat) (hm : 0 < m) :
    ∃ A : BMat (3 * m), Symm A ∧ ∀ o, ∃ ys, maxCliques o A = .ok ys ∧ ys.length = 3 ^ m := by
  exact ⟨blockGraph m, blockGraph_symm m, blockGraph_yields m hm⟩

-- ten vertices: 195 passes suffice, and at most 38 lists are yielded
example : ¬ 39 ^ 3 ≤ 3 ^ 10 ∧ 125 * 3 ^ 10 ≤ 195 ^ 3 := by norm_num

end Medil

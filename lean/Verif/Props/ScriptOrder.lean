import Verif.Model.ScriptSim
import Mathlib.Data.Real.Sign
import Mathlib.Analysis.SpecialFunctions.Trigonometric.Basic
/-
  Property theorems C131, C132: the order of the nodes and the samples of the simulation in scripts/developing.py.
-/
namespace Medil
open Finset

variable {m n : Nat}

/-- `x` is a latent, `y` a measurement and `x` is a parent of `y` in the structure `B`; the nodes `0..m-1` are the latents -/
def ParentOf (B : Fin m → Fin n → Bool) (x y : Fin (m + n)) : Prop :=
  ∃ i j, x = Fin.castAdd n i ∧ y = Fin.natAdd m j ∧ B i j = true

/-- no node of the list comes before one of its parents -/
def ParentsFirst (B : Fin m → Fin n → Bool) (order : List (Fin (m + n))) : Prop :=
  order.Pairwise fun x y => ¬ ParentOf B y x

/-- every latent has at most one child -/
def AtMostOneChild (B : Fin m → Fin n → Bool) : Prop := ∀ i j j', B i j = true → B i j' = true → j = j'

theorem scriptAdj_iff (B : Fin m → Fin n → Bool) (a b : Fin (m + n)) :
    scriptAdj B a b = true ↔ ParentOf B a b ∨ ParentOf B b a := by
  unfold scriptAdj ParentOf
  refine Fin.addCases (fun i => ?_) (fun j => ?_) a <;> refine Fin.addCases (fun i' => ?_) (fun j' => ?_) b
  · simp only [Fin.addCases_left, Bool.false_eq_true, false_iff]
    rintro (⟨_, _, _, h, _⟩ | ⟨_, _, _, h, _⟩) <;> exact absurd (congrArg Fin.val h) (by simp; omega)
  · simp only [Fin.addCases_left, Fin.addCases_right]
    constructor
    · intro h; exact Or.inl ⟨i, j', rfl, rfl, h⟩
    · rintro (⟨x, y, h1, h2, h3⟩ | ⟨x, y, h1, h2, h3⟩)
      · rw [Fin.castAdd_inj] at h1
        rw [Fin.natAdd_inj] at h2
        subst h1 h2; exact h3
      · exact absurd (congrArg Fin.val h1) (by simp; omega)
  · simp only [Fin.addCases_left, Fin.addCases_right]
    constructor
    · intro h; exact Or.inr ⟨i', j, rfl, rfl, h⟩
    · rintro (⟨x, y, h1, h2, h3⟩ | ⟨x, y, h1, h2, h3⟩)
      · exact absurd (congrArg Fin.val h1) (by simp; omega)
      · rw [Fin.castAdd_inj] at h1
        rw [Fin.natAdd_inj] at h2
        subst h1 h2; exact h3
  · simp only [Fin.addCases_right, Bool.false_eq_true, false_iff]
    rintro (⟨_, _, h, _, _⟩ | ⟨_, _, h, _, _⟩) <;> exact absurd (congrArg Fin.val h) (by simp; omega)

theorem parent_lt {B : Fin m → Fin n → Bool} {x y : Fin (m + n)} (h : ParentOf B x y) : x < y := by
  obtain ⟨i, j, rfl, rfl, -⟩ := h
  rw [Fin.lt_def]
  simp; omega

theorem firstMin_le {α : Type} (f : α → Nat) (a : α) (l : List α) : ∀ x ∈ a :: l, f (firstMin f a l) ≤ f x := by
  induction l generalizing a with
  | nil => simp [firstMin]
  | cons b l ih =>
    intro x hx
    unfold firstMin
    split
    · rename_i h
      rcases List.mem_cons.mp hx with rfl | hx
      · exact (ih b b (by simp)).trans h.le
      · exact ih b x hx
    · rename_i h
      rcases List.mem_cons.mp hx with rfl | hx
      · exact ih x x (by simp)
      · rcases List.mem_cons.mp hx with rfl | hx
        · exact (ih a a (by simp)).trans (by omega)
        · exact ih a x (by simp [hx])

/-- ties go to the first of the list -/
theorem firstMin_first {α : Type} [LinearOrder α] (f : α → Nat) (a : α) (l : List α) (hs : (a :: l).Pairwise (· < ·)) :
    ∀ x ∈ a :: l, x < firstMin f a l → f (firstMin f a l) < f x := by
  induction l generalizing a with
  | nil => intro x hx h; simp [firstMin] at hx h; exact absurd h (by simp [hx])
  | cons b l ih =>
    obtain ⟨h1, h2⟩ := List.pairwise_cons.mp hs
    intro x hx
    unfold firstMin
    split
    · rename_i h
      intro hlt
      rcases List.mem_cons.mp hx with rfl | hx
      · exact lt_of_le_of_lt (firstMin_le f b l b (by simp)) h
      · exact ih b h2 x hx hlt
    · rename_i h
      intro hlt
      obtain ⟨h3, h4⟩ := List.pairwise_cons.mp h2
      have hs' : (a :: l).Pairwise (· < ·) := List.pairwise_cons.mpr ⟨fun y hy => h1 y (by simp [hy]), h4⟩
      rcases List.mem_cons.mp hx with rfl | hx
      · exact ih x hs' x (by simp) hlt
      · rcases List.mem_cons.mp hx with rfl | hx
        · -- `x = b` lies between `a` and the minimum
          have hm := firstMin_mem f a l
          rcases List.mem_cons.mp hm with he | he
          · rw [he] at hlt; exact absurd (hlt.trans (h1 x (by simp))) (lt_irrefl _)
          · have := ih a hs' a (by simp) (h1 _ (by simp [he]))
            omega
        · exact ih a hs' x (by simp [hx]) hlt

theorem causLoop_perm {N : Nat} (A : Fin N → Fin N → Bool) : ∀ (k : Nat) (rem : List (Fin N)), rem.length = k → (causLoop A rem).Perm rem := by
  intro k
  induction k with
  | zero => intro rem h; rw [List.length_eq_zero_iff.mp h]; simp [causLoop]
  | succ k ih =>
    intro rem h
    match rem with
    | a :: l =>
      unfold causLoop
      have hm := firstMin_mem (colSum A (a :: l)) a l
      refine ((ih _ ?_).cons _).trans (List.perm_cons_erase hm).symm
      rw [List.length_erase_of_mem hm]
      simpa using h

/-- `compute_caus_order` lists every node exactly once -/
theorem C131_permutation (B : Fin m → Fin n → Bool) : (causOrder B).Perm (List.finRange (m + n)) :=
  causLoop_perm _ _ _ rfl

theorem colSum_pos {N : Nat} {A : Fin N → Fin N → Bool} {rem : List (Fin N)} {a b : Fin N} (ha : a ∈ rem) (h : A a b = true) :
    1 ≤ colSum A rem b := List.countP_pos_iff.mpr ⟨a, ha, h⟩

/-- a column sum is at most 1 if all neighbours are equal -/
theorem colSum_le_one {N : Nat} {A : Fin N → Fin N → Bool} {rem : List (Fin N)} (hn : rem.Nodup) {b : Fin N}
    (h : ∀ a ∈ rem, ∀ a' ∈ rem, A a b = true → A a' b = true → a = a') : colSum A rem b ≤ 1 := by
  unfold colSum
  rw [List.countP_eq_length_filter]
  by_contra hc
  obtain ⟨x, y, l, hl⟩ : ∃ x y l, rem.filter (fun a => A a b) = x :: y :: l := by
    match h0 : rem.filter (fun a => A a b) with
    | [] => simp [h0] at hc
    | [x] => simp [h0] at hc
    | x :: y :: l => exact ⟨x, y, l, rfl⟩
  have hx : x ∈ rem.filter (fun a => A a b) := by simp [hl]
  have hy : y ∈ rem.filter (fun a => A a b) := by simp [hl]
  have hxy : x = y := h x (List.mem_filter.mp hx).1 y (List.mem_filter.mp hy).1 (List.mem_filter.mp hx).2 (List.mem_filter.mp hy).2
  have := (hn.filter (fun a => A a b))
  rw [hl] at this
  simp [hxy] at this

theorem two_le_colSum {N : Nat} {A : Fin N → Fin N → Bool} {rem : List (Fin N)} {a a' b : Fin N} (ha : a ∈ rem) (ha' : a' ∈ rem)
    (hne : a ≠ a') (h : A a b = true) (h' : A a' b = true) : 2 ≤ colSum A rem b := by
  unfold colSum
  rw [List.countP_eq_length_filter]
  have h1 : a ∈ rem.filter (fun a => A a b) := List.mem_filter.mpr ⟨ha, h⟩
  have h2 : a' ∈ rem.filter (fun a => A a b) := List.mem_filter.mpr ⟨ha', h'⟩
  match h0 : rem.filter (fun a => A a b) with
  | [] => simp [h0] at h1
  | [x] => simp [h0] at h1 h2; exact absurd (h1.trans h2.symm) hne
  | x :: y :: l => simp

theorem causLoop_first (B : Fin m → Fin n → Bool) (hB : AtMostOneChild B) : ∀ (k : Nat) (rem : List (Fin (m + n))), rem.length = k →
    rem.Pairwise (· < ·) → ParentsFirst B (causLoop (scriptAdj B) rem) := by
  intro k
  induction k with
  | zero => intro rem h _; rw [List.length_eq_zero_iff.mp h]; simp [causLoop, ParentsFirst]
  | succ k ih =>
    intro rem h hs
    match rem with
    | a :: l =>
      unfold causLoop
      have hm := firstMin_mem (colSum (scriptAdj B) (a :: l)) a l
      have hlen : ((a :: l).erase (firstMin (colSum (scriptAdj B) (a :: l)) a l)).length = k := by
        rw [List.length_erase_of_mem hm]; simpa using h
      have hs' : ((a :: l).erase (firstMin (colSum (scriptAdj B) (a :: l)) a l)).Pairwise (· < ·) := hs.sublist List.erase_sublist
      refine List.pairwise_cons.mpr ⟨fun y hy hp => ?_, ih _ hlen hs'⟩
      have hy' : y ∈ a :: l := List.mem_of_mem_erase ((causLoop_perm _ _ _ hlen).mem_iff.mp hy)
      have h1 := firstMin_first (colSum (scriptAdj B) (a :: l)) a l hs y hy' (parent_lt hp)
      have h2 := colSum_pos hy' ((scriptAdj_iff B _ _).mpr (Or.inl hp))
      have h3 : colSum (scriptAdj B) (a :: l) y ≤ 1 := by
        refine colSum_le_one (hs.imp fun h => h.ne) ?_
        obtain ⟨i, j, rfl, -, -⟩ := hp
        intro x _ x' _ e e'
        have key : ∀ x, scriptAdj B x (Fin.castAdd n i) = true → ∃ j, x = Fin.natAdd m j ∧ B i j = true := by
          intro x hx
          rcases (scriptAdj_iff B _ _).mp hx with ⟨i', j', h1, h2, h3⟩ | ⟨i', j', h1, h2, h3⟩
          · exact absurd (congrArg Fin.val h2) (by simp; omega)
          · rw [Fin.castAdd_inj] at h1
            subst h1; exact ⟨j', h2, h3⟩
        obtain ⟨j1, rfl, e1⟩ := key x e
        obtain ⟨j2, rfl, e2⟩ := key x' e'
        rw [hB i j1 j2 e1 e2]
      omega

theorem causLoop_only (B : Fin m → Fin n → Bool) : ∀ (k : Nat) (rem : List (Fin (m + n))), rem.length = k → rem.Nodup →
    ParentsFirst B (causLoop (scriptAdj B) rem) →
    ∀ i j j', Fin.castAdd n i ∈ rem → Fin.natAdd m j ∈ rem → Fin.natAdd m j' ∈ rem → B i j = true → B i j' = true → j = j' := by
  intro k
  induction k with
  | zero => intro rem h _ _ i j j' hi; rw [List.length_eq_zero_iff.mp h] at hi; simp at hi
  | succ k ih =>
    intro rem h hn hp i j j' hi hj hj' hb hb'
    match rem with
    | a :: l =>
      unfold causLoop at hp
      obtain ⟨root, hroot⟩ : ∃ root, firstMin (colSum (scriptAdj B) (a :: l)) a l = root := ⟨_, rfl⟩
      have hm := firstMin_mem (colSum (scriptAdj B) (a :: l)) a l
      have hmin := firstMin_le (colSum (scriptAdj B) (a :: l)) a l
      simp only [hroot] at hp hm hmin
      have hlen : ((a :: l).erase root).length = k := by rw [List.length_erase_of_mem hm]; simpa using h
      obtain ⟨hp1, hp2⟩ := List.pairwise_cons.mp hp
      have hnoPar : ∀ y ∈ a :: l, y ≠ root → ¬ ParentOf B y root := fun y hy hne =>
        hp1 y ((causLoop_perm _ _ _ hlen).mem_iff.mpr ((List.mem_erase_of_ne hne).mpr hy))
      have IH := ih _ hlen (hn.erase root) hp2
      -- a measurement is never the root while a parent remains
      have hmeas : ∀ j, Fin.natAdd m j ∈ a :: l → ∀ i, Fin.castAdd n i ∈ a :: l → B i j = true → Fin.natAdd m j ≠ root := by
        intro j _ i hi hb he
        refine hnoPar (Fin.castAdd n i) hi ?_ ⟨i, j, rfl, he.symm, hb⟩
        intro hc
        rw [← he] at hc
        exact absurd (congrArg Fin.val hc) (by simp; omega)
      have h1 : Fin.natAdd m j ∈ (a :: l).erase root := (List.mem_erase_of_ne (hmeas j hj i hi hb)).mpr hj
      have h2 : Fin.natAdd m j' ∈ (a :: l).erase root := (List.mem_erase_of_ne (hmeas j' hj' i hi hb')).mpr hj'
      by_cases hir : Fin.castAdd n i = root
      · by_contra hne
        have hd : 2 ≤ colSum (scriptAdj B) (a :: l) root := by
          rw [← hir]
          refine two_le_colSum hj hj' (fun hc => hne ((Fin.natAdd_inj m).mp hc)) ?_ ?_
          · exact (scriptAdj_iff B _ _).mpr (Or.inr ⟨i, j, rfl, rfl, hb⟩)
          · exact (scriptAdj_iff B _ _).mpr (Or.inr ⟨i, j', rfl, rfl, hb'⟩)
        have hdj : 2 ≤ colSum (scriptAdj B) (a :: l) (Fin.natAdd m j) := hd.trans (hmin _ hj)
        -- another parent of `j`
        obtain ⟨i', hi', hne', hb2⟩ : ∃ i', Fin.castAdd n i' ∈ a :: l ∧ i' ≠ i ∧ B i' j = true := by
          by_contra hc
          push Not at hc
          have : colSum (scriptAdj B) (a :: l) (Fin.natAdd m j) ≤ 1 := by
            refine colSum_le_one hn fun x hx x' hx' e e' => ?_
            have key : ∀ x ∈ a :: l, scriptAdj B x (Fin.natAdd m j) = true → x = Fin.castAdd n i := by
              intro x hx hA
              rcases (scriptAdj_iff B _ _).mp hA with ⟨i1, j1, rfl, e2, e3⟩ | ⟨i1, j1, e1, e2, e3⟩
              · rw [Fin.natAdd_inj] at e2
                subst e2
                by_cases hii : i1 = i
                · rw [hii]
                · exact absurd e3 (hc i1 hx hii)
              · exact absurd (congrArg Fin.val e1) (by simp; omega)
            rw [key x hx e, key x' hx' e']
          omega
        have hdi' : 2 ≤ colSum (scriptAdj B) (a :: l) (Fin.castAdd n i') := hd.trans (hmin _ hi')
        have hle : colSum (scriptAdj B) (a :: l) (Fin.castAdd n i') ≤ 1 := by
          refine colSum_le_one hn fun x hx x' hx' e e' => ?_
          have key : ∀ x ∈ a :: l, scriptAdj B x (Fin.castAdd n i') = true → ∃ j, x = Fin.natAdd m j ∧ B i' j = true := by
            intro x _ hA
            rcases (scriptAdj_iff B _ _).mp hA with ⟨i1, j1, e1, e2, e3⟩ | ⟨i1, j1, e1, e2, e3⟩
            · exact absurd (congrArg Fin.val e2) (by simp; omega)
            · rw [Fin.castAdd_inj] at e1
              subst e1; exact ⟨j1, e2, e3⟩
          obtain ⟨j1, rfl, e1⟩ := key x hx e
          obtain ⟨j2, rfl, e2⟩ := key x' hx' e'
          have hi'root : Fin.castAdd n i' ≠ root := by
            rw [← hir]; exact fun hc => hne' ((Fin.castAdd_inj).mp hc)
          have g1 := (List.mem_erase_of_ne (hmeas j1 hx i' hi' e1)).mpr hx
          have g2 := (List.mem_erase_of_ne (hmeas j2 hx' i' hi' e2)).mpr hx'
          rw [IH i' j1 j2 ((List.mem_erase_of_ne hi'root).mpr hi') g1 g2 e1 e2]
        omega
      · exact IH i j j' ((List.mem_erase_of_ne hir).mpr hi) h1 h2 hb hb'

/-- **C131** `compute_caus_order` puts parents before their children exactly for the structures in which every latent has at most one
child. -/
theorem C131_causal_order_partial (B : Fin m → Fin n → Bool) : ParentsFirst B (causOrder B) ↔ AtMostOneChild B := by
  constructor
  · intro h i j j' hb hb'
    exact causLoop_only B _ _ rfl (List.nodup_finRange _) h i j j' (List.mem_finRange _) (List.mem_finRange _) (List.mem_finRange _) hb hb'
  · intro h
    exact causLoop_first B h _ _ rfl (List.pairwise_lt_finRange _)

/-- the property fails: for one latent with two children a child comes before its parent -/
theorem C131_false : ¬ ∀ (m n : Nat) (B : Fin m → Fin n → Bool), ParentsFirst B (causOrder B) := fun h => by
  have := (C131_causal_order_partial (fun (_ : Fin 1) (_ : Fin 2) => true)).mp (h 1 2 _) 0 0 1 rfl rfl
  simp at this

/-- the order for one latent (node 0) with two children -/
theorem caus_two : causOrder (fun (_ : Fin 1) (_ : Fin 2) => true) = [1, 0, 2] := by
  unfold causOrder
  rw [show List.finRange (1 + 2) = [0, 1, 2] by decide]
  unfold causLoop
  rw [show firstMin (colSum (scriptAdj (fun (_ : Fin 1) (_ : Fin 2) => true)) [0, 1, 2]) 0 [1, 2] = 1 by decide +kernel]
  dsimp only
  rw [show [(0 : Fin (1 + 2)), 1, 2].erase 1 = [0, 2] by decide]
  unfold causLoop
  rw [show firstMin (colSum (scriptAdj (fun (_ : Fin 1) (_ : Fin 2) => true)) [0, 2]) 0 [2] = 0 by decide +kernel]
  dsimp only
  rw [show [(0 : Fin (1 + 2)), 2].erase 0 = [2] by decide]
  unfold causLoop
  simp [firstMin, causLoop]

example : AtMostOneChild (fun (i : Fin 2) (j : Fin 3) => decide (i.val = j.val)) := by
  intro i j j' h h'
  simp only [decide_eq_true_eq] at h h'
  exact Fin.ext (by omega)

/-! ### C132: samples -/

section
variable (B : Fin m → Fin n → Bool) (coef : Fin n → Fin m → ℝ) (var : Fin (m + n) → ℝ) (expo : ℝ) (ran : Fin (m + n) → ℝ)

theorem gpLoop_notMem {x : Fin (m + n) → ℝ} {L : List (Fin (m + n))} {a : Fin (m + n)} (h : a ∉ L) :
    gpLoop B coef var expo ran x L a = x a := by
  induction L generalizing x with
  | nil => rfl
  | cons b l ih =>
    unfold gpLoop
    rw [List.foldl_cons]
    have := ih (x := gpStep B coef var expo x b (ran b)) (fun hc => h (by simp [hc]))
    unfold gpLoop at this
    rw [this]
    unfold gpStep
    rw [Function.update_of_ne (fun hc => h (by simp [hc]))]

theorem gpLoop_append (x : Fin (m + n) → ℝ) (L1 L2 : List (Fin (m + n))) :
    gpLoop B coef var expo ran x (L1 ++ L2) = gpLoop B coef var expo ran (gpLoop B coef var expo ran x L1) L2 := by
  unfold gpLoop
  rw [List.foldl_append]

theorem gpLoop_latent {x : Fin (m + n) → ℝ} {L : List (Fin (m + n))} {i : Fin m} (h : Fin.castAdd n i ∈ L) (hn : L.Nodup) :
    gpLoop B coef var expo ran x L (Fin.castAdd n i) = ran (Fin.castAdd n i) := by
  obtain ⟨L1, L2, rfl⟩ := List.append_of_mem h
  have h2 : Fin.castAdd n i ∉ L2 := (List.nodup_cons.mp (List.nodup_append.mp hn).2.1).1
  rw [gpLoop_append]
  show gpLoop B coef var expo ran (gpStep B coef var expo (gpLoop B coef var expo ran x L1) _ _) L2 _ = _
  rw [gpLoop_notMem _ _ _ _ _ h2]
  unfold gpStep
  rw [Function.update_self, Fin.addCases_left]

theorem gpLoop_meas {x : Fin (m + n) → ℝ} {L1 L2 : List (Fin (m + n))} {j : Fin n} (h : Fin.natAdd m j ∉ L2) :
    gpLoop B coef var expo ran x (L1 ++ Fin.natAdd m j :: L2) (Fin.natAdd m j) =
      (∑ i, if B i j then coef j i * Real.sin (gpLoop B coef var expo ran x L1 (Fin.castAdd n i)) else 0) +
        gpNoise (var (Fin.natAdd m j)) expo (ran (Fin.natAdd m j)) := by
  rw [gpLoop_append]
  show gpLoop B coef var expo ran (gpStep B coef var expo (gpLoop B coef var expo ran x L1) _ _) L2 _ = _
  rw [gpLoop_notMem _ _ _ _ _ h]
  unfold gpStep
  rw [Function.update_self, Fin.addCases_right]

end

theorem not_pairwise {α : Type} {R : α → α → Prop} {L : List α} (h : ¬ L.Pairwise R) :
    ∃ L1 x L2 y, L = L1 ++ x :: L2 ∧ y ∈ L2 ∧ ¬ R x y := by
  induction L with
  | nil => simp at h
  | cons a l ih =>
    by_cases hl : l.Pairwise R
    · rw [List.pairwise_cons] at h
      have : ¬ ∀ y ∈ l, R a y := fun hc => h ⟨hc, hl⟩
      push Not at this
      obtain ⟨y, hy, hr⟩ := this
      exact ⟨[], a, l, y, rfl, hy, hr⟩
    · obtain ⟨L1, x, L2, y, rfl, hy, hr⟩ := ih hl
      exact ⟨a :: L1, x, L2, y, rfl, hy, hr⟩

theorem gpNoise_eq (v e r : ℝ) : gpNoise v e r = (Real.sqrt v * |r|) ^ e * Real.sign r := by
  unfold gpNoise
  rcases lt_trichotomy r 0 with h | h | h
  · rw [Real.sign_of_neg h, sign_neg h]
    simp
  · subst h
    simp
  · rw [Real.sign_of_pos h, sign_pos h]
    simp

theorem gpNoise_one (v r : ℝ) : gpNoise v 1 r = Real.sqrt v * r := by
  rw [gpNoise_eq, Real.rpow_one, mul_assoc]
  rcases lt_trichotomy r 0 with h | h | h
  · rw [Real.sign_of_neg h, abs_of_neg h]
    ring
  · subst h
    simp
  · rw [Real.sign_of_pos h, abs_of_pos h]
    ring

/-- **C132** Every row of `sample_data_from_GAM_GP` is the sum of the sines of the latents, weighted by the coefficients, plus the noise, for all coefficients, noise
and draws, exactly if every latent has at most one child.  Otherwise some measurement is computed from uninitialised memory. -/
theorem C132_samples_partial (B : Fin m → Fin n → Bool) :
    (∀ (coef : Fin n → Fin m → ℝ) (var : Fin (m + n) → ℝ) (expo : ℝ) (ran mem : Fin (m + n) → ℝ) (j : Fin n),
      sampleGp B coef var expo ran mem j = (∑ i, if B i j then coef j i * Real.sin (ran (Fin.castAdd n i)) else 0) +
        (Real.sqrt (var (Fin.natAdd m j)) * |ran (Fin.natAdd m j)|) ^ expo * Real.sign (ran (Fin.natAdd m j))) ↔ AtMostOneChild B := by
  simp only [← gpNoise_eq]
  have hperm := C131_permutation B
  have hnd : (causOrder B).Nodup := hperm.nodup_iff.mpr (List.nodup_finRange _)
  constructor
  · intro h
    rw [← C131_causal_order_partial]
    by_contra hc
    obtain ⟨L1, x, L2, y, hL, hy, hr⟩ := not_pairwise hc
    rw [not_not] at hr
    obtain ⟨i, j, rfl, rfl, hb⟩ := hr
    rw [hL] at hnd
    obtain ⟨hn1, hn2, hn3⟩ := List.nodup_append.mp hnd
    have hy1 : Fin.castAdd n i ∉ L1 := fun h1 => hn3 _ h1 _ (by simp [hy]) rfl
    have hx2 : Fin.natAdd m j ∉ L2 := (List.nodup_cons.mp hn2).1
    -- only the coefficient of `i` is non-zero; all draws are 0; the memory holds `π / 2`
    have := h (fun _ i' => if i' = i then 1 else 0) (fun _ => 0) 1 (fun _ => 0) (fun _ => Real.pi / 2) j
    unfold sampleGp at this
    rw [hL, gpLoop_meas _ _ _ _ _ hx2] at this
    have h2 := add_right_cancel this
    rw [Finset.sum_eq_single i (fun i' _ hne => by simp [hne]) (by simp), Finset.sum_eq_single i (fun i' _ hne => by simp [hne]) (by simp),
      if_pos hb, if_pos hb, gpLoop_notMem _ _ _ _ _ hy1] at h2
    simp at h2
  · intro hB coef var expo ran mem j
    have hp := (C131_causal_order_partial B).mpr hB
    have hj : Fin.natAdd m j ∈ causOrder B := hperm.mem_iff.mpr (List.mem_finRange _)
    unfold sampleGp
    obtain ⟨L1, L2, hL⟩ := List.append_of_mem hj
    rw [hL] at hnd hp ⊢
    obtain ⟨hn1, hn2, hn3⟩ := List.nodup_append.mp hnd
    rw [gpLoop_meas _ _ _ _ _ (List.nodup_cons.mp hn2).1]
    congr 1
    refine Finset.sum_congr rfl fun i _ => ?_
    by_cases hb : B i j = true
    · rw [if_pos hb, if_pos hb]
      have hi : Fin.castAdd n i ∈ L1 := by
        have : Fin.castAdd n i ∈ L1 ++ Fin.natAdd m j :: L2 := by rw [← hL]; exact hperm.mem_iff.mpr (List.mem_finRange _)
        rcases List.mem_append.mp this with h1 | h1
        · exact h1
        · rcases List.mem_cons.mp h1 with h2 | h2
          · exact absurd (congrArg Fin.val h2) (by simp; omega)
          · exact absurd ⟨i, j, rfl, rfl, hb⟩ ((List.pairwise_cons.mp (List.pairwise_append.mp hp).2.1).1 _ h2)
      rw [gpLoop_latent _ _ _ _ _ hi hn1]
    · rw [if_neg hb, if_neg hb]

/-- the property fails: with one latent and two children the first child is computed from the initial content of the array -/
theorem C132_false : ¬ ∀ (m n : Nat) (B : Fin m → Fin n → Bool) (coef : Fin n → Fin m → ℝ) (var : Fin (m + n) → ℝ) (expo : ℝ)
    (ran mem mem' : Fin (m + n) → ℝ) (j : Fin n), sampleGp B coef var expo ran mem j = sampleGp B coef var expo ran mem' j := by
  intro h
  have h1 := h 1 2 (fun _ _ => true) (fun _ _ => 1) (fun _ => 0) 1 (fun _ => 0) (fun _ => 0) (fun _ => Real.pi / 2) 0
  unfold sampleGp at h1
  rw [caus_two] at h1
  have e : ([1, 0, 2] : List (Fin (1 + 2))) = [] ++ Fin.natAdd 1 (0 : Fin 2) :: [0, 2] := rfl
  rw [e, gpLoop_meas _ _ _ _ _ (by decide), gpLoop_meas _ _ _ _ _ (by decide)] at h1
  simp [gpLoop] at h1

/-! ### C133: coefficients -/

theorem store_int_small {x : ℝ} (h : |x| < 1) : DType.store .int x = 0 := by
  obtain ⟨h1, h2⟩ := abs_lt.mp h
  show (if 0 ≤ x then ((⌊x⌋ : ℤ) : ℝ) else ((⌈x⌉ : ℤ) : ℝ)) = 0
  split
  · rename_i h0
    rw [Int.floor_eq_zero_iff.mpr ⟨h0, h2⟩]
    simp
  · rename_i h0
    rw [Int.ceil_eq_zero_iff.mpr ⟨h1, by linarith⟩]
    simp

/-- **C133** `random_B` gives, for structures of float type, coefficients with absolute values between 0.1 and 0.9 exactly on the edges; for
structures of integer type (as in `verify_independence_pattern_GP`) all coefficients are 0; for structures of boolean type they are 1. -/
theorem C133_coefficients_partial (B : Fin m → Fin n → Bool) (u sgn : ℕ → ℝ) (hu : ∀ k, 1 / 10 ≤ u k ∧ u k < 9 / 10)
    (hs : ∀ k, sgn k = 1 ∨ sgn k = -1) (j : Fin n) (i : Fin m) :
    (B i j = false → ∀ dt, randomB dt B u sgn j i = 0) ∧
    (B i j = true → 1 / 10 ≤ |randomB .float B u sgn j i| ∧ |randomB .float B u sgn j i| < 9 / 10) ∧
    randomB .int B u sgn j i = 0 ∧ (B i j = true → randomB .bool B u sgn j i = 1) := by
  have habs : ∀ k, |u k * sgn k| = u k := fun k => by
    have : 0 ≤ u k := by linarith [(hu k).1]
    rcases hs k with h | h <;> rw [h] <;> simp [abs_of_nonneg this]
  refine ⟨fun h dt => by simp [randomB, h], fun h => ?_, ?_, fun h => ?_⟩
  · unfold randomB
    rw [if_pos h]
    show 1 / 10 ≤ |u _ * sgn _| ∧ |u _ * sgn _| < 9 / 10
    rw [habs]
    exact hu _
  · unfold randomB
    split
    · refine store_int_small ?_
      rw [habs]
      linarith [(hu (onesPos B j i)).2]
    · rfl
  · unfold randomB
    rw [if_pos h]
    show (if u _ * sgn _ = 0 then (0 : ℝ) else 1) = 1
    rw [if_neg]
    intro h0
    have := habs (onesPos B j i)
    rw [h0, abs_zero] at this
    linarith [(hu (onesPos B j i)).1]

/-- different edges get different draws -/
theorem C133_distinct (B : Fin m → Fin n → Bool) (j j' : Fin n) (i i' : Fin m) (h : B i j = true) (h' : B i' j' = true)
    (he : onesPos B j i = onesPos B j' i') : j = j' ∧ i = i' := by
  have mono : ∀ (j j' : Fin n) (i i' : Fin m), B i j = true → (j < j' ∨ j = j' ∧ i < i') → onesPos B j i < onesPos B j' i' := by
    intro j j' i i' h hlt
    refine Finset.card_lt_card (Finset.ssubset_iff_of_subset ?_ |>.mpr ⟨(j, i), ?_, ?_⟩)
    · intro e he
      simp only [Finset.mem_filter, Finset.mem_univ, true_and] at he ⊢
      refine ⟨he.1, ?_⟩
      rcases he.2 with h1 | ⟨h1, h2⟩ <;> rcases hlt with h3 | ⟨h3, h4⟩
      · exact Or.inl (h1.trans h3)
      · exact Or.inl (h3 ▸ h1)
      · exact Or.inl (h1 ▸ h3)
      · exact Or.inr ⟨h1.trans h3, h2.trans h4⟩
    · simp only [Finset.mem_filter, Finset.mem_univ, true_and]
      exact ⟨h, hlt⟩
    · simp
  rcases lt_trichotomy j j' with h1 | h1 | h1
  · exact absurd he (mono j j' i i' h (Or.inl h1)).ne
  · rcases lt_trichotomy i i' with h2 | h2 | h2
    · exact absurd he (mono j j' i i' h (Or.inr ⟨h1, h2⟩)).ne
    · exact ⟨h1, h2⟩
    · exact absurd he (mono j' j i' i h' (Or.inr ⟨h1.symm, h2⟩)).ne'
  · exact absurd he (mono j' j i' i h' (Or.inl h1)).ne'

/-- in `verify_independence_pattern_GP` the dataset does not depend on the structure: every row is noise alone -/
theorem C133_noise_only (B : Fin m → Fin n → Bool) (u sgn : ℕ → ℝ) (hu : ∀ k, 1 / 10 ≤ u k ∧ u k < 9 / 10) (hs : ∀ k, sgn k = 1 ∨ sgn k = -1)
    (var ran mem : Fin ((m + n) + (m + n)) → ℝ) (j : Fin (m + n)) :
    verifyGpRow B u sgn var ran mem j = Real.sqrt (var (Fin.natAdd _ j)) * ran (Fin.natAdd _ j) := by
  rw [← gpNoise_one]
  have hj : Fin.natAdd (m + n) j ∈ causOrder (gpG B) := (C131_permutation _).mem_iff.mpr (List.mem_finRange _)
  have hnd : (causOrder (gpG B)).Nodup := (C131_permutation _).nodup_iff.mpr (List.nodup_finRange _)
  unfold verifyGpRow sampleGp
  obtain ⟨L1, L2, hL⟩ := List.append_of_mem hj
  rw [hL] at hnd ⊢
  rw [gpLoop_meas _ _ _ _ _ (List.nodup_cons.mp (List.nodup_append.mp hnd).2.1).1]
  rw [Finset.sum_eq_zero, zero_add]
  intro i _
  rw [(C133_coefficients_partial (gpG B) u sgn hu hs j i).2.2.1, zero_mul, ite_self]

/-- the property fails: not every edge gets a coefficient of absolute value at least 0.1 -/
theorem C133_false : ¬ ∀ (m n : Nat) (dt : DType) (B : Fin m → Fin n → Bool) (u sgn : ℕ → ℝ), (∀ k, 1 / 10 ≤ u k ∧ u k < 9 / 10) →
    (∀ k, sgn k = 1 ∨ sgn k = -1) → ∀ j i, B i j = true → 1 / 10 ≤ |randomB dt B u sgn j i| := by
  intro h
  have hu : ∀ k : ℕ, (1 : ℝ) / 10 ≤ (fun _ => 1 / 2 : ℕ → ℝ) k ∧ (fun _ => 1 / 2 : ℕ → ℝ) k < 9 / 10 := fun _ => by norm_num
  have hs : ∀ k : ℕ, (fun _ => (1 : ℝ)) k = 1 ∨ (fun _ : ℕ => (1 : ℝ)) k = -1 := fun _ => Or.inl rfl
  have h1 := h 1 1 .int (fun _ _ => true) _ _ hu hs 0 0 rfl
  rw [(C133_coefficients_partial (fun _ _ => true) _ _ hu hs 0 0).2.2.1, abs_zero] at h1
  norm_num at h1

example : (∀ k : ℕ, (1 : ℝ) / 10 ≤ (fun _ => 1 / 2 : ℕ → ℝ) k ∧ (fun _ => 1 / 2 : ℕ → ℝ) k < 9 / 10) ∧ ∀ k : ℕ, (fun _ => (1 : ℝ)) k = 1 ∨ (fun _ : ℕ => (1 : ℝ)) k = -1 :=
  ⟨fun _ => by norm_num, fun _ => Or.inl rfl⟩

end Medil

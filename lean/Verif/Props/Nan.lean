import Verif.Spec.NanLaws
import Verif.Model.FloatMinPerm
import Verif.Proofs.Evaluate
import Verif.Props.Rounded
import Verif.Props.RoundedXi
/-
  C216, C217: nan in weights and data.
-/
namespace Medil
variable {a : FloatLib} {N M n : Nat}

theorem evalSum_nan (L : a.NanLaws) {k : Nat} (f : Fin k → a.F) (i : Fin k) (hi : a.isNan (f i) = true) (t : SumTree k)
    (ht : i ∈ t.leaves) : a.isNan (a.evalSum f t) = true := by
  induction t with
  | leaf j =>
    simp only [SumTree.leaves, List.mem_singleton] at ht
    subst ht; exact hi
  | node b l r ihl ihr =>
    simp only [SumTree.leaves, List.mem_append] at ht
    rcases ht with h | h
    · exact L.add_left _ _ (ihl h)
    · exact L.add_right _ _ (ihr h)

theorem sum_nan (L : a.NanLaws) {k : Nat} (site : List Nat) (f : Fin k → a.F) (i : Fin k) (hi : a.isNan (f i) = true) :
    a.isNan (a.sum site f) = true := by
  cases k with
  | zero => exact i.elim0
  | succ k => exact evalSum_nan L f i hi _ ((a.order_perm site k).mem_iff.mpr (List.mem_finRange i))

theorem evalDot_nan (L : a.NanLaws) {k : Nat} (f g : Fin k → a.F) (h : ∀ i, a.isNan (f i) = true ∨ a.isNan (g i) = true) (t : SumTree k) :
    a.isNan (a.evalDot f g t) = true := by
  have hm : ∀ i, a.isNan (a.mul (f i) (g i)) = true := fun i => (h i).elim (L.mul_left _ _) (L.mul_right _ _)
  induction t with
  | leaf i => exact hm i
  | node b l r ihl ihr =>
    cases b with
    | false => exact L.add_left _ _ ihl
    | true =>
      cases r with
      | leaf i => exact L.fma_right _ _ _ ihl
      | node b' l' r' => exact L.add_left _ _ ihl

theorem dot_nan (L : a.NanLaws) {k : Nat} (hk : 0 < k) (site : List Nat) (f g : Fin k → a.F)
    (h : ∀ i, a.isNan (f i) = true ∨ a.isNan (g i) = true) : a.isNan (a.dot site f g) = true := by
  cases k with
  | zero => omega
  | succ k => exact evalDot_nan L f g h _

/-! ### C216 -/

theorem permDist_nan (L : a.NanLaws) {m : Nat} (b : Bool) (P T : Fin m → Fin n → a.F) (σ : Equiv.Perm (Fin m))
    (h : ∃ i j, a.isNan (P i j) = true ∨ a.isNan (T i j) = true) : a.isNan (a.permDist b P T (List.ofFn σ)) = true := by
  have habs : ∀ x, a.isNan x = true → a.isNan (a.absIf b x) = true := by
    intro x hx
    unfold FloatLib.absIf
    split
    · exact L.abs _ hx
    · exact hx
  obtain ⟨i, j, h⟩ := h
  have hdm : ∀ (i : Fin m) (j : Fin n), (finProdFinEquiv (i, j)).divNat = i ∧ (finProdFinEquiv (i, j)).modNat = j := by
    intro i j
    have := finProdFinEquiv.symm_apply_apply (i, j)
    exact ⟨congrArg Prod.fst this, congrArg Prod.snd this⟩
  unfold FloatLib.permDist
  rcases h with h | h
  · apply sum_nan L _ _ (finProdFinEquiv (σ.symm i, j))
    simp only [hdm]
    have hget : (List.ofFn σ)[(σ.symm i).val]? = some i := by
      rw [List.getElem?_ofFn, dif_pos (σ.symm i).isLt]; simp
    rw [hget]
    exact L.mul_left _ _ (L.sub_left _ _ (habs _ h))
  · apply sum_nan L _ _ (finProdFinEquiv (i, j))
    simp only [hdm]
    exact L.mul_left _ _ (L.sub_right _ _ (habs _ h))

/-- **C216**: if an entry of either matrix is nan, every distance is nan, and the rows are matched in the given order -/
theorem C216_nan_weights (L : a.NanLaws) {m l : Nat} (b : Bool) (hm : 0 < m) (hl : l ≤ m) (P : Fin m → Fin n → a.F)
    (T : Fin l → Fin n → a.F) (h : (∃ i j, a.isNan (P i j) = true) ∨ ∃ i j, a.isNan (T i j) = true) :
    ∃ x, a.isNan x = true ∧ a.minPerm b P T = .ok (List.finRange m, x) := by
  set T2 : Fin m → Fin n → a.F := fun i j => if h : i.val < l then T ⟨i, h⟩ j else a.ofNat 0 with hT2
  have h' : ∃ i j, a.isNan (P i j) = true ∨ a.isNan (T2 i j) = true := by
    rcases h with ⟨i, j, h⟩ | ⟨i, j, h⟩
    · exact ⟨i, j, Or.inl h⟩
    · refine ⟨⟨i.val, by omega⟩, j, Or.inr ?_⟩
      simp only [hT2, i.isLt, dif_pos]
      exact h
  have hmem : ∀ p, p ∈ pyPerms m (List.finRange m) ↔ p.Perm (List.finRange m) := fun p => mem_pyPerms (by simp)
  have hnan : ∀ p ∈ pyPerms m (List.finRange m), a.isNan (a.permDist b P T2 p) = true := by
    intro p hp
    obtain ⟨σ, rfl⟩ := perm_ofFn ((hmem p).mp hp)
    exact permDist_nan L b P T2 σ h'
  have hfold : ∀ (l : List (List (Fin m) × a.F)) (x : List (Fin m) × a.F), a.isNan x.2 = true →
      l.foldl (fun best y => if a.lt y.2 best.2 then y else best) x = x := by
    intro l
    induction l with
    | nil => intro x _; rfl
    | cons y l ih =>
      intro x hx
      rw [List.foldl_cons, L.lt_right _ _ hx]
      exact ih x hx
  have hhead : ∃ rest, pyPerms m (List.finRange m) = List.finRange m :: rest := by
    have hfirst : ∀ (k : Nat) (l : List (Fin m)), l.length = k → ∃ rest, pyPerms k l = l :: rest := by
      intro k
      induction k with
      | zero => intro l hl; rw [List.length_eq_zero_iff.mp hl]; exact ⟨[], rfl⟩
      | succ k ih =>
        intro l hl
        cases l with
        | nil => simp at hl
        | cons c l =>
          obtain ⟨rest, hr⟩ := ih l (by simpa using hl)
          refine ⟨?_, ?_⟩
          · exact (rest.map (c :: ·)) ++ ((picks l).map fun p => (p.1, c :: p.2)).flatMap fun p => (pyPerms k p.2).map (p.1 :: ·)
          · simp only [pyPerms, picks, List.flatMap_cons, hr, List.map_cons, List.cons_append]
    exact hfirst m _ (by simp)
  obtain ⟨rest, hr⟩ := hhead
  refine ⟨a.permDist b P T2 (List.finRange m), hnan _ (by rw [hr]; simp), ?_⟩
  unfold FloatLib.minPerm
  rw [if_pos (Or.inl hl), if_neg (by omega)]
  show (match a.minBy ((pyPerms m (List.finRange m)).map fun p => (p, a.permDist b P T2 p)) with | none => _ | some r => _) = _
  rw [hr, List.map_cons]
  simp only [FloatLib.minBy]
  rw [hfold _ _ (hnan _ (by rw [hr]; simp))]

/-! ### C217 -/

theorem allMean_nan (L : a.NanLaws) (site : Nat) (d : Fin N → Fin N → a.F) (k l : Fin N) (h : a.isNan (d k l) = true) :
    a.isNan (a.allMean site d) = true := by
  unfold FloatLib.allMean
  apply L.div_left
  apply sum_nan L _ _ (finProdFinEquiv (k, l))
  have := finProdFinEquiv.symm_apply_apply (k, l)
  have h1 : (finProdFinEquiv (k, l)).divNat = k := congrArg Prod.fst this
  have h2 : (finProdFinEquiv (k, l)).modNat = l := congrArg Prod.snd this
  rw [h1, h2]; exact h

theorem dist_nan (L : a.NanLaws) (hN : 2 ≤ N) (x : Fin N → a.F) (k : Fin N) (h : a.isNan (x k) = true) :
    ∃ l, a.isNan (a.dist x k l) = true := by
  have : ∃ l : Fin N, l ≠ k := by
    by_cases h0 : k.val = 0
    · exact ⟨⟨1, by omega⟩, by intro h; have := congrArg Fin.val h; simp at this; omega⟩
    · exact ⟨⟨0, by omega⟩, by intro h; have := congrArg Fin.val h; simp at this; omega⟩
  obtain ⟨l, hl⟩ := this
  refine ⟨l, ?_⟩
  unfold FloatLib.dist
  rcases lt_or_gt_of_ne hl with hlt | hlt
  · rw [if_neg (not_lt.mpr hlt.le), if_pos hlt]
    exact L.abs _ (L.sub_right _ _ h)
  · rw [if_pos hlt]
    exact L.abs _ (L.sub_left _ _ h)

theorem pairsLT_pos (hN : 2 ≤ N) : 0 < (FloatLib.pairsLT N).length := by
  apply List.length_pos_of_mem (a := ((⟨0, by omega⟩ : Fin N), (⟨1, by omega⟩ : Fin N)))
  unfold FloatLib.pairsLT
  rw [List.mem_filter]
  refine ⟨List.mem_flatMap.mpr ⟨_, List.mem_finRange _, List.mem_map.mpr ⟨_, List.mem_finRange _, rfl⟩⟩, ?_⟩
  simp

/-- **C217**, `estimate_UDG(..., "dcov_fast")`: a column with a missing value (nan) has no edge; and the edges of the other columns do
not depend on it -/
theorem C217_dcov_fast (L : a.NanLaws) (hN : 2 ≤ N) (s : Fin N → Fin M → a.F) (crit : a.F) (i : Fin M) :
    ((∃ k, a.isNan (s k i) = true) → ∀ j, a.dcovGraph s crit i j = false ∧ a.dcovGraph s crit j i = false) ∧
    ∀ s' : Fin N → Fin M → a.F, (∀ k j, j ≠ i → s' k j = s k j) →
      ∀ j j', j ≠ i → j' ≠ i → a.dcovGraph s' crit j j' = a.dcovGraph s crit j j' := by
  constructor
  · rintro ⟨k, hk⟩ j
    obtain ⟨l, hl⟩ := dist_nan L hN (fun k => s k i) k hk
    have hrow : ∀ e, a.isNan (a.distsRow s i e) = true := by
      intro e
      unfold FloatLib.distsRow FloatLib.centre
      exact L.sub_right _ _ (L.sub_right _ _ (allMean_nan L _ _ k l hl))
    have hcov : ∀ p q : Fin M, (p = i ∨ q = i) → a.isNan (a.dcov s p q) = true := by
      intro p q hpq
      unfold FloatLib.dcov
      apply L.div_left
      apply dot_nan L (pairsLT_pos hN)
      intro e
      have : min p q = i ∨ max p q = i := by
        rcases le_total p q with hle | hle
        · rcases hpq with rfl | rfl
          · left; exact min_eq_left hle
          · right; exact max_eq_right hle
        · rcases hpq with rfl | rfl
          · right; exact max_eq_left hle
          · left; exact min_eq_right hle
      rcases this with h | h
      · left; rw [h]; exact hrow e
      · right; rw [h]; exact hrow e
    unfold FloatLib.dcovGraph clearDiag
    constructor
    · dsimp only; split
      · rfl
      · exact L.ge_left _ _ (L.div_left _ _ (L.mul_right _ _ (hcov i j (Or.inl rfl))))
    · dsimp only; split
      · rfl
      · exact L.ge_left _ _ (L.div_left _ _ (L.mul_right _ _ (hcov j i (Or.inr rfl))))
  · intro s' hs j j' hj hj'
    have hcol : ∀ p, p ≠ i → (fun k => s' k p) = fun k => s k p := fun p hp => funext fun k => hs k p hp
    have hrow : ∀ p, p ≠ i → a.distsRow s' p = a.distsRow s p := by
      intro p hp
      unfold FloatLib.distsRow
      rw [hcol p hp]
    have hbar : ∀ p, p ≠ i → a.dBar s' p = a.dBar s p := by
      intro p hp
      unfold FloatLib.dBar
      rw [hcol p hp]
    have hmin : min j j' ≠ i ∧ max j j' ≠ i := by
      rcases le_total j j' with h | h
      · rw [min_eq_left h, max_eq_right h]; exact ⟨hj, hj'⟩
      · rw [min_eq_right h, max_eq_left h]; exact ⟨hj', hj⟩
    unfold FloatLib.dcovGraph clearDiag FloatLib.dcov
    dsimp only
    rw [hrow _ hmin.1, hrow _ hmin.2, hbar j hj, hbar j' hj']

/-- **C217**, `GaussianMCM`: the same for its graph, if `log(1) < -log(N)/N` comes out false -/
theorem C217_gaussian (L : a.NanLaws) (hN : 1 ≤ N) (s : Fin N → Fin M → a.F) (i : Fin M) (hM : M ≠ 1)
    (hlog : a.lt (a.log (a.ofNat 1)) (a.div (a.neg (a.log (a.ofNat N))) (a.ofNat N)) = false) :
    ∃ U, a.covGraph s = .ok U ∧
      ((∃ k, a.isNan (s k i) = true) → ∀ j, U i j = false ∧ U j i = false) ∧
      ∀ s' : Fin N → Fin M → a.F, (∀ k j, j ≠ i → s' k j = s k j) →
        ∃ U', a.covGraph s' = .ok U' ∧ ∀ j j', j ≠ i → j' ≠ i → U' j j' = U j j' := by
  refine ⟨BMat.of fun i j => a.udgTriu s i j || a.udgTriu s j i, if_neg hM, ?_, ?_⟩
  · rintro ⟨k, hk⟩
    have hcen : ∀ k, a.isNan (a.centred s i k) = true := by
      intro k'
      unfold FloatLib.centred
      exact L.sub_right _ _ (L.div_left _ _ (sum_nan L _ _ k hk))
    have hcov : ∀ p q, (p = i ∨ q = i) → a.isNan (a.cov s p q) = true := by
      intro p q hpq
      unfold FloatLib.cov
      apply L.mul_left
      apply dot_nan L (by omega)
      intro e
      rcases hpq with rfl | rfl
      · exact Or.inl (hcen e)
      · exact Or.inr (hcen e)
    have htri : ∀ p q, (p = i ∨ q = i) → a.udgTriu s p q = false := by
      intro p q hpq
      unfold FloatLib.udgTriu
      split
      · exact hlog
      · exact L.lt_left _ _ (L.log _ (L.clipLow _ (L.sub_right _ _ (L.mul_left _ _ (hcov p q hpq)))))
    intro j
    simp only [BMat.get_of]
    rw [htri i j (Or.inl rfl), htri j i (Or.inr rfl)]
    exact ⟨rfl, rfl⟩
  · intro s' hs
    refine ⟨_, if_neg hM, ?_⟩
    intro j j' hj hj'
    have hcen : ∀ p, p ≠ i → a.centred s' p = a.centred s p := by
      intro p hp
      unfold FloatLib.centred
      funext k
      rw [hs k p hp]
      congr 2
      congr 1
      funext k'
      exact hs k' p hp
    have hcov : ∀ p q, p ≠ i → q ≠ i → a.cov s' p q = a.cov s p q := by
      intro p q hp hq
      unfold FloatLib.cov
      rw [hcen p hp, hcen q hq]
    have htri : ∀ p q, p ≠ i → q ≠ i → a.udgTriu s' p q = a.udgTriu s p q := by
      intro p q hp hq
      unfold FloatLib.udgTriu FloatLib.corr
      rw [hcov p q hp hq, hcov p p hp hp, hcov q q hq hq]
    simp only [BMat.get_of]
    rw [htri j j' hj hj', htri j' j hj' hj]

/-- rounded real numbers with nan are such an arithmetic -/
theorem roundLib_nanLaws (fl : ℝ → ℝ) : (roundLib fl).NanLaws := by
  have hn : ∀ x, (roundLib fl).isNan x = true → x = .nan := by
    intro x h; cases x <;> first | rfl | simp [roundLib] at h
  constructor
  all_goals first
    | (intro x y z h; obtain rfl := hn _ h; cases x <;> cases y <;> rfl)
    | (intro x y z h; obtain rfl := hn _ h; cases y <;> cases z <;> rfl)
    | (intro x y h; obtain rfl := hn _ h; cases y <;> rfl)
    | (intro x y h; obtain rfl := hn _ h; cases x <;> rfl)
    | (intro x h; obtain rfl := hn _ h; rfl)

/-- two observations of three measurements, the last one with a missing value -/
noncomputable def exNan : Fin 2 → Fin 3 → Fl ℝ := fun k i => if i = 2 ∧ k = 1 then .nan else .fin (k.val + i.val)

-- in double precision, the measurement has no edge
example (crit : Fl ℝ) (j : Fin 3) : (roundLib fl64).dcovGraph exNan crit 2 j = false :=
  (((C217_dcov_fast (roundLib_nanLaws fl64) (by omega) exNan crit 2).1 ⟨1, rfl⟩) j).1

-- the assumption of `C217_gaussian` about the logarithm
example : (roundLib fl64).lt ((roundLib fl64).log ((roundLib fl64).ofNat 1))
    ((roundLib fl64).div ((roundLib fl64).neg ((roundLib fl64).log ((roundLib fl64).ofNat 2))) ((roundLib fl64).ofNat 2)) = false := by
  have one : fl64 ((1 : ℕ) : ℝ) = 1 := by
    have := fl64_cast 1
    rw [show fl64 (1 : ℚ) = 1 by decide +kernel] at this
    simpa using this
  have two : fl64 ((2 : ℕ) : ℝ) = 2 := by
    have := fl64_cast 2
    rw [show fl64 (2 : ℚ) = 2 by decide +kernel] at this
    simpa using this
  have h0 : fl64 (Real.log (fl64 ((1 : ℕ) : ℝ))) = 0 := by rw [one, Real.log_one]; simp [fl64]
  have hl : 0 < fl64 (Real.log (fl64 ((2 : ℕ) : ℝ))) := by rw [two]; exact fl64_sign.1 (Real.log_pos (by norm_num))
  have hd : (roundLib fl64).div (.fin (-fl64 (Real.log (fl64 ((2 : ℕ) : ℝ))))) (.fin (fl64 ((2 : ℕ) : ℝ))) =
      .fin (fl64 (-fl64 (Real.log (fl64 ((2 : ℕ) : ℝ))) / fl64 ((2 : ℕ) : ℝ))) := if_neg (by rw [two]; norm_num)
  show (roundLib fl64).lt (.fin (fl64 (Real.log (fl64 ((1 : ℕ) : ℝ)))))
    ((roundLib fl64).div (.fin (-fl64 (Real.log (fl64 ((2 : ℕ) : ℝ))))) (.fin (fl64 ((2 : ℕ) : ℝ)))) = false
  rw [h0, hd]
  have : fl64 (-fl64 (Real.log (fl64 ((2 : ℕ) : ℝ))) / fl64 ((2 : ℕ) : ℝ)) < 0 := by
    apply fl64_sign.2
    have h2 : 0 < fl64 ((2 : ℕ) : ℝ) := by rw [two]; norm_num
    exact div_neg_of_neg_of_pos (by linarith) h2
  exact decide_eq_false (not_lt.mpr this.le)

-- nan among the weights
example : ∃ x, (roundLib fl64).isNan x = true ∧
    (roundLib fl64).minPerm true exNan (fun _ : Fin 1 => exNan 1) = .ok (List.finRange 2, x) :=
  C216_nan_weights (roundLib_nanLaws fl64) true (by omega) (by omega) _ _ (Or.inl ⟨1, 2, rfl⟩)

end Medil

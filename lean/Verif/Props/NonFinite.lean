import Verif.Spec.InfLaws
import Verif.Props.Nan
import Verif.Props.XiPower
import Verif.Props.Ieee
import Mathlib.Probability.CDF
import Mathlib.Probability.Distributions.Gaussian.Real
/-
  C228: infinite values; C229: xicor uses only the order of the values, also in floating-point arithmetic; C230: missing values and xicor.
-/
namespace Medil
variable {a : FloatLib} {N M n : Nat}

theorem evalSum_pos (L : a.InfLaws) {k : Nat} (f : Fin k → a.F) (i : Fin k) (hi : a.PosBad (f i)) (t : SumTree k) (ht : i ∈ t.leaves) :
    a.PosBad (a.evalSum f t) := by
  induction t with
  | leaf j =>
    simp only [SumTree.leaves, List.mem_singleton] at ht
    subst ht; exact hi
  | node b l r ihl ihr =>
    simp only [SumTree.leaves, List.mem_append] at ht
    exact L.add_pos _ _ (ht.imp ihl ihr)

theorem evalSum_neg (L : a.InfLaws) {k : Nat} (f : Fin k → a.F) (i : Fin k) (hi : a.NegBad (f i)) (t : SumTree k) (ht : i ∈ t.leaves) :
    a.NegBad (a.evalSum f t) := by
  induction t with
  | leaf j =>
    simp only [SumTree.leaves, List.mem_singleton] at ht
    subst ht; exact hi
  | node b l r ihl ihr =>
    simp only [SumTree.leaves, List.mem_append] at ht
    exact L.add_neg _ _ (ht.imp ihl ihr)

theorem sum_pos_bad (L : a.InfLaws) {k : Nat} (site : List Nat) (f : Fin k → a.F) (i : Fin k) (hi : a.PosBad (f i)) :
    a.PosBad (a.sum site f) := by
  cases k with
  | zero => exact i.elim0
  | succ k => exact evalSum_pos L f i hi _ ((a.order_perm site k).mem_iff.mpr (List.mem_finRange i))

theorem sum_neg_bad (L : a.InfLaws) {k : Nat} (site : List Nat) (f : Fin k → a.F) (i : Fin k) (hi : a.NegBad (f i)) :
    a.NegBad (a.sum site f) := by
  cases k with
  | zero => exact i.elim0
  | succ k => exact evalSum_neg L f i hi _ ((a.order_perm site k).mem_iff.mpr (List.mem_finRange i))

theorem evalDot_nan_at (L : a.InfLaws) {k : Nat} (f g : Fin k → a.F) (i : Fin k) (h : a.isNan (f i) = true ∨ a.isNan (g i) = true)
    (t : SumTree k) (ht : i ∈ t.leaves) : a.isNan (a.evalDot f g t) = true := by
  have hm : a.isNan (a.mul (f i) (g i)) = true := h.elim (L.mul_left _ _) (L.mul_right _ _)
  induction t with
  | leaf j =>
    simp only [SumTree.leaves, List.mem_singleton] at ht
    subst ht; exact hm
  | node b l r ihl ihr =>
    simp only [SumTree.leaves, List.mem_append] at ht
    cases b with
    | false =>
      rcases ht with ht | ht
      · exact L.add_left _ _ (ihl ht)
      · exact L.add_right _ _ (ihr ht)
    | true =>
      cases r with
      | leaf j =>
        rcases ht with ht | ht
        · exact L.fma_right _ _ _ (ihl ht)
        · simp only [SumTree.leaves, List.mem_singleton] at ht
          subst ht
          exact h.elim (L.fma_left _ _ _) (L.fma_mid _ _ _)
      | node b' l' r' =>
        rcases ht with ht | ht
        · exact L.add_left _ _ (ihl ht)
        · exact L.add_right _ _ (ihr ht)

theorem dot_nan_at (L : a.InfLaws) {k : Nat} (site : List Nat) (f g : Fin k → a.F) (i : Fin k)
    (h : a.isNan (f i) = true ∨ a.isNan (g i) = true) : a.isNan (a.dot site f g) = true := by
  cases k with
  | zero => exact i.elim0
  | succ k => exact evalDot_nan_at L f g i h _ ((a.order_perm site k).mem_iff.mpr (List.mem_finRange i))

/-- **C228**, `estimate_UDG(..., "dcov_fast")`: a column with a value that is infinite (or nan) has no edge -/
theorem C228_dcov_fast (L : a.InfLaws) (hN : 2 ≤ N) (s : Fin N → Fin M → a.F) (crit : a.F) (i : Fin M) (h : ∃ k, a.val (s k i) = none) (j : Fin M) :
    a.dcovGraph s crit i j = false ∧ a.dcovGraph s crit j i = false := by
  obtain ⟨k, hk⟩ := h
  have hd : ∀ l, l ≠ k → a.PosBad (a.dist (fun k => s k i) k l) ∧ a.PosBad (a.dist (fun k => s k i) l k) := by
    intro l hl
    unfold FloatLib.dist
    rcases lt_or_gt_of_ne hl with hlt | hlt
    · rw [if_neg (not_lt.mpr hlt.le), if_pos hlt, if_pos hlt]
      exact ⟨L.abs_none _ (L.sub_none _ _ (Or.inr hk)), L.abs_none _ (L.sub_none _ _ (Or.inr hk))⟩
    · rw [if_pos hlt, if_neg (not_lt.mpr hlt.le), if_pos hlt]
      exact ⟨L.abs_none _ (L.sub_none _ _ (Or.inl hk)), L.abs_none _ (L.sub_none _ _ (Or.inl hk))⟩
  have hother : ∃ l : Fin N, l ≠ k := by
    by_cases h0 : k.val = 0
    · exact ⟨⟨1, by omega⟩, by intro h; have := congrArg Fin.val h; simp at this; omega⟩
    · exact ⟨⟨0, by omega⟩, by intro h; have := congrArg Fin.val h; simp at this; omega⟩
  obtain ⟨l0, hl0⟩ := hother
  have hcol : ∀ l, a.PosBad (a.colMean i (a.dist fun k => s k i) l) := by
    intro l
    unfold FloatLib.colMean
    refine L.div_pos _ _ (by omega) ?_
    by_cases hl : l = k
    · exact sum_pos_bad L _ _ l0 (by rw [hl]; exact (hd l0 hl0).2)
    · exact sum_pos_bad L _ _ k (hd l hl).1
  have hrow : ∀ l, a.PosBad (a.rowMean i (a.dist fun k => s k i) l) := by
    intro l
    unfold FloatLib.rowMean
    refine L.div_pos _ _ (by omega) ?_
    by_cases hl : l = k
    · exact sum_pos_bad L _ _ l0 (by rw [hl]; exact (hd l0 hl0).1)
    · exact sum_pos_bad L _ _ k (hd l hl).2
  have hall : a.PosBad (a.allMean i (a.dist fun k => s k i)) := by
    unfold FloatLib.allMean
    refine L.div_pos _ _ (Nat.mul_pos (by omega) (by omega)) ?_
    apply sum_pos_bad L _ _ (finProdFinEquiv (k, l0))
    have := finProdFinEquiv.symm_apply_apply (k, l0)
    have h1 : (finProdFinEquiv (k, l0)).divNat = k := congrArg Prod.fst this
    have h2 : (finProdFinEquiv (k, l0)).modNat = l0 := congrArg Prod.snd this
    rw [h1, h2]
    exact (hd l0 hl0).1
  have hdists : ∀ e, a.isNan (a.distsRow s i e) = true := by
    intro e
    unfold FloatLib.distsRow FloatLib.centre
    exact L.sub_right _ _ (L.sub_pos _ _ (L.add_pos _ _ (Or.inl (hcol _))) hall)
  have hcov : ∀ p q : Fin M, (p = i ∨ q = i) → a.isNan (a.dcov s p q) = true := by
    intro p q hpq
    unfold FloatLib.dcov
    apply L.div_left
    apply dot_nan L.toNanLaws (pairsLT_pos hN)
    intro e
    have : min p q = i ∨ max p q = i := by
      rcases le_total p q with hle | hle
      · rcases hpq with rfl | rfl
        · left; exact min_eq_left hle
        · right; exact max_eq_right hle
      · rcases hpq with rfl | rfl
        · right; exact max_eq_left hle
        · left; exact min_eq_right hle
    rcases this with h | h
    · left; rw [h]; exact hdists e
    · right; rw [h]; exact hdists e
  unfold FloatLib.dcovGraph clearDiag
  constructor
  · dsimp only; split
    · rfl
    · exact L.ge_left _ _ (L.div_left _ _ (L.mul_right _ _ (hcov i j (Or.inl rfl))))
  · dsimp only; split
    · rfl
    · exact L.ge_left _ _ (L.div_left _ _ (L.mul_right _ _ (hcov j i (Or.inr rfl))))

/-- **C228**, `GaussianMCM`: the same for its graph, if `log(1) < -log(N)/N` comes out false -/
theorem C228_gaussian (L : a.InfLaws) (hN : 1 ≤ N) (s : Fin N → Fin M → a.F) (i : Fin M) (hM : M ≠ 1)
    (hlog : a.lt (a.log (a.ofNat 1)) (a.div (a.neg (a.log (a.ofNat N))) (a.ofNat N)) = false) (h : ∃ k, a.val (s k i) = none) :
    ∃ U, a.covGraph s = .ok U ∧ ∀ j, U i j = false ∧ U j i = false := by
  obtain ⟨k, hk⟩ := h
  refine ⟨BMat.of fun i j => a.udgTriu s i j || a.udgTriu s j i, if_neg hM, ?_⟩
  have hcen : a.isNan (a.centred s i k) = true := by
    unfold FloatLib.centred
    rcases L.cases _ hk with hp | hp
    · exact L.sub_pos _ _ hp (L.div_pos _ _ (by omega) (sum_pos_bad L _ (fun k => s k i) k hp))
    · exact L.sub_neg _ _ hp (L.div_neg _ _ (by omega) (sum_neg_bad L _ (fun k => s k i) k hp))
  have hcov : ∀ p q, (p = i ∨ q = i) → a.isNan (a.cov s p q) = true := by
    intro p q hpq
    unfold FloatLib.cov
    apply L.mul_left
    apply dot_nan_at L _ _ _ k
    rcases hpq with rfl | rfl
    · exact Or.inl hcen
    · exact Or.inr hcen
  have htri : ∀ p q, (p = i ∨ q = i) → a.udgTriu s p q = false := by
    intro p q hpq
    unfold FloatLib.udgTriu
    split
    · exact hlog
    · exact L.lt_left _ _ (L.log _ (L.clipLow _ (L.sub_right _ _ (L.mul_left _ _ (hcov p q hpq)))))
  intro j
  simp only [BMat.get_of]
  rw [htri i j (Or.inl rfl), htri j i (Or.inr rfl)]
  exact ⟨rfl, rfl⟩

theorem pyPerms_head (m : Nat) : ∃ rest, pyPerms m (List.finRange m) = List.finRange m :: rest := by
  have hfirst : ∀ (k : Nat) (l : List (Fin m)), l.length = k → ∃ rest, pyPerms k l = l :: rest := by
    intro k
    induction k with
    | zero => intro l hl; rw [List.length_eq_zero_iff.mp hl]; exact ⟨[], rfl⟩
    | succ k ih =>
      intro l hl
      cases l with
      | nil => simp at hl
      | cons c l =>
        obtain ⟨rest, hr⟩ := ih l (by simpa using hl)
        refine ⟨?_, ?_⟩
        · exact (rest.map (c :: ·)) ++ ((picks l).map fun p => (p.1, c :: p.2)).flatMap fun p => (pyPerms k p.2).map (p.1 :: ·)
        · simp only [pyPerms, picks, List.flatMap_cons, hr, List.map_cons, List.cons_append]
  exact hfirst m _ (by simp)

/-- **C228**, `min_perm_squared_l2_dist` and `min_perm_squared_l2_dist_abs`: if an entry of either matrix is infinite (or nan), the returned
distance is plus infinity or nan, and the rows are matched in the given order -/
theorem C228_weights (L : a.InfLaws) {m l : Nat} (b : Bool) (hm : 0 < m) (hl : l ≤ m) (P : Fin m → Fin n → a.F) (T : Fin l → Fin n → a.F)
    (h : (∃ i j, a.val (P i j) = none) ∨ ∃ i j, a.val (T i j) = none) :
    ∃ x, a.PosBad x ∧ a.minPerm b P T = .ok (List.finRange m, x) := by
  set T2 : Fin m → Fin n → a.F := fun i j => if h : i.val < l then T ⟨i, h⟩ j else a.ofNat 0 with hT2
  have h' : ∃ i j, a.val (P i j) = none ∨ a.val (T2 i j) = none := by
    rcases h with ⟨i, j, h⟩ | ⟨i, j, h⟩
    · exact ⟨i, j, Or.inl h⟩
    · refine ⟨⟨i.val, by omega⟩, j, Or.inr ?_⟩
      simp only [hT2, i.isLt, dif_pos]
      exact h
  have habs : ∀ x, a.val x = none → a.val (a.absIf b x) = none := by
    intro x hx
    unfold FloatLib.absIf
    split
    · exact (L.abs_none _ hx).elim (L.nan_val _) (·.1)
    · exact hx
  have hdm : ∀ (i : Fin m) (j : Fin n), (finProdFinEquiv (i, j)).divNat = i ∧ (finProdFinEquiv (i, j)).modNat = j := by
    intro i j
    have := finProdFinEquiv.symm_apply_apply (i, j)
    exact ⟨congrArg Prod.fst this, congrArg Prod.snd this⟩
  have hbad : ∀ σ : Equiv.Perm (Fin m), a.PosBad (a.permDist b P T2 (List.ofFn σ)) := by
    intro σ
    obtain ⟨i, j, h⟩ := h'
    unfold FloatLib.permDist
    rcases h with h | h
    · apply sum_pos_bad L _ _ (finProdFinEquiv (σ.symm i, j))
      simp only [hdm]
      have hget : (List.ofFn σ)[(σ.symm i).val]? = some i := by
        rw [List.getElem?_ofFn, dif_pos (σ.symm i).isLt]; simp
      rw [hget]
      exact L.sq_none _ (L.sub_none _ _ (Or.inl (habs _ h)))
    · apply sum_pos_bad L _ _ (finProdFinEquiv (i, j))
      simp only [hdm]
      exact L.sq_none _ (L.sub_none _ _ (Or.inr (habs _ h)))
  have hmem : ∀ p, p ∈ pyPerms m (List.finRange m) ↔ p.Perm (List.finRange m) := fun p => mem_pyPerms (by simp)
  have hall : ∀ p ∈ pyPerms m (List.finRange m), a.PosBad (a.permDist b P T2 p) := by
    intro p hp
    obtain ⟨σ, rfl⟩ := perm_ofFn ((hmem p).mp hp)
    exact hbad σ
  have hfold : ∀ (l : List (List (Fin m) × a.F)) (x : List (Fin m) × a.F), a.PosBad x.2 → (∀ y ∈ l, a.PosBad y.2) →
      l.foldl (fun best y => if a.lt y.2 best.2 then y else best) x = x := by
    intro l
    induction l with
    | nil => intro x _ _; rfl
    | cons y l ih =>
      intro x hx hl
      rw [List.foldl_cons, L.lt_pos _ _ hx (hl y (by simp))]
      exact ih x hx fun z hz => hl z (by simp [hz])
  obtain ⟨rest, hr⟩ := pyPerms_head m
  refine ⟨a.permDist b P T2 (List.finRange m), hall _ (by rw [hr]; simp), ?_⟩
  unfold FloatLib.minPerm
  rw [if_pos (Or.inl hl), if_neg (by omega)]
  show (match a.minBy ((pyPerms m (List.finRange m)).map fun p => (p, a.permDist b P T2 p)) with | none => _ | some r => _) = _
  rw [hr] at hall ⊢
  rw [List.map_cons]
  simp only [FloatLib.minBy]
  rw [hfold _ _ (hall _ (by simp)) (by
    intro y hy
    obtain ⟨p, hp, rfl⟩ := List.mem_map.mp hy
    exact hall p (by simp [hp]))]

/-! ### C229 -/

section Xi
variable {b : FloatXiLib}

theorem rank_congr (x x' : Fin n → b.F) (hx : ∀ k, b.isNan (x k) = false) (hx' : ∀ k, b.isNan (x' k) = false)
    (h : ∀ k l, b.lt (x k) (x l) = b.lt (x' k) (x' l)) : b.rank x = b.rank x' := by
  funext i
  unfold FloatXiLib.rank
  rw [if_neg (by rintro ⟨j, hj⟩; rw [hx j] at hj; cases hj), if_neg (by rintro ⟨j, hj⟩; rw [hx' j] at hj; cases hj)]
  simp only [h]

/-- **C229** Two samples without nan whose columns are ordered in the same way (in the comparisons of the arithmetic, infinities
included) get the same p-values, bit by bit, and the same graph. -/
theorem C229_xicor_order (hneg : b.NegReverses) (hnn : ∀ x, b.isNan (b.neg x) = b.isNan x) (s s' : Fin N → Fin M → b.F) (level : b.F)
    (hs : ∀ k i, b.isNan (s k i) = false) (hs' : ∀ k i, b.isNan (s' k i) = false)
    (h : ∀ i k l, b.lt (s k i) (s l i) = b.lt (s' k i) (s' l i)) :
    b.xiPvals s = b.xiPvals s' ∧ b.xiGraph s level = b.xiGraph s' level := by
  have hr : ∀ i, (b.rank fun k => s k i) = b.rank fun k => s' k i := fun i =>
    rank_congr _ _ (fun k => hs k i) (fun k => hs' k i) (h i)
  have hg : ∀ i, (b.rank fun k => b.neg (s k i)) = b.rank fun k => b.neg (s' k i) := fun i =>
    rank_congr _ _ (fun k => by rw [hnn]; exact hs k i) (fun k => by rw [hnn]; exact hs' k i) fun k l => by
      rw [hneg _ _ (hs k i) (hs l i), hneg _ _ (hs' k i) (hs' l i)]
      exact h i l k
  have hp : ∀ i j, b.pvalue (fun k => s k i) (fun k => s k j) = b.pvalue (fun k => s' k i) fun k => s' k j := by
    intro i j
    have hfr : (b.fr fun k => s k j) = b.fr fun k => s' k j := by funext k; unfold FloatXiLib.fr; rw [hr j]
    have hgr : (b.gr fun k => s k j) = b.gr fun k => s' k j := by funext k; unfold FloatXiLib.gr; rw [hg j]
    have hcu : (b.cu fun k => s k j) = b.cu fun k => s' k j := by unfold FloatXiLib.cu; rw [hgr]
    have hq : (b.qfr fun k => s k j) = b.qfr fun k => s' k j := by funext k; unfold FloatXiLib.qfr; rw [hfr]
    have hA : b.A1 (fun k => s k i) (fun k => s k j) = b.A1 (fun k => s' k i) fun k => s' k j := by unfold FloatXiLib.A1; rw [hfr, hr i]
    have hm : (b.m fun k => s k j) = b.m fun k => s' k j := by funext k; unfold FloatXiLib.m; rw [hq]
    unfold FloatXiLib.pvalue FloatXiLib.xi FloatXiLib.v FloatXiLib.ai FloatXiLib.ci FloatXiLib.b
    rw [hA, hcu, hq, hm]
  have hP : b.xiPvals s = b.xiPvals s' := by
    funext i j
    unfold FloatXiLib.xiPvals
    rw [hp, hp]
  refine ⟨hP, ?_⟩
  unfold FloatXiLib.xiGraph
  rw [hP]

/-! ### C230 -/

/-- **C230** (as stated; false): a measurement with a missing value has no edge in the graph of `xicor` -/
def C230_statement : Prop :=
  ∀ (b : FloatXiLib), b.NanXiLaws → ∀ (N M : Nat) (s : Fin N → Fin M → b.F) (level : b.F) (i : Fin M),
    (∃ k, b.isNan (s k i) = true) → ∀ j, b.xiGraph s level i j = false ∧ b.xiGraph s level j i = false

theorem rank_nan (x : Fin n → b.F) (h : ∃ k, b.isNan (x k) = true) : b.rank x = fun _ => b.nan := by
  funext i; unfold FloatXiLib.rank; rw [if_pos h]

/-- the p-value is nan if the second column has a missing value -/
theorem pvalue_nan (L : b.NanXiLaws) (x y : Fin n → b.F) (h : ∃ k, b.isNan (y k) = true) : b.isNan (b.pvalue x y) = true := by
  have h' : ∃ k, b.isNan (b.neg (y k)) = true := by obtain ⟨k, hk⟩ := h; exact ⟨k, L.neg_nan _ hk⟩
  have hcu : b.isNan (b.cu y) = true := by
    obtain ⟨k, _⟩ := h
    unfold FloatXiLib.cu FloatXiLib.mean
    apply L.div_left
    apply sum_nan L.toNanLaws _ _ k
    apply L.mul_left
    unfold FloatXiLib.gr
    apply L.div_left
    rw [rank_nan _ h']
    exact L.nan
  unfold FloatXiLib.pvalue FloatXiLib.xi
  exact L.sub_right _ _ (L.cdf _ (L.div_left _ _ (L.mul_right _ _ (L.sub_right _ _ (L.div_right _ _ hcu)))))

/-- **C230** What is true: a measurement with a missing value has no edge to earlier measurements.  The p-value for a later measurement does
not depend on the values of the measurement with the missing value (only on how `argsort` orders an array of nan).  Other entries do not
depend on the measurement.

Missing from the full claim: edges to later measurements (`C230_false`). -/
theorem C230_missing_partial (L : b.NanXiLaws) (s : Fin N → Fin M → b.F) (level : b.F) (i : Fin M) :
    ((∃ k, b.isNan (s k i) = true) → ∀ j, j < i → b.xiGraph s level i j = false ∧ b.xiGraph s level j i = false) ∧
    (∀ s' : Fin N → Fin M → b.F, (∃ k, b.isNan (s k i) = true) → (∃ k, b.isNan (s' k i) = true) → (∀ k j, j ≠ i → s' k j = s k j) →
      ∀ j, i < j → b.xiPvals s i j = b.xiPvals s' i j ∧ b.xiGraph s level i j = b.xiGraph s' level i j) ∧
    ∀ s' : Fin N → Fin M → b.F, (∀ k j, j ≠ i → s' k j = s k j) → ∀ j j', j ≠ i → j' ≠ i → b.xiGraph s' level j j' = b.xiGraph s level j j' := by
  refine ⟨fun h j hj => ?_, fun s' h h' hs j hj => ?_, fun s' hs j j' hj hj' => ?_⟩
  · have := pvalue_nan L (fun k => s k j) (fun k => s k i) h
    unfold FloatXiLib.xiGraph clearDiag FloatXiLib.xiPvals
    constructor
    · dsimp only
      rw [if_neg hj.ne', if_neg (not_lt.mpr hj.le), if_pos hj]
      exact L.lt_left _ _ this
    · dsimp only
      rw [if_neg hj.ne, if_pos hj]
      exact L.lt_left _ _ this
  · have hp : b.xiPvals s i j = b.xiPvals s' i j := by
      unfold FloatXiLib.xiPvals
      rw [if_pos hj, if_pos hj]
      have e : (fun k => s' k j) = fun k => s k j := funext fun k => hs k j hj.ne'
      rw [e]
      unfold FloatXiLib.pvalue FloatXiLib.xi FloatXiLib.A1
      rw [rank_nan _ h, rank_nan _ h']
    refine ⟨hp, ?_⟩
    unfold FloatXiLib.xiGraph clearDiag
    dsimp only
    rw [hp]
  · unfold FloatXiLib.xiGraph clearDiag FloatXiLib.xiPvals
    have e : (fun k => s' k j) = fun k => s k j := funext fun k => hs k j hj
    have e' : (fun k => s' k j') = fun k => s k j' := funext fun k => hs k j' hj'
    dsimp only
    rw [e, e']

end Xi

open MeasureTheory ProbabilityTheory Filter Topology

theorem normalCdf_continuous : Continuous (cdf (gaussianReal 0 1)) := by
  rw [continuous_iff_continuousAt]
  intro x
  have hna : NullSingletonClass (gaussianReal 0 1) := nullSingletonClass_gaussianReal one_ne_zero
  have h1 : (cdf (gaussianReal 0 1)).measure {x} = 0 := by rw [measure_cdf]; exact measure_singleton x
  rw [StieltjesFunction.measure_singleton] at h1
  have h2 := ENNReal.ofReal_eq_zero.mp h1
  have hmono := (cdf (gaussianReal 0 1)).mono
  rw [hmono.continuousAt_iff_leftLim_eq_rightLim, StieltjesFunction.rightLim_eq]
  exact le_antisymm (hmono.leftLim_le le_rfl) (by linarith)

theorem perm_unique {n : Nat} (f : Fin n → ℝ) (hf : Function.Injective f) (σ τ : Equiv.Perm (Fin n)) (h1 : Monotone fun k => f (σ k))
    (h2 : Monotone fun k => f (τ k)) : σ = τ := by
  have := Tuple.unique_monotone (f := f) (σ := σ) (τ := τ) h1 h2
  ext k
  exact congrArg Fin.val (hf (congrFun this k))

/-- `roundXiLib` treats nan as IEEE 754 does -/
theorem roundXiLib_nanLaws (fl : ℝ → ℝ) (srt : ArgSort ℝ) (Φ : ℝ → ℝ) : (roundXiLib fl srt Φ).NanXiLaws := by
  have hn : ∀ x, (roundXiLib fl srt Φ).isNan x = true → x = .nan := by
    intro x h; cases x <;> first | rfl | simp [roundXiLib, roundLib] at h
  refine ⟨roundLib_nanLaws fl, rfl, fun x h => ?_, fun x h => ?_⟩
  · obtain rfl := hn _ h; rfl
  · obtain rfl := hn _ h; rfl

/-- **C230** In exact arithmetic with nan, however `argsort` orders an array of nan: for every number of rows from some number on there is a
measurement without missing values that is joined to an earlier one of which all values are missing. -/
theorem C230_edge (srt : ArgSort ℝ) (Φ : ℝ → ℝ) (hc : Continuous Φ) (h1 : Tendsto Φ atTop (𝓝 1)) (level : ℝ) (hl : 0 < level) :
    ∃ n0, ∀ n, n0 ≤ n → ∃ y : Fin n → ℝ,
      (roundXiLib id srt Φ).xiGraph (fun k (i : Fin 2) => if i = 0 then .nan else .fin (y k)) (.fin level) 0 1 = true := by
  obtain ⟨n0, hn0⟩ := C172_xicor_edge Φ h1 level hl 1
  refine ⟨max n0 2, fun n hn => ?_⟩
  have hn2 : 2 ≤ n := (le_max_right _ _).trans hn
  have acc : ∀ ε : ℝ, 0 ≤ ε → AccurateXi (roundXiLib id srt Φ) srt Φ ε := fun ε hε =>
    roundXiLib_accurate srt Φ rfl (fun x => by simp; positivity) hε
  set π := srt.sort fun _ : Fin n => (0 : ℝ) with hπ
  let y : Fin n → ℝ := fun k => ((π.symm k).val : ℝ)
  have hy : Function.Injective y := by
    intro k l h
    have h' : ((π.symm k).val : ℝ) = ((π.symm l).val : ℝ) := h
    exact π.symm.injective (Fin.ext (by exact_mod_cast h'))
  refine ⟨y, ?_⟩
  let X : Fin n → Fin 2 → ℝ := fun k _ => y k
  let lib : TestLib ℝ n := ⟨fun _ => 0, fun _ _ => .nan, xicorTest srt Φ⟩
  obtain ⟨u, p, hu, hu1, _⟩ := hn0 n ((le_max_left _ _).trans hn) srt lib rfl 2 X 0 1 (by decide)
    ⟨id, ⟨fun _ => 0, fun _ _ _ => le_rfl, fun _ => Or.inl fun _ _ _ _ h => h⟩, fun _ => rfl⟩
  have hlt : ∀ q, xicorTest srt Φ y y = .fin q → q < level := by
    intro q hq
    cases hu
    simp only [clearDiag, X] at hu1
    rw [if_neg (by decide)] at hu1
    have : (lib.xicorTest y y) = .fin q := hq
    have hp : pairPvals lib.xicorTest (fun k (_ : Fin 2) => y k) 0 1 = .fin q := by
      unfold pairPvals; rw [if_pos (by decide)]; exact this
    rw [hp] at hu1
    simpa [Fl.lt] using hu1
  obtain ⟨U, P, hU, ε, hε, hround⟩ := C200_xicor_rounding_partial srt Φ hc lib rfl X level hn2
    (fun i j _ _ q hq => (hlt q hq).ne) 1 one_pos
  rw [hu] at hU
  cases hU
  have hvar : ¬ Constant fun k => X k 1 := by
    intro h
    have := hy (h ⟨0, by omega⟩ ⟨1, by omega⟩)
    have := congrArg Fin.val this
    simp at this
  have hfin := (hround (roundXiLib id srt Φ) (fun k i => .fin (X k i)) (.fin level) level (acc ε hε.le) (fun _ _ => rfl) rfl
    (by simp; exact hε.le) 0 1 (by decide) hvar).1
  rw [hu1] at hfin
  rw [← hfin]
  -- both columns are put in the same order
  let A : FloatXiLib.SeqXi srt Φ := ⟨fun _ => roundXiLib id srt Φ, fun k => acc _ (by positivity)⟩
  obtain ⟨_, hrank⟩ := (FloatXiLib.rank_exact (A := A) (x := fun _ k => .fin (y k)) (X := y) fun _ _ => rfl).exists
  have e1 : (roundXiLib id srt Φ).argsort ((roundXiLib id srt Φ).rank fun k => .fin (y k)) = π := by
    rw [(acc 1 zero_le_one).argsort _ (rankAvg y) hrank]
    have hinj : Function.Injective (rankAvg y) := by
      intro k l h
      rcases lt_trichotomy (y k) (y l) with h2 | h2 | h2
      · exact absurd h (rankAvg_lt h2).ne
      · exact hy h2
      · exact absurd h (rankAvg_lt h2).ne'
    refine perm_unique _ hinj _ _ (srt.sorted _) fun k l hkl => ?_
    rcases hkl.eq_or_lt with rfl | h2
    · exact le_rfl
    · refine (rankAvg_lt ?_).le
      simp only [y, Equiv.symm_apply_apply]
      exact_mod_cast h2
  have e2 : (roundXiLib id srt Φ).argsort ((roundXiLib id srt Φ).rank fun _ : Fin n => Fl.nan) = π := by
    have := rank_nan (b := roundXiLib id srt Φ) (fun _ : Fin n => (Fl.nan : Fl ℝ)) ⟨⟨0, by omega⟩, rfl⟩
    rw [this]
    rfl
  unfold FloatXiLib.xiGraph clearDiag FloatXiLib.xiPvals
  dsimp only
  rw [if_neg (by decide), if_pos (by decide), if_neg (by decide), if_pos (by decide)]
  congr 1
  show (roundXiLib id srt Φ).pvalue (fun _ => Fl.nan) (fun k => Fl.fin (y k))
    = (roundXiLib id srt Φ).pvalue (fun k => Fl.fin (y k)) fun k => Fl.fin (y k)
  unfold FloatXiLib.pvalue FloatXiLib.xi FloatXiLib.A1
  rw [e1, e2]

theorem C230_false : ¬ C230_statement := by
  intro h
  let srt : ArgSort ℝ := ⟨fun f => Tuple.sort f, fun f => Tuple.monotone_sort f⟩
  obtain ⟨n0, hn0⟩ := C230_edge srt (cdf (gaussianReal 0 1)) normalCdf_continuous (tendsto_cdf_atTop _) (5 / 100) (by norm_num)
  obtain ⟨y, hy⟩ := hn0 (n0 + 1) (by omega)
  have := (h _ (roundXiLib_nanLaws id srt (cdf (gaussianReal 0 1))) (n0 + 1) 2
    (fun k i => if i = 0 then .nan else .fin (y k)) (.fin (5 / 100)) 0 ⟨0, by rfl⟩ 1).1
  rw [hy] at this
  cases this

/-! ### non-vacuity: double precision with overflow (`Props/Ieee.lean`) -/

/-- two columns, three rows, an infinite value in the first column -/
noncomputable def infSample : Fin 3 → Fin 2 → Ieee.lib.F := fun k i =>
  if i = 0 ∧ k = 1 then (Fl.pinf : Fl ℝ) else Fl.fin (k.val : ℝ)

example : Ieee.lib.InfLaws ∧ (∃ k, Ieee.lib.val (infSample k 0) = none) ∧ (∀ k, ∃ x, Ieee.lib.val (infSample k 1) = some x) :=
  ⟨Ieee.lib_infLaws, ⟨1, rfl⟩, fun k => ⟨(k.val : ℝ), rfl⟩⟩

example (crit : Ieee.lib.F) : Ieee.lib.dcovGraph infSample crit 0 1 = false :=
  (C228_dcov_fast Ieee.lib_infLaws (by norm_num) infSample crit 0 ⟨1, rfl⟩ 1).1

example : ∃ U, Ieee.lib.covGraph infSample = .ok U ∧ ∀ j, U 0 j = false ∧ U j 0 = false :=
  C228_gaussian Ieee.lib_infLaws (by norm_num) infSample 0 (by norm_num) (Ieee.lib_log (by norm_num)) ⟨1, rfl⟩

example : ∃ x, Ieee.lib.PosBad x ∧ Ieee.lib.minPerm false infSample infSample = .ok (List.finRange 3, x) :=
  C228_weights Ieee.lib_infLaws false (by norm_num) le_rfl infSample infSample (Or.inl ⟨1, 0, rfl⟩)

/-- the largest value of the first column may be 7 or infinite -/
example (srt : ArgSort ℝ) (Φ : ℝ → ℝ) (level : Fl ℝ) :
    let s : Fl ℝ → Fin 3 → Fin 2 → Fl ℝ := fun top k i => if k = 2 then (if i = 0 then top else .fin 2) else .fin k.val
    (Ieee.xiLib srt Φ).xiGraph (s .pinf) level = (Ieee.xiLib srt Φ).xiGraph (s (.fin 7)) level := by
  intro s
  refine (C229_xicor_order (b := Ieee.xiLib srt Φ) Ieee.lib_neg Ieee.lib_neg_nan (s .pinf) (s (.fin 7)) level ?_ ?_ ?_).2
  · intro k i; fin_cases k <;> fin_cases i <;> rfl
  · intro k i; fin_cases k <;> fin_cases i <;> rfl
  · intro i k l
    show Ieee.lt (s .pinf k i) (s .pinf l i) = Ieee.lt (s (.fin 7) k i) (s (.fin 7) l i)
    fin_cases k <;> fin_cases l <;> fin_cases i <;> simp [s, Ieee.lt]

end Medil

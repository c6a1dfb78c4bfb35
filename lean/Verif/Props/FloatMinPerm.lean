import Verif.Spec.FloatMinPerm
import Verif.Proofs.Evaluate
import Verif.Props.Rounded
import Mathlib.Tactic.Linarith
import Mathlib.Tactic.Ring
import Mathlib.Tactic.Positivity
/-
  C215: `min_perm_squared_l2_dist` with floating-point arithmetic.
-/
namespace Medil
open Finset
variable {n : Nat} {a : FloatLib} {u η Ω : ℝ}

theorem SumTree.leaves_pos {m : Nat} (t : SumTree m) : 0 < t.leaves.length := by
  induction t with
  | leaf i => simp [SumTree.leaves]
  | node b l r ihl ihr => simp [SumTree.leaves]; omega

theorem evalSum_bound (S : a.StandardModel u η Ω) (hu : 0 ≤ u) (hη : 0 ≤ η) {k : Nat} (f : Fin k → a.F) (q : Fin k → ℝ) (g : ℝ)
    (hg : 0 ≤ g) (hq : ∀ i, 0 ≤ q i) (hf : ∀ i, ∃ z, a.val (f i) = some z ∧ |z - q i| ≤ g * q i + η) (Q : ℝ)
    (hΩ : (1 + g) * (1 + u) ^ k * Q + k * η * (1 + u) ^ k ≤ Ω) (t : SumTree k) (hk : t.leaves.length ≤ k)
    (hQ : (t.leaves.map q).sum ≤ Q) :
    ∃ z, a.val (a.evalSum f t) = some z ∧ |z - (t.leaves.map q).sum| ≤
      ((1 + g) * (1 + u) ^ t.leaves.length - 1) * (t.leaves.map q).sum + t.leaves.length * η * (1 + u) ^ t.leaves.length := by
  induction t with
  | leaf i =>
    obtain ⟨z, h1, h2⟩ := hf i
    refine ⟨z, h1, ?_⟩
    simp only [SumTree.leaves, List.map_cons, List.map_nil, List.sum_cons, List.sum_nil, add_zero, List.length_singleton, pow_one]
    have := hq i
    have h3 : 0 ≤ u * (1 + g) * q i := by positivity
    have h4 : 0 ≤ u * η := by positivity
    push_cast
    nlinarith
  | node b l r ihl ihr =>
    simp only [SumTree.leaves, List.length_append, List.map_append, List.sum_append] at hk hQ ⊢
    have hl := l.leaves_pos
    have hr := r.leaves_pos
    have nnl : 0 ≤ (l.leaves.map q).sum := List.sum_nonneg (by intro x hx; obtain ⟨i, _, rfl⟩ := List.mem_map.mp hx; exact hq i)
    have nnr : 0 ≤ (r.leaves.map q).sum := List.sum_nonneg (by intro x hx; obtain ⟨i, _, rfl⟩ := List.mem_map.mp hx; exact hq i)
    obtain ⟨zl, vl, el⟩ := ihl (by omega) (by linarith)
    obtain ⟨zr, vr, er⟩ := ihr (by omega) (by linarith)
    set Sl := (l.leaves.map q).sum
    set Sr := (r.leaves.map q).sum
    set a' := l.leaves.length
    set b' := r.leaves.length
    have h1u : (1 : ℝ) ≤ 1 + u := by linarith
    have pl : (1 + u) ^ a' ≤ (1 + u) ^ (a' + b' - 1) := pow_le_pow_right₀ h1u (by omega)
    have pr : (1 + u) ^ b' ≤ (1 + u) ^ (a' + b' - 1) := pow_le_pow_right₀ h1u (by omega)
    have pk : (1 + u) ^ (a' + b' - 1) ≤ (1 + u) ^ k := pow_le_pow_right₀ h1u (by omega)
    set p := (1 + u) ^ (a' + b' - 1) with hp
    have hp2 : (1 + u) ^ (a' + b') = (1 + u) * p := by rw [hp, ← pow_succ']; congr 1; omega
    have hp1 : 1 ≤ p := one_le_pow₀ h1u
    have el' : |zl - Sl| ≤ ((1 + g) * p - 1) * Sl + a' * η * p := by
      refine el.trans (add_le_add (mul_le_mul_of_nonneg_right ?_ nnl) (mul_le_mul_of_nonneg_left pl (by positivity)))
      have := mul_le_mul_of_nonneg_left pl (by linarith : (0 : ℝ) ≤ 1 + g)
      linarith
    have er' : |zr - Sr| ≤ ((1 + g) * p - 1) * Sr + b' * η * p := by
      refine er.trans (add_le_add (mul_le_mul_of_nonneg_right ?_ nnr) (mul_le_mul_of_nonneg_left pr (by positivity)))
      have := mul_le_mul_of_nonneg_left pr (by linarith : (0 : ℝ) ≤ 1 + g)
      linarith
    have hsum : |zl + zr - (Sl + Sr)| ≤ ((1 + g) * p - 1) * (Sl + Sr) + (a' + b') * η * p := by
      have : zl + zr - (Sl + Sr) = (zl - Sl) + (zr - Sr) := by ring
      rw [this]
      refine (abs_add_le _ _).trans ?_
      linarith
    have habs : |zl + zr| ≤ (1 + g) * p * (Sl + Sr) + (a' + b') * η * p := by
      have h := abs_add_le (zl + zr - (Sl + Sr)) (Sl + Sr)
      rw [sub_add_cancel, abs_of_nonneg (add_nonneg nnl nnr)] at h
      linarith
    have hbig : |zl + zr| ≤ Ω := by
      refine habs.trans (le_trans (add_le_add ?_ ?_) hΩ)
      · refine mul_le_mul (mul_le_mul_of_nonneg_left pk (by linarith)) hQ (add_nonneg nnl nnr) (by positivity)
      · refine mul_le_mul (mul_le_mul_of_nonneg_right (by exact_mod_cast hk) hη) pk (by positivity) (by positivity)
    obtain ⟨z, hz, ez⟩ := S.add _ _ zl zr vl vr hbig
    refine ⟨z, hz, ?_⟩
    have h := abs_add_le (z - (zl + zr)) (zl + zr - (Sl + Sr))
    rw [sub_add_sub_cancel] at h
    have h2 : u * |zl + zr| ≤ u * ((1 + g) * p * (Sl + Sr) + (a' + b') * η * p) := mul_le_mul_of_nonneg_left habs hu
    rw [hp2]
    push_cast
    nlinarith

theorem sum_bound (S : a.StandardModel u η Ω) (hu : 0 ≤ u) (hη : 0 ≤ η) {k : Nat} (site : List Nat) (f : Fin k → a.F) (q : Fin k → ℝ)
    (g : ℝ) (hg : 0 ≤ g) (hq : ∀ i, 0 ≤ q i) (hf : ∀ i, ∃ z, a.val (f i) = some z ∧ |z - q i| ≤ g * q i + η)
    (hΩ : (1 + g) * (1 + u) ^ k * (∑ i, q i) + k * η * (1 + u) ^ k ≤ Ω) :
    ∃ z, a.val (a.sum site f) = some z ∧ |z - ∑ i, q i| ≤ ((1 + g) * (1 + u) ^ k - 1) * (∑ i, q i) + k * η * (1 + u) ^ k := by
  cases k with
  | zero => exact ⟨0, S.zero, by simp⟩
  | succ k =>
    have hperm := a.order_perm site k
    have hlen : (a.order site k).leaves.length = k + 1 := by rw [hperm.length_eq]; simp
    have hsum : ((a.order site k).leaves.map q).sum = ∑ i, q i := by
      rw [(hperm.map q).sum_eq, Fin.sum_univ_def]
    have h := evalSum_bound S hu hη f q g hg hq hf (∑ i, q i) hΩ (a.order site k) (by omega) (by rw [hsum])
    rw [hsum, hlen] at h
    exact h

theorem sqDiff_bound (S : a.StandardModel u η Ω) (hu : 0 ≤ u) (b : Bool) (x y : a.F) (r s D : ℝ) (hx : a.val x = some r)
    (hy : a.val y = some s) (hD : |r - s| ≤ D) (h1 : D ≤ Ω) (h2 : (1 + u) ^ 2 * D ^ 2 ≤ Ω) :
    ∃ z, a.val (a.sqDiff b x y) = some z ∧
      |z - ((if b then fun t : ℝ => |t| else id) r - (if b then fun t : ℝ => |t| else id) s) ^ 2| ≤
        ((1 + u) ^ 3 - 1) * ((if b then fun t : ℝ => |t| else id) r - (if b then fun t : ℝ => |t| else id) s) ^ 2 + η := by
  set F : ℝ → ℝ := if b then fun t : ℝ => |t| else id with hF
  have hxy : a.val (a.absIf b x) = some (F r) ∧ a.val (a.absIf b y) = some (F s) := by
    unfold FloatLib.absIf
    cases b
    · exact ⟨hx, hy⟩
    · exact ⟨S.abs _ _ hx, S.abs _ _ hy⟩
  have hd : |F r - F s| ≤ D := by
    refine le_trans ?_ hD
    rw [hF]
    cases b
    · exact le_refl _
    · exact abs_abs_sub_abs_le _ _
  obtain ⟨w, vw, ew⟩ := S.sub _ _ _ _ hxy.1 hxy.2 (hd.trans h1)
  set d := F r - F s
  have hw : |w| ≤ (1 + u) * |d| := by
    have := abs_add_le (w - d) d
    rw [sub_add_cancel] at this
    linarith
  have hww : w * w ≤ (1 + u) ^ 2 * d ^ 2 := by
    have := mul_self_le_mul_self (abs_nonneg w) hw
    rw [abs_mul_abs_self] at this
    refine this.trans (le_of_eq ?_)
    rw [← sq_abs d]; ring
  have hdD : d ^ 2 ≤ D ^ 2 := by rw [← sq_abs d]; exact pow_le_pow_left₀ (abs_nonneg _) hd 2
  have hw0 : 0 ≤ w * w := mul_self_nonneg w
  have hbig : |w * w| ≤ Ω := by
    rw [abs_of_nonneg hw0]
    exact (hww.trans (mul_le_mul_of_nonneg_left hdD (by positivity))).trans h2
  obtain ⟨z, vz, ez⟩ := S.mul _ _ _ _ vw vw hbig
  refine ⟨z, vz, ?_⟩
  rw [abs_of_nonneg hw0] at ez
  have hdiff : |w * w - d ^ 2| ≤ ((1 + u) ^ 2 - 1) * d ^ 2 := by
    have e1 : w * w - d ^ 2 = (w - d) * (w + d) := by ring
    rw [e1, abs_mul]
    have e2 : |w + d| ≤ (2 + u) * |d| := (abs_add_le _ _).trans (by linarith)
    refine (mul_le_mul ew e2 (abs_nonneg _) (by positivity)).trans (le_of_eq ?_)
    rw [← sq_abs d]; ring
  have := abs_add_le (z - w * w) (w * w - d ^ 2)
  rw [sub_add_sub_cancel] at this
  have h3 : u * (w * w) ≤ u * ((1 + u) ^ 2 * d ^ 2) := mul_le_mul_of_nonneg_left hww hu
  have h4 : ((1 + u) ^ 3 - 1) * d ^ 2 = u * ((1 + u) ^ 2 * d ^ 2) + ((1 + u) ^ 2 - 1) * d ^ 2 := by ring
  linarith

theorem sum_divMod {m n : Nat} (F : Fin m → Fin n → ℝ) : ∑ e : Fin (m * n), F e.divNat e.modNat = ∑ i, ∑ j, F i j := by
  rw [← Finset.sum_product', Finset.univ_product_univ]
  exact Fintype.sum_equiv finProdFinEquiv.symm _ _ (fun e => rfl)

/-- the computed distance of a matching -/
theorem permDist_bound (S : a.StandardModel u η Ω) (hu : 0 ≤ u) (hη : 0 ≤ η) {m : Nat} (b : Bool) (P' T' : Fin m → Fin n → a.F)
    (P T : Fin m → Fin n → ℝ) (hP : ∀ i j, a.val (P' i j) = some (P i j)) (hT : ∀ i j, a.val (T' i j) = some (T i j)) (D : ℝ)
    (hD : ∀ r i j, |P r j - T i j| ≤ D) (h1 : D ≤ Ω)
    (h2 : (1 + u) ^ (m * n + 3) * (m * n * D ^ 2) + m * n * η * (1 + u) ^ (m * n) ≤ Ω) (σ : Equiv.Perm (Fin m)) :
    ∃ z, a.val (a.permDist b P' T' (List.ofFn σ)) = some z ∧
      |z - matchDist (if b then fun t : ℝ => |t| else id) P T σ| ≤
        ((1 + u) ^ (m * n + 3) - 1) * matchDist (if b then fun t : ℝ => |t| else id) P T σ + m * n * η * (1 + u) ^ (m * n) := by
  set F : ℝ → ℝ := if b then fun t : ℝ => |t| else id with hF
  have hFD : ∀ r i j, (F (P r j) - F (T i j)) ^ 2 ≤ D ^ 2 := by
    intro r i j
    rw [← sq_abs]
    refine pow_le_pow_left₀ (abs_nonneg _) (le_trans ?_ (hD r i j)) 2
    rw [hF]
    cases b
    · exact le_refl _
    · exact abs_abs_sub_abs_le _ _
  unfold FloatLib.permDist
  have h1u : (1 : ℝ) ≤ 1 + u := by linarith
  have hsum : ∑ e : Fin (m * n), (F (P (σ e.divNat) e.modNat) - F (T e.divNat e.modNat)) ^ 2 = matchDist F P T σ :=
    sum_divMod fun i j => (F (P (σ i) j) - F (T i j)) ^ 2
  have hle : matchDist F P T σ ≤ m * n * D ^ 2 := by
    unfold matchDist
    refine (sum_le_sum fun i _ => sum_le_sum fun j _ => hFD (σ i) i j).trans (le_of_eq ?_)
    simp; ring
  have hpow : (1 + ((1 + u) ^ 3 - 1)) * (1 + u) ^ (m * n) = (1 + u) ^ (m * n + 3) := by rw [pow_add]; ring
  have h := sum_bound S hu hη (20 :: (List.ofFn σ).map (·.val)) (fun e : Fin (m * n) =>
    a.sqDiff b (((List.ofFn σ)[e.divNat.val]?.map fun r => P' r e.modNat).getD (a.ofNat 0)) (T' e.divNat e.modNat))
    (fun e => (F (P (σ e.divNat) e.modNat) - F (T e.divNat e.modNat)) ^ 2) ((1 + u) ^ 3 - 1)
    (by have := one_le_pow₀ h1u (n := 3); linarith) (fun e => sq_nonneg _) (by
      intro e
      have hmn : 1 ≤ m * n := Nat.pos_of_ne_zero fun h0 => by have := e.isLt; omega
      have hget : (List.ofFn σ)[e.divNat.val]? = some (σ e.divNat) := by
        rw [List.getElem?_ofFn, dif_pos e.divNat.isLt]
      simp only [hget, Option.map_some, Option.getD_some]
      apply sqDiff_bound S hu b _ _ _ _ D (hP _ _) (hT _ _) (hD _ _ _) h1
      refine le_trans ?_ h2
      have e1 : (1 + u) ^ 2 ≤ (1 + u) ^ (m * n + 3) := pow_le_pow_right₀ h1u (by omega)
      have e2 : D ^ 2 ≤ m * n * D ^ 2 := by
        have : (1 : ℝ) ≤ m * n := by exact_mod_cast hmn
        nlinarith [sq_nonneg D]
      have e3 := mul_le_mul e1 e2 (sq_nonneg D) (by positivity)
      have e4 : (0 : ℝ) ≤ m * n * η * (1 + u) ^ (m * n) := by positivity
      linarith) (by
      rw [hsum, hpow]
      push_cast
      refine le_trans (add_le_add (mul_le_mul_of_nonneg_left hle (by positivity)) (le_refl _)) h2)
  rw [hsum, hpow] at h
  push_cast at h
  exact h

/-- the first element with the smallest key -/
theorem foldl_min (S : a.StandardModel u η Ω) {α : Type} (l : List (α × a.F)) (x : α × a.F)
    (hfin : ∀ y ∈ x :: l, ∃ z, a.val y.2 = some z) :
    let r := l.foldl (fun best y => if a.lt y.2 best.2 then y else best) x
    r ∈ x :: l ∧ ∀ y ∈ x :: l, ∀ z w, a.val r.2 = some z → a.val y.2 = some w → z ≤ w := by
  induction l generalizing x with
  | nil =>
    refine ⟨List.mem_singleton.mpr rfl, ?_⟩
    intro y hy z w hz hw
    rw [List.mem_singleton.mp hy] at hw
    simp only [List.foldl_nil] at hz
    rw [hz] at hw
    exact le_of_eq (Option.some.inj hw)
  | cons c l ih =>
    obtain ⟨vx, hvx⟩ := hfin x (by simp)
    obtain ⟨vc, hvc⟩ := hfin c (by simp)
    rw [List.foldl_cons]
    have hlt := S.lt c.2 x.2 vc vx hvc hvx
    by_cases h : vc < vx
    · rw [hlt, if_pos (by simpa using h)]
      obtain ⟨i1, i2⟩ := ih c (fun y hy => hfin y (by rcases List.mem_cons.mp hy with rfl | hy <;> simp [*]))
      refine ⟨by rcases List.mem_cons.mp i1 with h | h <;> simp [h], ?_⟩
      intro y hy z w hz hw
      rcases List.mem_cons.mp hy with rfl | hy
      · rw [hvx] at hw
        cases hw
        exact (i2 c (by simp) z vc hz hvc).trans h.le
      · exact i2 y hy z w hz hw
    · rw [hlt, if_neg (by simpa using h)]
      obtain ⟨i1, i2⟩ := ih x (fun y hy => hfin y (by rcases List.mem_cons.mp hy with rfl | hy <;> simp [*]))
      refine ⟨by rcases List.mem_cons.mp i1 with h | h <;> simp [h], ?_⟩
      intro y hy z w hz hw
      rcases List.mem_cons.mp hy with rfl | hy
      · exact i2 y (by simp) z w hz hw
      · rcases List.mem_cons.mp hy with rfl | hy
        · rw [hvc] at hw
          cases hw
          exact (i2 x (by simp) z vx hz hvx).trans (not_lt.mp h)
        · exact i2 y (by simp [hy]) z w hz hw

/-- **C215**.  In floating-point arithmetic with unit roundoff `u`, underflow error `η` and no overflow, whatever the order of the
sums, the computed distance differs from the exact distance of the returned matching by a relative error of at most
`(1+u)^(mn+3) - 1` and an absolute error of at most `mn·η·(1+u)^(mn)`; and the exact distance of the returned matching exceeds that of
every other matching by at most twice these errors. -/
theorem C215_float_matching (S : a.StandardModel u η Ω) (hu : 0 ≤ u) (hη : 0 ≤ η) {m l : Nat} (b : Bool) (hm : 0 < m) (hl : l ≤ m)
    (P' : Fin m → Fin n → a.F) (T' : Fin l → Fin n → a.F) (P : Fin m → Fin n → ℝ) (T : Fin l → Fin n → ℝ)
    (hP : ∀ i j, a.val (P' i j) = some (P i j)) (hT : ∀ i j, a.val (T' i j) = some (T i j)) (D : ℝ)
    (hD : ∀ r i j, |P r j - (padded id T : Fin m → Fin n → ℝ) i j| ≤ D) (h1 : D ≤ Ω)
    (h2 : (1 + u) ^ (m * n + 3) * (m * n * D ^ 2) + m * n * η * (1 + u) ^ (m * n) ≤ Ω) :
    let γ := (1 + u) ^ (m * n + 3) - 1
    let E := m * n * η * (1 + u) ^ (m * n)
    let d := matchDist (if b then fun t : ℝ => |t| else id) P (padded id T)
    ∃ (σ : Equiv.Perm (Fin m)) (x : a.F) (z : ℝ), a.minPerm b P' T' = .ok (List.ofFn σ, x) ∧ a.val x = some z ∧
      |z - d σ| ≤ γ * d σ + E ∧ ∀ τ, (1 - γ) * d σ ≤ (1 + γ) * d τ + 2 * E := by
  intro γ E d
  set T2 : Fin m → Fin n → a.F := fun i j => if h : i.val < l then T' ⟨i, h⟩ j else a.ofNat 0 with hT2
  have hval : ∀ i j, a.val (T2 i j) = some ((padded id T : Fin m → Fin n → ℝ) i j) := by
    intro i j
    simp only [hT2, padded]
    split
    · exact hT _ _
    · exact S.zero
  have key := fun σ => permDist_bound S hu hη b P' T2 P (padded id T) hP hval D hD h1 h2 σ
  have hmem : ∀ p, p ∈ pyPerms m (List.finRange m) ↔ p.Perm (List.finRange m) := fun p => mem_pyPerms (by simp)
  unfold FloatLib.minPerm
  rw [if_pos (Or.inl hl), if_neg (by omega)]
  have hall : ∀ y ∈ (pyPerms m (List.finRange m)).map fun p => (p, a.permDist b P' T2 p),
      ∃ σ : Equiv.Perm (Fin m), y = (List.ofFn σ, a.permDist b P' T2 (List.ofFn σ)) := by
    intro y hy
    obtain ⟨p, hp, rfl⟩ := List.mem_map.mp hy
    obtain ⟨σ, rfl⟩ := perm_ofFn ((hmem p).mp hp)
    exact ⟨σ, rfl⟩
  have hin : ∀ σ : Equiv.Perm (Fin m), (List.ofFn σ, a.permDist b P' T2 (List.ofFn σ)) ∈
      (pyPerms m (List.finRange m)).map fun p => (p, a.permDist b P' T2 p) := by
    intro σ
    exact List.mem_map.mpr ⟨_, (hmem _).mpr (ofFn_perm σ), rfl⟩
  rcases hL : (pyPerms m (List.finRange m)).map fun p => (p, a.permDist b P' T2 p) with _ | ⟨x, L⟩
  · have := hin (Equiv.refl _)
    rw [hL] at this
    cases this
  · rw [hL] at hall hin
    have hmin := foldl_min S L x (by
      intro y hy
      obtain ⟨σ, rfl⟩ := hall y hy
      obtain ⟨z, hz, _⟩ := key σ
      exact ⟨z, hz⟩)
    simp only [FloatLib.minBy]
    obtain ⟨σ, hσ⟩ := hall _ hmin.1
    obtain ⟨z, hz, ez⟩ := key σ
    refine ⟨σ, _, z, by rw [hσ], hz, ez, ?_⟩
    intro τ
    obtain ⟨w, hw, ew⟩ := key τ
    have hle := hmin.2 _ (hin τ) z w (by rw [hσ]; exact hz) hw
    have e1 := (abs_le.mp ez).1
    have e2 := (abs_le.mp ew).2
    show (1 - γ) * d σ ≤ (1 + γ) * d τ + 2 * E
    have e3 : -(γ * d σ + E) ≤ z - d σ := e1
    have e4 : w - d τ ≤ γ * d τ + E := e2
    linarith

/-- rounding to the nearest double, with unbounded exponents, is such an arithmetic without underflow -/
theorem fl64_standard (Ω : ℝ) : (roundLib (fl64 (K := ℝ))).StandardModel (1 / 2 ^ 53) 0 Ω := by
  have herr : ∀ x : ℝ, |fl64 x - x| ≤ 1 / 2 ^ 53 * |x| := fun x => by
    have := fl64_error x; rw [div_mul_eq_mul_div, one_mul]; exact this
  have fin_of : ∀ {x : Fl ℝ} {r : ℝ}, (roundLib (fl64 (K := ℝ))).val x = some r → x = .fin r := by
    intro x r h
    cases x <;> simp [roundLib] at h
    rw [h]
  constructor
  · simp [roundLib, fl64]
  · intro x y r q h1 h2 _; obtain rfl := fin_of h1; obtain rfl := fin_of h2; exact ⟨_, rfl, herr _⟩
  · intro x y r q h1 h2 _; obtain rfl := fin_of h1; obtain rfl := fin_of h2; exact ⟨_, rfl, herr _⟩
  · intro x y r q h1 h2 _; obtain rfl := fin_of h1; obtain rfl := fin_of h2; exact ⟨_, rfl, by rw [add_zero]; exact herr _⟩
  · intro x r h1; obtain rfl := fin_of h1; rfl
  · intro x y r q h1 h2; obtain rfl := fin_of h1; obtain rfl := fin_of h2; rfl

/-- **C215**, consequence for double precision without underflow and overflow: with at most `2^40` entries the returned matching is optimal
up to a relative error of `2^(-11)`; and if some matching is perfect, the returned one is, with computed distance 0. -/
theorem C215_double {m l : Nat} (b : Bool) (hm : 0 < m) (hl : l ≤ m) (P : Fin m → Fin n → ℝ) (T : Fin l → Fin n → ℝ)
    (hmn : m * n ≤ 2 ^ 40) :
    let d := matchDist (if b then fun t : ℝ => |t| else id) P (padded id T)
    ∃ (σ : Equiv.Perm (Fin m)) (z : ℝ),
      (roundLib (fl64 (K := ℝ))).minPerm b (fun i j => .fin (P i j)) (fun i j => .fin (T i j)) = .ok (List.ofFn σ, .fin z) ∧
      (∀ τ, d σ ≤ (1 + 1 / 2 ^ 11) * d τ) ∧ ((∃ τ, d τ = 0) → d σ = 0 ∧ z = 0) := by
  intro d
  obtain ⟨D, hD0, hD⟩ : ∃ D : ℝ, 0 ≤ D ∧ ∀ r i j, |P r j - (padded id T : Fin m → Fin n → ℝ) i j| ≤ D := by
    refine ⟨∑ r, ∑ i, ∑ j, |P r j - (padded id T : Fin m → Fin n → ℝ) i j|,
      sum_nonneg fun r _ => sum_nonneg fun i _ => sum_nonneg fun j _ => abs_nonneg _, ?_⟩
    intro r i j
    have e1 := single_le_sum (f := fun j => |P r j - (padded id T : Fin m → Fin n → ℝ) i j|) (fun j _ => abs_nonneg _) (mem_univ j)
    have e2 := single_le_sum (f := fun i => ∑ j, |P r j - (padded id T : Fin m → Fin n → ℝ) i j|)
      (fun i _ => sum_nonneg fun j _ => abs_nonneg _) (mem_univ i)
    have e3 := single_le_sum (f := fun r => ∑ i, ∑ j, |P r j - (padded id T : Fin m → Fin n → ℝ) i j|)
      (fun r _ => sum_nonneg fun i _ => sum_nonneg fun j _ => abs_nonneg _) (mem_univ r)
    exact e1.trans (e2.trans e3)
  set u : ℝ := 1 / 2 ^ 53 with hu
  set B := (1 + u) ^ (m * n + 3) * (m * n * D ^ 2) + m * n * 0 * (1 + u) ^ (m * n)
  obtain ⟨σ, x, z, h1, h2, h3, h4⟩ := C215_float_matching (fl64_standard (max D B)) (by positivity) (le_refl 0) b hm hl
    (fun i j => Fl.fin (P i j)) (fun i j => Fl.fin (T i j)) P T (fun i j => rfl) (fun i j => rfl) D hD (le_max_left _ _) (le_max_right _ _)
  have hx : x = .fin z := by cases x <;> simp [roundLib] at h2; rw [h2]
  subst hx
  have hd0 : ∀ τ, 0 ≤ d τ := fun τ => sum_nonneg fun i _ => sum_nonneg fun j _ => sq_nonneg _
  have hγ : (1 + u) ^ (m * n + 3) - 1 ≤ 3 / 2 ^ 14 := by
    have g1 : (1 + u) ^ (m * n + 3) ≤ Real.exp ((m * n + 3 : ℕ) * u) := by
      rw [Real.exp_nat_mul]
      exact pow_le_pow_left₀ (by positivity) (by linarith [Real.add_one_le_exp u]) _
    have g2 : ((m * n + 3 : ℕ) : ℝ) * u ≤ 5 / 2 ^ 15 := by
      have : ((m * n + 3 : ℕ) : ℝ) ≤ 2 ^ 40 + 3 := by exact_mod_cast Nat.add_le_add_right hmn 3
      rw [hu]
      calc ((m * n + 3 : ℕ) : ℝ) * (1 / 2 ^ 53) ≤ (2 ^ 40 + 3) * (1 / 2 ^ 53) := mul_le_mul_of_nonneg_right this (by positivity)
        _ ≤ 5 / 2 ^ 15 := by norm_num
    have g3 : Real.exp ((m * n + 3 : ℕ) * u) ≤ Real.exp (5 / 2 ^ 15) := Real.exp_le_exp.mpr g2
    have g4 : Real.exp (5 / 2 ^ 15) * (1 - 5 / 2 ^ 15) ≤ 1 := by
      have e1 : (1 : ℝ) - 5 / 2 ^ 15 ≤ Real.exp (-(5 / 2 ^ 15)) := by linarith [Real.add_one_le_exp (-(5 / 2 ^ 15) : ℝ)]
      calc Real.exp (5 / 2 ^ 15) * (1 - 5 / 2 ^ 15) ≤ Real.exp (5 / 2 ^ 15) * Real.exp (-(5 / 2 ^ 15)) :=
            mul_le_mul_of_nonneg_left e1 (Real.exp_pos _).le
        _ = 1 := by rw [← Real.exp_add, add_neg_cancel, Real.exp_zero]
    have g5 : ∀ e : ℝ, e * (1 - 5 / 2 ^ 15) ≤ 1 → e ≤ 1 + 3 / 2 ^ 14 := by
      intro e he
      norm_num at he ⊢
      linarith
    exact sub_le_iff_le_add'.mpr ((g1.trans g3).trans (g5 _ g4))
  set γ := (1 + u) ^ (m * n + 3) - 1
  have hγ0 : 0 ≤ γ := by
    have := one_le_pow₀ (by linarith [show (0 : ℝ) ≤ u by positivity] : (1 : ℝ) ≤ 1 + u) (n := m * n + 3)
    show 0 ≤ (1 + u) ^ (m * n + 3) - 1
    linarith
  have hopt : ∀ τ, (1 - γ) * d σ ≤ (1 + γ) * d τ := by
    intro τ
    have : (1 - γ) * d σ ≤ (1 + γ) * d τ + 2 * (m * n * 0 * (1 + u) ^ (m * n)) := h4 τ
    simpa using this
  have hacc : |z - d σ| ≤ γ * d σ := by
    have : |z - d σ| ≤ γ * d σ + m * n * 0 * (1 + u) ^ (m * n) := h3
    simpa using this
  have h1γ : 0 < 1 - γ := by norm_num at hγ; linarith
  refine ⟨σ, z, h1, ?_, ?_⟩
  · intro τ
    have e1 : 1 + γ ≤ (1 + 1 / 2 ^ 11) * (1 - γ) := by norm_num at hγ ⊢; linarith
    have e2 := mul_le_mul_of_nonneg_right e1 (hd0 τ)
    have e3 : (1 - γ) * d σ ≤ (1 - γ) * ((1 + 1 / 2 ^ 11) * d τ) := by
      refine (hopt τ).trans (e2.trans (le_of_eq ?_)); ring
    exact le_of_mul_le_mul_left e3 h1γ
  · rintro ⟨τ, hτ⟩
    have e1 := hopt τ
    rw [hτ, mul_zero] at e1
    have e2 : d σ = 0 := by
      refine le_antisymm ?_ (hd0 σ)
      by_contra hc
      have := mul_pos h1γ (not_le.mp hc)
      linarith
    refine ⟨e2, ?_⟩
    rw [e2, mul_zero, sub_zero] at hacc
    exact abs_eq_zero.mp (le_antisymm hacc (abs_nonneg _))

/-- exact arithmetic, except that products below `η` underflow to 0 -/
noncomputable def flushLib (η : ℝ) : FloatLib :=
  { roundLib id with mul := Fl.lift2 (fun t => if |t| < η then 0 else t) (· * ·) }

theorem flush_standard {η : ℝ} (hη : 0 ≤ η) (Ω : ℝ) : (flushLib η).StandardModel 0 η Ω := by
  have fin_of : ∀ {x : Fl ℝ} {r : ℝ}, (flushLib η).val x = some r → x = .fin r := by
    intro x r h
    cases x <;> simp [flushLib, roundLib] at h
    rw [h]
  constructor
  · simp [flushLib, roundLib]
  · intro x y r q h1 h2 _; obtain rfl := fin_of h1; obtain rfl := fin_of h2; exact ⟨_, rfl, by simp⟩
  · intro x y r q h1 h2 _; obtain rfl := fin_of h1; obtain rfl := fin_of h2; exact ⟨_, rfl, by simp⟩
  · intro x y r q h1 h2 _; obtain rfl := fin_of h1; obtain rfl := fin_of h2
    refine ⟨_, rfl, ?_⟩
    dsimp only
    split
    · rename_i hlt
      rw [zero_sub, abs_neg, zero_mul, zero_add]; exact hlt.le
    · simpa using hη
  · intro x r h1; obtain rfl := fin_of h1; rfl
  · intro x y r q h1 h2; obtain rfl := fin_of h1; obtain rfl := fin_of h2; rfl

/-- **C215**, the underflow error cannot be avoided: the distance of different matrices may be computed as 0 -/
theorem C215_underflow (η Ω : ℝ) (hη : 0 < η) : ∃ a : FloatLib, a.StandardModel 0 η Ω ∧ ∃ (p t : ℝ) (x y z : a.F),
    a.val x = some p ∧ a.val y = some t ∧ p ≠ t ∧ a.val z = some 0 ∧
    a.minPerm false (fun (_ : Fin 1) (_ : Fin 1) => x) (fun (_ : Fin 1) (_ : Fin 1) => y) = .ok ([0], z) := by
  have hs : 0 < Real.sqrt (η / 2) := Real.sqrt_pos.mpr (by linarith)
  refine ⟨flushLib η, flush_standard hη.le Ω, Real.sqrt (η / 2), 0, .fin (Real.sqrt (η / 2)), .fin 0, .fin 0, rfl, rfl, hs.ne', rfl, ?_⟩
  have hmul : (flushLib η).sqDiff false (.fin (Real.sqrt (η / 2))) (.fin 0) = .fin 0 := by
    show Fl.fin (if |(Real.sqrt (η / 2) - 0) * (Real.sqrt (η / 2) - 0)| < η then (0 : ℝ) else _) = .fin 0
    rw [if_pos]
    rw [sub_zero, Real.mul_self_sqrt (by linarith), abs_of_pos (by linarith)]
    linarith
  show Except.ok ([0], _) = _
  congr 2

/-- **non-vacuity of C215**: two rows given in the other order are matched without error in double precision -/
example : ∃ (σ : Equiv.Perm (Fin 2)), (roundLib (fl64 (K := ℝ))).minPerm false
    (fun i j => .fin ((![![1, 2], ![3, 4]] : Fin 2 → Fin 2 → ℝ) i j)) (fun i j => .fin ((![![3, 4], ![1, 2]] : Fin 2 → Fin 2 → ℝ) i j)) = .ok (List.ofFn σ, .fin 0) := by
  obtain ⟨σ, z, h1, -, h3⟩ := C215_double (n := 2) false (by omega) (le_refl 2) (![![1, 2], ![3, 4]] : Fin 2 → Fin 2 → ℝ) (![![3, 4], ![1, 2]] : Fin 2 → Fin 2 → ℝ) (by norm_num)
  obtain ⟨-, h⟩ := h3 ⟨Equiv.swap 0 1, by
    simp [matchDist, padded, Fin.sum_univ_two]⟩
  exact ⟨σ, by rw [h1, h]⟩

end Medil

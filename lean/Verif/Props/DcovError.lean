import Verif.Spec.DcovError
import Verif.Props.FloatMinPerm
import Verif.Props.Nan
/-
  C219: explicit rounding error of the test statistic of `estimate_UDG(..., "dcov_fast")`.
-/
namespace Medil
open Finset
variable {a : FloatLib} {N M : Nat} {u : ℝ}

/-- the float `x` stands for a number within `((1+u)^k - 1) A` of `r`, where `|r| ≤ A` -/
def Close (a : FloatLib) (u : ℝ) (k : Nat) (x : a.F) (r A : ℝ) : Prop :=
  ∃ z, a.val x = some z ∧ |z - r| ≤ ((1 + u) ^ k - 1) * A ∧ |r| ≤ A

theorem pow1_nonneg (hu : 0 ≤ u) (k : Nat) : 0 ≤ (1 + u) ^ k - 1 := by
  have := one_le_pow₀ (show (1 : ℝ) ≤ 1 + u by linarith) (n := k); linarith

theorem pow1_mono (hu : 0 ≤ u) {k l : Nat} (h : k ≤ l) : (1 + u) ^ k - 1 ≤ (1 + u) ^ l - 1 := by
  have := pow_le_pow_right₀ (show (1 : ℝ) ≤ 1 + u by linarith) h; linarith

theorem Close.mono (hu : 0 ≤ u) {k l : Nat} {x : a.F} {r A B : ℝ} (h : Close a u k x r A) (hk : k ≤ l) (hA : A ≤ B) : Close a u l x r B := by
  obtain ⟨z, h1, h2, h3⟩ := h
  exact ⟨z, h1, h2.trans (mul_le_mul (pow1_mono hu hk) hA ((abs_nonneg _).trans h3) (pow1_nonneg hu l)), h3.trans hA⟩

/-- one rounding after an operation -/
theorem Close.round (hu : 0 ≤ u) {k : Nat} {x : a.F} {t r A z : ℝ} (hz : a.val x = some z) (h : |z - t| ≤ u * |t|)
    (ht : |t - r| ≤ ((1 + u) ^ k - 1) * A) (hr : |r| ≤ A) : Close a u (k + 1) x r A := by
  refine ⟨z, hz, ?_, hr⟩
  have h1 := abs_add_le (z - t) (t - r)
  rw [sub_add_sub_cancel] at h1
  have h2 := abs_add_le (t - r) r
  rw [sub_add_cancel] at h2
  have h3 : u * |t| ≤ u * ((1 + u) ^ k * A) := mul_le_mul_of_nonneg_left (by linarith) hu
  rw [pow_succ]
  nlinarith

theorem Close.add (R : a.RelativeModel u) (hu : 0 ≤ u) {k : Nat} {x y : a.F} {r q A B : ℝ} (hx : Close a u k x r A) (hy : Close a u k y q B) :
    Close a u (k + 1) (a.add x y) (r + q) (A + B) := by
  obtain ⟨z, h1, h2, h3⟩ := hx
  obtain ⟨w, g1, g2, g3⟩ := hy
  obtain ⟨v, hv, ev⟩ := R.add _ _ _ _ h1 g1
  refine Close.round hu hv ev ?_ ((abs_add_le _ _).trans (add_le_add h3 g3))
  have : z + w - (r + q) = (z - r) + (w - q) := by ring
  rw [this]
  exact (abs_add_le _ _).trans (by linarith)

theorem Close.sub (R : a.RelativeModel u) (hu : 0 ≤ u) {k : Nat} {x y : a.F} {r q A B : ℝ} (hx : Close a u k x r A) (hy : Close a u k y q B) :
    Close a u (k + 1) (a.sub x y) (r - q) (A + B) := by
  obtain ⟨z, h1, h2, h3⟩ := hx
  obtain ⟨w, g1, g2, g3⟩ := hy
  obtain ⟨v, hv, ev⟩ := R.sub _ _ _ _ h1 g1
  refine Close.round hu hv ev ?_ ((abs_sub _ _).trans (add_le_add h3 g3))
  have : z - w - (r - q) = (z - r) - (w - q) := by ring
  rw [this]
  exact (abs_sub _ _).trans (by linarith)

theorem prod_close (hu : 0 ≤ u) {k l : Nat} {z w r q A B : ℝ} (h2 : |z - r| ≤ ((1 + u) ^ k - 1) * A) (h3 : |r| ≤ A)
    (g2 : |w - q| ≤ ((1 + u) ^ l - 1) * B) (g3 : |q| ≤ B) : |z * w - r * q| ≤ ((1 + u) ^ (k + l) - 1) * (A * B) := by
  have hA : 0 ≤ A := (abs_nonneg _).trans h3
  have hB : 0 ≤ B := (abs_nonneg _).trans g3
  have e : z * w - r * q = (z - r) * (w - q) + (z - r) * q + r * (w - q) := by ring
  have h := (abs_add_le ((z - r) * (w - q) + (z - r) * q) (r * (w - q))).trans (add_le_add_left (abs_add_le _ _) _)
  rw [e]
  refine h.trans ?_
  rw [abs_mul, abs_mul, abs_mul]
  have p1 := mul_le_mul h2 g2 (abs_nonneg _) (mul_nonneg (pow1_nonneg hu k) hA)
  have p2 := mul_le_mul h2 g3 (abs_nonneg _) (mul_nonneg (pow1_nonneg hu k) hA)
  have p3 := mul_le_mul h3 g2 (abs_nonneg _) hA
  rw [pow_add]
  nlinarith

theorem Close.mul (R : a.RelativeModel u) (hu : 0 ≤ u) {k l : Nat} {x y : a.F} {r q A B : ℝ} (hx : Close a u k x r A) (hy : Close a u l y q B) :
    Close a u (k + l + 1) (a.mul x y) (r * q) (A * B) := by
  obtain ⟨z, h1, h2, h3⟩ := hx
  obtain ⟨w, g1, g2, g3⟩ := hy
  obtain ⟨v, hv, ev⟩ := R.mul _ _ _ _ h1 g1
  exact Close.round hu hv ev (prod_close hu h2 h3 g2 g3) (by rw [abs_mul]; exact mul_le_mul h3 g3 (abs_nonneg _) ((abs_nonneg _).trans h3))

theorem Close.fma (R : a.RelativeModel u) (hu : 0 ≤ u) {k l m : Nat} {x y t : a.F} {r q p A B C : ℝ} (hx : Close a u k x r A)
    (hy : Close a u l y q B) (ht : Close a u m t p C) (hm : k + l ≤ m) : Close a u (m + 1) (a.fma x y t) (p + r * q) (C + A * B) := by
  obtain ⟨z, h1, h2, h3⟩ := hx
  obtain ⟨w, g1, g2, g3⟩ := hy
  obtain ⟨s, f1, f2, f3⟩ := ht
  obtain ⟨v, hv, ev⟩ := R.fma _ _ _ _ _ _ h1 g1 f1
  have hA : 0 ≤ A := (abs_nonneg _).trans h3
  have hB : 0 ≤ B := (abs_nonneg _).trans g3
  refine Close.round hu hv ev ?_ ?_
  · have e : z * w + s - (p + r * q) = (s - p) + (z * w - r * q) := by ring
    rw [e]
    refine (abs_add_le _ _).trans ?_
    have := (prod_close hu h2 h3 g2 g3).trans (mul_le_mul_of_nonneg_right (pow1_mono hu hm) (mul_nonneg hA hB))
    linarith
  · refine (abs_add_le _ _).trans (add_le_add f3 ?_)
    rw [abs_mul]; exact mul_le_mul h3 g3 (abs_nonneg _) hA

/-- division by an exact positive number -/
theorem Close.divNat (R : a.RelativeModel u) (hu : 0 ≤ u) {k : Nat} {x y : a.F} {r A : ℝ} {q : ℝ} (hx : Close a u k x r A)
    (hy : a.val y = some q) (hq : 0 < q) : Close a u (k + 1) (a.div x y) (r / q) (A / q) := by
  obtain ⟨z, h1, h2, h3⟩ := hx
  obtain ⟨v, hv, ev⟩ := R.div _ _ _ _ h1 hy hq.ne'
  refine Close.round hu hv ev ?_ ?_
  · rw [← sub_div, abs_div, abs_of_pos hq, ← mul_div_assoc]
    exact div_le_div_of_nonneg_right h2 hq.le
  · rw [abs_div, abs_of_pos hq]
    exact div_le_div_of_nonneg_right h3 hq.le

theorem Close.evalSum (R : a.RelativeModel u) (hu : 0 ≤ u) {m k : Nat} (f : Fin m → a.F) (r A : Fin m → ℝ)
    (hf : ∀ i, Close a u k (f i) (r i) (A i)) (t : SumTree m) :
    Close a u (k + t.leaves.length - 1) (a.evalSum f t) (t.leaves.map r).sum (t.leaves.map A).sum := by
  induction t with
  | leaf i => simpa [SumTree.leaves, FloatLib.evalSum] using hf i
  | node b l s ihl ihr =>
    have hl := l.leaves_pos
    have hr := s.leaves_pos
    simp only [SumTree.leaves, List.length_append, List.map_append, List.sum_append, FloatLib.evalSum]
    have h := Close.add R hu (Close.mono hu ihl (show _ ≤ k + l.leaves.length + s.leaves.length - 2 by omega) le_rfl)
      (Close.mono hu ihr (show _ ≤ k + l.leaves.length + s.leaves.length - 2 by omega) le_rfl)
    exact Close.mono hu h (by omega) le_rfl

theorem Close.sum (R : a.RelativeModel u) (hu : 0 ≤ u) {m k : Nat} (hm : 0 < m) (site : List Nat) (f : Fin m → a.F) (r A : Fin m → ℝ)
    (hf : ∀ i, Close a u k (f i) (r i) (A i)) : Close a u (k + m - 1) (a.sum site f) (∑ i, r i) (∑ i, A i) := by
  cases m with
  | zero => omega
  | succ m =>
    have hp := a.order_perm site m
    have h := Close.evalSum R hu f r A hf (a.order site m)
    rw [(hp.map r).sum_eq, (hp.map A).sum_eq, ← Fin.sum_univ_def, ← Fin.sum_univ_def, hp.length_eq, List.length_finRange] at h
    exact h

theorem Close.evalDot (R : a.RelativeModel u) (hu : 0 ≤ u) {m k : Nat} (f g : Fin m → a.F) (r q A B : Fin m → ℝ)
    (hf : ∀ i, Close a u k (f i) (r i) (A i)) (hg : ∀ i, Close a u k (g i) (q i) (B i)) (t : SumTree m) :
    Close a u (2 * k + t.leaves.length) (a.evalDot f g t) (t.leaves.map fun i => r i * q i).sum (t.leaves.map fun i => A i * B i).sum := by
  have hleaf : ∀ i, Close a u (2 * k + 1) (a.mul (f i) (g i)) (r i * q i) (A i * B i) :=
    fun i => Close.mono hu (Close.mul R hu (hf i) (hg i)) (by omega) le_rfl
  have hnode : ∀ (l s : SumTree m),
      Close a u (2 * k + l.leaves.length) (a.evalDot f g l) (l.leaves.map fun i => r i * q i).sum (l.leaves.map fun i => A i * B i).sum →
      Close a u (2 * k + s.leaves.length) (a.evalDot f g s) (s.leaves.map fun i => r i * q i).sum (s.leaves.map fun i => A i * B i).sum →
      Close a u (2 * k + (l.leaves.length + s.leaves.length)) (a.add (a.evalDot f g l) (a.evalDot f g s))
        ((l.leaves.map fun i => r i * q i).sum + (s.leaves.map fun i => r i * q i).sum)
        ((l.leaves.map fun i => A i * B i).sum + (s.leaves.map fun i => A i * B i).sum) := by
    intro l s hl hs
    have h1 := l.leaves_pos
    have h2 := s.leaves_pos
    have h := Close.add R hu (Close.mono hu hl (show _ ≤ 2 * k + (l.leaves.length + s.leaves.length) - 1 by omega) le_rfl)
      (Close.mono hu hs (show _ ≤ 2 * k + (l.leaves.length + s.leaves.length) - 1 by omega) le_rfl)
    exact Close.mono hu h (by omega) le_rfl
  induction t with
  | leaf i => simpa [SumTree.leaves, FloatLib.evalDot] using hleaf i
  | node b l s ihl ihr =>
    simp only [SumTree.leaves, List.length_append, List.map_append, List.sum_append]
    cases b with
    | false => simpa only [FloatLib.evalDot] using hnode l s ihl ihr
    | true =>
      cases s with
      | node b' l' s' => simpa only [FloatLib.evalDot] using hnode l _ ihl ihr
      | leaf i =>
        have h := Close.fma R hu (hf i) (hg i) ihl (by omega)
        simp only [FloatLib.evalDot, SumTree.leaves, List.length_singleton, List.map_cons, List.map_nil, List.sum_cons, List.sum_nil, add_zero]
        exact h

theorem Close.dot (R : a.RelativeModel u) (hu : 0 ≤ u) {m k : Nat} (hm : 0 < m) (site : List Nat) (f g : Fin m → a.F) (r q A B : Fin m → ℝ)
    (hf : ∀ i, Close a u k (f i) (r i) (A i)) (hg : ∀ i, Close a u k (g i) (q i) (B i)) :
    Close a u (2 * k + m) (a.dot site f g) (∑ i, r i * q i) (∑ i, A i * B i) := by
  cases m with
  | zero => omega
  | succ m =>
    have hp := a.order_perm site m
    have h := Close.evalDot R hu f g r q A B hf hg (a.order site m)
    rw [(hp.map _).sum_eq, (hp.map fun i => A i * B i).sum_eq, ← Fin.sum_univ_def, ← Fin.sum_univ_def, hp.length_eq, List.length_finRange] at h
    exact h


/-! ### the statistic -/

variable {s : Fin N → Fin M → a.F} {X : Fin N → Fin M → ℝ}

theorem close_dist (R : a.RelativeModel u) (h0 : a.val (a.ofNat 0) = some ((0 : ℕ) : ℝ)) {x : Fin N → a.F} {y : Fin N → ℝ}
    (hx : ∀ k, a.val (x k) = some (y k)) (k l : Fin N) : Close a u 1 (a.dist x k l) (distMat y k l) (distMat y k l) := by
  have hsub : ∀ p q : Fin N, Close a u 1 (a.abs (a.sub (x p) (x q))) |y p - y q| |y p - y q| := by
    intro p q
    obtain ⟨z, hz, ez⟩ := R.sub _ _ _ _ (hx p) (hx q)
    refine ⟨|z|, R.abs _ _ hz, ?_, (abs_abs _).le⟩
    rw [pow_one, add_sub_cancel_left]
    exact (abs_abs_sub_abs_le _ _).trans ez
  unfold FloatLib.dist distMat
  split
  · exact hsub k l
  · split
    · rw [abs_sub_comm]; exact hsub l k
    · have : k = l := by
        rename_i h1 h2
        exact le_antisymm (not_lt.mp h2) (not_lt.mp h1)
      subst this
      refine ⟨0, by rw [h0]; simp, ?_, by simp⟩
      simp

theorem close_centre (R : a.RelativeModel u) (hu : 0 ≤ u) (hN : 2 ≤ N) (hnat : ∀ m : ℕ, m ≤ N ^ 2 → a.val (a.ofNat m) = some (m : ℝ))
    {x : Fin N → a.F} {y : Fin N → ℝ} (hx : ∀ k, a.val (x k) = some (y k)) (D : ℝ) (hD : ∀ k l, |y k - y l| ≤ D) (site : Nat) :
    Close a u (N ^ 2 + 1) (a.allMean site (a.dist x)) (allMean (distMat y)) (allMean (distMat y)) ∧
    ∀ k l, Close a u (N ^ 2 + 3) (a.centre site (a.dist x) k l) (centre (distMat y) k l) (4 * D) := by
  have hNpos : (0 : ℝ) < N := by exact_mod_cast (by omega : 0 < N)
  have hNN : N ≤ N ^ 2 := by nlinarith
  have hN2 : N + 2 ≤ N ^ 2 + 1 := by nlinarith
  have hd := close_dist R (hnat 0 (Nat.zero_le _)) hx
  have hcol : ∀ l, Close a u (N + 1) (a.colMean site (a.dist x) l) (colMean (distMat y) l) (colMean (distMat y) l) := by
    intro l
    have h := Close.divNat R hu (Close.sum R hu (by omega) [0, site, l] _ _ _ fun k => hd k l) (hnat N hNN) hNpos
    exact Close.mono hu h (by omega) le_rfl
  have hrow : ∀ k, Close a u (N + 1) (a.rowMean site (a.dist x) k) (rowMean (distMat y) k) (rowMean (distMat y) k) := by
    intro k
    have h := Close.divNat R hu (Close.sum R hu (by omega) [1, site, k] _ _ _ fun l => hd k l) (hnat N hNN) hNpos
    exact Close.mono hu h (by omega) le_rfl
  have hall : Close a u (N ^ 2 + 1) (a.allMean site (a.dist x)) (allMean (distMat y)) (allMean (distMat y)) := by
    have h := Close.divNat R hu (Close.sum R hu (Nat.mul_pos (by omega) (by omega)) [2, site]
      (fun e : Fin (N * N) => a.dist x e.divNat e.modNat) (fun e => distMat y e.divNat e.modNat) (fun e => distMat y e.divNat e.modNat)
      fun e => hd _ _) (hnat (N * N) (by rw [pow_two])) (by push_cast; positivity)
    rw [sum_divMod (fun i j => distMat y i j)] at h
    push_cast at h
    exact Close.mono hu h (by rw [pow_two]; omega) le_rfl
  refine ⟨hall, ?_⟩
  intro k l
  have h1 := Close.sub R hu (Close.mono hu (Close.add R hu (hcol l) (hrow k)) hN2 le_rfl) hall
  have h2 := Close.sub R hu (Close.mono hu (hd k l) (show 1 ≤ N ^ 2 + 1 + 1 by omega) le_rfl) h1
  have b1 : distMat y k l ≤ D := hD k l
  have b2 : colMean (distMat y) l ≤ D := by
    unfold colMean
    rw [div_le_iff₀ hNpos]
    refine (sum_le_sum fun k _ => hD k l).trans (le_of_eq ?_)
    simp [mul_comm]
  have b3 : rowMean (distMat y) k ≤ D := by
    unfold rowMean
    rw [div_le_iff₀ hNpos]
    refine (sum_le_sum fun l _ => hD k l).trans (le_of_eq ?_)
    simp [mul_comm]
  have b4 : allMean (distMat y) ≤ D := by
    unfold allMean
    rw [div_le_iff₀ (mul_pos hNpos hNpos)]
    refine (sum_le_sum fun k _ => sum_le_sum fun l _ => hD k l).trans (le_of_eq ?_)
    simp; ring
  exact Close.mono hu h2 le_rfl (by linarith)

theorem pairsLT_card : 2 * (FloatLib.pairsLT N).length ≤ N ^ 2 := by
  have h1 := FloatLib.sum_pairsLT (N := N) fun _ => 1
  simp only [Finset.sum_const, Finset.card_univ, Fintype.card_fin, nsmul_eq_mul, mul_one] at h1
  have h2 : (FloatLib.pairsLT N).length = (univ.filter fun e : Fin N × Fin N => e.1 < e.2).card := by exact_mod_cast h1
  have h3 : (univ.filter fun e : Fin N × Fin N => e.1 < e.2).card = (univ.filter fun e : Fin N × Fin N => e.2 < e.1).card := by
    apply Finset.card_bij (fun e _ => (e.2, e.1))
    · intro e he; simpa using he
    · rintro ⟨a, b⟩ _ ⟨c, d⟩ _ h; simp only [Prod.mk.injEq] at h ⊢; exact ⟨h.2, h.1⟩
    · rintro ⟨a, b⟩ h; exact ⟨(b, a), by simpa using h, rfl⟩
  have h4 : Disjoint (univ.filter fun e : Fin N × Fin N => e.1 < e.2) (univ.filter fun e : Fin N × Fin N => e.2 < e.1) := by
    rw [Finset.disjoint_filter]
    intro e _ h; exact not_lt.mpr h.le
  have h5 := Finset.card_le_univ ((univ.filter fun e : Fin N × Fin N => e.1 < e.2) ∪ (univ.filter fun e : Fin N × Fin N => e.2 < e.1))
  rw [Finset.card_union_of_disjoint h4, ← h3, ← h2, Fintype.card_prod, Fintype.card_fin] at h5
  rw [pow_two]; omega

/-- the error bound -/
noncomputable def dcovErr (u : ℝ) (N : Nat) : ℝ :=
  ((1 + u) ^ (3 * N ^ 2 + 9) + (1 + u) ^ (2 * N ^ 2 + 3) - 2) / (2 - (1 + u) ^ (2 * N ^ 2 + 3)) * (8 * N)

theorem dcov_error (R : a.RelativeModel u) (hu : 0 ≤ u) (hN : 2 ≤ N) (hnat : ∀ m : ℕ, m ≤ N ^ 2 → a.val (a.ofNat m) = some (m : ℝ))
    (hs : ∀ k i, a.val (s k i) = some (X k i)) (D : Fin M → ℝ) (hD : ∀ i k l, |X k i - X l i| ≤ D i)
    (hsmall : (1 + u) ^ (2 * N ^ 2 + 3) < 2) (i j : Fin M) (hi : (dcov X).2 i ≠ 0) (hj : (dcov X).2 j ≠ 0) :
    ∃ z, a.val (a.div (a.mul (a.ofNat N) (a.dcov s i j)) (a.mul (a.dBar s i) (a.dBar s j))) = some z ∧
      |z - N * (dcov X).1 i j / ((dcov X).2 i * (dcov X).2 j)| ≤ dcovErr u N * (D i * D j / ((dcov X).2 i * (dcov X).2 j)) := by
  have hNpos : (0 : ℝ) < N := by exact_mod_cast (by omega : 0 < N)
  have hDn : ∀ i, 0 ≤ D i := fun i => (abs_nonneg _).trans (hD i ⟨0, by omega⟩ ⟨0, by omega⟩)
  have hcen := fun i : Fin M => close_centre R hu hN hnat (x := fun k => s k i) (y := fun k => X k i) (fun k => hs k i) (D i) (hD i) i.val
  have hpos : ∀ i, (dcov X).2 i ≠ 0 → 0 < (dcov X).2 i := by
    intro i h
    refine lt_of_le_of_ne ?_ h.symm
    exact div_nonneg (sum_nonneg fun k _ => sum_nonneg fun l _ => abs_nonneg _) (by positivity)
  have hq := mul_pos (hpos i hi) (hpos j hj)
  have hP := pairsLT_card (N := N)
  -- the numerator
  have hnum : Close a u (3 * N ^ 2 + 8) (a.mul (a.ofNat N) (a.dcov s i j)) (N * (dcov X).1 i j) (8 * N * (D i * D j)) := by
    have hdot := Close.dot R hu (pairsLT_pos hN) [3, (min i j).val, (max i j).val] (a.distsRow s (min i j)) (a.distsRow s (max i j))
      _ _ _ _ (fun e => (hcen (min i j)).2 _ _) (fun e => (hcen (max i j)).2 _ _)
    have hcov := Close.divNat R hu hdot (hnat (N ^ 2) le_rfl) (by push_cast; positivity)
    have hmul := Close.mul R hu (k := 0) (r := N) (A := N) ⟨N, hnat N (by nlinarith), by simp, by simp⟩ hcov
    have hr : (N : ℝ) * ((∑ e : Fin (FloatLib.pairsLT N).length,
        centre (distMat fun k => X k (min i j)) (FloatLib.pairsLT N)[e].1 (FloatLib.pairsLT N)[e].2 *
        centre (distMat fun k => X k (max i j)) (FloatLib.pairsLT N)[e].1 (FloatLib.pairsLT N)[e].2) / ((N ^ 2 : ℕ) : ℝ)) =
        N * (dcov X).1 i j := by
      rw [FloatLib.sum_pairsLT fun e : Fin N × Fin N => centre (distMat fun k => X k (min i j)) e.1 e.2 *
        centre (distMat fun k => X k (max i j)) e.1 e.2]
      unfold dcov
      simp only
      push_cast
      congr 2
      apply sum_congr rfl
      intro e _
      rcases le_total i j with h | h
      · rw [min_eq_left h, max_eq_right h]
      · rw [min_eq_right h, max_eq_left h]; ring
    rw [hr] at hmul
    refine Close.mono hu hmul (by nlinarith) ?_
    have hDD : D (min i j) * D (max i j) = D i * D j := by
      rcases le_total i j with h | h
      · rw [min_eq_left h, max_eq_right h]
      · rw [min_eq_right h, max_eq_left h]; ring
    have hsum : (∑ _e : Fin (FloatLib.pairsLT N).length, 4 * D (min i j) * (4 * D (max i j))) =
        (FloatLib.pairsLT N).length * (16 * (D i * D j)) := by
      rw [Finset.sum_const, Finset.card_univ, Fintype.card_fin, nsmul_eq_mul, ← hDD]; ring
    rw [hsum]
    have hP' : 2 * ((FloatLib.pairsLT N).length : ℝ) ≤ N ^ 2 := by exact_mod_cast hP
    have hdd : 0 ≤ D i * D j := mul_nonneg (hDn i) (hDn j)
    have : (FloatLib.pairsLT N).length * (16 * (D i * D j)) / ((N ^ 2 : ℕ) : ℝ) ≤ 8 * (D i * D j) := by
      rw [div_le_iff₀ (by push_cast; positivity)]
      push_cast
      nlinarith
    nlinarith
  -- the denominator
  have hden : Close a u (2 * N ^ 2 + 3) (a.mul (a.dBar s i) (a.dBar s j)) ((dcov X).2 i * (dcov X).2 j) ((dcov X).2 i * (dcov X).2 j) :=
    Close.mono hu (Close.mul R hu (hcen i).1 (hcen j).1) (by omega) le_rfl
  obtain ⟨z, hz, ez, hr⟩ := hnum
  obtain ⟨w, hw, ew, -⟩ := hden
  set r := (N : ℝ) * (dcov X).1 i j
  set q := (dcov X).2 i * (dcov X).2 j
  set A := 8 * (N : ℝ) * (D i * D j) with hA
  set K := (1 + u) ^ (3 * N ^ 2 + 8)
  set L := (1 + u) ^ (2 * N ^ 2 + 3)
  have hA0 : 0 ≤ A := (abs_nonneg _).trans hr
  have hL : 0 < 2 - L := by linarith
  have hwq : (2 - L) * q ≤ w := by
    have := (abs_le.mp ew).1
    nlinarith
  have hwpos : 0 < w := lt_of_lt_of_le (mul_pos hL hq) hwq
  obtain ⟨v, hv, ev⟩ := R.div _ _ _ _ hz hw hwpos.ne'
  refine ⟨v, hv, ?_⟩
  have hK1 : (1 + u) ^ (3 * N ^ 2 + 9) = K * (1 + u) := pow_succ _ _
  have hzA : |z| ≤ K * A := by
    have := abs_add_le (z - r) r
    rw [sub_add_cancel] at this
    linarith
  have hinv : ∀ t : ℝ, 0 ≤ t → t / w ≤ t / ((2 - L) * q) := fun t ht => div_le_div_of_nonneg_left ht (mul_pos hL hq) hwq
  have h1 : |v - z / w| ≤ u * (K * A) / ((2 - L) * q) := by
    refine ev.trans ?_
    rw [abs_div, abs_of_pos hwpos, ← mul_div_assoc]
    refine (div_le_div_of_nonneg_right (mul_le_mul_of_nonneg_left hzA hu) hwpos.le).trans (hinv _ ?_)
    exact mul_nonneg hu ((abs_nonneg _).trans hzA)
  have h2 : |z / w - r / q| ≤ ((K - 1) * A + (L - 1) * A) / ((2 - L) * q) := by
    have e : z / w - r / q = ((z - r) - r / q * (w - q)) / w := by
      field_simp; ring
    rw [e, abs_div, abs_of_pos hwpos]
    have hb : |z - r - r / q * (w - q)| ≤ (K - 1) * A + (L - 1) * A := by
      refine (abs_sub _ _).trans (add_le_add ez ?_)
      rw [abs_mul, abs_div, abs_of_pos hq]
      calc |r| / q * |w - q| ≤ A / q * ((L - 1) * q) :=
            mul_le_mul (div_le_div_of_nonneg_right hr hq.le) ew (abs_nonneg _) (div_nonneg hA0 hq.le)
        _ = (L - 1) * A := by field_simp
    exact (div_le_div_of_nonneg_right hb hwpos.le).trans (hinv _ ((abs_nonneg _).trans hb))
  have h3 := abs_add_le (v - z / w) (z / w - r / q)
  rw [sub_add_sub_cancel] at h3
  refine (h3.trans (add_le_add h1 h2)).trans (le_of_eq ?_)
  have hE : dcovErr u N = (K * (1 + u) + L - 2) / (2 - L) * (8 * N) := by unfold dcovErr; rw [hK1]
  have hL' := hL.ne'
  rw [hE, hA]
  field_simp
  ring


/-- **C219** Explicit rounding error of the test statistics of `estimate_UDG(..., "dcov_fast")`: in floating-point arithmetic with relative
errors of at most `u`, in whatever order sums are computed, the computed statistic of two columns that are not constant differs from the
exact one by at most `dcovErr u N · D_i D_j / (d_i d_j)`, where `D` is the largest and `d` the mean distance in a column.  So the
computed graph has an edge exactly if the exact one has, unless the statistic is within this bound (plus the error of the critical value)
of the critical value. -/
theorem C219_dcov_fast_error (R : a.RelativeModel u) (hu : 0 ≤ u) (hN : 2 ≤ N)
    (hnat : ∀ m : ℕ, m ≤ N ^ 2 → a.val (a.ofNat m) = some (m : ℝ))
    (hs : ∀ k i, a.val (s k i) = some (X k i)) (D : Fin M → ℝ) (hD : ∀ i k l, |X k i - X l i| ≤ D i)
    (hsmall : (1 + u) ^ (2 * N ^ 2 + 3) < 2) (lib : TestLib ℝ N) (level : ℝ) (crit : a.F) (c : ℝ) (hc : a.val crit = some c) :
    ∃ U, estimateUDG lib X (.name "dcov_fast") level = .ok (U, none) ∧
      ∀ i j, (dcov X).2 i ≠ 0 → (dcov X).2 j ≠ 0 →
        dcovErr u N * (D i * D j / ((dcov X).2 i * (dcov X).2 j)) + |c - lib.critVal level| <
          |N * (dcov X).1 i j / ((dcov X).2 i * (dcov X).2 j) - lib.critVal level| →
        a.dcovGraph s crit i j = U i j := by
  refine ⟨_, rfl, ?_⟩
  intro i j hi hj hm
  obtain ⟨z, hz, ez⟩ := dcov_error R hu hN hnat hs D hD hsmall i j hi hj
  unfold FloatLib.dcovGraph clearDiag
  by_cases hij : i = j
  · simp [hij]
  simp only [if_neg hij]
  rw [R.ge _ _ _ _ hz hc]
  have hq : (dcov X).2 i * (dcov X).2 j ≠ 0 := mul_ne_zero hi hj
  have hdiv : Fl.div (N * (dcov X).1 i j) ((dcov X).2 i * (dcov X).2 j) = .fin (N * (dcov X).1 i j / ((dcov X).2 i * (dcov X).2 j)) :=
    if_neg hq
  rw [hdiv]
  show decide (c ≤ z) = decide (lib.critVal level ≤ N * (dcov X).1 i j / ((dcov X).2 i * (dcov X).2 j))
  rw [decide_eq_decide]
  have e1 := abs_le.mp ez
  have e2 := abs_le.mp (le_refl |c - lib.critVal level|)
  rcases le_or_gt (lib.critVal level) (N * (dcov X).1 i j / ((dcov X).2 i * (dcov X).2 j)) with h | h
  · rw [abs_of_nonneg (sub_nonneg.mpr h)] at hm
    exact ⟨fun _ => h, fun _ => by linarith⟩
  · rw [abs_of_neg (sub_neg.mpr h)] at hm
    exact ⟨fun h' => by linarith, fun h' => by linarith⟩

theorem fl64_relative : (roundLib (fl64 (K := ℝ))).RelativeModel (1 / 2 ^ 53) := by
  have herr : ∀ x : ℝ, |fl64 x - x| ≤ 1 / 2 ^ 53 * |x| := fun x => by
    have := fl64_error x; rw [div_mul_eq_mul_div, one_mul]; exact this
  have fin_of : ∀ {x : Fl ℝ} {r : ℝ}, (roundLib (fl64 (K := ℝ))).val x = some r → x = .fin r := by
    intro x r h
    cases x <;> simp [roundLib] at h
    rw [h]
  constructor
  · intro x y r q h1 h2; obtain rfl := fin_of h1; obtain rfl := fin_of h2; exact ⟨_, rfl, herr _⟩
  · intro x y r q h1 h2; obtain rfl := fin_of h1; obtain rfl := fin_of h2; exact ⟨_, rfl, herr _⟩
  · intro x y r q h1 h2; obtain rfl := fin_of h1; obtain rfl := fin_of h2; exact ⟨_, rfl, herr _⟩
  · intro x y r q h1 h2 hq; obtain rfl := fin_of h1; obtain rfl := fin_of h2
    refine ⟨fl64 (r / q), ?_, herr _⟩
    have : (roundLib fl64).div (.fin r) (.fin q) = .fin (fl64 (r / q)) := if_neg hq
    rw [this]; rfl
  · intro x y t r q p h1 h2 h3; obtain rfl := fin_of h1; obtain rfl := fin_of h2; obtain rfl := fin_of h3; exact ⟨_, rfl, herr _⟩
  · intro x r h1; obtain rfl := fin_of h1; rfl
  · intro x y r q h1 h2; obtain rfl := fin_of h1; obtain rfl := fin_of h2; rfl

theorem fl64_nat (n : ℕ) (hn : n ≤ 2 ^ 53) : fl64 (n : ℝ) = n := by
  rcases Nat.eq_zero_or_pos n with rfl | hpos
  · simp [fl64]
  have hn0 : (n : ℝ) ≠ 0 := by exact_mod_cast hpos.ne'
  unfold fl64
  rw [if_neg hn0, abs_of_nonneg (Nat.cast_nonneg n), Int.log_natCast]
  have hlog : Nat.log 2 n ≤ 53 := by
    have := Nat.log_mono_right (b := 2) hn
    rwa [Nat.log_pow (by norm_num)] at this
  have key : ∃ m : ℤ, (n : ℝ) / 2 ^ ((Nat.log 2 n : ℤ) - 52) = m := by
    rcases Nat.lt_or_ge (Nat.log 2 n) 53 with h | h
    · refine ⟨n * 2 ^ (52 - Nat.log 2 n), ?_⟩
      have : ((Nat.log 2 n : ℤ) - 52) = -((52 - Nat.log 2 n : ℕ) : ℤ) := by omega
      rw [this, zpow_neg, div_inv_eq_mul, zpow_natCast]
      push_cast; rfl
    · have h53 : Nat.log 2 n = 53 := by omega
      have h2 : n = 2 ^ 53 := le_antisymm hn (by have := Nat.pow_log_le_self 2 hpos.ne'; rwa [h53] at this)
      refine ⟨2 ^ 52, ?_⟩
      rw [h53, h2]; norm_num
  obtain ⟨m, hm⟩ := key
  rw [hm, rne_int, ← hm, div_mul_cancel₀]
  positivity

/-- (1+u)^m ≤ 1 + 2mu -/
theorem pow1_le {m : Nat} (hu : 0 ≤ u) (h : m * u ≤ 1) : (1 + u) ^ m ≤ 1 + 2 * (m * u) := by
  have hmu : 0 ≤ m * u := by positivity
  have h1 : (1 + u) ^ m ≤ Real.exp (m * u) := by
    rw [Real.exp_nat_mul]
    exact pow_le_pow_left₀ (by linarith) (by linarith [Real.add_one_le_exp u]) m
  have h2 := Real.abs_exp_sub_one_sub_id_le (x := m * u) (by rw [abs_of_nonneg hmu]; exact h)
  have h3 := (abs_le.mp h2).2
  nlinarith

/-- **C219, double precision** (round to nearest even with 53 bits, exponents unbounded): with 2 to 2^20 observations, the graph has an edge
exactly if the exact graph has, unless the statistic is within `2^(-45) N³ D_i D_j / (d_i d_j)`, plus the error of the critical value, of
the critical value. -/
theorem C219_double (hN : 2 ≤ N) (hN' : N ≤ 2 ^ 20) (X : Fin N → Fin M → ℝ) (D : Fin M → ℝ) (hD : ∀ i k l, |X k i - X l i| ≤ D i)
    (lib : TestLib ℝ N) (level c : ℝ) :
    ∃ U, estimateUDG lib X (.name "dcov_fast") level = .ok (U, none) ∧
      ∀ i j, (dcov X).2 i ≠ 0 → (dcov X).2 j ≠ 0 →
        N ^ 3 / 2 ^ 45 * (D i * D j / ((dcov X).2 i * (dcov X).2 j)) + |c - lib.critVal level| <
          |N * (dcov X).1 i j / ((dcov X).2 i * (dcov X).2 j) - lib.critVal level| →
        (roundLib fl64).dcovGraph (fun k i => .fin (X k i)) (.fin c) i j = U i j := by
  have hu : (0 : ℝ) ≤ 1 / 2 ^ 53 := by positivity
  have hNr : (2 : ℝ) ≤ N := by exact_mod_cast hN
  have hNr' : (N : ℝ) ≤ 2 ^ 20 := by exact_mod_cast hN'
  have hN2 : N ^ 2 ≤ 2 ^ 40 := by have := Nat.pow_le_pow_left hN' 2; norm_num at this ⊢; exact this
  have hN2r : (N : ℝ) ^ 2 ≤ 2 ^ 40 := by exact_mod_cast hN2
  have hL := pow1_le (u := 1 / 2 ^ 53) (m := 2 * N ^ 2 + 3) hu (by push_cast; norm_num at hN2r ⊢; linarith)
  have hK := pow1_le (u := 1 / 2 ^ 53) (m := 3 * N ^ 2 + 9) hu (by push_cast; norm_num at hN2r ⊢; linarith)
  have hsmall : (1 + 1 / 2 ^ 53 : ℝ) ^ (2 * N ^ 2 + 3) ≤ 3 / 2 := by
    refine hL.trans ?_
    push_cast; norm_num at hN2r ⊢; linarith
  obtain ⟨U, h1, h2⟩ := C219_dcov_fast_error (a := roundLib fl64) (s := fun k i => .fin (X k i)) (X := X) fl64_relative hu hN
    (fun m hm => by
      show some (fl64 (m : ℝ)) = _
      rw [fl64_nat m (hm.trans (hN2.trans (by norm_num)))]) (fun _ _ => rfl) D hD (by linarith) lib level (.fin c) c rfl
  refine ⟨U, h1, ?_⟩
  intro i j hi hj hm
  refine h2 i j hi hj (lt_of_le_of_lt (add_le_add_left (mul_le_mul_of_nonneg_right ?_ ?_) _) hm)
  · unfold dcovErr
    set L := (1 + 1 / 2 ^ 53 : ℝ) ^ (2 * N ^ 2 + 3)
    set K := (1 + 1 / 2 ^ 53 : ℝ) ^ (3 * N ^ 2 + 9)
    have hb : (K + L - 2) / (2 - L) ≤ N ^ 2 / 2 ^ 48 := by
      rw [div_le_iff₀ (by linarith)]
      have h4 : (4 : ℝ) ≤ N ^ 2 := by nlinarith
      push_cast at hK hL
      have h5 : K + L - 2 ≤ N ^ 2 / 2 ^ 49 := by
        have : K + L - 2 ≤ 2 * ((5 * N ^ 2 + 12) * (1 / 2 ^ 53)) := by linarith
        refine this.trans ?_
        rw [le_div_iff₀ (by positivity)]
        norm_num
        nlinarith
      have h6 : (1 : ℝ) / 2 ≤ 2 - L := by linarith
      have h7 : (N : ℝ) ^ 2 / 2 ^ 48 * (1 / 2) ≤ N ^ 2 / 2 ^ 48 * (2 - L) := mul_le_mul_of_nonneg_left h6 (by positivity)
      have h8 : (N : ℝ) ^ 2 / 2 ^ 49 = N ^ 2 / 2 ^ 48 * (1 / 2) := by ring
      linarith
    refine (mul_le_mul_of_nonneg_right hb (by positivity)).trans (le_of_eq ?_)
    ring
  · have hDn : ∀ i, 0 ≤ D i := fun i => (abs_nonneg _).trans (hD i ⟨0, by omega⟩ ⟨0, by omega⟩)
    have hd : ∀ i, 0 ≤ (dcov X).2 i := fun i =>
      div_nonneg (sum_nonneg fun k _ => sum_nonneg fun l _ => abs_nonneg _) (by positivity)
    exact div_nonneg (mul_nonneg (hDn i) (hDn j)) (mul_nonneg (hd i) (hd j))


-- the assumptions hold for the first two columns of `exRound`, whose statistic is 1/2, and the critical value 3.84
example : 2 ≤ 2 ∧ (∀ i k l, |exRound k i - exRound l i| ≤ 1) ∧ (dcov exRound).2 0 ≠ 0 ∧ (dcov exRound).2 1 ≠ 0 ∧
    ((2 : ℕ) : ℝ) ^ 3 / 2 ^ 45 * (1 * 1 / ((dcov exRound).2 0 * (dcov exRound).2 1)) + |384 / 100 - 3841 / 1000| <
      |((2 : ℕ) : ℝ) * (dcov exRound).1 0 1 / ((dcov exRound).2 0 * (dcov exRound).2 1) - 3841 / 1000| := by
  have hf : (Finset.univ.filter fun e : Fin 2 × Fin 2 => e.1 < e.2) = {(0, 1)} := by decide
  have hb : ∀ i : Fin 3, i ≠ 2 → (dcov exRound).2 i = 1 / 2 := by
    intro i hi; simp [dcov, allMean, distMat, exRound, hi]; norm_num
  have hc : ∀ i j : Fin 3, i ≠ 2 → j ≠ 2 → (dcov exRound).1 i j = 1 / 16 := by
    intro i j hi hj
    simp [dcov, hf, centre, colMean, rowMean, allMean, distMat, exRound, hi, hj]; norm_num
  rw [hb 0 (by decide), hb 1 (by decide), hc 0 1 (by decide) (by decide)]
  refine ⟨le_rfl, ?_, by norm_num, by norm_num, ?_⟩
  · intro i k l
    unfold exRound
    fin_cases k <;> fin_cases l <;> by_cases hi : i = 2 <;> simp [hi]
  · rw [show |(384 / 100 - 3841 / 1000 : ℝ)| = 1 / 1000 by norm_num [abs_of_neg],
      show |(((2 : ℕ) : ℝ) * (1 / 16) / (1 / 2 * (1 / 2)) - 3841 / 1000 : ℝ)| = 3341 / 1000 by norm_num [abs_of_neg]]
    norm_num

end Medil

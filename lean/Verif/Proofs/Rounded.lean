import Verif.Spec.Rounded
import Mathlib.Topology.Order.Basic
import Mathlib.Analysis.SpecificLimits.Basic
import Mathlib.Analysis.SpecialFunctions.Log.Basic
import Mathlib.Tactic.Linarith
import Mathlib.Tactic.Ring
/-
  Along a sequence of ever more accurate arithmetics every computed quantity converges to the exact one.
-/
namespace Medil
namespace FloatLib
open Filter Topology

/-- ever more accurate arithmetics -/
structure Seq where
  a : ℕ → FloatLib
  acc : ∀ k, (a k).Accurate (1 / (k + 1))

variable {A : Seq}

/-- the computed quantities are finite from some point on and converge to `r` -/
def Conv (A : Seq) (x : ∀ k, (A.a k).F) (r : ℝ) : Prop :=
  ∃ z : ℕ → ℝ, (∀ᶠ k in atTop, (A.a k).val (x k) = some (z k)) ∧ Tendsto z atTop (𝓝 r)

/-- exactly zero from some point on -/
def IsZero (A : Seq) (x : ∀ k, (A.a k).F) : Prop := ∀ᶠ k in atTop, (A.a k).val (x k) = some 0

theorem eps_tendsto : Tendsto (fun k : ℕ => 1 / ((k : ℝ) + 1)) atTop (𝓝 0) := tendsto_one_div_add_atTop_nhds_zero_nat

theorem eps_pos (k : ℕ) : 0 < 1 / ((k : ℝ) + 1) := by positivity

theorem conv_of_near {x : ∀ k, (A.a k).F} {r b : ℕ → ℝ} {R B : ℝ} (hr : Tendsto r atTop (𝓝 R)) (hb : Tendsto b atTop (𝓝 B))
    (h : ∀ᶠ k in atTop, ∃ z, (A.a k).val (x k) = some z ∧ |z - r k| ≤ 1 / ((k : ℝ) + 1) * b k) : Conv A x R := by
  refine ⟨fun k => ((A.a k).val (x k)).getD 0, h.mono fun k ⟨z, hz, _⟩ => by simp only [hz, Option.getD_some], ?_⟩
  have h0 : Tendsto (fun k : ℕ => 1 / ((k : ℝ) + 1) * b k) atTop (𝓝 0) := by
    simpa using eps_tendsto.mul hb
  have h1 : Tendsto (fun k => ((A.a k).val (x k)).getD 0 - r k) atTop (𝓝 0) := by
    refine squeeze_zero_norm' (h.mono fun k ⟨z, hz, hle⟩ => ?_) h0
    rw [hz]; exact hle
  have h2 := h1.add hr
  simpa using h2

theorem conv_of_approx {x : ∀ k, (A.a k).F} {r : ℕ → ℝ} {R : ℝ} (hr : Tendsto r atTop (𝓝 R))
    (h : ∀ᶠ k in atTop, Approx (A.a k) (1 / ((k : ℝ) + 1)) (x k) (r k)) : Conv A x R := by
  refine conv_of_near hr (hr.abs.add_const 1) ?_
  have h1 : ∀ᶠ k in atTop, |r k| < |R| + 1 := hr.abs.eventually_lt_const (by linarith)
  have h2 : ∀ᶠ k : ℕ in atTop, |R| + 1 ≤ (k : ℝ) :=
    (tendsto_natCast_atTop_atTop (R := ℝ)).eventually_ge_atTop _
  filter_upwards [h, h1, h2] with k hk h1 h2
  obtain ⟨z, hz, hle, -⟩ := hk (by rw [one_div_one_div]; linarith)
  exact ⟨z, hz, hle⟩

theorem conv_exact {x : ∀ k, (A.a k).F} {r : ℝ} (h : ∀ k, (A.a k).val (x k) = some r) : Conv A x r :=
  ⟨fun _ => r, Eventually.of_forall h, tendsto_const_nhds⟩

theorem conv_ofNat (n : ℕ) : Conv A (fun k => (A.a k).ofNat n) n :=
  conv_of_approx tendsto_const_nhds (Eventually.of_forall fun k => (A.acc k).ofNat n)

variable {x y w : ∀ k, (A.a k).F} {r q t : ℝ}

theorem Conv.add (hx : Conv A x r) (hy : Conv A y q) : Conv A (fun k => (A.a k).add (x k) (y k)) (r + q) := by
  obtain ⟨u, hu, htu⟩ := hx
  obtain ⟨v, hv, htv⟩ := hy
  refine conv_of_approx (htu.add htv) ?_
  filter_upwards [hu, hv] with k h1 h2 using (A.acc k).add _ _ _ _ h1 h2

theorem Conv.sub (hx : Conv A x r) (hy : Conv A y q) : Conv A (fun k => (A.a k).sub (x k) (y k)) (r - q) := by
  obtain ⟨u, hu, htu⟩ := hx
  obtain ⟨v, hv, htv⟩ := hy
  refine conv_of_approx (htu.sub htv) ?_
  filter_upwards [hu, hv] with k h1 h2 using (A.acc k).sub _ _ _ _ h1 h2

theorem Conv.mul (hx : Conv A x r) (hy : Conv A y q) : Conv A (fun k => (A.a k).mul (x k) (y k)) (r * q) := by
  obtain ⟨u, hu, htu⟩ := hx
  obtain ⟨v, hv, htv⟩ := hy
  refine conv_of_approx (htu.mul htv) ?_
  filter_upwards [hu, hv] with k h1 h2 using (A.acc k).mul _ _ _ _ h1 h2

theorem Conv.div (hx : Conv A x r) (hy : Conv A y q) (hq : q ≠ 0) : Conv A (fun k => (A.a k).div (x k) (y k)) (r / q) := by
  obtain ⟨u, hu, htu⟩ := hx
  obtain ⟨v, hv, htv⟩ := hy
  refine conv_of_approx (htu.div htv hq) ?_
  filter_upwards [hu, hv, htv.eventually_ne hq] with k h1 h2 h3 using (A.acc k).div _ _ _ _ h1 h2 h3

theorem Conv.abs (hx : Conv A x r) : Conv A (fun k => (A.a k).abs (x k)) |r| := by
  obtain ⟨u, hu, htu⟩ := hx
  exact ⟨fun k => |u k|, hu.mono fun k h => (A.acc k).abs _ _ h, htu.abs⟩

theorem Conv.neg (hx : Conv A x r) : Conv A (fun k => (A.a k).neg (x k)) (-r) := by
  obtain ⟨u, hu, htu⟩ := hx
  exact ⟨fun k => -u k, hu.mono fun k h => (A.acc k).neg _ _ h, htu.neg⟩

theorem Conv.sqrt (hx : Conv A x r) (hr : 0 < r) : Conv A (fun k => (A.a k).sqrt (x k)) (Real.sqrt r) := by
  obtain ⟨u, hu, htu⟩ := hx
  refine conv_of_approx htu.sqrt ?_
  filter_upwards [hu, htu.eventually_const_lt hr] with k h1 h2 using (A.acc k).sqrt _ _ h1 h2.le

theorem Conv.log (hx : Conv A x r) (hr : 0 < r) : Conv A (fun k => (A.a k).log (x k)) (Real.log r) := by
  obtain ⟨u, hu, htu⟩ := hx
  refine conv_of_approx (htu.log hr.ne') ?_
  filter_upwards [hu, htu.eventually_const_lt hr] with k h1 h2 using (A.acc k).log _ _ h1 h2

theorem Conv.clipLow (hx : Conv A x r) : Conv A (fun k => (A.a k).clipLow (x k)) (max r (1 / 100000)) := by
  obtain ⟨u, hu, htu⟩ := hx
  refine conv_of_near (r := fun k => max (u k) (1 / 100000)) (b := fun _ => 1) (htu.max tendsto_const_nhds) tendsto_const_nhds ?_
  filter_upwards [hu] with k h1
  obtain ⟨lo, h2, h3⟩ := (A.acc k).clipLow _ _ h1
  refine ⟨_, h3, ?_⟩
  have := abs_max_sub_max_le_abs lo (1 / 100000) (u k)
  rw [max_comm (u k), max_comm (u k)]
  linarith

theorem Conv.clipOne (hx : Conv A x r) : Conv A (fun k => (A.a k).clipOne (x k)) (max (-1) (min r 1)) := by
  obtain ⟨u, hu, htu⟩ := hx
  exact ⟨_, hu.mono fun k h => (A.acc k).clipOne _ _ h, tendsto_const_nhds.max (htu.min tendsto_const_nhds)⟩

/-! ### sums -/

/-- the exact sum along a tree -/
def treeSum {m : Nat} (z : Fin m → ℝ) (t : SumTree m) : ℝ := (t.leaves.map z).sum

theorem treeSum_perm {m : Nat} (z : Fin m → ℝ) {t : SumTree m} (h : t.leaves.Perm (List.finRange m)) : treeSum z t = ∑ i, z i := by
  unfold treeSum
  rw [(h.map z).sum_eq, ← List.ofFn_eq_map, List.sum_ofFn]

theorem treeSum_le {m : Nat} (z : Fin m → ℝ) (t : SumTree m) : |treeSum z t| ≤ treeSum (fun i => |z i|) t := by
  unfold treeSum
  induction t with
  | leaf i => simp [SumTree.leaves]
  | node b l r ihl ihr =>
    simp only [SumTree.leaves, List.map_append, List.sum_append]
    exact (abs_add_le _ _).trans (add_le_add ihl ihr)

theorem treeSum_nonneg {m : Nat} (z : Fin m → ℝ) (t : SumTree m) : 0 ≤ treeSum (fun i => |z i|) t :=
  (abs_nonneg _).trans (treeSum_le z t)

theorem treeSum_node {m : Nat} (z : Fin m → ℝ) (b : Bool) (l r : SumTree m) : treeSum z (.node b l r) = treeSum z l + treeSum z r := by
  simp [treeSum, SumTree.leaves]

theorem SumTree.leaves_pos {m : Nat} (t : SumTree m) : 1 ≤ t.leaves.length := by
  cases t with
  | leaf i => simp [SumTree.leaves]
  | node b l r =>
    have : 1 ≤ l.leaves.length := by
      induction l with
      | leaf i => simp [SumTree.leaves]
      | node b l r ihl ihr => simp only [SumTree.leaves, List.length_append]; omega
    simp only [SumTree.leaves, List.length_append]; omega

/-- error of one addition on top of the errors of the summands -/
theorem node_step {ε B v v1 v2 s1 s2 : ℝ} {n1 n2 : ℕ} (h1 : 1 ≤ n1) (h2 : 1 ≤ n2) (hε : 0 < ε) (hε1 : ε ≤ 1) (hB : 1 ≤ B)
    (e1 : |v1 - s1| ≤ ε * (4 ^ n1 - 2) * B) (e2 : |v2 - s2| ≤ ε * (4 ^ n2 - 2) * B) (hs : |s1 + s2| ≤ B)
    (hv : |v - (v1 + v2)| ≤ ε * (|v1 + v2| + 1)) : |v - (s1 + s2)| ≤ ε * (4 ^ (n1 + n2) - 2) * B := by
  have hA : (4 : ℝ) ≤ 4 ^ n1 := by simpa using pow_le_pow_right₀ (by norm_num : (1 : ℝ) ≤ 4) h1
  have hC : (4 : ℝ) ≤ 4 ^ n2 := by simpa using pow_le_pow_right₀ (by norm_num : (1 : ℝ) ≤ 4) h2
  rw [pow_add]
  generalize (4 : ℝ) ^ n1 = p at *
  generalize (4 : ℝ) ^ n2 = q at *
  have hpq : 2 * (p - 2 + (q - 2)) + 2 ≤ p * q - 2 := by nlinarith [mul_nonneg (sub_nonneg.mpr hA) (sub_nonneg.mpr hC)]
  have t1 : |v1 + v2| ≤ |s1 + s2| + |v1 - s1| + |v2 - s2| := by
    have : v1 + v2 = (s1 + s2) + (v1 - s1) + (v2 - s2) := by ring
    rw [this]; exact (abs_add_three _ _ _)
  have t2 : |v - (s1 + s2)| ≤ |v - (v1 + v2)| + |v1 - s1| + |v2 - s2| := by
    have : v - (s1 + s2) = (v - (v1 + v2)) + (v1 - s1) + (v2 - s2) := by ring
    rw [this]; exact (abs_add_three _ _ _)
  have hE : |v1 - s1| + |v2 - s2| ≤ ε * B * (p - 2 + (q - 2)) := by nlinarith
  have hE0 : 0 ≤ |v1 - s1| + |v2 - s2| := by positivity
  have t3 : ε * (|v1 + v2| + 1) ≤ ε * (2 * B) + (|v1 - s1| + |v2 - s2|) := by
    have : ε * (|v1 + v2| + 1) ≤ ε * (2 * B + (|v1 - s1| + |v2 - s2|)) := mul_le_mul_of_nonneg_left (by linarith) hε.le
    nlinarith
  have hεB : 0 ≤ ε * B := by positivity
  nlinarith [mul_le_mul_of_nonneg_left hpq hεB]

theorem pow_bound {ε B : ℝ} {n m : ℕ} (hnm : n ≤ m) (hε : 0 < ε) (hB : 1 ≤ B) (h : ε * 4 ^ m ≤ 1) : ε * (4 ^ n - 2) * B ≤ B := by
  have : (4 : ℝ) ^ n ≤ 4 ^ m := pow_le_pow_right₀ (by norm_num) hnm
  have h1 : ε * (4 ^ n - 2) ≤ 1 := by nlinarith
  nlinarith

theorem pow_two_le {ε B : ℝ} {n : ℕ} (h1 : 1 ≤ n) (hε : 0 < ε) (hB : 1 ≤ B) : ε * (2 * B) ≤ ε * (4 ^ n - 2) * B := by
  have hA : (4 : ℝ) ≤ 4 ^ n := by simpa using pow_le_pow_right₀ (by norm_num : (1 : ℝ) ≤ 4) h1
  have : 0 ≤ ε * B := by positivity
  nlinarith

/-- error of a sum in any order -/
theorem evalSum_error {a : FloatLib} {ε : ℝ} (ha : a.Accurate ε) (hε : 0 < ε) {m : Nat} (hm : ε * 4 ^ m ≤ 1) {f : Fin m → a.F}
    {z : Fin m → ℝ} (hf : ∀ i, a.val (f i) = some (z i)) {B : ℝ} (hB : 1 ≤ B) (hBε : 3 * B ≤ 1 / ε) :
    ∀ t : SumTree m, t.leaves.length ≤ m → treeSum (fun i => |z i|) t ≤ B →
      ∃ v, a.val (a.evalSum f t) = some v ∧ |v - treeSum z t| ≤ ε * (4 ^ t.leaves.length - 2) * B := by
  have hε1 : ε ≤ 1 := by
    have : (1 : ℝ) ≤ 4 ^ m := one_le_pow₀ (by norm_num)
    nlinarith
  intro t
  induction t with
  | leaf i =>
    intro _ _
    refine ⟨z i, hf i, ?_⟩
    have := pow_two_le (n := 1) le_rfl hε hB
    simp only [treeSum, SumTree.leaves, List.map_cons, List.map_nil, List.sum_cons, List.sum_nil, add_zero, sub_self, abs_zero,
      List.length_cons, List.length_nil, zero_add]
    have : 0 ≤ ε * (2 * B) := by positivity
    linarith
  | node b l r ihl ihr =>
    intro hlen hW
    simp only [SumTree.leaves, List.length_append] at hlen ⊢
    have hl := SumTree.leaves_pos l
    have hr := SumTree.leaves_pos r
    rw [treeSum_node] at hW
    have n1 := treeSum_nonneg z l
    have n2 := treeSum_nonneg z r
    obtain ⟨v1, hv1, e1⟩ := ihl (by omega) (by linarith)
    obtain ⟨v2, hv2, e2⟩ := ihr (by omega) (by linarith)
    have hs : |treeSum z l + treeSum z r| ≤ B :=
      (abs_add_le _ _).trans ((add_le_add (treeSum_le z l) (treeSum_le z r)).trans hW)
    have hb1 := pow_bound (show l.leaves.length ≤ m by omega) hε hB hm
    have hb2 := pow_bound (show r.leaves.length ≤ m by omega) hε hB hm
    have hv12 : |v1 + v2| ≤ 1 / ε := by
      have : v1 + v2 = (treeSum z l + treeSum z r) + (v1 - treeSum z l) + (v2 - treeSum z r) := by ring
      rw [this]
      refine (abs_add_three _ _ _).trans ?_
      linarith
    obtain ⟨v, hv, e, -⟩ := ha.add _ _ _ _ hv1 hv2 hv12
    refine ⟨v, hv, ?_⟩
    rw [treeSum_node]
    exact node_step hl hr hε hε1 hB e1 e2 hs e

/-- error of an inner product in any order, with or without fused multiply-add -/
theorem evalDot_error {a : FloatLib} {ε : ℝ} (ha : a.Accurate ε) (hε : 0 < ε) {m : Nat} (hm : ε * 4 ^ m ≤ 1) {f g : Fin m → a.F}
    {z z' : Fin m → ℝ} (hf : ∀ i, a.val (f i) = some (z i)) (hg : ∀ i, a.val (g i) = some (z' i)) {B : ℝ} (hB : 1 ≤ B)
    (hBε : 3 * B ≤ 1 / ε) :
    ∀ t : SumTree m, t.leaves.length ≤ m → treeSum (fun i => |z i * z' i|) t ≤ B →
      ∃ v, a.val (a.evalDot f g t) = some v ∧ |v - treeSum (fun i => z i * z' i) t| ≤ ε * (4 ^ t.leaves.length - 2) * B := by
  have hε1 : ε ≤ 1 := by
    have : (1 : ℝ) ≤ 4 ^ m := one_le_pow₀ (by norm_num)
    nlinarith
  have hleaf : ∀ i : Fin m, treeSum (fun i => z i * z' i) (.leaf i) = z i * z' i := fun i => by simp [treeSum, SumTree.leaves]
  have hleaf' : ∀ i : Fin m, treeSum (fun i => |z i * z' i|) (.leaf i) = |z i * z' i| := fun i => by simp [treeSum, SumTree.leaves]
  intro t
  induction t with
  | leaf i =>
    intro _ hW
    rw [hleaf'] at hW
    obtain ⟨v, hv, e, -⟩ := ha.mul _ _ _ _ (hf i) (hg i) (by linarith)
    refine ⟨v, by rw [evalDot]; exact hv, ?_⟩
    rw [hleaf]
    have := pow_two_le (n := 1) le_rfl hε hB
    simp only [SumTree.leaves, List.length_cons, List.length_nil, zero_add]
    have : ε * (|z i * z' i| + 1) ≤ ε * (2 * B) := mul_le_mul_of_nonneg_left (by linarith) hε.le
    linarith
  | node b l r ihl ihr =>
    intro hlen hW
    simp only [SumTree.leaves, List.length_append] at hlen ⊢
    have hl := SumTree.leaves_pos l
    have hr := SumTree.leaves_pos r
    rw [treeSum_node] at hW
    have n1 := treeSum_nonneg (fun i => z i * z' i) l
    have n2 := treeSum_nonneg (fun i => z i * z' i) r
    obtain ⟨v1, hv1, e1⟩ := ihl (by omega) (by linarith)
    have hs : |treeSum (fun i => z i * z' i) l + treeSum (fun i => z i * z' i) r| ≤ B :=
      (abs_add_le _ _).trans ((add_le_add (treeSum_le _ l) (treeSum_le _ r)).trans hW)
    have hb1 := pow_bound (show l.leaves.length ≤ m by omega) hε hB hm
    have hb2 := pow_bound (show r.leaves.length ≤ m by omega) hε hB hm
    have hplain : a.val (a.evalDot f g (.node b l r)) = a.val (a.add (a.evalDot f g l) (a.evalDot f g r)) → 
        ∃ v, a.val (a.evalDot f g (.node b l r)) = some v ∧
          |v - treeSum (fun i => z i * z' i) (.node b l r)| ≤ ε * (4 ^ (l.leaves.length + r.leaves.length) - 2) * B := by
      intro heq
      obtain ⟨v2, hv2, e2⟩ := ihr (by omega) (by linarith)
      have hv12 : |v1 + v2| ≤ 1 / ε := by
        have : v1 + v2 = (treeSum (fun i => z i * z' i) l + treeSum (fun i => z i * z' i) r) +
          (v1 - treeSum (fun i => z i * z' i) l) + (v2 - treeSum (fun i => z i * z' i) r) := by ring
        rw [this]
        refine (abs_add_three _ _ _).trans ?_
        linarith
      obtain ⟨v, hv, e, -⟩ := ha.add _ _ _ _ hv1 hv2 hv12
      refine ⟨v, heq.trans hv, ?_⟩
      rw [treeSum_node]
      exact node_step hl hr hε hε1 hB e1 e2 hs e
    cases b with
    | false => exact hplain (by cases r <;> rw [evalDot] <;> first | rfl | simp)
    | true =>
      cases r with
      | node b' l' r' => exact hplain (by rw [evalDot]; simp)
      | leaf i =>
        rw [hleaf] at hs
        have hv12 : |z i * z' i + v1| ≤ 1 / ε := by
          have : z i * z' i + v1 = (treeSum (fun i => z i * z' i) l + z i * z' i) + (v1 - treeSum (fun i => z i * z' i) l) := by ring
          rw [this]
          refine (abs_add_le _ _).trans ?_
          linarith
        obtain ⟨v, hv, e, -⟩ := ha.fma _ _ _ _ _ _ (hf i) (hg i) hv1 hv12
        refine ⟨v, by rw [evalDot]; exact hv, ?_⟩
        rw [treeSum_node, hleaf]
        rw [add_comm (z i * z' i)] at e
        refine node_step hl hr hε hε1 hB e1 (v2 := z i * z' i) ?_ hs e
        have h0 := pow_two_le hr hε hB
        have : 0 ≤ ε * (2 * B) := by positivity
        simp only [sub_self, abs_zero]
        linarith

theorem eventually_small (m : ℕ) (B : ℝ) : ∀ᶠ k : ℕ in atTop, 1 / ((k : ℝ) + 1) * 4 ^ m ≤ 1 ∧ 3 * B ≤ 1 / (1 / ((k : ℝ) + 1)) := by
  have h1 : ∀ᶠ k : ℕ in atTop, (4 : ℝ) ^ m ≤ k := (tendsto_natCast_atTop_atTop (R := ℝ)).eventually_ge_atTop _
  have h2 : ∀ᶠ k : ℕ in atTop, 3 * B ≤ (k : ℝ) := (tendsto_natCast_atTop_atTop (R := ℝ)).eventually_ge_atTop _
  filter_upwards [h1, h2] with k h1 h2
  have : (0 : ℝ) < k + 1 := by positivity
  refine ⟨?_, by rw [one_div_one_div]; linarith⟩
  rw [one_div, inv_mul_le_iff₀ this]
  linarith

theorem Conv.sum {m : Nat} (site : List Nat) {f : ∀ k, Fin m → (A.a k).F} {z : Fin m → ℝ} (h : ∀ i, Conv A (fun k => f k i) (z i)) :
    Conv A (fun k => (A.a k).sum site (f k)) (∑ i, z i) := by
  cases m with
  | zero => simpa [FloatLib.sum] using conv_ofNat (A := A) 0
  | succ m =>
    choose u hu htu using h
    set B := ∑ i, |z i| + 1 with hB
    have hB1 : 1 ≤ B := by
      have : 0 ≤ ∑ i, |z i| := Finset.sum_nonneg fun i _ => abs_nonneg _
      linarith
    have hsum : Tendsto (fun k => ∑ i, |u i k|) atTop (𝓝 (∑ i, |z i|)) := tendsto_finsetSum _ fun i _ => (htu i).abs
    refine conv_of_near (r := fun k => ∑ i, u i k) (b := fun _ => 4 ^ (m + 1) * B) (tendsto_finsetSum _ fun i _ => htu i)
      tendsto_const_nhds ?_
    filter_upwards [eventually_all.mpr hu, hsum.eventually_lt_const (show ∑ i, |z i| < B by linarith), eventually_small (m + 1) B]
      with k h1 h2 ⟨h3, h4⟩
    have hp := (A.a k).order_perm site m
    have hlen : ((A.a k).order site m).leaves.length = m + 1 := by rw [hp.length_eq, List.length_finRange]
    obtain ⟨v, hv, e⟩ := evalSum_error (A.acc k) (eps_pos k) h3 (f := f k) (z := fun i => u i k) h1 hB1 h4 ((A.a k).order site m)
      (by omega) (by rw [treeSum_perm _ hp]; exact h2.le)
    refine ⟨v, hv, ?_⟩
    rw [treeSum_perm _ hp, hlen] at e
    have := eps_pos k
    have h5 : 0 ≤ 1 / ((k : ℝ) + 1) * 2 * B := by positivity
    nlinarith

theorem Conv.dot {m : Nat} (site : List Nat) {f g : ∀ k, Fin m → (A.a k).F} {z z' : Fin m → ℝ} (h : ∀ i, Conv A (fun k => f k i) (z i))
    (h' : ∀ i, Conv A (fun k => g k i) (z' i)) : Conv A (fun k => (A.a k).dot site (f k) (g k)) (∑ i, z i * z' i) := by
  cases m with
  | zero => simpa [FloatLib.dot] using conv_ofNat (A := A) 0
  | succ m =>
    choose u hu htu using h
    choose u' hu' htu' using h'
    set B := ∑ i, |z i * z' i| + 1 with hB
    have hB1 : 1 ≤ B := by
      have : 0 ≤ ∑ i, |z i * z' i| := Finset.sum_nonneg fun i _ => abs_nonneg _
      linarith
    have hsum : Tendsto (fun k => ∑ i, |u i k * u' i k|) atTop (𝓝 (∑ i, |z i * z' i|)) :=
      tendsto_finsetSum _ fun i _ => ((htu i).mul (htu' i)).abs
    refine conv_of_near (r := fun k => ∑ i, u i k * u' i k) (b := fun _ => 4 ^ (m + 1) * B)
      (tendsto_finsetSum _ fun i _ => (htu i).mul (htu' i)) tendsto_const_nhds ?_
    filter_upwards [eventually_all.mpr hu, eventually_all.mpr hu',
      hsum.eventually_lt_const (show ∑ i, |z i * z' i| < B by linarith), eventually_small (m + 1) B] with k h1 h1' h2 ⟨h3, h4⟩
    have hp := (A.a k).order_perm site m
    have hlen : ((A.a k).order site m).leaves.length = m + 1 := by rw [hp.length_eq, List.length_finRange]
    obtain ⟨v, hv, e⟩ := evalDot_error (A.acc k) (eps_pos k) h3 (f := f k) (g := g k) (z := fun i => u i k) (z' := fun i => u' i k)
      h1 h1' hB1 h4 ((A.a k).order site m) (by omega) (by rw [treeSum_perm _ hp]; exact h2.le)
    refine ⟨v, hv, ?_⟩
    rw [treeSum_perm _ hp, hlen] at e
    have := eps_pos k
    have h5 : 0 ≤ 1 / ((k : ℝ) + 1) * 2 * B := by positivity
    nlinarith

/-! ### exact zeros -/

theorem approx_zero {a : FloatLib} {ε : ℝ} (hε : 0 < ε) {x : a.F} {r : ℝ} (hr : r = 0) (h : Approx a ε x r) : a.val x = some 0 := by
  obtain ⟨z, hz, -, h0⟩ := h (by rw [hr, abs_zero]; positivity)
  rw [hz, h0 hr]

theorem isZero_zero : IsZero A (fun k => (A.a k).ofNat 0) :=
  Eventually.of_forall fun k => approx_zero (eps_pos k) (by simp) ((A.acc k).ofNat 0)

theorem IsZero.add (hx : IsZero A x) (hy : IsZero A y) : IsZero A (fun k => (A.a k).add (x k) (y k)) := by
  filter_upwards [hx, hy] with k hx hy using approx_zero (eps_pos k) (by simp) ((A.acc k).add _ _ _ _ hx hy)

theorem IsZero.sub (hx : IsZero A x) (hy : IsZero A y) : IsZero A (fun k => (A.a k).sub (x k) (y k)) := by
  filter_upwards [hx, hy] with k hx hy using approx_zero (eps_pos k) (by simp) ((A.acc k).sub _ _ _ _ hx hy)

theorem IsZero.mul_left (hx : IsZero A x) (hy : Conv A y q) : IsZero A (fun k => (A.a k).mul (x k) (y k)) := by
  obtain ⟨v, hv, -⟩ := hy
  filter_upwards [hx, hv] with k hx hy using approx_zero (eps_pos k) (by simp) ((A.acc k).mul _ _ _ _ hx hy)

theorem IsZero.mul_right (hx : Conv A x r) (hy : IsZero A y) : IsZero A (fun k => (A.a k).mul (x k) (y k)) := by
  obtain ⟨v, hv, -⟩ := hx
  filter_upwards [hv, hy] with k hx hy using approx_zero (eps_pos k) (by simp) ((A.acc k).mul _ _ _ _ hx hy)

theorem IsZero.div (hx : IsZero A x) (hy : Conv A y q) (hq : q ≠ 0) : IsZero A (fun k => (A.a k).div (x k) (y k)) := by
  obtain ⟨v, hv, hvt⟩ := hy
  filter_upwards [hx, hv, hvt.eventually_ne hq] with k hx hy h using
    approx_zero (eps_pos k) (by simp) ((A.acc k).div _ _ _ _ hx hy h)

theorem IsZero.abs (hx : IsZero A x) : IsZero A (fun k => (A.a k).abs (x k)) := by
  filter_upwards [hx] with k hx
  rw [(A.acc k).abs _ _ hx, abs_zero]

theorem IsZero.sum {m : Nat} (site : List Nat) {f : ∀ k, Fin m → (A.a k).F} (h : ∀ i, IsZero A fun k => f k i) :
    IsZero A (fun k => (A.a k).sum site (f k)) := by
  cases m with
  | zero => exact isZero_zero
  | succ m =>
    filter_upwards [eventually_all.mpr h] with k h
    show (A.a k).val ((A.a k).evalSum (f k) ((A.a k).order site m)) = some 0
    induction (A.a k).order site m with
    | leaf i => exact h i
    | node b l r ihl ihr =>
      exact approx_zero (eps_pos k) (by simp) ((A.acc k).add _ _ _ _ ihl ihr)

theorem evalDot_zero {a : FloatLib} {ε : ℝ} (ha : a.Accurate ε) (hε : 0 < ε) {m : Nat} {f g : Fin m → a.F}
    (h : ∀ i, ∃ z z', a.val (f i) = some z ∧ a.val (g i) = some z' ∧ z * z' = 0) :
    ∀ t : SumTree m, a.val (a.evalDot f g t) = some 0 := by
  intro t
  induction t with
  | leaf i =>
    obtain ⟨z, z', h1, h2, h3⟩ := h i
    rw [evalDot]
    exact approx_zero hε h3 (ha.mul _ _ _ _ h1 h2)
  | node b l r ihl ihr =>
    have hplain : a.val (a.add (a.evalDot f g l) (a.evalDot f g r)) = some 0 :=
      approx_zero hε (by simp) (ha.add _ _ _ _ ihl ihr)
    cases b with
    | false => cases r <;> rw [evalDot] <;> first | exact hplain | simp
    | true =>
      cases r with
      | node b' l' r' => rw [evalDot]; exact hplain; simp
      | leaf i =>
        obtain ⟨z, z', h1, h2, h3⟩ := h i
        rw [evalDot]
        exact approx_zero hε (by rw [h3, add_zero]) (ha.fma _ _ _ _ _ _ h1 h2 ihl)

theorem IsZero.dot {m : Nat} (site : List Nat) {f g : ∀ k, Fin m → (A.a k).F}
    (h : ∀ i, (IsZero A (fun k => f k i) ∧ ∃ z, Conv A (fun k => g k i) z) ∨ (IsZero A (fun k => g k i) ∧ ∃ z, Conv A (fun k => f k i) z)) :
    IsZero A (fun k => (A.a k).dot site (f k) (g k)) := by
  cases m with
  | zero => exact isZero_zero
  | succ m =>
    have : ∀ i, ∀ᶠ k in atTop, ∃ z z', (A.a k).val (f k i) = some z ∧ (A.a k).val (g k i) = some z' ∧ z * z' = 0 := by
      intro i
      rcases h i with ⟨h1, z, v, hv, -⟩ | ⟨h1, z, v, hv, -⟩
      · filter_upwards [h1, hv] with k h1 h2 using ⟨_, _, h1, h2, by simp⟩
      · filter_upwards [h1, hv] with k h1 h2 using ⟨_, _, h2, h1, by simp⟩
    filter_upwards [eventually_all.mpr this] with k h
    exact evalDot_zero (A.acc k) (eps_pos k) h _

/-! ### distance covariance -/

section
variable {N M : Nat} {s : ∀ k, Fin N → Fin M → (A.a k).F} {X : Fin N → Fin M → ℝ}

theorem conv_dist (hs : ∀ k r i, (A.a k).val (s k r i) = some (X r i)) (i : Fin M) (p q : Fin N) :
    Conv A (fun k => (A.a k).dist (fun r => s k r i) p q) (distMat (fun r => X r i) p q) := by
  have h := fun p q : Fin N => ((conv_exact (A := A) fun k => hs k p i).sub (conv_exact fun k => hs k q i)).abs
  unfold dist distMat
  by_cases h1 : p < q
  · simp only [if_pos h1]; exact h p q
  · by_cases h2 : q < p
    · simp only [if_neg h1, if_pos h2]; rw [abs_sub_comm]; exact h q p
    · have : p = q := le_antisymm (not_lt.mp h2) (not_lt.mp h1)
      subst this
      simp only [if_neg h1]
      simpa using conv_ofNat (A := A) 0

theorem conv_colMean (hN : 0 < N) {d : ∀ k, Fin N → Fin N → (A.a k).F} {D : Fin N → Fin N → ℝ}
    (hd : ∀ p q, Conv A (fun k => d k p q) (D p q)) (site : Nat) (l : Fin N) :
    Conv A (fun k => (A.a k).colMean site (d k) l) (Medil.colMean D l) :=
  (Conv.sum _ fun p => hd p l).div (conv_ofNat N) (by exact_mod_cast hN.ne')

theorem conv_rowMean (hN : 0 < N) {d : ∀ k, Fin N → Fin N → (A.a k).F} {D : Fin N → Fin N → ℝ}
    (hd : ∀ p q, Conv A (fun k => d k p q) (D p q)) (site : Nat) (l : Fin N) :
    Conv A (fun k => (A.a k).rowMean site (d k) l) (Medil.rowMean D l) :=
  (Conv.sum _ fun p => hd l p).div (conv_ofNat N) (by exact_mod_cast hN.ne')

theorem conv_allMean (hN : 0 < N) {d : ∀ k, Fin N → Fin N → (A.a k).F} {D : Fin N → Fin N → ℝ}
    (hd : ∀ p q, Conv A (fun k => d k p q) (D p q)) (site : Nat) :
    Conv A (fun k => (A.a k).allMean site (d k)) (Medil.allMean D) := by
  have h := (Conv.sum [2, site] fun e : Fin (N * N) => hd e.divNat e.modNat).div (conv_ofNat (N * N))
    (by exact_mod_cast (Nat.mul_pos hN hN).ne')
  have e : Medil.allMean D = (∑ e : Fin (N * N), D e.divNat e.modNat) / ((N * N : ℕ) : ℝ) := by
    unfold Medil.allMean
    rw [← Fintype.sum_prod_type', Nat.cast_mul]
    congr 1
    exact (Fintype.sum_equiv finProdFinEquiv.symm _ _ fun p => rfl).symm
  rw [e]; exact h

theorem conv_centre (hN : 0 < N) {d : ∀ k, Fin N → Fin N → (A.a k).F} {D : Fin N → Fin N → ℝ}
    (hd : ∀ p q, Conv A (fun k => d k p q) (D p q)) (site : Nat) (p q : Fin N) :
    Conv A (fun k => (A.a k).centre site (d k) p q) (Medil.centre D p q) :=
  (hd p q).sub (((conv_colMean hN hd site q).add (conv_rowMean hN hd site p)).sub (conv_allMean hN hd site))

theorem sum_pairsLT (F : Fin N × Fin N → ℝ) :
    ∑ e : Fin (pairsLT N).length, F (pairsLT N)[e] = ∑ e ∈ Finset.univ.filter (fun e : Fin N × Fin N => e.1 < e.2), F e := by
  have hnd : (pairsLT N).Nodup := by
    unfold pairsLT
    apply List.Nodup.filter
    have : (List.finRange N).flatMap (fun k => (List.finRange N).map fun l => (k, l)) = (List.finRange N) ×ˢ (List.finRange N) := rfl
    rw [this]
    exact (List.nodup_finRange N).product (List.nodup_finRange N)
  have h1 : ∑ e : Fin (pairsLT N).length, F (pairsLT N)[e] = ((pairsLT N).map F).sum := by
    rw [← Fin.sum_univ_fun_getElem]; rfl
  rw [h1, ← List.sum_toFinset F hnd]
  apply Finset.sum_congr _ fun _ _ => rfl
  ext e
  simp [pairsLT]

theorem conv_dcov (hN : 0 < N) (hs : ∀ k r i, (A.a k).val (s k r i) = some (X r i)) (i j : Fin M) :
    Conv A (fun k => (A.a k).dcov (s k) i j) ((Medil.dcov X).1 i j) := by
  have h := (Conv.dot (A := A) [3, (min i j).val, (max i j).val]
    (fun e : Fin (pairsLT N).length => conv_centre hN (conv_dist hs (min i j)) (min i j) (pairsLT N)[e].1 (pairsLT N)[e].2)
    (fun e => conv_centre hN (conv_dist hs (max i j)) (max i j) (pairsLT N)[e].1 (pairsLT N)[e].2)).div
      (conv_ofNat (N ^ 2)) (by exact_mod_cast (pow_pos hN 2).ne')
  have e : (Medil.dcov X).1 i j = (Medil.dcov X).1 (min i j) (max i j) := by
    rcases le_total i j with hij | hij
    · rw [min_eq_left hij, max_eq_right hij]
    · rw [min_eq_right hij, max_eq_left hij]
      unfold Medil.dcov
      simp only
      congr 1
      exact Finset.sum_congr rfl fun e _ => mul_comm _ _
  rw [e]
  unfold Medil.dcov
  simp only
  rw [← sum_pairsLT fun e : Fin N × Fin N => Medil.centre (distMat fun k => X k (min i j)) e.1 e.2 *
    Medil.centre (distMat fun k => X k (max i j)) e.1 e.2]
  push_cast at h
  exact h

theorem conv_dBar (hN : 0 < N) (hs : ∀ k r i, (A.a k).val (s k r i) = some (X r i)) (i : Fin M) :
    Conv A (fun k => (A.a k).dBar (s k) i) ((Medil.dcov X).2 i) := conv_allMean hN (conv_dist hs i) i

/-- a constant column has distances exactly zero -/
theorem zero_dist (hs : ∀ k r i, (A.a k).val (s k r i) = some (X r i)) {i : Fin M} (hc : ∀ p q, X p i = X q i) (p q : Fin N) :
    IsZero A (fun k => (A.a k).dist (fun r => s k r i) p q) := by
  have h : ∀ p q, IsZero A fun k => (A.a k).abs ((A.a k).sub (s k p i) (s k q i)) := fun p q => IsZero.abs
    (Eventually.of_forall fun k => approx_zero (eps_pos k) (by rw [hc p q, sub_self]) ((A.acc k).sub _ _ _ _ (hs k p i) (hs k q i)))
  unfold dist
  by_cases h1 : p < q
  · simp only [if_pos h1]; exact h p q
  · by_cases h2 : q < p
    · simp only [if_neg h1, if_pos h2]; exact h q p
    · simp only [if_neg h1, if_neg h2]; exact isZero_zero

theorem zero_centre (hN : 0 < N) (hs : ∀ k r i, (A.a k).val (s k r i) = some (X r i)) {i : Fin M} (hc : ∀ p q, X p i = X q i)
    (site : Nat) (p q : Fin N) : IsZero A (fun k => (A.a k).centre site ((A.a k).dist fun r => s k r i) p q) := by
  have hd := zero_dist hs hc
  have hN' : ((N : ℕ) : ℝ) ≠ 0 := by exact_mod_cast hN.ne'
  refine (hd p q).sub (((IsZero.div (IsZero.sum _ fun k => hd k q) (conv_ofNat N) hN').add
    (IsZero.div (IsZero.sum _ fun k => hd p k) (conv_ofNat N) hN')).sub
      (IsZero.div (IsZero.sum _ fun e => hd _ _) (conv_ofNat (N * N)) ?_))
  exact_mod_cast (Nat.mul_pos hN hN).ne'

theorem zero_dBar (hN : 0 < N) (hs : ∀ k r i, (A.a k).val (s k r i) = some (X r i)) {i : Fin M} (hc : ∀ p q, X p i = X q i) :
    IsZero A (fun k => (A.a k).dBar (s k) i) :=
  IsZero.div (IsZero.sum _ fun e => zero_dist hs hc _ _) (conv_ofNat (N * N)) (by exact_mod_cast (Nat.mul_pos hN hN).ne')

theorem zero_dcov (hN : 0 < N) (hs : ∀ k r i, (A.a k).val (s k r i) = some (X r i)) {i j : Fin M}
    (hc : (∀ p q, X p i = X q i) ∨ ∀ p q, X p j = X q j) : IsZero A (fun k => (A.a k).dcov (s k) i j) := by
  refine IsZero.div (IsZero.dot _ fun e => ?_) (conv_ofNat (N ^ 2)) (by exact_mod_cast (pow_pos hN 2).ne')
  have hcv := fun l : Fin M => conv_centre hN (conv_dist hs l) l (pairsLT N)[e].1 (pairsLT N)[e].2
  have : (∀ p q, X p (min i j) = X q (min i j)) ∨ ∀ p q, X p (max i j) = X q (max i j) := by
    rcases le_total i j with hij | hij
    · rw [min_eq_left hij, max_eq_right hij]; exact hc
    · rw [min_eq_right hij, max_eq_left hij]; exact hc.symm
  rcases this with h | h
  · exact Or.inl ⟨zero_centre hN hs h _ _ _, _, hcv _⟩
  · exact Or.inr ⟨zero_centre hN hs h _ _ _, _, hcv _⟩

end

/-! ### covariance -/

section
variable {N M : Nat} {s : ∀ k, Fin N → Fin M → (A.a k).F} {X : Fin N → Fin M → ℝ}

theorem conv_cov (hN : 2 ≤ N) (hs : ∀ k r i, (A.a k).val (s k r i) = some (X r i)) (i j : Fin M) :
    Conv A (fun k => (A.a k).cov (s k) i j) ((⟨N, hN, X⟩ : Dataset M).cov i j) := by
  have hN0 : ((N : ℕ) : ℝ) ≠ 0 := by exact_mod_cast (by omega : N ≠ 0)
  have hN1 : (((N - 1 : ℕ)) : ℝ) ≠ 0 := by exact_mod_cast (by omega : N - 1 ≠ 0)
  have hc : ∀ (j : Fin M) (p : Fin N), Conv A (fun k => (A.a k).centred (s k) j p) (X p j - (∑ k, X k j) / N) := fun j p =>
    (conv_exact fun k => hs k p j).sub ((Conv.sum _ fun q => conv_exact fun k => hs k q j).div (conv_ofNat N) hN0)
  have h := (Conv.dot [5, i.val, j.val] (hc i) (hc j)).mul ((conv_ofNat (A := A) 1).div (conv_ofNat (N - 1)) hN1)
  have e : (⟨N, hN, X⟩ : Dataset M).cov i j =
      (∑ p, (X p i - (∑ k, X k i) / N) * (X p j - (∑ k, X k j) / N)) * (((1 : ℕ) : ℝ) / ((N - 1 : ℕ) : ℝ)) := by
    unfold Dataset.cov Dataset.mean
    rw [Nat.cast_sub (by omega)]
    simp only [Nat.cast_one]
    rw [mul_one_div]
  rw [e]; exact h

theorem conv_threshold (hN : 2 ≤ N) :
    Conv A (fun k => (A.a k).div ((A.a k).neg ((A.a k).log ((A.a k).ofNat N))) ((A.a k).ofNat N)) (-Real.log N / N) := by
  have hN0 : (0 : ℝ) < (N : ℕ) := by exact_mod_cast (by omega : 0 < N)
  exact ((conv_ofNat N).log hN0).neg.div (conv_ofNat N) hN0.ne'

end

/-- comparisons are right from some point on, if the exact numbers differ -/
theorem Conv.ge_iff (hx : Conv A x r) (hy : Conv A y q) (hne : r ≠ q) : ∀ᶠ k in atTop, (A.a k).ge (x k) (y k) = decide (q ≤ r) := by
  obtain ⟨u, hu, htu⟩ := hx
  obtain ⟨v, hv, htv⟩ := hy
  rcases lt_or_gt_of_ne hne with h | h
  · filter_upwards [hu, hv, htu.eventually_lt htv h] with k h1 h2 h3
    rw [(A.acc k).ge _ _ _ _ h1 h2, decide_eq_false (not_le.mpr h3), decide_eq_false (not_le.mpr h)]
  · filter_upwards [hu, hv, htv.eventually_lt htu h] with k h1 h2 h3
    rw [(A.acc k).ge _ _ _ _ h1 h2, decide_eq_true h3.le, decide_eq_true h.le]

theorem Conv.lt_iff (hx : Conv A x r) (hy : Conv A y q) (hne : r ≠ q) : ∀ᶠ k in atTop, (A.a k).lt (x k) (y k) = decide (r < q) := by
  obtain ⟨u, hu, htu⟩ := hx
  obtain ⟨v, hv, htv⟩ := hy
  rcases lt_or_gt_of_ne hne with h | h
  · filter_upwards [hu, hv, htu.eventually_lt htv h] with k h1 h2 h3
    rw [(A.acc k).lt _ _ _ _ h1 h2, decide_eq_true h3, decide_eq_true h]
  · filter_upwards [hu, hv, htv.eventually_lt htu h] with k h1 h2 h3
    rw [(A.acc k).lt _ _ _ _ h1 h2, decide_eq_false (not_lt.mpr h3.le), decide_eq_false (not_lt.mpr h.le)]

end FloatLib
end Medil

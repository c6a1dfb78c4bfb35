import Verif.Proofs.Rounded
import Verif.Props.Indep
import Verif.Props.Gaussian
import Verif.Props.Float64
/-
  Property theorems C197-C199: rounding errors and the estimated graphs.
-/
namespace Medil
open Filter Topology
variable {N M : Nat}

/-! ### C197: the estimated graph is a graph in any arithmetic -/

/-- **C197** whatever the arithmetic does (rounding, overflow, nan, order of summation): the graph of `dcov_fast` has no loops and is
symmetric, provided multiplication is commutative; the graph of `GaussianMCM` is symmetric, and has no loops provided
`log(1) < -log(N)/N` is false. -/
theorem C197_graph_in_any_arithmetic (a : FloatLib) (s : Fin N → Fin M → a.F) (crit : a.F) :
    (∀ i, a.dcovGraph s crit i i = false) ∧
    ((∀ x y, a.mul x y = a.mul y x) → ∀ i j, a.dcovGraph s crit i j = a.dcovGraph s crit j i) ∧
    (M = 1 → a.covGraph s = .error .valueError) ∧
    (M ≠ 1 → ∃ U, a.covGraph s = .ok U ∧ Symm U ∧
      (a.lt (a.log (a.ofNat 1)) (a.div (a.neg (a.log (a.ofNat N))) (a.ofNat N)) = false → ∀ i, U i i = false)) := by
  refine ⟨fun i => by simp [FloatLib.dcovGraph, clearDiag], fun hm i j => ?_, fun h => if_pos h, fun h => ⟨_, if_neg h, ?_, fun hl i => ?_⟩⟩
  · unfold FloatLib.dcovGraph clearDiag
    by_cases h : i = j
    · rw [if_pos h, if_pos h.symm]
    · rw [if_neg h, if_neg (Ne.symm h)]
      show a.ge _ _ = a.ge _ _
      rw [show a.dcov s i j = a.dcov s j i by unfold FloatLib.dcov; rw [min_comm, max_comm], hm (a.dBar s i)]
  · intro i j; simp [Bool.or_comm]
  · simp [FloatLib.udgTriu, hl]

/-! ### C198: `dcov_fast` -/

namespace FloatLib

theorem dcovGraph_eventually {A : Seq} {s : ∀ k, Fin N → Fin M → (A.a k).F} {X : Fin N → Fin M → ℝ} {crit : ∀ k, (A.a k).F} {c : ℝ}
    (hN : 0 < N) (hs : ∀ k r i, (A.a k).val (s k r i) = some (X r i)) (hc : Conv A crit c) (i j : Fin M)
    (htie : i ≠ j → (Medil.dcov X).2 i ≠ 0 → (Medil.dcov X).2 j ≠ 0 →
      N * (Medil.dcov X).1 i j / ((Medil.dcov X).2 i * (Medil.dcov X).2 j) ≠ c) :
    ∀ᶠ k in atTop, (A.a k).dcovGraph (s k) (crit k) i j =
      clearDiag (fun i j => (Fl.div (N * (Medil.dcov X).1 i j) ((Medil.dcov X).2 i * (Medil.dcov X).2 j)).ge c) i j := by
  by_cases hij : i = j
  · exact Eventually.of_forall fun k => by simp [dcovGraph, clearDiag, hij]
  unfold dcovGraph clearDiag
  simp only [if_neg hij]
  have hconst : ∀ i, (∀ p q, X p i = X q i) ↔ (Medil.dcov X).2 i = 0 := by
    intro i
    have hNN : ((N : ℝ) * N) ≠ 0 := by
      have : (N : ℝ) ≠ 0 := by exact_mod_cast hN.ne'
      exact mul_ne_zero this this
    show _ ↔ Medil.allMean _ = 0
    unfold Medil.allMean distMat
    rw [div_eq_zero_iff, or_iff_left hNN]
    constructor
    · intro h
      exact Finset.sum_eq_zero fun p _ => Finset.sum_eq_zero fun q _ => by simp only [h p q, sub_self, abs_zero]
    · intro h p q
      have h1 := (Finset.sum_eq_zero_iff_of_nonneg fun p _ => Finset.sum_nonneg fun q _ => abs_nonneg (X p i - X q i)).mp h p (Finset.mem_univ _)
      have h2 := (Finset.sum_eq_zero_iff_of_nonneg fun q _ => abs_nonneg (X p i - X q i)).mp h1 q (Finset.mem_univ _)
      exact sub_eq_zero.mp (abs_eq_zero.mp h2)
  by_cases hz : (Medil.dcov X).2 i = 0 ∨ (Medil.dcov X).2 j = 0
  · have hz' := hz.imp (hconst i).mpr (hconst j).mpr
    have h1 : IsZero A fun k => (A.a k).mul ((A.a k).ofNat N) ((A.a k).dcov (s k) i j) :=
      IsZero.mul_right (conv_ofNat N) (zero_dcov hN hs hz')
    have h2 : IsZero A fun k => (A.a k).mul ((A.a k).dBar (s k) i) ((A.a k).dBar (s k) j) := by
      rcases hz' with h | h
      · exact IsZero.mul_left (zero_dBar hN hs h) (conv_dBar hN hs j)
      · exact IsZero.mul_right (conv_dBar hN hs i) (zero_dBar hN hs h)
    have h3 : (Medil.dcov X).1 i j = 0 := by
      have h4 := zero_dcov hN hs hz'
      obtain ⟨u, hu, htu⟩ := conv_dcov hN hs i j
      refine tendsto_nhds_unique htu ((tendsto_congr' ?_).mpr tendsto_const_nhds)
      filter_upwards [hu, h4] with k h5 h6
      rw [h5] at h6; injection h6
    have h5 : (Medil.dcov X).2 i * (Medil.dcov X).2 j = 0 := by
      rcases hz with h | h <;> rw [h] <;> simp
    filter_upwards [h1, h2] with k h1 h2
    rw [(A.acc k).nan_ge _ _ ((A.acc k).nan_div _ _ h1 h2), h3, h5]
    simp [Fl.div, Fl.ge]
  · rw [not_or] at hz
    have hne := mul_ne_zero hz.1 hz.2
    have h := (((conv_ofNat N).mul (conv_dcov hN hs i j)).div ((conv_dBar hN hs i).mul (conv_dBar hN hs j)) hne).ge_iff hc
      (htie hij hz.1 hz.2)
    filter_upwards [h] with k hk
    rw [hk, Fl.div, if_neg hne]
    rfl

end FloatLib

/-- **C198** For every sample and level whose critical value is not hit exactly by a test statistic, every sufficiently accurate
arithmetic (relative error, underflow, overflow and error of the critical value controlled by `ε`), with any order of summation and with or
without fused multiply-add, computes the graph that exact arithmetic gives.  No assumption on constant columns. -/
theorem C198_dcov_fast_rounding (lib : TestLib ℝ N) (X : Fin N → Fin M → ℝ) (level : ℝ) (hN : 0 < N)
    (htie : ∀ i j, i ≠ j → (dcov X).2 i ≠ 0 → (dcov X).2 j ≠ 0 →
      N * (dcov X).1 i j / ((dcov X).2 i * (dcov X).2 j) ≠ lib.critVal level) :
    ∃ U, estimateUDG lib X (.name "dcov_fast") level = .ok (U, none) ∧
      ∃ ε > 0, ∀ (a : FloatLib) (s : Fin N → Fin M → a.F) (crit : a.F) (c : ℝ), a.Accurate ε →
        (∀ k i, a.val (s k i) = some (X k i)) → a.val crit = some c → |c - lib.critVal level| ≤ ε →
          a.dcovGraph s crit = U := by
  refine ⟨_, rfl, ?_⟩
  by_contra hcon
  push Not at hcon
  choose a s crit c hacc hs hcrit hc hbad using fun k : ℕ => hcon (1 / ((k : ℝ) + 1)) (by positivity)
  let A : FloatLib.Seq := ⟨a, hacc⟩
  have hcc : FloatLib.Conv A crit (lib.critVal level) := by
    refine FloatLib.conv_of_near (r := fun _ => lib.critVal level) (b := fun _ => 1) tendsto_const_nhds tendsto_const_nhds
      (Eventually.of_forall fun k => ⟨c k, hcrit k, ?_⟩)
    rw [mul_one]; exact hc k
  have hall := eventually_all.mpr fun i : Fin M => eventually_all.mpr fun j : Fin M =>
    FloatLib.dcovGraph_eventually (A := A) hN hs hcc i j (htie i j)
  obtain ⟨k, hk⟩ := hall.exists
  exact hbad k (funext fun i => funext fun j => hk i j)

/-! ### C199: `GaussianMCM` -/

theorem Dataset.abs_cov_le (d : Dataset M) (i j : Fin M) : |d.cov i j| ≤ Real.sqrt (d.cov i i) * Real.sqrt (d.cov j j) := by
  rw [← Real.sqrt_mul (d.cov_self_nonneg i)]
  apply Real.abs_le_sqrt
  unfold Dataset.cov
  rw [div_pow, div_mul_div_comm, ← sq]
  apply div_le_div_of_nonneg_right _ (sq_nonneg _)
  have := Finset.sum_mul_sq_le_sq_mul_sq Finset.univ (fun k => d.val k i - d.mean i) (fun k => d.val k j - d.mean j)
  simpa [sq] using this

namespace FloatLib

theorem udgTriu_eventually {A : Seq} {s : ∀ k, Fin N → Fin M → (A.a k).F} {X : Fin N → Fin M → ℝ} (hN : 2 ≤ N)
    (hs : ∀ k r i, (A.a k).val (s k r i) = some (X r i)) (i j : Fin M)
    (htie : i < j → (¬ Constant fun k => X k i) → (¬ Constant fun k => X k j) →
      Real.log (max (1 - sampleCov (fun k => X k i) (fun k => X k j) * sampleCorr (fun k => X k i) fun k => X k j) (1 / 100000)) ≠
        -Real.log N / N) :
    ∀ᶠ k in atTop, (A.a k).udgTriu (s k) i j = Medil.udgTriu (⟨N, hN, X⟩ : Dataset M) i j := by
  set d : Dataset M := ⟨N, hN, X⟩ with hd
  have hthr : -Real.log N / N < 0 := by
    have h2 : (1 : ℝ) < N := by exact_mod_cast (by omega : 1 < N)
    have := Real.log_pos h2
    rw [neg_div]
    have : 0 < Real.log N / N := by positivity
    linarith
  have hT := conv_threshold (A := A) hN
  rcases Nat.lt_or_ge i.val j.val with hlt | hge
  · have hlt : i < j := hlt
    unfold udgTriu
    simp only [if_neg (not_le.mpr hlt)]
    have hcov := conv_cov hN hs i j
    by_cases hc : (Constant fun k => X k i) ∨ Constant fun k => X k j
    · -- a constant column: the computed covariance tends to 0
      rw [udgTriu_const d i j hlt hc]
      have h0 : d.cov i j = 0 := by
        have := d.abs_cov_le i j
        have hz : Real.sqrt (d.cov i i) * Real.sqrt (d.cov j j) = 0 := by
          rcases hc with hc | hc
          · rw [(d.cov_self_eq_zero i).mpr hc]; simp
          · rw [(d.cov_self_eq_zero j).mpr hc]; simp
        rw [hz] at this
        exact abs_eq_zero.mp (le_antisymm this (abs_nonneg _))
      rw [← hd, h0] at hcov
      -- replace nan by 0
      let x : ∀ k, (A.a k).F := fun k => (A.a k).div ((A.a k).div ((A.a k).cov (s k) i j) ((A.a k).sqrt ((A.a k).cov (s k) i i)))
        ((A.a k).sqrt ((A.a k).cov (s k) j j))
      let y : ∀ k, (A.a k).F := fun k => if (A.a k).isNan (x k) = true then (A.a k).ofNat 0 else (A.a k).clipOne (x k)
      have hy : ∀ k, ∃ z, (A.a k).val (y k) = some z ∧ |z| ≤ 1 := by
        intro k
        by_cases hn : (A.a k).isNan (x k) = true
        · refine ⟨0, ?_, by simp⟩
          simp only [y, if_pos hn]
          exact approx_zero (eps_pos k) (by simp) ((A.acc k).ofNat 0)
        · simp only [y, if_neg hn]
          exact (A.acc k).clipOne_range _ (by simpa using hn)
      choose z hz hz1 using hy
      obtain ⟨u, hu, htu⟩ := hcov
      have hprod : Conv A (fun k => (A.a k).mul ((A.a k).cov (s k) i j) (y k)) 0 := by
        refine conv_of_approx (r := fun k => u k * z k) ?_ ?_
        · refine squeeze_zero_norm (fun k => ?_) (by simpa using htu.abs)
          rw [Real.norm_eq_abs, abs_mul]
          exact mul_le_of_le_one_right (abs_nonneg _) (hz1 k)
        · filter_upwards [hu] with k hk using (A.acc k).mul _ _ _ _ hk (hz k)
      have h1 := ((conv_ofNat (A := A) 1).sub hprod).clipLow
      have e1 : max (((1 : ℕ) : ℝ) - 0) (1 / 100000) = 1 := by norm_num
      rw [e1] at h1
      have h2 := (h1.log one_pos).lt_iff hT (by rw [Real.log_one]; exact hthr.ne')
      filter_upwards [h2] with k hk
      rw [Real.log_one, decide_eq_false (not_lt.mpr hthr.le)] at hk
      by_cases hn : (A.a k).isNan (x k) = true
      · have ha := A.acc k
        exact ha.nan_lt _ _ (ha.nan_log _ (ha.nan_clipLow _ (ha.nan_sub _ _ (ha.nan_mul _ _ (ha.nan_clipOne _ hn)))))
      · simp only [y, if_neg hn] at hk
        exact hk
    · rw [not_or] at hc
      have hpos : ∀ l, (¬ Constant fun k => X k l) → 0 < d.cov l l := fun l hl =>
        lt_of_le_of_ne (d.cov_self_nonneg l) fun e => hl ((d.cov_self_eq_zero l).mp e.symm)
      have p1 := hpos i hc.1
      have p2 := hpos j hc.2
      have q1 : Real.sqrt (d.cov i i) ≠ 0 := (Real.sqrt_pos.mpr p1).ne'
      have q2 : Real.sqrt (d.cov j j) ≠ 0 := (Real.sqrt_pos.mpr p2).ne'
      have hcorr := ((hcov.div ((conv_cov hN hs i i).sqrt p1) q1).div ((conv_cov hN hs j j).sqrt p2) q2).clipOne
      have hr : |d.cov i j / Real.sqrt (d.cov i i) / Real.sqrt (d.cov j j)| ≤ 1 := by
        rw [div_div, abs_div, abs_of_pos (mul_pos (Real.sqrt_pos.mpr p1) (Real.sqrt_pos.mpr p2)), div_le_one
          (mul_pos (Real.sqrt_pos.mpr p1) (Real.sqrt_pos.mpr p2))]
        exact d.abs_cov_le i j
      have hclip : max (-1) (min (d.cov i j / Real.sqrt (d.cov i i) / Real.sqrt (d.cov j j)) 1) =
          d.cov i j / (Real.sqrt (d.cov i i) * Real.sqrt (d.cov j j)) := by
        rw [min_eq_left (abs_le.mp hr).2, max_eq_right (abs_le.mp hr).1, div_div]
      rw [hclip] at hcorr
      have h1 := ((conv_ofNat (A := A) 1).sub (hcov.mul hcorr)).clipLow
      rw [Nat.cast_one] at h1
      have h2 := (h1.log (lt_max_of_lt_right (by norm_num))).lt_iff hT (htie hlt hc.1 hc.2)
      filter_upwards [h2] with k hk
      refine Eq.trans hk ?_
      rw [Bool.eq_iff_iff, udgTriu_lt d i j hlt hc.1 hc.2, decide_eq_true_iff]
  · have hge : j ≤ i := hge
    rw [udgTriu_le d i j hge]
    unfold udgTriu
    simp only [if_pos hge]
    have h1 := conv_ofNat (A := A) 1
    rw [Nat.cast_one] at h1
    have h2 := (h1.log one_pos).lt_iff hT (by rw [Real.log_one]; exact hthr.ne')
    filter_upwards [h2] with k hk
    rw [hk, Real.log_one, decide_eq_false (not_lt.mpr hthr.le)]

end FloatLib

/-- **C199** For every dataset on which the statistic of no pair of varying columns hits the threshold exactly, every sufficiently accurate
arithmetic, with any order of summation and with or without fused multiply-add, computes the graph that exact arithmetic gives, constant
columns included. -/
theorem C199_gaussian_rounding (hN : 2 ≤ N) (X : Fin N → Fin M → ℝ)
    (htie : ∀ i j, i < j → (¬ Constant fun k => X k i) → (¬ Constant fun k => X k j) →
      Real.log (max (1 - sampleCov (fun k => X k i) (fun k => X k j) * sampleCorr (fun k => X k i) fun k => X k j) (1 / 100000)) ≠
        -Real.log N / N) :
    ∃ ε > 0, ∀ (a : FloatLib) (s : Fin N → Fin M → a.F), a.Accurate ε → (∀ k i, a.val (s k i) = some (X k i)) →
      a.covGraph s = estimateUdgCov ⟨N, hN, X⟩ := by
  by_contra hcon
  push Not at hcon
  choose a s hacc hs hbad using fun k : ℕ => hcon (1 / ((k : ℝ) + 1)) (by positivity)
  let A : FloatLib.Seq := ⟨a, hacc⟩
  have hall := eventually_all.mpr fun i : Fin M => eventually_all.mpr fun j : Fin M =>
    FloatLib.udgTriu_eventually (A := A) hN hs i j (htie i j)
  obtain ⟨k, hk⟩ := hall.exists
  apply hbad k
  unfold FloatLib.covGraph estimateUdgCov
  by_cases h1 : M = 1
  · rw [if_pos h1, if_pos h1]
  · rw [if_neg h1, if_neg h1]
    congr 2
    funext i j
    rw [← hk i j, ← hk j i]

/-! ### an arithmetic that meets the assumptions: every operation rounds the exact result to double precision -/

/-- one after the other, with fused multiply-add -/
def seqTree (m : Nat) : SumTree (m + 1) := (List.finRange (m + 1)).tail.foldl (fun t i => .node true t (.leaf i)) (.leaf 0)

theorem seqTree_perm (m : Nat) : (seqTree m).leaves.Perm (List.finRange (m + 1)) := by
  have h : ∀ (l : List (Fin (m + 1))) (t : SumTree (m + 1)),
      (l.foldl (fun t i => .node true t (.leaf i)) t).leaves = t.leaves ++ l := by
    intro l
    induction l with
    | nil => simp
    | cons i l ih => intro t; rw [List.foldl_cons, ih]; simp [SumTree.leaves]
  unfold seqTree
  rw [h, List.finRange_succ]
  simp [SumTree.leaves]

namespace Fl

/-- an operation on finite floats, rounded; nan if an operand is not finite -/
def lift2 (fl : ℝ → ℝ) (f : ℝ → ℝ → ℝ) : Fl ℝ → Fl ℝ → Fl ℝ
  | .fin x, .fin y => .fin (fl (f x y))
  | _, _ => .nan

def lift1 (fl : ℝ → ℝ) (f : ℝ → ℝ) : Fl ℝ → Fl ℝ
  | .fin x => .fin (fl (f x))
  | _ => .nan

end Fl

/-- exact operations followed by the rounding `fl` -/
noncomputable def roundLib (fl : ℝ → ℝ) : FloatLib where
  F := Fl ℝ
  val := fun x => match x with | .fin x => some x | _ => none
  isNan := fun x => match x with | .nan => true | _ => false
  ofNat := fun n => .fin (fl n)
  add := Fl.lift2 fl (· + ·)
  sub := Fl.lift2 fl (· - ·)
  mul := Fl.lift2 fl (· * ·)
  div := fun x y => match x, y with
    | .fin x, .fin y => if y = 0 then Fl.div x y else .fin (fl (x / y))
    | _, _ => .nan
  fma := fun x y z => match x, y, z with
    | .fin x, .fin y, .fin z => .fin (fl (x * y + z))
    | _, _, _ => .nan
  abs := Fl.lift1 id (|·|)
  neg := Fl.lift1 id (- ·)
  sqrt := fun x => match x with
    | .fin x => if x < 0 then .nan else .fin (fl (Real.sqrt x))
    | _ => .nan
  log := Fl.lift1 fl Real.log
  clipLow := Fl.lift1 id (max · (fl (1 / 100000)))
  clipOne := fun x => match x with
    | .nan => .nan
    | .ninf => .fin (-1)
    | .pinf => .fin 1
    | .fin x => .fin (max (-1) (min x 1))
  ge := fun x y => match x, y with
    | .fin x, .fin y => decide (y ≤ x)
    | _, _ => false
  lt := fun x y => match x, y with
    | .fin x, .fin y => decide (x < y)
    | _, _ => false
  order := fun _ => seqTree
  order_perm := fun _ => seqTree_perm

theorem roundLib_accurate {fl : ℝ → ℝ} {ε : ℝ} (h0 : fl 0 = 0) (hfl : ∀ x, |fl x - x| ≤ ε * |x|) (hε : 0 ≤ ε) :
    (roundLib fl).Accurate ε := by
  have key : ∀ (x : Fl ℝ) (r : ℝ), x = .fin (fl r) → FloatLib.Approx (roundLib fl) ε x r := by
    rintro x r rfl _
    refine ⟨fl r, rfl, (hfl r).trans (by nlinarith), ?_⟩
    rintro rfl; exact h0
  have fin_of : ∀ {x : Fl ℝ} {r : ℝ}, (roundLib fl).val x = some r → x = .fin r := by
    intro x r h
    cases x <;> simp [roundLib] at h
    rw [h]
  constructor
  · exact fun n => key _ _ rfl
  · intro x y r q h1 h2; obtain rfl := fin_of h1; obtain rfl := fin_of h2; exact key _ _ rfl
  · intro x y r q h1 h2; obtain rfl := fin_of h1; obtain rfl := fin_of h2; exact key _ _ rfl
  · intro x y r q h1 h2; obtain rfl := fin_of h1; obtain rfl := fin_of h2; exact key _ _ rfl
  · intro x y r q h1 h2 hq; obtain rfl := fin_of h1; obtain rfl := fin_of h2; exact key _ _ (if_neg hq)
  · intro x y w r q t h1 h2 h3; obtain rfl := fin_of h1; obtain rfl := fin_of h2; obtain rfl := fin_of h3; exact key _ _ rfl
  · intro x r h1; obtain rfl := fin_of h1; rfl
  · intro x r h1; obtain rfl := fin_of h1; rfl
  · intro x r h1 h2; obtain rfl := fin_of h1; exact key _ _ (if_neg (not_lt.mpr h2))
  · intro x r h1 _; obtain rfl := fin_of h1; exact key _ _ rfl
  · intro x r h1; obtain rfl := fin_of h1
    refine ⟨fl (1 / 100000), (hfl _).trans ?_, rfl⟩
    rw [abs_of_pos (by norm_num)]; nlinarith
  · intro x r h1; obtain rfl := fin_of h1; rfl
  · intro x h1
    cases x with
    | nan => simp [roundLib] at h1
    | ninf => exact ⟨-1, rfl, by simp⟩
    | pinf => exact ⟨1, rfl, by simp⟩
    | fin x =>
      refine ⟨_, rfl, abs_le.mpr ⟨le_max_left _ _, max_le (by norm_num) (min_le_right _ _)⟩⟩
  · intro x y r q h1 h2; obtain rfl := fin_of h1; obtain rfl := fin_of h2; rfl
  · intro x y r q h1 h2; obtain rfl := fin_of h1; obtain rfl := fin_of h2; rfl
  · intro x y h1 h2; obtain rfl := fin_of h1; obtain rfl := fin_of h2; simp [roundLib, Fl.div]
  · intro x y h1; cases x <;> simp [roundLib] at h1; cases y <;> rfl
  · intro x y h1; cases x <;> simp [roundLib] at h1; cases y <;> rfl
  · intro x h1; cases x <;> simp [roundLib] at h1; rfl
  · intro x y h1; cases y <;> simp [roundLib] at h1; cases x <;> rfl
  · intro x y h1; cases y <;> simp [roundLib] at h1; cases x <;> rfl
  · intro x h1; cases x <;> simp [roundLib] at h1; rfl
  · intro x h1; cases x <;> simp [roundLib] at h1; rfl

/-- rounding to nearest double (unbounded exponent) is such an arithmetic -/
theorem fl64_accurate : (roundLib (fl64 (K := ℝ))).Accurate (1 / 2 ^ 53) :=
  roundLib_accurate (by simp [fl64]) (fun x => by have := fl64_error x; rw [div_mul_eq_mul_div, one_mul]; exact this) (by positivity)

/-- two observations of three columns, the last one constant -/
def exRound : Fin 2 → Fin 3 → ℝ := fun k i => if i = 2 then 7 else k.val

-- the assumptions of C198, with the critical value 3.84 of the usual level
example : ∀ i j, i ≠ j → (dcov exRound).2 i ≠ 0 → (dcov exRound).2 j ≠ 0 →
    (2 : ℕ) * (dcov exRound).1 i j / ((dcov exRound).2 i * (dcov exRound).2 j) ≠ 384 / 100 := by
  have hf : (Finset.univ.filter fun e : Fin 2 × Fin 2 => e.1 < e.2) = {(0, 1)} := by decide
  have h2 : (dcov exRound).2 2 = 0 := by simp [dcov, allMean, distMat, exRound]
  have hb : ∀ i : Fin 3, i ≠ 2 → (dcov exRound).2 i = 1 / 2 := by
    intro i hi; simp [dcov, allMean, distMat, exRound, hi]; norm_num
  have hc : ∀ i j : Fin 3, i ≠ 2 → j ≠ 2 → (dcov exRound).1 i j = 1 / 16 := by
    intro i j hi hj
    simp [dcov, hf, centre, colMean, rowMean, allMean, distMat, exRound, hi, hj]; norm_num
  intro i j _ hi hj
  have hi' : i ≠ 2 := by rintro rfl; exact hi h2
  have hj' : j ≠ 2 := by rintro rfl; exact hj h2
  rw [hc i j hi' hj', hb i hi', hb j hj']
  norm_num

-- the assumptions of C199
example : ∀ i j : Fin 3, i < j → (¬ Constant fun k => exRound k i) → (¬ Constant fun k => exRound k j) →
    Real.log (max (1 - sampleCov (fun k => exRound k i) (fun k => exRound k j) *
      sampleCorr (fun k => exRound k i) fun k => exRound k j) (1 / 100000)) ≠ -Real.log (2 : ℕ) / (2 : ℕ) := by
  have h2 : Constant fun k => exRound k 2 := by intro k l; simp [exRound]
  have hc : ∀ i j : Fin 3, i ≠ 2 → j ≠ 2 → sampleCov (fun k => exRound k i) (fun k => exRound k j) = 1 / 2 := by
    intro i j hi hj
    simp [sampleCov, sampleMean, exRound, hi, hj]; norm_num
  intro i j _ hi hj
  have hi' : i ≠ 2 := by rintro rfl; exact hi h2
  have hj' : j ≠ 2 := by rintro rfl; exact hj h2
  have hr : sampleCorr (fun k => exRound k i) (fun k => exRound k j) = 1 := by
    unfold sampleCorr
    rw [hc _ _ hi' hj', hc _ _ hi' hi', hc _ _ hj' hj', Real.mul_self_sqrt (by norm_num)]
    norm_num
  rw [hr, hc _ _ hi' hj']
  have : max (1 - 1 / 2 * 1 : ℝ) (1 / 100000) = 2⁻¹ := by norm_num
  rw [this, Real.log_inv]
  have h3 : 0 < Real.log 2 := Real.log_pos (by norm_num)
  push_cast
  intro h
  linarith

end Medil

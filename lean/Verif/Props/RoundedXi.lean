import Verif.Proofs.RoundedXi
import Verif.Props.Rounded
import Verif.Props.XiNull
/-
  Property theorem C200: rounding errors and the graph of `estimate_UDG(..., method="xicor")`.
-/
namespace Medil
open Filter Topology
variable {N M : Nat}

/-- **C197** for `xicor`, in any arithmetic: no loops, and symmetric -/
theorem C197_xicor_in_any_arithmetic (a : FloatXiLib) (s : Fin N → Fin M → a.F) (level : a.F) :
    (∀ i, a.xiGraph s level i i = false) ∧ ∀ i j, a.xiGraph s level i j = a.xiGraph s level j i := by
  refine ⟨fun i => by simp [FloatXiLib.xiGraph, clearDiag], fun i j => ?_⟩
  unfold FloatXiLib.xiGraph clearDiag FloatXiLib.xiPvals
  rcases lt_trichotomy i j with h | h | h
  · simp [h, h.ne, h.ne', h.asymm]
  · simp [h]
  · simp [h, h.ne, h.ne', h.asymm]

/-- the claim: if no exact p-value equals the level, every sufficiently accurate arithmetic computes the graph that exact arithmetic gives -/
def C200_statement : Prop :=
  ∀ (srt : ArgSort ℝ) (Φ : ℝ → ℝ) (N M : Nat) (lib : TestLib ℝ N) (X : Fin N → Fin M → ℝ) (level : ℝ)
    (U : Fin M → Fin M → Bool) (P : Option (Fin M → Fin M → Fl ℝ)), Continuous Φ → lib.xicorTest = xicorTest srt Φ → 2 ≤ N →
    (∀ i j, i < j → ∀ p, xicorTest srt Φ (fun k => X k i) (fun k => X k j) = .fin p → p ≠ level) →
    estimateUDG lib X (.name "xicor") level = .ok (U, P) →
    ∃ ε > 0, ∀ (a : FloatXiLib) (s : Fin N → Fin M → a.F) (lvl : a.F) (c : ℝ), AccurateXi a srt Φ ε →
      (∀ k i, a.val (s k i) = some (X k i)) → a.val lvl = some c → |c - level| ≤ ε → a.xiGraph s lvl = U

/-! ### the proved part -/

theorem xicorTest_varying (srt : ArgSort ℝ) (Φ : ℝ → ℝ) (x y : Fin N → ℝ) (hN : 2 ≤ N) {v : ℝ} (hv : xiVar y = .fin v) (h0 : 0 < v) :
    xicorTest srt Φ x y = .fin (1 - Φ (Real.sqrt N * (1 - xiA1 srt x y / xiCu y) / Real.sqrt v)) := by
  rw [xicorTest_eq srt Φ x y (by omega), hv]
  unfold xiStat Fl.div
  rw [if_neg (xiCu_pos y hN).ne']
  simp only [Fl.oneSub, xiZ, if_neg (not_lt.mpr h0.le), Fl.div, if_neg (Real.sqrt_pos.mpr h0).ne', upperTail]

/-- **C200** (part) For every sample, every pair of columns whose later one is not constant, and every level different from the exact p-value
of the pair: every sufficiently accurate arithmetic decides about the edge as exact arithmetic does, and computes the p-value as accurately
as wanted.  Missing: later columns that are constant, for which it is false (`C200_false`). -/
theorem C200_xicor_rounding_partial (srt : ArgSort ℝ) (Φ : ℝ → ℝ) (hΦ : Continuous Φ) (lib : TestLib ℝ N)
    (hlib : lib.xicorTest = xicorTest srt Φ) (X : Fin N → Fin M → ℝ) (level : ℝ) (hN : 2 ≤ N)
    (htie : ∀ i j, i < j → (¬ Constant fun k => X k j) →
      ∀ p, xicorTest srt Φ (fun k => X k i) (fun k => X k j) = .fin p → p ≠ level) (δ : ℝ) (hδ : 0 < δ) :
    ∃ U P, estimateUDG lib X (.name "xicor") level = .ok (U, some P) ∧
      ∃ ε > 0, ∀ (a : FloatXiLib) (s : Fin N → Fin M → a.F) (lvl : a.F) (c : ℝ), AccurateXi a srt Φ ε →
        (∀ k i, a.val (s k i) = some (X k i)) → a.val lvl = some c → |c - level| ≤ ε →
          ∀ i j, i < j → (¬ Constant fun k => X k j) →
            a.xiGraph s lvl i j = U i j ∧ a.xiGraph s lvl j i = U j i ∧
            ∃ p p', P i j = .fin p ∧ a.val (a.xiPvals s i j) = some p' ∧ |p' - p| ≤ δ := by
  refine ⟨_, _, rfl, ?_⟩
  by_contra hcon
  push Not at hcon
  choose a s lvl c hacc hs hlvl hc i j hij hnc hbad using fun k : ℕ => hcon (1 / ((k : ℝ) + 1)) (by positivity)
  let A : FloatXiLib.SeqXi srt Φ := ⟨a, hacc⟩
  have hcc : FloatLib.Conv A.base lvl level := by
    refine FloatLib.conv_of_near (r := fun _ => level) (b := fun _ => 1) tendsto_const_nhds tendsto_const_nhds
      (Eventually.of_forall fun k => ⟨c k, hlvl k, ?_⟩)
    rw [mul_one]; exact hc k
  have hall : ∀ p q : Fin M, p < q → (¬ Constant fun k => X k q) → ∃ r, xicorTest srt Φ (fun k => X k p) (fun k => X k q) = .fin r ∧
      FloatLib.Conv A.base (fun k => (a k).pvalue (fun t => s k t p) (fun t => s k t q)) r := by
    intro p q hpq hq
    obtain ⟨v, hv, h0, hz⟩ := xiVar_pos (fun k => X k q) hN
    have hpos : 0 < v := lt_of_le_of_ne h0 fun e => hq (hz.mp e.symm)
    exact ⟨_, xicorTest_varying srt Φ _ _ hN hv hpos, FloatXiLib.conv_pvalue (A := A) hΦ hN (fun k r => hs k r p) (fun k r => hs k r q) hv hpos⟩
  have hev : ∀ p q : Fin M, ∀ᶠ k in atTop, p < q → (¬ Constant fun t => X t q) →
      (a k).xiGraph (s k) (lvl k) p q = clearDiag (fun i j => (pairPvals lib.xicorTest X i j).lt level) p q ∧
      (a k).xiGraph (s k) (lvl k) q p = clearDiag (fun i j => (pairPvals lib.xicorTest X i j).lt level) q p ∧
      ∃ r r', pairPvals lib.xicorTest X p q = .fin r ∧ (a k).val ((a k).xiPvals (s k) p q) = some r' ∧ |r' - r| ≤ δ := by
    intro p q
    by_cases h : p < q ∧ ¬ Constant fun t => X t q
    swap
    · exact Eventually.of_forall fun k h1 h2 => absurd ⟨h1, h2⟩ h
    obtain ⟨h1, h2⟩ := h
    obtain ⟨r, hr, hconv⟩ := hall p q h1 h2
    have hlt := hconv.lt_iff hcc (htie p q h1 h2 r hr)
    obtain ⟨u, hu, htu⟩ := hconv
    have hclose : ∀ᶠ k in atTop, |u k - r| ≤ δ := by
      have : Tendsto (fun k => |u k - r|) atTop (𝓝 0) := by simpa using (htu.sub_const r).abs
      exact (this.eventually_lt_const hδ).mono fun k h => h.le
    filter_upwards [hlt, hu, hclose] with k h3 h4 h5 _ _
    have e1 : (a k).xiPvals (s k) p q = (a k).pvalue (fun t => s k t p) (fun t => s k t q) := if_pos h1
    have e2 : (a k).xiPvals (s k) q p = (a k).pvalue (fun t => s k t p) (fun t => s k t q) := by
      unfold FloatXiLib.xiPvals
      rw [if_neg h1.asymm, if_pos h1]
    have f1 : pairPvals lib.xicorTest X p q = .fin r := by
      unfold pairPvals; rw [if_pos h1, hlib, hr]
    have f2 : pairPvals lib.xicorTest X q p = .fin r := by
      unfold pairPvals; rw [if_neg h1.asymm, if_pos h1, hlib, hr]
    refine ⟨?_, ?_, r, u k, f1, by rw [e1]; exact h4, h5⟩
    · unfold FloatXiLib.xiGraph clearDiag
      rw [if_neg h1.ne, if_neg h1.ne]
      simp only [e1, f1]
      exact h3
    · unfold FloatXiLib.xiGraph clearDiag
      rw [if_neg h1.ne', if_neg h1.ne']
      simp only [e2, f2]
      exact h3
  obtain ⟨k, hk⟩ := (eventually_all.mpr fun p => eventually_all.mpr fun q => hev p q).exists
  obtain ⟨g1, g2, r, r', g3, g4, g5⟩ := hk (i k) (j k) (hij k) (hnc k)
  exact absurd g5 (not_le.mpr (hbad k g1 g2 r r' g3 g4))

/-! ### constant columns -/

/-- exact operations followed by the rounding `fl`; half-integers are exact -/
noncomputable def roundXiLib (fl : ℝ → ℝ) (srt : ArgSort ℝ) (Φ : ℝ → ℝ) : FloatXiLib where
  toFloatLib := roundLib fl
  half := fun k => .fin (k / 2)
  argsort := fun f => srt.sort fun i => ((roundLib fl).val (f i)).getD 0
  sort := fun f => Tuple.sort fun i => ((roundLib fl).val (f i)).getD 0
  cdf := fun x => match x with
    | .nan => .nan
    | .ninf => .fin 0
    | .pinf => .fin 1
    | .fin x => .fin (Φ x)
  nan := .nan

theorem roundXiLib_accurate {fl : ℝ → ℝ} {ε : ℝ} (srt : ArgSort ℝ) (Φ : ℝ → ℝ) (h0 : fl 0 = 0) (hfl : ∀ x, |fl x - x| ≤ ε * |x|)
    (hε : 0 ≤ ε) : AccurateXi (roundXiLib fl srt Φ) srt Φ ε where
  base := roundLib_accurate h0 hfl hε
  notNan := by
    intro x r h
    cases x <;> simp [roundXiLib, roundLib] at h ⊢
  half := fun k _ => rfl
  argsort := by
    intro n f z h
    show srt.sort _ = _
    congr 1; funext i
    show ((roundXiLib fl srt Φ).val (f i)).getD 0 = z i
    rw [h i]; rfl
  sort := by
    intro n f z h
    have : z = fun i => ((roundXiLib fl srt Φ).val (f i)).getD 0 := by funext i; rw [h i]; rfl
    rw [this]
    exact Tuple.monotone_sort fun i => ((roundXiLib fl srt Φ).val (f i)).getD 0
  cdf := by
    intro x r h
    cases x <;> simp [roundXiLib, roundLib] at h
    subst h
    exact ⟨_, rfl, by simpa using hε⟩

section
variable {K : Type} [Field K]

/-- the sum of rounded additions, one after the other -/
def seqSum (fl : K → K) : {m : Nat} → (Fin m → K) → K
  | 0, _ => fl 0
  | m + 1, g => (List.finRange (m + 1)).tail.foldl (fun t i => fl (t + g i)) (g 0)

/-- `fr` of a constant column -/
def constFr (fl : K → K) (n : Nat) : K := fl (((n + 1 : ℕ) : K) / 2 / fl n)

/-- rounded mean -/
def constMean (fl : K → K) (n : Nat) (g : Fin n → K) : K := fl (seqSum fl g / fl n)

/-- `CU` of a constant column -/
def constCu (fl : K → K) (n : Nat) : K := constMean fl n fun _ => fl (constFr fl n * fl (fl (1 : ℕ) - constFr fl n))

def constCum (fl : K → K) (f : K) : Nat → K
  | 0 => f
  | i + 1 => fl (constCum fl f i + f)

def constM (fl : K → K) (n : Nat) (i : Fin n) : K :=
  fl (fl (constCum fl (constFr fl n) i + fl (fl (n - (i.val + 1) : ℕ) * constFr fl n)) / fl n)

/-- the numerator of `v` of a constant column -/
def constNum (fl : K → K) (n : Nat) : K :=
  let f := constFr fl n
  let ai := fl (constMean fl n (fun i => fl (fl (fl (2 * n - 2 * (i.val + 1) + 1 : ℕ) * f) * f)) / fl n)
  let ci := fl (constMean fl n (fun i => fl (fl (2 * n - 2 * (i.val + 1) + 1 : ℕ) * f)) / fl n)
  let b := constMean fl n fun i => fl (constM fl n i * constM fl n i)
  fl (fl (ai - fl (fl (2 : ℕ) * b)) + fl (ci * ci))

end

section
variable (fl : ℝ → ℝ) (srt : ArgSort ℝ) (Φ : ℝ → ℝ) {n : Nat}

theorem roundXi_sum (site : List Nat) {m : Nat} (g : Fin m → ℝ) :
    (roundXiLib fl srt Φ).sum site (fun i => .fin (g i)) = .fin (seqSum fl g) := by
  cases m with
  | zero => show (roundLib fl).ofNat 0 = _; simp [roundLib, seqSum]
  | succ m =>
    show (roundLib fl).evalSum (fun i => .fin (g i)) (seqTree m) = _
    unfold seqTree seqSum
    have h : ∀ (l : List (Fin (m + 1))) (t : SumTree (m + 1)) (z : ℝ), (roundLib fl).evalSum (fun i => .fin (g i)) t = .fin z →
        (roundLib fl).evalSum (fun i => .fin (g i)) (l.foldl (fun t i => .node true t (.leaf i)) t) =
          .fin (l.foldl (fun t i => fl (t + g i)) z) := by
      intro l
      induction l with
      | nil => intro t z h; exact h
      | cons i l ih =>
        intro t z h
        rw [List.foldl_cons, List.foldl_cons]
        apply ih
        show (roundLib fl).add ((roundLib fl).evalSum (fun i => .fin (g i)) t) (.fin (g i)) = _
        rw [h]; rfl
    exact h _ _ _ rfl

theorem roundXi_div (x y : ℝ) (hy : y ≠ 0) : (roundXiLib fl srt Φ).div (.fin x) (.fin y) = .fin (fl (x / y)) := if_neg hy

variable (hn : fl n ≠ 0) (y : Fin n → Fl ℝ) (c : ℝ) (hy : ∀ i, y i = .fin c)
include hn hy

theorem roundXi_rank (i : Fin n) : (roundXiLib fl srt Φ).rank y i = .fin (((n + 1 : ℕ) : ℝ) / 2) := by
  have hlt : ∀ p q, (roundXiLib fl srt Φ).lt (y p) (y q) = false := by
    intro p q; rw [hy p, hy q]; simp [roundXiLib, roundLib]
  unfold FloatXiLib.rank
  rw [if_neg (by
    rintro ⟨j, hj⟩
    rw [hy j] at hj
    simp [roundXiLib, roundLib] at hj)]
  simp only [hlt]
  simp [roundXiLib]
  rfl

theorem roundXi_fr (i : Fin n) : (roundXiLib fl srt Φ).fr y i = .fin (constFr fl n) := by
  unfold FloatXiLib.fr
  rw [roundXi_rank fl srt Φ hn y c hy i]
  exact roundXi_div fl srt Φ _ _ hn

theorem roundXi_gr (i : Fin n) : (roundXiLib fl srt Φ).gr y i = .fin (constFr fl n) :=
  roundXi_fr fl srt Φ hn (fun j => (roundXiLib fl srt Φ).neg (y j)) (-c) (fun j => by rw [hy j]; rfl) i

omit hy in
theorem roundXi_mean (site : Nat) (g : Fin n → ℝ) (f : Fin n → Fl ℝ) (hf : ∀ i, f i = .fin (g i)) :
    (roundXiLib fl srt Φ).mean site f = .fin (constMean fl n g) := by
  obtain rfl : f = fun i => .fin (g i) := funext hf
  unfold FloatXiLib.mean
  rw [roundXi_sum]
  exact roundXi_div fl srt Φ _ _ hn

theorem roundXi_cu : (roundXiLib fl srt Φ).cu y = .fin (constCu fl n) := by
  refine roundXi_mean fl srt Φ hn 6 _ _ fun i => ?_
  rw [roundXi_gr fl srt Φ hn y c hy i]; rfl

theorem roundXi_qfr (i : Fin n) : (roundXiLib fl srt Φ).qfr y i = .fin (constFr fl n) := roundXi_fr fl srt Φ hn y c hy _

theorem roundXi_m (i : Fin n) : (roundXiLib fl srt Φ).m y i = .fin (constM fl n i) := by
  have hq : (roundXiLib fl srt Φ).qfr y = fun _ => .fin (constFr fl n) := funext (roundXi_qfr fl srt Φ hn y c hy)
  have hc : ∀ (k : Nat) (hk : k < n), (roundXiLib fl srt Φ).cumsum ((roundXiLib fl srt Φ).qfr y) k hk =
      .fin (constCum fl (constFr fl n) k) := by
    intro k
    induction k with
    | zero => intro hk; rw [hq]; rfl
    | succ k ih =>
      intro hk
      show (roundXiLib fl srt Φ).add ((roundXiLib fl srt Φ).cumsum ((roundXiLib fl srt Φ).qfr y) k (by omega)) _ = _
      rw [ih (by omega), hq]; rfl
  unfold FloatXiLib.m
  rw [hc, hq]
  exact roundXi_div fl srt Φ _ _ hn

theorem roundXi_v : (roundXiLib fl srt Φ).v y =
    (roundXiLib fl srt Φ).div (.fin (constNum fl n)) (.fin (fl (constCu fl n * constCu fl n))) := by
  have hq : (roundXiLib fl srt Φ).qfr y = fun _ => .fin (constFr fl n) := funext (roundXi_qfr fl srt Φ hn y c hy)
  have hm : (roundXiLib fl srt Φ).m y = fun i => .fin (constM fl n i) := funext (roundXi_m fl srt Φ hn y c hy)
  have ha : (roundXiLib fl srt Φ).ai y =
      .fin (fl (constMean fl n (fun i => fl (fl (fl (2 * n - 2 * (i.val + 1) + 1 : ℕ) * constFr fl n) * constFr fl n)) / fl n)) := by
    refine Eq.trans (congrArg (fun t => (roundXiLib fl srt Φ).div t (.fin (fl n))) (roundXi_mean fl srt Φ hn 8
      (fun i => fl (fl (fl (2 * n - 2 * (i.val + 1) + 1 : ℕ) * constFr fl n) * constFr fl n)) _ fun i => ?_)) (roundXi_div fl srt Φ _ _ hn)
    rw [hq]; rfl
  have hci : (roundXiLib fl srt Φ).ci y =
      .fin (fl (constMean fl n (fun i => fl (fl (2 * n - 2 * (i.val + 1) + 1 : ℕ) * constFr fl n)) / fl n)) := by
    refine Eq.trans (congrArg (fun t => (roundXiLib fl srt Φ).div t (.fin (fl n))) (roundXi_mean fl srt Φ hn 9
      (fun i => fl (fl (2 * n - 2 * (i.val + 1) + 1 : ℕ) * constFr fl n)) _ fun i => ?_)) (roundXi_div fl srt Φ _ _ hn)
    rw [hq]; rfl
  have hb : (roundXiLib fl srt Φ).b y = .fin (constMean fl n fun i => fl (constM fl n i * constM fl n i)) := by
    unfold FloatXiLib.b
    rw [hm]
    exact roundXi_mean fl srt Φ hn 10 _ _ fun i => rfl
  unfold FloatXiLib.v
  rw [ha, hci, hb, roundXi_cu fl srt Φ hn y c hy]
  rfl

/-- a negative variance estimate: the p-value is nan, no edge at any level -/
theorem roundXi_neg (hcu : fl (constCu fl n * constCu fl n) ≠ 0) (hv : fl (constNum fl n / fl (constCu fl n * constCu fl n)) < 0)
    (x : Fin n → Fl ℝ) : (roundXiLib fl srt Φ).pvalue x y = .nan := by
  unfold FloatXiLib.pvalue
  rw [roundXi_v fl srt Φ hn y c hy, roundXi_div fl srt Φ _ _ hcu]
  have h1 : (roundXiLib fl srt Φ).sqrt (.fin (fl (constNum fl n / fl (constCu fl n * constCu fl n)))) = .nan := if_pos hv
  rw [h1]
  have h2 : ∀ z, (roundXiLib fl srt Φ).div z .nan = .nan := by intro z; cases z <;> rfl
  rw [h2]
  rfl

end

/-- exact arithmetic, except that `6` is rounded down -/
noncomputable def pert (ε x : ℝ) : ℝ := if x = 6 then 6 * (1 - ε) else x

theorem pert_error (ε x : ℝ) (hε : 0 ≤ ε) : |pert ε x - x| ≤ ε * |x| := by
  unfold pert
  split_ifs with h
  · rw [h, show 6 * (1 - ε) - 6 = -(ε * (6 : ℝ)) by ring, abs_neg, abs_mul, abs_of_nonneg hε]
  · rw [sub_self, abs_zero]; positivity

theorem pert_lt {ε x : ℝ} (h : x < 6) : pert ε x = x := if_neg h.ne

theorem pert_num {ε : ℝ} (hε : 0 < ε) (hε1 : ε < 1) : constNum (pert ε) 3 = 4 / 9 * (1 - ε) ^ 2 - 4 / 9 := by
  have hr : (List.finRange 3) = [0, 1, 2] := by decide
  have hf : constFr (pert ε) 3 = 2 / 3 := by simp [constFr, pert]; norm_num
  have h3 : pert ε (3 : ℕ) = 3 := pert_lt (by norm_num)
  have ha : constMean (pert ε) 3 (fun i => pert ε (pert ε (pert ε (2 * 3 - 2 * (i.val + 1) + 1 : ℕ) * (2 / 3)) * (2 / 3))) = 4 / 3 := by
    simp [constMean, seqSum, hr, pert]; norm_num
  have hb : constMean (pert ε) 3 (fun i => pert ε (constM (pert ε) 3 i * constM (pert ε) 3 i)) = 4 / 9 := by
    simp [constMean, seqSum, hr, constM, hf, constCum, pert]; norm_num
  have hc : constMean (pert ε) 3 (fun i => pert ε (pert ε (2 * 3 - 2 * (i.val + 1) + 1 : ℕ) * (2 / 3))) = 2 * (1 - ε) := by
    have : seqSum (pert ε) (fun i : Fin 3 => pert ε (pert ε (2 * 3 - 2 * (i.val + 1) + 1 : ℕ) * (2 / 3))) = 6 * (1 - ε) := by
      simp [seqSum, hr, pert]; norm_num
    unfold constMean
    rw [this, h3, pert_lt (by linarith)]; ring
  have hci : pert ε (2 * (1 - ε) / 3) = 2 * (1 - ε) / 3 := pert_lt (by linarith)
  have h2 : pert ε (2 : ℕ) = 2 := pert_lt (by norm_num)
  unfold constNum
  simp only [hf, ha, hb, hc, h3, hci, h2]
  have e1 : pert ε (4 / 3 / 3) = 4 / 9 := by rw [pert_lt (by norm_num)]; norm_num
  have e2 : pert ε (2 * (4 / 9)) = 8 / 9 := by rw [pert_lt (by norm_num)]; norm_num
  have e3 : pert ε (4 / 9 - 8 / 9) = -(4 / 9) := by rw [pert_lt (by norm_num)]; norm_num
  have e4 : pert ε (2 * (1 - ε) / 3 * (2 * (1 - ε) / 3)) = 4 / 9 * (1 - ε) ^ 2 := by rw [pert_lt (by nlinarith)]; ring
  rw [e1, e2, e3, e4, pert_lt (by nlinarith)]; ring

theorem pert_cu (ε : ℝ) : constCu (pert ε) 3 = 2 / 9 := by
  have hr : (List.finRange 3) = [0, 1, 2] := by decide
  simp [constCu, constMean, seqSum, constFr, hr, pert]
  norm_num

/-- **C200, constant columns** whatever `ε`, there is an arithmetic accurate up to `ε` in which a later column that is constant gets no edge
at any level, whereas exact arithmetic joins it to all earlier columns at every positive level (`C74_xicor_constant`).  Three observations
are enough. -/
theorem C200_constant_column (srt : ArgSort ℝ) (Φ : ℝ → ℝ) (ε : ℝ) (hε : 0 < ε) :
    ∃ a : FloatXiLib, AccurateXi a srt Φ ε ∧ (∀ r : ℝ, ∃ x, a.val x = some r) ∧
      ∀ (M : Nat) (X : Fin 3 → Fin M → ℝ) (s : Fin 3 → Fin M → a.F) (lvl : a.F), (∀ k i, a.val (s k i) = some (X k i)) →
        ∀ i j, i < j → (Constant fun k => X k j) → a.xiGraph s lvl i j = false := by
  have h0 : 0 < min ε (1 / 2) := lt_min hε (by norm_num)
  set δ := min ε (1 / 2) with hδ
  have h1 : δ < 1 := (min_le_right _ _).trans_lt (by norm_num)
  refine ⟨roundXiLib (pert δ) srt Φ, roundXiLib_accurate srt Φ (by simp [pert]) (fun x => (pert_error δ x h0.le).trans
    (mul_le_mul_of_nonneg_right (min_le_left _ _) (abs_nonneg _))) hε.le, fun r => ⟨.fin r, rfl⟩, ?_⟩
  intro M X s lvl hs i j hij hc
  have hfin : ∀ k, s k j = Fl.fin (X 0 j) := by
    intro k
    have h2 := hs k j
    have h3 : X k j = X 0 j := hc k 0
    rw [h3] at h2
    generalize s k j = z at h2 ⊢
    cases z <;> simp [roundXiLib, roundLib] at h2
    rw [h2]
  have h3 : pert δ (3 : ℕ) ≠ 0 := by rw [pert_lt (by norm_num)]; norm_num
  have hcc : pert δ (constCu (pert δ) 3 * constCu (pert δ) 3) = 4 / 81 := by
    rw [pert_cu, pert_lt (by norm_num)]; norm_num
  have hneg : constNum (pert δ) 3 < 0 := by rw [pert_num h0 h1]; nlinarith
  have hp := roundXi_neg (pert δ) srt Φ h3 (fun k => s k j) (X 0 j) hfin (by rw [hcc]; norm_num)
    (by rw [hcc, pert_lt (by linarith)]; linarith) (fun k => s k i)
  unfold FloatXiLib.xiGraph clearDiag
  rw [if_neg hij.ne]
  show (roundXiLib (pert δ) srt Φ).lt ((roundXiLib (pert δ) srt Φ).xiPvals s i j) lvl = false
  have : (roundXiLib (pert δ) srt Φ).xiPvals s i j = .nan := (if_pos hij).trans hp
  rw [this]
  rfl

/-- **C200 is false** -/
theorem C200_false : ¬ C200_statement := by
  intro h
  let X : Fin 3 → Fin 2 → ℝ := fun k i => if i = 0 then k.val else 5
  let lib : TestLib ℝ 3 := ⟨id, fun _ _ => .nan, xicorTest (exSort ℝ) (fun _ => 0)⟩
  have hc : ∀ k l : Fin 3, X k 1 = X l 1 := fun k l => rfl
  obtain ⟨U, P, h1, h2, -⟩ := C74_xicor_constant (fun _ => 0) (exSort ℝ) lib rfl X (by norm_num) (1 / 20) (by norm_num) 0 1 (by decide) hc
  obtain ⟨ε, hε, h3⟩ := h (exSort ℝ) (fun _ => 0) 3 2 lib X (1 / 20) U (some P) continuous_const rfl (by norm_num) (by
    intro i j hij p hp
    have hj : j = 1 := by omega
    subst hj
    rw [xicorTest_const (exSort ℝ) _ _ _ (by norm_num) hc] at hp
    injection hp with hp
    rw [← hp]; norm_num) h1
  obtain ⟨a, ha, hv, h4⟩ := C200_constant_column (exSort ℝ) (fun _ => 0) ε hε
  choose f hf using hv
  have h5 := h3 a (fun k i => f (X k i)) (f (1 / 20)) (1 / 20) ha (fun k i => hf _) (hf _) (by rw [sub_self, abs_zero]; exact hε.le)
  have h6 := h4 2 X (fun k i => f (X k i)) (f (1 / 20)) (fun k i => hf _) 0 1 (by decide) hc
  rw [h5, h2] at h6
  cases h6

/-! ### double precision -/

theorem fl64_cast (q : ℚ) : fl64 ((q : ℚ) : ℝ) = ((fl64 q : ℚ) : ℝ) := by
  have hrne : ∀ x : ℚ, rne ((x : ℚ) : ℝ) = rne x := by
    intro x
    have e : ((x : ℝ) - (⌊x⌋ : ℝ)) = ((x - (⌊x⌋ : ℚ) : ℚ) : ℝ) := by push_cast; rfl
    have e1 : ((x - (⌊x⌋ : ℚ) : ℚ) : ℝ) < 1 / 2 ↔ x - (⌊x⌋ : ℚ) < 1 / 2 := by
      rw [show (1 / 2 : ℝ) = ((1 / 2 : ℚ) : ℝ) by norm_num]; exact Rat.cast_lt
    have e2 : 1 / 2 < ((x - (⌊x⌋ : ℚ) : ℚ) : ℝ) ↔ 1 / 2 < x - (⌊x⌋ : ℚ) := by
      rw [show (1 / 2 : ℝ) = ((1 / 2 : ℚ) : ℝ) by norm_num]; exact Rat.cast_lt
    unfold rne
    rw [Rat.floor_cast, e]
    simp only [e1, e2]
  have hlog : Int.log 2 |((q : ℚ) : ℝ)| = Int.log 2 |q| := by
    rw [← Rat.cast_abs]
    unfold Int.log
    rw [← Int.floor_toNat, ← Int.floor_toNat, ← Int.ceil_toNat, ← Int.ceil_toNat, Rat.floor_cast, ← Rat.cast_inv, Rat.ceil_cast]
    by_cases h : 1 ≤ |q|
    · rw [if_pos h, if_pos (by exact_mod_cast h)]
    · rw [if_neg h, if_neg (by exact_mod_cast h)]
  unfold fl64
  rw [hlog]
  by_cases h : q = 0
  · rw [if_pos h, if_pos (by exact_mod_cast h)]; norm_num
  · rw [if_neg h, if_neg (by exact_mod_cast h)]
    have : ((q : ℝ) / 2 ^ (Int.log 2 |q| - 52)) = ((q / 2 ^ (Int.log 2 |q| - 52) : ℚ) : ℝ) := by push_cast; rfl
    rw [this, hrne]
    push_cast
    rfl

section
variable {f : ℝ → ℝ} {g : ℚ → ℚ} (h : ∀ q : ℚ, f q = g q)
include h

theorem seqSum_cast {m : Nat} (u : Fin m → ℚ) : seqSum f (fun i => (u i : ℝ)) = (seqSum g u : ℚ) := by
  cases m with
  | zero => have := h 0; rw [Rat.cast_zero] at this; exact this
  | succ m =>
    unfold seqSum
    have : ∀ (l : List (Fin (m + 1))) (t : ℚ), l.foldl (fun (t : ℝ) i => f (t + (u i : ℝ))) (t : ℝ) =
        ((l.foldl (fun t i => g (t + u i)) t : ℚ) : ℝ) := by
      intro l
      induction l with
      | nil => intro t; rfl
      | cons i l ih =>
        intro t
        rw [List.foldl_cons, List.foldl_cons, ← ih, ← h]
        push_cast; rfl
    exact this _ _

theorem constNat_cast (n : Nat) : f n = g n := by rw [← h]; push_cast; rfl

theorem constFr_cast (n : Nat) : constFr f n = (constFr g n : ℚ) := by
  unfold constFr
  rw [← h, constNat_cast h]; push_cast; rfl

theorem constMean_cast (n : Nat) {u' : Fin n → ℝ} {u : Fin n → ℚ} (hu : ∀ i, u' i = u i) : constMean f n u' = (constMean g n u : ℚ) := by
  obtain rfl : u' = fun i => (u i : ℝ) := funext hu
  unfold constMean
  rw [seqSum_cast h]
  simp only [← h, Rat.cast_div, Rat.cast_natCast]

theorem constCu_cast (n : Nat) : constCu f n = (constCu g n : ℚ) := by
  refine constMean_cast h n fun i => ?_
  simp only [constFr_cast h, ← h, Rat.cast_mul, Rat.cast_sub, Rat.cast_natCast]

theorem constM_cast (n : Nat) (i : Fin n) : constM f n i = (constM g n i : ℚ) := by
  have hc : ∀ k, constCum f (constFr f n) k = (constCum g (constFr g n) k : ℚ) := by
    intro k
    induction k with
    | zero => exact constFr_cast h n
    | succ k ih =>
      show f (constCum f (constFr f n) k + constFr f n) = _
      rw [ih, constFr_cast h, ← Rat.cast_add, h]; rfl
  unfold constM
  rw [hc]
  simp only [constFr_cast h, ← h, Rat.cast_mul, Rat.cast_add, Rat.cast_div, Rat.cast_natCast]

theorem constNum_cast (n : Nat) : constNum f n = (constNum g n : ℚ) := by
  have ha := constMean_cast h n (u' := fun i => f (f (f (2 * n - 2 * (i.val + 1) + 1 : ℕ) * constFr f n) * constFr f n))
    (u := fun i => g (g (g (2 * n - 2 * (i.val + 1) + 1 : ℕ) * constFr g n) * constFr g n)) fun i => by
      simp only [constFr_cast h, ← h, Rat.cast_mul, Rat.cast_natCast]
  have hc := constMean_cast h n (u' := fun i => f (f (2 * n - 2 * (i.val + 1) + 1 : ℕ) * constFr f n))
    (u := fun i => g (g (2 * n - 2 * (i.val + 1) + 1 : ℕ) * constFr g n)) fun i => by
      simp only [constFr_cast h, ← h, Rat.cast_mul, Rat.cast_natCast]
  have hb := constMean_cast h n (u' := fun i => f (constM f n i * constM f n i))
    (u := fun i => g (constM g n i * constM g n i)) fun i => by
      simp only [constM_cast h, ← h, Rat.cast_mul]
  unfold constNum
  simp only
  rw [ha, hc, hb]
  simp only [← h, Rat.cast_add, Rat.cast_sub, Rat.cast_mul, Rat.cast_div, Rat.cast_natCast]

end

theorem fl64_sign {x : ℝ} : (0 < x → 0 < fl64 x) ∧ (x < 0 → fl64 x < 0) := by
  have h := fl64_error x
  have h2 : |x| / 2 ^ 53 ≤ |x| / 2 := div_le_div_of_nonneg_left (abs_nonneg _) (by norm_num) (by norm_num)
  have h3 := abs_le.mp (h.trans h2)
  constructor
  · intro hx; rw [abs_of_pos hx] at h3; linarith [h3.1]
  · intro hx; rw [abs_of_neg hx] at h3; linarith [h3.2]

theorem num5 : constNum (fl64 (K := ℚ)) 5 = -1 / 2 ^ 52 := by decide +kernel
theorem cu5 : 0 < constCu (fl64 (K := ℚ)) 5 := by decide +kernel
theorem num4 : constNum (fl64 (K := ℚ)) 4 = 0 := by decide +kernel
theorem cu4 : 0 < constCu (fl64 (K := ℚ)) 4 := by decide +kernel

/-- **C200, double precision** In double precision, with sums added one after the other (as numpy does below eight summands), a constant
later column gets no edge at any level if there are five observations, and an edge at every positive level if there are four: the decision
is the rounding error of a variance estimate that is exactly zero. -/
theorem C200_double_precision (srt : ArgSort ℝ) (Φ : ℝ → ℝ) :
    AccurateXi (roundXiLib fl64 srt Φ) srt Φ (1 / 2 ^ 53) ∧
    (∀ (M : Nat) (s : Fin 5 → Fin M → Fl ℝ) (lvl : Fl ℝ) (i j : Fin M) (c : ℝ), i < j → (∀ k, s k j = .fin c) →
      (roundXiLib fl64 srt Φ).xiGraph s lvl i j = false) ∧
    ∀ (M : Nat) (s : Fin 4 → Fin M → Fl ℝ) (level : ℝ) (i j : Fin M) (c : ℝ), 0 < level → i < j → (∀ k, s k j = .fin c) →
      (roundXiLib fl64 srt Φ).xiGraph s (.fin level) i j = true := by
  have hz : fl64 (0 : ℝ) = 0 := by simp [fl64]
  have hnat : ∀ n : ℕ, 0 < n → fl64 ((n : ℕ) : ℝ) ≠ 0 := fun n hn => (fl64_sign.1 (by exact_mod_cast hn)).ne'
  have hcupos : ∀ n, 0 < constCu (fl64 (K := ℚ)) n →
      0 < fl64 (constCu (fl64 (K := ℝ)) n * constCu fl64 n) ∧ constCu (fl64 (K := ℝ)) n ≠ 0 := by
    intro n hn
    have : 0 < constCu (fl64 (K := ℝ)) n := by rw [constCu_cast fl64_cast]; exact_mod_cast hn
    exact ⟨fl64_sign.1 (mul_pos this this), this.ne'⟩
  refine ⟨roundXiLib_accurate srt Φ hz (fun x => by have := fl64_error x; rw [div_mul_eq_mul_div, one_mul]; exact this) (by positivity),
    ?_, ?_⟩
  · intro M s lvl i j c hij hc
    obtain ⟨h1, -⟩ := hcupos 5 cu5
    have hp := roundXi_neg fl64 srt Φ (hnat 5 (by norm_num)) (fun k => s k j) c hc h1.ne'
      (fl64_sign.2 (div_neg_of_neg_of_pos (by rw [constNum_cast fl64_cast, num5]; norm_num) h1)) (fun k => s k i)
    unfold FloatXiLib.xiGraph clearDiag
    rw [if_neg hij.ne]
    show (roundXiLib fl64 srt Φ).lt ((roundXiLib fl64 srt Φ).xiPvals s i j) lvl = false
    have : (roundXiLib fl64 srt Φ).xiPvals s i j = .nan := (if_pos hij).trans hp
    rw [this]
    rfl
  · intro M s level i j c hl hij hc
    obtain ⟨h1, h1'⟩ := hcupos 4 cu4
    have h4 := hnat 4 (by norm_num)
    have one : fl64 ((1 : ℕ) : ℝ) = 1 := by
      have := fl64_cast 1
      rw [show fl64 (1 : ℚ) = 1 by decide +kernel] at this
      simpa using this
    have hv : (roundXiLib fl64 srt Φ).v (fun k => s k j) = .fin 0 := by
      rw [roundXi_v fl64 srt Φ h4 _ c hc, constNum_cast fl64_cast, num4, Rat.cast_zero]
      rw [roundXi_div fl64 srt Φ _ _ h1.ne', zero_div, hz]
    have hA : (roundXiLib fl64 srt Φ).A1 (fun k => s k i) (fun k => s k j) = .fin 0 := by
      have hd : ∀ k, (roundXiLib fl64 srt Φ).absDiff (fun k => (roundXiLib fl64 srt Φ).fr (fun k => s k j)
          ((roundXiLib fl64 srt Φ).argsort ((roundXiLib fl64 srt Φ).rank fun k => s k i) k)) k = .fin 0 := by
        intro k
        have hfr := roundXi_fr fl64 srt Φ h4 (fun k => s k j) c hc
        unfold FloatXiLib.absDiff
        simp only [hfr]
        show Fl.fin |fl64 (constFr fl64 4 - constFr fl64 4)| = _
        rw [sub_self, hz, abs_zero]
      unfold FloatXiLib.A1
      rw [funext hd]
      refine Eq.trans (congrArg (fun t => (roundXiLib fl64 srt Φ).div t _) (roundXi_sum fl64 srt Φ [7] fun _ : Fin 3 => (0 : ℝ))) ?_
      have : seqSum (fl64 (K := ℝ)) (fun _ : Fin 3 => (0 : ℝ)) = 0 := by
        have hr : (List.finRange 3) = [0, 1, 2] := by decide
        simp [seqSum, hr, hz]
      rw [this]
      refine (roundXi_div fl64 srt Φ _ _ (hnat 8 (by norm_num))).trans ?_
      rw [zero_div, hz]
    have hxi : (roundXiLib fl64 srt Φ).xi (fun k => s k i) (fun k => s k j) = .fin 1 := by
      unfold FloatXiLib.xi
      rw [hA, roundXi_cu fl64 srt Φ h4 _ c hc, roundXi_div fl64 srt Φ _ _ h1', zero_div, hz]
      show Fl.fin (fl64 (fl64 ((1 : ℕ) : ℝ) - 0)) = _
      rw [sub_zero, one, ← Nat.cast_one (R := ℝ), one, Nat.cast_one]
    have hp : (roundXiLib fl64 srt Φ).pvalue (fun k => s k i) (fun k => s k j) = .fin 0 := by
      unfold FloatXiLib.pvalue
      rw [hxi, hv]
      have hs0 : (roundXiLib fl64 srt Φ).sqrt (.fin 0) = .fin 0 := by
        show (if (0 : ℝ) < 0 then Fl.nan else .fin (fl64 (Real.sqrt 0))) = _
        rw [if_neg (lt_irrefl _), Real.sqrt_zero, hz]
      have hpos : 0 < fl64 (fl64 (Real.sqrt (fl64 ((4 : ℕ) : ℝ))) * 1) := by
        rw [mul_one]
        exact fl64_sign.1 (fl64_sign.1 (Real.sqrt_pos.mpr (fl64_sign.1 (by norm_num))))
      have hs4 : (roundXiLib fl64 srt Φ).mul ((roundXiLib fl64 srt Φ).sqrt ((roundXiLib fl64 srt Φ).ofNat 4)) (.fin 1) =
          .fin (fl64 (fl64 (Real.sqrt (fl64 ((4 : ℕ) : ℝ))) * 1)) := by
        have : (roundXiLib fl64 srt Φ).sqrt ((roundXiLib fl64 srt Φ).ofNat 4) = .fin (fl64 (Real.sqrt (fl64 ((4 : ℕ) : ℝ)))) :=
          if_neg (not_lt.mpr (fl64_sign.1 (by norm_num)).le)
        rw [this]; rfl
      rw [hs0, hs4]
      have hd : (roundXiLib fl64 srt Φ).div (.fin (fl64 (fl64 (Real.sqrt (fl64 ((4 : ℕ) : ℝ))) * 1))) (.fin 0) = .pinf := by
        show (if (0 : ℝ) = 0 then Fl.div _ 0 else _) = _
        rw [if_pos rfl, Fl.div, if_pos rfl, if_neg hpos.ne', if_pos hpos]
      rw [hd]
      show Fl.fin (fl64 (fl64 ((1 : ℕ) : ℝ) - 1)) = _
      rw [one, sub_self, hz]
    unfold FloatXiLib.xiGraph clearDiag
    rw [if_neg hij.ne]
    show (roundXiLib fl64 srt Φ).lt ((roundXiLib fl64 srt Φ).xiPvals s i j) (.fin level) = true
    have : (roundXiLib fl64 srt Φ).xiPvals s i j = .fin 0 := (if_pos hij).trans hp
    rw [this]
    show decide ((0 : ℝ) < level) = true
    exact decide_eq_true hl

-- the assumptions of the proved part: two observations, the second column not constant; the exact p-value is 1/2 for the normal distribution
-- function (and any other with value 1/2 at 0)
example (srt : ArgSort ℝ) (Φ : ℝ → ℝ) (hΦ : Φ 0 = 1 / 2) (X : Fin 2 → Fin 2 → ℝ) (hX : X = fun k _ => (k.val : ℝ)) :
    (¬ Constant fun k => X k 1) ∧ xicorTest srt Φ (fun k => X k 0) (fun k => X k 1) = .fin (1 / 2) ∧ (1 / 2 : ℝ) ≠ 1 / 20 := by
  have hnc : ¬ Constant fun k => X k 1 := by
    intro h
    have := h 0 1
    simp [hX] at this
  refine ⟨hnc, ?_, by norm_num⟩
  obtain ⟨v, hv, h0, hz⟩ := xiVar_pos (fun k => X k 1) (le_refl 2)
  have hpos : 0 < v := lt_of_le_of_ne h0 fun e => hnc (hz.mp e.symm)
  rw [xicorTest_varying srt Φ _ _ (le_refl 2) hv hpos]
  have hr : ∀ k : Fin 2, rankAvg (fun k => X k 1) k = k.val + 1 := by
    subst hX
    have f0 : (Finset.univ.filter fun j : Fin 2 => (j.val : ℝ) < ((0 : Fin 2).val : ℝ)) = ∅ := by ext j; fin_cases j <;> simp
    have f1 : (Finset.univ.filter fun j : Fin 2 => (j.val : ℝ) = ((0 : Fin 2).val : ℝ)) = {0} := by ext j; fin_cases j <;> simp
    have f2 : (Finset.univ.filter fun j : Fin 2 => (j.val : ℝ) < ((1 : Fin 2).val : ℝ)) = {0} := by ext j; fin_cases j <;> simp
    have f3 : (Finset.univ.filter fun j : Fin 2 => (j.val : ℝ) = ((1 : Fin 2).val : ℝ)) = {1} := by ext j; fin_cases j <;> simp
    have e0 : rankAvg (fun k : Fin 2 => (k.val : ℝ)) 0 = 1 := by unfold rankAvg; rw [f0, f1]; simp
    have e1 : rankAvg (fun k : Fin 2 => (k.val : ℝ)) 1 = 2 := by unfold rankAvg; rw [f2, f3]; simp; norm_num
    intro k
    rcases (by omega : k = 0 ∨ k = 1) with rfl | rfl
    · refine e0.trans (by simp)
    · refine e1.trans (by simp; norm_num)
  have hg : ∀ k : Fin 2, rankAvg (fun k => -X k 1) k = 2 - k.val := by
    subst hX
    have f0 : (Finset.univ.filter fun j : Fin 2 => -(j.val : ℝ) < -((0 : Fin 2).val : ℝ)) = {1} := by ext j; fin_cases j <;> simp
    have f1 : (Finset.univ.filter fun j : Fin 2 => -(j.val : ℝ) = -((0 : Fin 2).val : ℝ)) = {0} := by ext j; fin_cases j <;> simp
    have f2 : (Finset.univ.filter fun j : Fin 2 => -(j.val : ℝ) < -((1 : Fin 2).val : ℝ)) = ∅ := by
      ext j; fin_cases j <;> simp
    have f3 : (Finset.univ.filter fun j : Fin 2 => -(j.val : ℝ) = -((1 : Fin 2).val : ℝ)) = {1} := by ext j; fin_cases j <;> simp
    have e0 : rankAvg (fun k : Fin 2 => -(k.val : ℝ)) 0 = 2 := by unfold rankAvg; rw [f0, f1]; simp; norm_num
    have e1 : rankAvg (fun k : Fin 2 => -(k.val : ℝ)) 1 = 1 := by unfold rankAvg; rw [f2, f3]; simp
    intro k
    rcases (by omega : k = 0 ∨ k = 1) with rfl | rfl
    · refine e0.trans (by simp)
    · refine e1.trans (by simp; norm_num)
  have hcu : xiCu (fun k => X k 1) = 1 / 8 := by
    unfold xiCu xiGr
    simp only [hg, Fin.sum_univ_two]
    norm_num
  have hA : xiA1 srt (fun k => X k 0) (fun k => X k 1) = 1 / 8 := by
    unfold xiA1 absDiffSum xiFr
    generalize srt.sort (rankAvg fun k => X k 0) = σ
    have h01 : σ 0 ≠ σ 1 := fun h => by simpa using σ.injective h
    simp only [hr]
    have hσ : (σ 0 = 0 ∧ σ 1 = 1) ∨ (σ 0 = 1 ∧ σ 1 = 0) := by omega
    rcases hσ with ⟨a, b⟩ | ⟨a, b⟩
    · simp [a, b, abs_of_pos, abs_of_neg]; norm_num
    · simp [a, b, abs_of_pos, abs_of_neg]; norm_num
  rw [hcu, hA, show Real.sqrt ((2 : ℕ) : ℝ) * (1 - 1 / 8 / (1 / 8)) / Real.sqrt v = 0 by norm_num, hΦ]
  norm_num

end Medil

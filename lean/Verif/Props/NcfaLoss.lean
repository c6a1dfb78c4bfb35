import Verif.Props.NcfaData
import Verif.Proofs.Nuclear
import Mathlib.Analysis.SpecialFunctions.Log.Basic
import Mathlib.Analysis.InnerProductSpace.PiL2
import Mathlib.Analysis.Matrix.PosDef
import Mathlib.Analysis.Matrix.Order
import Mathlib.Algebra.Order.BigOperators.Ring.Finset
/-
  The loss of `NeuroCausalFactorAnalysis` (C84-C86, C92, C93).
-/
namespace Medil
open Finset Matrix
variable {M w : Nat} {G O : Type} {N L : Nat}

/-! ### closed forms -/

theorem batchCov_eq (logcov : Fin N → Fin M → ℝ) : batchCov logcov = diagonal (batchVar logcov) := by
  ext i j
  unfold batchCov batchVar sampleMean
  by_cases h : i = j
  · subst h; simp
  · simp [h]

theorem batchVar_pos (hN : 0 < N) (logcov : Fin N → Fin M → ℝ) (j : Fin M) : 0 < batchVar logcov j := by
  unfold batchVar sampleMean
  have : Nonempty (Fin N) := ⟨⟨0, hN⟩⟩
  exact div_pos (sum_pos (fun _ _ => Real.exp_pos _) univ_nonempty) (by exact_mod_cast hN)

theorem reconLoss_eq (x recon logcov : Fin N → Fin M → ℝ) (hN : 0 < N) :
    reconLoss x recon logcov = -((N * ∏ j, batchVar logcov j + weightedResiduals x recon logcov) / 2) := by
  unfold reconLoss weightedResiduals
  have hinv : (batchCov logcov)⁻¹ = diagonal fun j => (batchVar logcov j)⁻¹ := by
    rw [batchCov_eq]
    apply Matrix.inv_eq_right_inv
    rw [Matrix.diagonal_mul_diagonal, ← Matrix.diagonal_one]
    congr 1
    funext j
    exact mul_inv_cancel₀ (batchVar_pos hN logcov j).ne'
  have hk : ∀ k, (diffMat x recon * (batchCov logcov)⁻¹ * (diffMat x recon)ᵀ) k k =
      ∑ j, (x k j - recon k j) ^ 2 / batchVar logcov j := by
    intro k
    rw [hinv, Matrix.mul_apply]
    apply sum_congr rfl
    intro j _
    rw [Matrix.mul_diagonal, Matrix.transpose_apply]
    unfold diffMat
    rw [div_eq_mul_inv]; ring
  rw [sum_congr rfl fun k _ => by rw [hk k], sum_add_distrib, batchCov_eq, Matrix.det_diagonal]
  simp
  ring

theorem klDiv_eq (mu logvar : Fin N → Fin L → ℝ) : klDiv mu logvar = klFromStandard mu logvar := by
  unfold klDiv klFromStandard
  rw [mul_sum]
  apply sum_congr rfl
  intro k _
  rw [mul_sum]
  apply sum_congr rfl
  intro l _
  ring

/-! ### C85: is the loss the negative ELBO? -/

/-- **C85** (as stated; false): with `beta = 1` and without penalties the loss of a batch is the Kullback-Leibler
divergence plus the negative Gaussian log-likelihood, up to a constant that depends on the sizes only -/
def C85_statement : Prop :=
  ∃ c : Nat → Nat → ℝ, ∀ (N L M : Nat) (hp : Hyper) (x : Fin N → Fin M → ℝ) (out : VaeOut N L M), 0 < N → hp.beta = 1 →
    elboGaussian (a := 0) (b := 0) hp x out none =
      klFromStandard out.mu out.logvar + negLogLik x out.recon out.logcov + c N M

/-- **C85**, what is true instead: the loss is `beta` times the divergence plus half of the weighted squared residuals
plus `N/2` times the *determinant* of the covariance (instead of its logarithm), plus the penalties
`lambda`·(sum of singular values) and `mu`·(sum of absolute values) of the weights in training. -/
theorem C85_partial (hp : Hyper) (x : Fin N → Fin M → ℝ) (out : VaeOut N L M) (hN : 0 < N) :
    elboGaussian (a := 0) (b := 0) hp x out none = hp.beta * klFromStandard out.mu out.logvar +
      (N * (∏ j, batchVar out.logcov j) + weightedResiduals x out.recon out.logcov) / 2 ∧
    elboGaussian (a := 0) (b := 0) hp x out none = hp.beta * klFromStandard out.mu out.logvar +
      negLogLik x out.recon out.logcov +
      N / 2 * ((∏ j, batchVar out.logcov j) - ∑ j, Real.log (batchVar out.logcov j)) ∧
    ∀ {a b : Nat} (W : Fin a → Fin b → ℝ), elboGaussian hp x out (some W) =
      elboGaussian (a := 0) (b := 0) hp x out none + hp.lam * nuclearNorm (Matrix.of W) + hp.mu * ∑ o, ∑ i, |W o i| := by
  refine ⟨?_, ?_, ?_⟩
  · unfold elboGaussian
    dsimp only
    rw [klDiv_eq, reconLoss_eq _ _ _ hN]; ring
  · unfold elboGaussian negLogLik
    dsimp only
    rw [klDiv_eq, reconLoss_eq _ _ _ hN]; ring
  · intro a b W
    rfl

/-- results for one row and one measurement: exact reconstruction, logarithm of the variance `s` -/
def oneOut (s : ℝ) : VaeOut 1 0 1 := ⟨fun _ _ => 0, fun _ _ => s, fun _ _ => 0, fun _ _ => 0⟩

theorem C85_false : ¬ C85_statement := by
  rintro ⟨c, h⟩
  have e : ∀ s, Real.exp s / 2 = s / 2 + c 1 1 := by
    intro s
    have h1 := h 1 0 1 {} (fun _ _ => 0) (oneOut s) one_pos rfl
    rw [(C85_partial {} (fun _ _ => 0) (oneOut s) one_pos).1] at h1
    simpa [oneOut, klFromStandard, negLogLik, weightedResiduals, batchVar, sampleMean] using h1
  have h0 := e 0
  have h1 := e 1
  have h2 := e 2
  rw [Real.exp_zero] at h0
  have h4 : Real.exp 2 = Real.exp 1 * Real.exp 1 := by rw [← Real.exp_add]; norm_num
  rw [h4] at h2
  nlinarith

/-- **C85**, a consequence: for one measurement and given residuals, the variance that minimises this loss is the
*standard deviation* of the residuals, while the negative log-likelihood is minimised by their variance. -/
theorem C85_wrong_variance (s v : ℝ) (hs : 0 < s) (hv : 0 < v) :
    (s + s ^ 2 / s ≤ v + s ^ 2 / v ∧ (v + s ^ 2 / v = s + s ^ 2 / s ↔ v = s)) ∧
    (Real.log (s ^ 2) + s ^ 2 / s ^ 2 ≤ Real.log v + s ^ 2 / v) := by
  have h1 : s ^ 2 / s = s := by field_simp
  have h2 : v + s ^ 2 / v - (s + s) = (v - s) ^ 2 / v := by field_simp; ring
  refine ⟨⟨?_, ?_⟩, ?_⟩
  · have : 0 ≤ (v - s) ^ 2 / v := by positivity
    linarith
  · rw [h1]
    constructor
    · intro h
      have h3 : (v - s) ^ 2 / v = 0 := by linarith
      rw [div_eq_zero_iff, or_iff_left hv.ne'] at h3
      have := pow_eq_zero_iff two_ne_zero |>.mp h3
      linarith
    · intro h; subst h; rw [h1]
  · have h3 := Real.log_le_sub_one_of_pos (x := s ^ 2 / v) (by positivity)
    rw [Real.log_div (by positivity) hv.ne'] at h3
    rw [div_self (by positivity)]
    linarith

/-- in the loss of one measurement: the part that depends on the variance is `N/2·(v + s²/v)` for mean squared
residual `s²` -/
theorem C85_one_measurement (hp : Hyper) (x : Fin N → Fin 1 → ℝ) (out : VaeOut N L 1) (hN : 0 < N) :
    elboGaussian (a := 0) (b := 0) hp x out none = hp.beta * klFromStandard out.mu out.logvar +
      N / 2 * (batchVar out.logcov 0 + (sampleMean fun k => (x k 0 - out.recon k 0) ^ 2) / batchVar out.logcov 0) := by
  rw [(C85_partial hp x out hN).1]
  have : (N : ℝ) ≠ 0 := by exact_mod_cast hN.ne'
  have hv := (batchVar_pos hN out.logcov 0).ne'
  unfold weightedResiduals sampleMean
  simp only [Fin.prod_univ_one, Fin.sum_univ_one, Fin.isValue]
  rw [← sum_div]
  field_simp

/-! ### C86: signs -/

theorem kl_term_nonneg (m t : ℝ) : 0 ≤ (m ^ 2 + Real.exp t - 1 - t) / 2 := by
  have := Real.add_one_le_exp t
  have := sq_nonneg m
  linarith

theorem kl_term_zero (m t : ℝ) : (m ^ 2 + Real.exp t - 1 - t) / 2 = 0 ↔ m = 0 ∧ t = 0 := by
  constructor
  · intro h
    have h1 := Real.add_one_le_exp t
    have h2 := sq_nonneg m
    have ht : t = 0 := by
      by_contra ht
      have := Real.add_one_lt_exp ht
      linarith
    subst ht
    rw [Real.exp_zero] at h
    exact ⟨pow_eq_zero_iff two_ne_zero |>.mp (by linarith), rfl⟩
  · rintro ⟨rfl, rfl⟩; simp

theorem weightedResiduals_nonneg (x recon logcov : Fin N → Fin M → ℝ) (hN : 0 < N) :
    0 ≤ weightedResiduals x recon logcov :=
  sum_nonneg fun _ _ => sum_nonneg fun _ _ => div_nonneg (sq_nonneg _) (batchVar_pos hN _ _).le

/-- **C86**.  The divergence is never negative, and 0 exactly when every row's variational distribution is standard
normal; with non-negative `beta` and penalties the loss of a non-empty batch is positive, in training and in
validation; the penalties never decrease it.  So all stored loss values are positive. -/
theorem C86_loss_positive (hp : Hyper) (hb : 0 ≤ hp.beta) (hl : 0 ≤ hp.lam) (hm : 0 ≤ hp.mu) (x : Fin N → Fin M → ℝ)
    (out : VaeOut N L M) (hN : 0 < N) :
    0 ≤ klDiv out.mu out.logvar ∧
    (klDiv out.mu out.logvar = 0 ↔ ∀ k l, out.mu k l = 0 ∧ out.logvar k l = 0) ∧
    0 < elboGaussian (a := 0) (b := 0) hp x out none ∧
    ∀ {a b : Nat} (W : Fin a → Fin b → ℝ),
      elboGaussian (a := 0) (b := 0) hp x out none ≤ elboGaussian hp x out (some W) := by
  have hkl : 0 ≤ klDiv out.mu out.logvar := by
    rw [klDiv_eq]; exact sum_nonneg fun _ _ => sum_nonneg fun _ _ => kl_term_nonneg _ _
  have hN' : (0 : ℝ) < N := by exact_mod_cast hN
  refine ⟨hkl, ?_, ?_, ?_⟩
  · rw [klDiv_eq]
    unfold klFromStandard
    rw [sum_eq_zero_iff_of_nonneg fun _ _ => sum_nonneg fun _ _ => kl_term_nonneg _ _]
    simp only [mem_univ, true_implies]
    apply forall_congr'
    intro k
    rw [sum_eq_zero_iff_of_nonneg fun _ _ => kl_term_nonneg _ _]
    simp only [mem_univ, true_implies, kl_term_zero]
  · rw [(C85_partial hp x out hN).1, ← klDiv_eq]
    have h1 := mul_nonneg hb hkl
    have h2 := weightedResiduals_nonneg x out.recon out.logcov hN
    have h3 : 0 < ∏ j, batchVar out.logcov j := prod_pos fun j _ => batchVar_pos hN _ j
    have := mul_pos hN' h3
    linarith
  · intro a b W
    rw [(C85_partial hp x out hN).2.2 W]
    have h1 := mul_nonneg hl (nuclearNorm_nonneg (Matrix.of W))
    have h2 : 0 ≤ hp.mu * ∑ o, ∑ i, |W o i| := mul_nonneg hm (sum_nonneg fun _ _ => sum_nonneg fun _ _ => abs_nonneg _)
    linarith

/-- **C86** for the histories: every stored loss value is positive -/
theorem C86_histories_positive (env : NcfaEnv G O) (d : Dataset M) (split : Option (List Int × List Int)) (st : NState M)
    (wd : NWorld G) (h : (ncfaFit env d split st wd).2.2.2 = .ok ()) (hb : 0 ≤ st.hp.beta) (hl : 0 ≤ st.hp.lam)
    (hm : 0 ≤ st.hp.mu) :
    ∀ hist, (ncfaFit env d split st wd).1.loss = some hist → ∀ v, v ∈ hist.trainElbo ∨ v ∈ hist.validElbo → 0 < v := by
  obtain ⟨hist, ps, h1, h2, h3, _, h5, _, h7, h8, ⟨t, v, _, hsh⟩, _⟩ := C67_histories env d split st wd h
  intro hist' hh
  rw [h1] at hh
  cases hh
  rcases ncfaFit_cases env d split st wd with ⟨e, _, h2⟩ | ⟨t, v, _, _, h3⟩ | ⟨t, v, _, _, _, _, r, h5⟩ |
    ⟨t', v', g1, g2, g3, r, hist'', g4, ok, g5⟩
  · rw [h2] at h; cases h
  · rw [h3] at h; cases h
  · rw [h5] at h; cases h
  rw [g5] at h2
  dsimp only at h2
  subst h2
  -- every batch of a loader has at least one row
  have hne : ∀ p ∈ r.passes, 0 < p.batch.length := by
    intro p hp
    have : (p.epoch, p.isTrain, p.batch) ∈ r.passes.map (fun p => (p.epoch, p.isTrain, p.batch)) :=
      List.mem_map.mpr ⟨p, hp, rfl⟩
    rw [ok.shape, List.mem_flatMap] at this
    obtain ⟨e, _, hmem⟩ := this
    have hb : ∀ (l : List (Row M)) b, b ∈ batches st.hp.batchSize l → 0 < b.length := by
      intro l b hb
      obtain ⟨bs, hbs, _, _, hget⟩ := (C83_batches st.hp.batchSize l).2 g2
      have : bs = batches st.hp.batchSize l := by
        simp only [dataLoader, g2, if_false, Except.ok.injEq] at hbs; exact hbs.symm
      subst this
      obtain ⟨i, hi, rfl⟩ := List.mem_iff_getElem.mp hb
      exact List.length_pos_iff.mpr (hget i hi).2.1
    rcases List.mem_append.mp hmem with hm | hm
    · obtain ⟨b, hb', hbe⟩ := List.mem_map.mp hm
      simp only [Prod.mk.injEq] at hbe
      rw [← hbe.2.2]; exact hb _ _ hb'
    · obtain ⟨b, hb', hbe⟩ := List.mem_map.mp hm
      simp only [Prod.mk.injEq] at hbe
      rw [← hbe.2.2]; exact hb _ _ hb'
  have hpos : ∀ p ∈ r.passes, 0 < p.loss / p.batch.length := by
    intro p hp
    have hlen := hne p hp
    apply div_pos _ (by exact_mod_cast hlen)
    rw [(h8 p hp).1]
    have hc := C86_loss_positive st.hp hb hl hm p.batch.get
      (networkResult st.hp.numHidden p.weights p.noise p.batch.get) hlen
    cases p.isTrain
    · exact hc.2.2.1
    · exact lt_of_lt_of_le hc.2.2.1 (hc.2.2.2 _)
  have havg : ∀ e < st.hp.numEpochs, ∀ b, 0 < average ((passesOf r.passes e b).map fun p => p.loss / p.batch.length) := by
    intro e he b
    have hlist : ∀ l : List (Pass M st.hp.width), l ≠ [] → (∀ p ∈ l, 0 < p.loss / p.batch.length) →
        0 < average (l.map fun p => p.loss / p.batch.length) := by
      intro l hl hp
      unfold average
      apply div_pos
      · apply List.sum_pos
        · intro x hx
          obtain ⟨p, hp', rfl⟩ := List.mem_map.mp hx
          exact hp p hp'
        · simpa using hl
      · have := List.length_pos_iff.mpr hl
        simp only [List.length_map]; exact_mod_cast this
    apply hlist
    · obtain ⟨x, y⟩ := ok.batchesOf e he
      obtain ⟨ht, hv⟩ := g3.resolve_left (by omega)
      intro hnil
      cases b
      · rw [hnil] at y
        exact hv ((batches_eq_nil _ _).mp y.symm)
      · rw [hnil] at x
        exact ht ((batches_eq_nil _ _).mp x.symm)
    · intro p hp
      exact hpos p (List.mem_filter.mp hp).1
  intro v hv
  rcases hv with hv | hv
  · obtain ⟨e, he, rfl⟩ := List.mem_iff_getElem.mp hv
    have hen : e < st.hp.numEpochs := by omega
    have := (h7 e hen).1
    rw [List.getElem?_eq_getElem he] at this
    rw [Option.some.inj this]
    exact havg e hen true
  · obtain ⟨e, he, rfl⟩ := List.mem_iff_getElem.mp hv
    have hen : e < st.hp.numEpochs := by omega
    have := (h7 e hen).2.2.1
    rw [List.getElem?_eq_getElem he] at this
    rw [Option.some.inj this]
    exact havg e hen false

/-! ### C84: the reported loss -/

/-- **C84** (as stated; false): the reported loss of an epoch is the total loss of its batches divided by the number of
rows -/
def C84_statement : Prop :=
  ∀ (G O : Type) (env : NcfaEnv G O) (M : Nat) (d : Dataset M) (split : Option (List Int × List Int)) (st : NState M)
    (wd : NWorld G) (hist : Histories), (ncfaFit env d split st wd).2.2.2 = .ok () →
    (ncfaFit env d split st wd).1.loss = some hist → ∀ e < st.hp.numEpochs,
      let p := passesOf (ncfaFit env d split st wd).2.2.1 e false
      hist.validElbo[e]? = some ((p.map (·.loss)).sum / (p.flatMap (·.batch)).length)

theorem average_per_row (ps : List (Pass M w)) (n : Nat)
    (hlen : ∀ p ∈ ps, p.batch.length = n) :
    average (ps.map fun p => p.loss / p.batch.length) = (ps.map (·.loss)).sum / (ps.flatMap (·.batch)).length := by
  have h1 : ps.map (fun p => p.loss / (p.batch.length : ℝ)) = ps.map (fun p => p.loss / (n : ℝ)) := by
    apply List.map_congr_left
    intro p hp
    rw [hlen p hp]
  have h2 : (ps.flatMap (·.batch)).length = ps.length * n := by
    rw [List.length_flatMap]
    have : ps.map (fun p => p.batch.length) = ps.map fun _ => n := List.map_congr_left hlen
    rw [this]; simp
  have h3 : ∀ l : List (Pass M w), (l.map fun p => p.loss / (n : ℝ)).sum = (l.map (·.loss)).sum / n := by
    intro l
    induction l with
    | nil => simp
    | cons a l ih => simp only [List.map_cons, List.sum_cons, ih]; ring
  unfold average
  rw [h1, h2, h3, List.length_map]
  push_cast
  rw [div_div, mul_comm]

/-- **C84**, what is true instead: it holds in every epoch, for training and validation,
if the number of rows is a multiple of the batch size or at most the batch size.  (Otherwise the rows of the last,
smaller batch have a larger weight.) -/
theorem C84_partial (env : NcfaEnv G O) (d : Dataset M) (split : Option (List Int × List Int)) (st : NState M)
    (wd : NWorld G) (h : (ncfaFit env d split st wd).2.2.2 = .ok ()) (hist : Histories)
    (hh : (ncfaFit env d split st wd).1.loss = some hist) (e : Nat) (he : e < st.hp.numEpochs) :
    let p := passesOf (ncfaFit env d split st wd).2.2.1 e true
    let q := passesOf (ncfaFit env d split st wd).2.2.1 e false
    (st.hp.batchSize ∣ (p.flatMap (·.batch)).length ∨ (p.flatMap (·.batch)).length ≤ st.hp.batchSize →
      hist.trainElbo[e]? = some ((p.map (·.loss)).sum / (p.flatMap (·.batch)).length)) ∧
    (st.hp.batchSize ∣ (q.flatMap (·.batch)).length ∨ (q.flatMap (·.batch)).length ≤ st.hp.batchSize →
      hist.validElbo[e]? = some ((q.map (·.loss)).sum / (q.flatMap (·.batch)).length)) := by
  obtain ⟨hist', ps, h1, h2, _, _, _, _, h7, _⟩ := C67_histories env d split st wd h
  rw [h1] at hh
  cases hh
  rcases ncfaFit_cases env d split st wd with ⟨e, _, h2⟩ | ⟨t, v, _, _, h3⟩ | ⟨t, v, _, _, _, _, r, h5⟩ |
    ⟨t, v, g1, g2, g3, r, hist'', g4, ok, g5⟩
  · rw [h2] at h; cases h
  · rw [h3] at h; cases h
  · rw [h5] at h; cases h
  obtain ⟨ht, hv⟩ := g3.resolve_left (by omega)
  have main : ∀ (l : List (Row M)) (qs : List (Pass M st.hp.width)), l ≠ [] →
      qs.map (·.batch) = batches st.hp.batchSize l →
      (st.hp.batchSize ∣ (qs.flatMap (·.batch)).length ∨ (qs.flatMap (·.batch)).length ≤ st.hp.batchSize) →
      average (qs.map fun p => p.loss / p.batch.length) = (qs.map (·.loss)).sum / (qs.flatMap (·.batch)).length := by
    intro l qs hl hq hdiv
    obtain ⟨bs, hbs, hfl, hbl, hget⟩ := (C83_batches st.hp.batchSize l).2 g2
    have : bs = batches st.hp.batchSize l := by
      simp only [dataLoader, g2, if_false, Except.ok.injEq] at hbs; exact hbs.symm
    subst this
    have hlen : (qs.flatMap (·.batch)).length = l.length := by
      rw [flatMap_batch hq, hfl]
    rw [hlen] at hdiv
    have hb : ∀ b ∈ batches st.hp.batchSize l, b.length = if st.hp.batchSize ∣ l.length then st.hp.batchSize else l.length := by
      intro b hb
      obtain ⟨i, hi, rfl⟩ := List.mem_iff_getElem.mp hb
      obtain ⟨x, y, z, u⟩ := hget i hi
      split
      · rename_i hd
        obtain ⟨k, hk⟩ := hd
        rw [x]
        simp only [List.length_take, List.length_drop]
        rw [hbl, hk] at hi
        have hik : i < k := by
          have e1 : st.hp.batchSize * k + st.hp.batchSize - 1 = st.hp.batchSize - 1 + st.hp.batchSize * k := by omega
          rw [e1, Nat.add_mul_div_left _ _ (by omega), Nat.div_eq_of_lt (by omega)] at hi
          omega
        have : st.hp.batchSize * (i + 1) ≤ st.hp.batchSize * k := Nat.mul_le_mul_left _ hik
        rw [hk]
        rw [Nat.mul_add] at this
        have e2 : i * st.hp.batchSize = st.hp.batchSize * i := Nat.mul_comm _ _
        omega
      · rename_i hd
        have hle := hdiv.resolve_left hd
        have hlp := List.length_pos_iff.mpr hl
        rw [hbl] at hi
        have hi0 : i = 0 := by
          have : (l.length + st.hp.batchSize - 1) / st.hp.batchSize ≤ 1 := by
            apply Nat.le_of_lt_succ
            rw [Nat.div_lt_iff_lt_mul (by omega)]
            omega
          omega
        rw [x, hi0]
        simp only [List.length_take, List.length_drop]
        omega
    apply average_per_row qs (if st.hp.batchSize ∣ l.length then st.hp.batchSize else l.length)
    intro p hp
    apply hb
    rw [← hq]
    exact List.mem_map.mpr ⟨p, hp, rfl⟩
  obtain ⟨x, y⟩ := ok.batchesOf e he
  have hps : ps = r.passes := by rw [← h2, g5]
  have hfit : (ncfaFit env d split st wd).2.2.1 = r.passes := by rw [g5]
  rw [hfit]
  rw [hps] at h7
  dsimp only
  constructor
  · intro hd
    rw [(h7 e he).1, main t _ ht x hd]
  · intro hd
    rw [(h7 e he).2.2.1, main v _ hv y hd]

/-- an environment whose initial weights are 0 and whose optimizer does nothing -/
def idleEnv : NcfaEnv Nat Unit := { demoEnv with optStep := fun _ _ W => (W, ()) }

/-- batches of two rows, one epoch -/
noncomputable def pairsNcfa : NState 1 := { hp := { batchSize := 2, numEpochs := 1 } }

/-- the network with all weights 0 -/
theorem networkResult_zero (H : Nat) (x : Fin N → Fin 1 → ℝ) :
    networkResult H (fun _ => ⟨fun _ _ => 0, fun _ => 0⟩ : Weights 1 1 1) none x =
      ⟨fun _ _ => 0, fun _ _ => 0, fun _ _ => 0, fun _ _ => 0⟩ := by
  have hh : ∀ f ls z, decodeHead (L := 1) (M := 1) (w := 1) f ls ⟨fun _ _ => 0, fun _ => 0⟩ z = fun _ => 0 := by
    intro f ls z
    funext j
    simp [decodeHead, Layer.sparse, linear]
  have he : ∀ x, encode (fun _ => ⟨fun _ _ => 0, fun _ => 0⟩ : Weights 1 1 1) x = (fun _ => 0, fun _ => 0) := by
    intro x
    simp only [encode, Layer.apply]
    congr 1 <;>
    · funext j
      simp [linear]
  unfold networkResult
  simp only [he, decode, hh]

theorem zero_loss (hp : Hyper) (p : Pass 1 1) (hk : PassOk hp p)
    (hw : p.weights = fun _ => ⟨fun _ _ => 0, fun _ => 0⟩) (hn : p.noise = none) (ht : p.isTrain = false)
    (hlen : 0 < p.batch.length) : p.loss = (p.batch.length + (p.batch.map fun r => r 0 ^ 2).sum) / 2 := by
  obtain ⟨e, t, b, W, eps, loss, err⟩ := p
  dsimp only at hw hn ht hlen
  subst hw hn ht
  have h1 := hk.1
  dsimp only at h1
  rw [networkResult_zero] at h1
  have h2 := (C85_partial (L := 1) hp b.get ⟨fun _ _ => 0, fun _ _ => 0, fun _ _ => 0, fun _ _ => 0⟩ hlen).1
  have h3 : (elboGaussian (a := 1 * 1) (b := 1) hp b.get (L := 1) ⟨fun _ _ => 0, fun _ _ => 0, fun _ _ => 0, fun _ _ => 0⟩ none) =
    elboGaussian (a := 0) (b := 0) hp b.get (L := 1) ⟨fun _ _ => 0, fun _ _ => 0, fun _ _ => 0, fun _ _ => 0⟩ none := rfl
  have hsum : ∑ k : Fin b.length, b.get k 0 ^ 2 = (b.map fun r => r 0 ^ 2).sum := by
    rw [← List.sum_ofFn]
    congr 1
    have h := List.map_ofFn (f := b.get) (g := fun r : Row 1 => r 0 ^ 2)
    rw [List.ofFn_get] at h
    exact h.symm
  have hne : (b.length : ℝ) ≠ 0 := by exact_mod_cast hlen.ne'
  rw [h1]
  refine Eq.trans (Eq.trans ?_ h3) (h2.trans ?_)
  · rfl
  · simp only [klFromStandard, weightedResiduals, batchVar, sampleMean, Fin.sum_univ_one, Fin.prod_univ_one, sub_zero,
      Real.exp_zero, sum_const, card_univ, Fintype.card_fin, nsmul_eq_mul, mul_one, div_self hne, div_one, ← hsum]
    simp

/-- the claim is false: validation rows 0, 0, 3 in batches of two give 11/4 instead of 2 -/
theorem C84_false : ¬ C84_statement := by
  intro h
  have hin : SplitIn demoData ([0], [0, 0, 2]) := by
    intro i hi
    simp only [List.mem_cons, List.not_mem_nil, or_false] at hi
    simp only [demoData]
    omega
  have hok : (ncfaFit idleEnv demoData (some ([0], [0, 0, 2])) pairsNcfa demoWorld).2.2.2 = .ok () := by
    rw [C67_outcome]
    simp [pairsNcfa, hin]
  obtain ⟨hist, ps, h1, h2, _, _, _, _, h7, h8, _, _⟩ := C67_histories idleEnv demoData _ pairsNcfa demoWorld hok
  have h9 := h _ _ idleEnv 1 demoData _ pairsNcfa demoWorld hist hok h1 0 (by simp [pairsNcfa])
  obtain ⟨W, _, hev⟩ := C80_training idleEnv demoData _ pairsNcfa demoWorld hok
  have h66 := (C66_partial idleEnv demoData _ pairsNcfa demoWorld hok).1
  rw [h2] at hev h9 h66
  have h10 := (h7 0 (by simp [pairsNcfa])).2.2.1
  rw [h9] at h10
  -- all passes use the initial weights, and validation has no noise
  have hW : ∀ p ∈ ps, p.weights = fun _ => ⟨fun _ _ => 0, fun _ => 0⟩ := by
    intro p hp
    funext l
    have hk := Evolves.keeps hev l (by
      rintro p W V ⟨o, hV⟩
      apply Layer.ext
      · rw [(hV l).1]; simp [idleEnv]
      · rw [(hV l).2]; simp [idleEnv])
    rw [hk.1 p hp]
    rfl
  have hn : ∀ p ∈ ps, p.isTrain = false → p.noise = none := by
    intro p hp hpt
    by_contra hc
    rw [((h66 p hp).mp hc).1] at hpt
    cases hpt
  have hval : ∀ p ∈ ps, p.isTrain = false → 0 < p.batch.length →
      p.loss = (p.batch.length + (p.batch.map fun r => r 0 ^ 2).sum) / 2 := fun p hp hpt hl =>
    zero_loss pairsNcfa.hp p (h8 p hp) (hW p hp) (hn p hp hpt) hpt hl
  -- the validation batches are (0, 0) and (3)
  have hb : (passesOf ps 0 false).map (·.batch) =
      [[demoData.val ⟨0, by decide⟩, demoData.val ⟨0, by decide⟩], [demoData.val ⟨2, by decide⟩]] := by
    rcases ncfaFit_cases idleEnv demoData (some ([0], [0, 0, 2])) pairsNcfa demoWorld with ⟨e, _, g⟩ | ⟨t, v, _, _, g⟩ |
      ⟨t, v, _, _, _, _, r, g⟩ | ⟨t, v, g1, g2, g3, r, hist'', g4, ok, g5⟩
    · rw [g] at hok; cases hok
    · rw [g] at hok; cases hok
    · rw [g] at hok; cases hok
    · rw [g5] at h2
      dsimp only at h2
      rw [← h2, (ok.batchesOf 0 (by simp [pairsNcfa])).2]
      have : ncfaSplit idleEnv pairsNcfa.seed demoData (some ([0], [0, 0, 2])) = .ok
        ([demoData.val ⟨0, by decide⟩], [demoData.val ⟨0, by decide⟩, demoData.val ⟨0, by decide⟩, demoData.val ⟨2, by decide⟩]) := by
        have hsz : demoData.size = 3 := rfl
        simp [ncfaSplit, takeRows, hsz]
      rw [this] at g1
      cases g1
      rfl
  have hmem : ∀ p ∈ passesOf ps 0 false, p ∈ ps ∧ p.isTrain = false := by
    intro p hp
    have := List.mem_filter.mp hp
    refine ⟨this.1, ?_⟩
    have := this.2
    simp at this
    exact this.2
  generalize passesOf ps 0 false = qs at *
  rcases qs with _ | ⟨p, _ | ⟨q, _ | ⟨q', qs⟩⟩⟩
  · cases hb
  · simp at hb
  · simp only [List.map_cons, List.map_nil, List.cons.injEq, and_true] at hb
    obtain ⟨p1, p2⟩ := hmem p (by simp)
    obtain ⟨q1, q2⟩ := hmem q (by simp)
    have lp := hval p p1 p2 (by rw [hb.1]; simp)
    have lq := hval q q1 q2 (by rw [hb.2]; simp)
    have v0 : demoData.val ⟨0, by decide⟩ 0 = 0 := by
      show (if (0 : Nat) = 0 then (0 : ℝ) else if (0 : Nat) = 1 then 1 else 3) = 0
      simp
    have v2 : demoData.val ⟨2, by decide⟩ 0 = 3 := by
      show (if (2 : Nat) = 0 then (0 : ℝ) else if (2 : Nat) = 1 then 1 else 3) = 3
      simp
    rw [hb.1] at lp
    rw [hb.2] at lq
    simp only [List.map_cons, List.map_nil, List.sum_cons, List.sum_nil, v0, v2, List.length_cons, List.length_nil] at lp lq
    simp only [average, List.map_cons, List.map_nil, List.sum_cons, List.sum_nil, hb.1, hb.2, List.length_cons, List.length_nil,
      List.flatMap_cons, List.flatMap_nil, List.length_append, lp, lq, Option.some.injEq] at h10
    norm_num at h10
  · simp at hb

/-! ### C92: the penalty functions -/

/-- **C92** (as stated; false): `_sigma` is the sum of the absolute values -/
def C92_statement : Prop := ∀ (a b : Nat) (W : Fin a → Fin b → ℝ), ncfaSigma W = ∑ o, ∑ i, |W o i|

theorem C92_false : ¬ C92_statement := by
  intro h
  have := h 1 1 fun _ _ => 2
  norm_num [ncfaSigma] at this

/-- **C92**, what is true instead: it is the sum of the squares (the squared Frobenius norm); `_rho` is the sum of the
singular values, the square roots of the eigenvalues of `WᵀW`, whose squares sum up to `_sigma`.  The loss uses
neither of the two functions, and its second penalty is the sum of the absolute values. -/
theorem C92_partial {a b : Nat} (W : Fin a → Fin b → ℝ) :
    ncfaSigma W = ((Matrix.of W)ᵀ * Matrix.of W).trace ∧
    (∃ s : Fin b → ℝ, (∀ i, 0 ≤ s i) ∧ ncfaRho W = ∑ i, s i ∧ ncfaSigma W = ∑ i, s i ^ 2 ∧
      ((Matrix.of W)ᵀ * Matrix.of W).charpoly = ∏ i, (Polynomial.X - Polynomial.C (s i ^ 2))) := by
  have htr : ncfaSigma W = ((Matrix.of W)ᵀ * Matrix.of W).trace := by
    unfold ncfaSigma
    rw [sum_comm, Matrix.trace]
    apply sum_congr rfl
    intro i _
    rw [Matrix.diag_apply, Matrix.mul_apply]
    apply sum_congr rfl
    intro o _
    simp [pow_two]
  refine ⟨htr, ?_⟩
  have hH := isHermitian_conjTranspose_mul_self (Matrix.of W)
  have hnn : ∀ i, 0 ≤ hH.eigenvalues i := (Matrix.posSemidef_conjTranspose_mul_self (Matrix.of W)).eigenvalues_nonneg
  have hct : (Matrix.of W)ᴴ * Matrix.of W = (Matrix.of W)ᵀ * Matrix.of W := by
    rw [Matrix.conjTranspose_eq_transpose_of_trivial]
  refine ⟨fun i => Real.sqrt (hH.eigenvalues i), fun i => Real.sqrt_nonneg _, rfl, ?_, ?_⟩
  · rw [htr, ← hct, hH.trace_eq_sum_eigenvalues]
    apply sum_congr rfl
    intro i _
    rw [Real.sq_sqrt (hnn i)]; rfl
  · rw [← hct, hH.charpoly_eq]
    apply prod_congr rfl
    intro i _
    rw [Real.sq_sqrt (hnn i)]; rfl

example : ncfaSigma (fun _ _ => 2 : Fin 1 → Fin 1 → ℝ) = 4 := by norm_num [ncfaSigma]

/-! ### C93: the reconstruction error -/

/-- `A v` has at most `s` times the length of `v` -/
def Stretches (A : Matrix (Fin N) (Fin M) ℝ) (s : ℝ) : Prop :=
  ∀ v : Fin M → ℝ, ∑ k, (∑ j, A k j * v j) ^ 2 ≤ s ^ 2 * ∑ j, v j ^ 2

open scoped Matrix.Norms.L2Operator in
theorem spectralNorm_stretches (A : Matrix (Fin N) (Fin M) ℝ) : Stretches A (spectralNorm A) := by
  intro v
  have h := A.l2_opNorm_mulVec (WithLp.toLp 2 v)
  have h2 := pow_le_pow_left₀ (norm_nonneg _) h 2
  rw [mul_pow, EuclideanSpace.norm_sq_eq, EuclideanSpace.norm_sq_eq] at h2
  simpa [Matrix.mulVec, dotProduct, spectralNorm] using h2

open scoped Matrix.Norms.L2Operator in
theorem spectralNorm_le (A : Matrix (Fin N) (Fin M) ℝ) (s : ℝ) (hs : 0 ≤ s) (h : Stretches A s) : spectralNorm A ≤ s := by
  unfold spectralNorm
  rw [Matrix.l2_opNorm_def]
  apply ContinuousLinearMap.opNorm_le_bound _ hs
  intro v
  apply le_of_sq_le_sq _ (by positivity)
  rw [mul_pow, EuclideanSpace.norm_sq_eq, EuclideanSpace.norm_sq_eq]
  have := h v.ofLp
  simpa [Matrix.toLpLin_apply, Matrix.mulVec, dotProduct] using this

open scoped Matrix.Norms.L2Operator in
theorem spectralNorm_nonneg (A : Matrix (Fin N) (Fin M) ℝ) : 0 ≤ spectralNorm A := by
  unfold spectralNorm
  exact norm_nonneg _

/-- **C93**.  The reported reconstruction error of a batch is the largest factor by which the matrix of residuals
stretches a vector: the least non-negative number with this property.  It is 0 exactly for exact reconstruction, is
at most the root of the sum of the squared residuals, and at least every single residual; for a batch with one row
it is the root of the sum of squares. -/
theorem C93_reconstruction_error (x : Fin N → Fin M → ℝ) (out : VaeOut N L M) :
    let err := reconError x out false
    let A := diffMat x out.recon
    (0 ≤ err ∧ Stretches A err ∧ ∀ s, 0 ≤ s → Stretches A s → err ≤ s) ∧
    (err = 0 ↔ out.recon = x) ∧
    err ≤ Real.sqrt (∑ k, ∑ j, (x k j - out.recon k j) ^ 2) ∧
    (∀ k j, |x k j - out.recon k j| ≤ err) ∧
    (∀ k, (∀ k', k' = k) → err = Real.sqrt (∑ j, (x k j - out.recon k j) ^ 2)) := by
  dsimp only
  have hst := spectralNorm_stretches (diffMat x out.recon)
  have hnn := spectralNorm_nonneg (diffMat x out.recon)
  have herr : reconError x out false = spectralNorm (diffMat x out.recon) := rfl
  rw [herr]
  have hfro : spectralNorm (diffMat x out.recon) ≤ Real.sqrt (∑ k, ∑ j, (x k j - out.recon k j) ^ 2) := by
    apply spectralNorm_le _ _ (Real.sqrt_nonneg _)
    intro v
    rw [Real.sq_sqrt (sum_nonneg fun _ _ => sum_nonneg fun _ _ => sq_nonneg _), sum_mul]
    apply sum_le_sum
    intro k _
    exact sum_mul_sq_le_sq_mul_sq _ _ _
  have hent : ∀ k j, |x k j - out.recon k j| ≤ spectralNorm (diffMat x out.recon) := by
    intro k j
    apply abs_le_of_sq_le_sq _ hnn
    have h := hst (fun i => if i = j then 1 else 0)
    have e1 : ∀ k, ∑ i, diffMat x out.recon k i * (if i = j then (1 : ℝ) else 0) = x k j - out.recon k j := by
      intro k; simp [diffMat]
    have e2 : ∑ i, (if i = j then (1 : ℝ) else 0) ^ 2 = 1 := by simp
    simp only [e1, e2, mul_one] at h
    exact le_trans (single_le_sum (f := fun k => (x k j - out.recon k j) ^ 2) (fun _ _ => sq_nonneg _) (mem_univ k)) h
  refine ⟨⟨hnn, hst, fun s hs h => spectralNorm_le _ s hs h⟩, ?_, hfro, hent, ?_⟩
  · constructor
    · intro h
      funext k j
      have := hent k j
      rw [h] at this
      have := abs_nonpos_iff.mp this
      linarith
    · intro h
      apply le_antisymm _ hnn
      refine hfro.trans ?_
      rw [h]; simp
  · intro k hk
    have huniq : ∀ f : Fin N → ℝ, ∑ k', f k' = f k := by
      intro f
      have : (univ : Finset (Fin N)) = {k} := by
        ext k'; simp [hk k']
      rw [this, sum_singleton]
    apply le_antisymm
    · rw [huniq fun k => ∑ j, (x k j - out.recon k j) ^ 2] at hfro
      exact hfro
    · rw [Real.sqrt_le_left hnn]
      by_cases h0 : ∑ j, (x k j - out.recon k j) ^ 2 = 0
      · rw [h0]; positivity
      · have h := hst fun j => x k j - out.recon k j
        rw [huniq] at h
        have e : ∑ j, diffMat x out.recon k j * (x k j - out.recon k j) = ∑ j, (x k j - out.recon k j) ^ 2 := by
          apply sum_congr rfl
          intro j _
          simp [diffMat, pow_two]
        rw [e, pow_two] at h
        have hp : 0 < ∑ j, (x k j - out.recon k j) ^ 2 :=
          lt_of_le_of_ne (sum_nonneg fun _ _ => sq_nonneg _) (Ne.symm h0)
        exact le_of_mul_le_mul_right h hp

/-- the weighted error is always negative (it is only used with `weighted=False`) -/
theorem C93_weighted_error_negative (x : Fin N → Fin M → ℝ) (out : VaeOut N L M) (hN : 0 < N) :
    reconError x out true < 0 := by
  unfold reconError
  rw [if_pos rfl, reconLoss_eq _ _ _ hN]
  have h2 := weightedResiduals_nonneg x out.recon out.logcov hN
  have h3 : 0 < ∏ j, batchVar out.logcov j := prod_pos fun j _ => batchVar_pos hN _ j
  have hN' : (0 : ℝ) < N := by exact_mod_cast hN
  have := mul_pos hN' h3
  linarith

/-- the error is not always the root of the sum of squares: the residuals `diag(1, 1)` have error 1, not `√2` -/
theorem C93_example :
    reconError (fun k j => if k = j then 1 else 0) (⟨fun _ _ => 0, fun _ _ => 0, fun _ _ => 0, fun _ _ => 0⟩ : VaeOut 2 0 2) false
      ≤ 1 := by
  refine (C93_reconstruction_error _ _).1.2.2 1 zero_le_one ?_
  intro v
  simp [diffMat, Fin.sum_univ_two]

end Medil

import Verif.Spec.AdamW
import Verif.Proofs.NcfaFit
import Mathlib.Tactic.Positivity
import Mathlib.Tactic.NormNum
import Mathlib.Tactic.FieldSimp
/-
  AdamW: how far an entry of a weight can move.
-/
namespace Medil
open Finset
variable {M w : Nat} {G O : Type}

/-! ### invariants of the training loop -/

theorem trainEpoch_invariant (env : NcfaEnv G O) (hp : Hyper) (ps : List ParamId) (tl vl : List (List (Row M)))
    (P : Nat → TrainState M w G O → Prop)
    (hb : ∀ e s a b, P e s → P e (trainBatch env hp ps e (s, a) b).1)
    (hf : ∀ e s s', P e s → s'.weights = s.weights → s'.opt = s.opt → (s'.passes = s.passes ∨
      ∃ p : Pass M w, p.isTrain = false ∧ p.weights = s.weights ∧ s'.passes = s.passes ++ [p]) → P e s')
    (hs : ∀ e s, P e s → P (e + 1) { s with opt := env.schedStep s.opt })
    (e : Nat) (s : TrainState M w G O) (h : Histories) (h0 : P e s) (r : TrainState M w G O) (h' : Histories)
    (hr : trainEpoch env hp ps tl vl e s h = (r, .ok h')) : P (e + 1) r := by
  have h1 : P e { s with log := s.log ++ [.trainingOn e] } := hf _ _ _ h0 rfl rfl (.inl rfl)
  have h2 : ∀ (tl : List (List (Row M))) (s : TrainState M w G O) (a : EpochAcc), P e s →
      P e (tl.foldl (trainBatch env hp ps e) (s, a)).1 := by
    intro tl
    induction tl with
    | nil => intro s a h; exact h
    | cons b tl ih => intro s a h; exact ih _ _ (hb e s a b h)
  have h3 : ∀ (vl : List (List (Row M))) (s : TrainState M w G O) (a : EpochAcc), P (e + 1) s →
      P (e + 1) (vl.foldl (validBatch env hp e) (s, a)).1 := by
    intro vl
    induction vl with
    | nil => intro s a h; exact h
    | cons b vl ih => intro s a h; exact ih _ _ (hf _ _ _ h rfl rfl (.inr ⟨_, rfl, rfl, rfl⟩))
  have h4 := hs _ _ (h2 tl _ {} h1)
  simp only [trainEpoch] at hr
  split at hr
  · simp at hr
  · simp only [validVae] at hr
    split at hr
    · simp at hr
    · rename_i hv
      split at hv
      · simp at hv
      · simp only [Prod.mk.injEq, Except.ok.injEq] at hv hr
        rw [← hr.1, ← hv.1]
        have h5 : ∀ (X : TrainState M w G O) (L : List LogEntry) (b : Bool), P (e + 1) X →
            P (e + 1) { X with log := L, training := b } := fun X L b h => hf _ _ _ h rfl rfl (.inl rfl)
        exact h5 _ _ _ (h3 vl _ {} (h5 _ _ _ h4))

theorem trainEpochs_invariant (env : NcfaEnv G O) (hp : Hyper) (ps : List ParamId) (tl vl : List (List (Row M)))
    (P : Nat → TrainState M w G O → Prop)
    (hb : ∀ e s a b, P e s → P e (trainBatch env hp ps e (s, a) b).1)
    (hf : ∀ e s s', P e s → s'.weights = s.weights → s'.opt = s.opt → (s'.passes = s.passes ∨
      ∃ p : Pass M w, p.isTrain = false ∧ p.weights = s.weights ∧ s'.passes = s.passes ++ [p]) → P e s')
    (hs : ∀ e s, P e s → P (e + 1) { s with opt := env.schedStep s.opt })
    (k e : Nat) (s : TrainState M w G O) (h : Histories) (h0 : P e s) (r : TrainState M w G O) (h' : Histories)
    (hr : trainEpochs env hp ps tl vl (List.range' e k) s h = (r, .ok h')) : P (e + k) r := by
  induction k generalizing e s h with
  | zero =>
    simp only [List.range'_zero, trainEpochs, Prod.mk.injEq] at hr
    rw [← hr.1]; exact h0
  | succ k ih =>
    rw [List.range'_succ, trainEpochs] at hr
    split at hr
    · simp at hr
    · rename_i s1 h1 hs1
      have := ih (e + 1) s1 h1 (trainEpoch_invariant env hp ps tl vl P hb hf hs e s h h0 s1 h1 hs1) hr
      rwa [show e + (k + 1) = e + 1 + k by omega]

/-- an invariant that holds at the start and is kept by batches, passes and the scheduler holds at the end -/
theorem trainVae_invariant (env : NcfaEnv G O) (hp : Hyper) (tl vl : List (List (Row M))) (g : G)
    (P : Nat → TrainState M hp.width G O → Prop)
    (h0 : P 0 (trainStart env hp M g))
    (hb : ∀ e s a b, P e s → P e (trainBatch env hp (vaeObj hp.numHidden).parameters e (s, a) b).1)
    (hf : ∀ e s s', P e s → s'.weights = s.weights → s'.opt = s.opt → (s'.passes = s.passes ∨
      ∃ p : Pass M hp.width, p.isTrain = false ∧ p.weights = s.weights ∧ s'.passes = s.passes ++ [p]) → P e s')
    (hs : ∀ e s, P e s → P (e + 1) { s with opt := env.schedStep s.opt })
    (r : TrainState M hp.width G O) (h : Histories) (hr : trainVae env hp tl vl g = (r, .ok h)) : P hp.numEpochs r := by
  have := trainEpochs_invariant env hp _ tl vl P hb hf hs hp.numEpochs 0 _ {} h0 r h
    (by rw [← List.range_eq_range']; exact hr)
  simpa using this

/-! ### one entry -/

/-- Cauchy-Schwarz for the two moments, step by step -/
theorem moments_step (m v g : ℝ) (h : m ^ 2 ≤ 5329 / 100 * v) : nextM m g ^ 2 ≤ 5329 / 100 * nextV v g := by
  unfold nextM nextV
  nlinarith [sq_nonneg (21 / 10 * m - g), sq_nonneg g, sq_nonneg m]

theorem nextV_nonneg (v g : ℝ) (h : 0 ≤ v) : 0 ≤ nextV v g := by
  unfold nextV
  nlinarith [mul_self_nonneg g]

/-- the bias corrections together shrink the step -/
theorem corrections (t : Nat) : 1 - (999 / 1000 : ℝ) ^ t ≤ (1 - (9 / 10) ^ t) ^ 2 := by
  have h : 2 * (9 / 10 : ℝ) ^ t - ((9 / 10) ^ t) ^ 2 ≤ (999 / 1000) ^ t := by
    induction t with
    | zero => norm_num
    | succ t ih =>
      rw [pow_succ (9 / 10 : ℝ) t, pow_succ (999 / 1000 : ℝ) t]
      have h0 : 0 < (9 / 10 : ℝ) ^ t := by positivity
      have h1 : (9 / 10 : ℝ) ^ t ≤ 1 := pow_le_one₀ (by norm_num) (by norm_num)
      nlinarith [mul_nonneg h0.le (sub_nonneg.mpr h1)]
  nlinarith

theorem adam_move (lr : ℝ) (hlr : 0 ≤ lr) (t : Nat) (ht : 1 ≤ t) (m v : ℝ) (hv : 0 ≤ v) (h : m ^ 2 ≤ 5329 / 100 * v) :
    |(-(lr / (1 - (9 / 10) ^ t))) * (m / (Real.sqrt v / Real.sqrt (1 - (999 / 1000) ^ t) + 1 / 100000000))| ≤
      73 / 10 * lr := by
  have ha : (9 / 10 : ℝ) ^ t < 1 := pow_lt_one₀ (by norm_num) (by norm_num) (by omega)
  have hb : (999 / 1000 : ℝ) ^ t < 1 := pow_lt_one₀ (by norm_num) (by norm_num) (by omega)
  have hA : 0 < 1 - (9 / 10 : ℝ) ^ t := by linarith
  have hB : 0 < 1 - (999 / 1000 : ℝ) ^ t := by linarith
  set A := 1 - (9 / 10 : ℝ) ^ t
  set B := 1 - (999 / 1000 : ℝ) ^ t with hBdef
  have hs : Real.sqrt B ≤ A := by
    rw [Real.sqrt_le_left hA.le]; exact corrections t
  have hsB : 0 < Real.sqrt B := Real.sqrt_pos.mpr hB
  have hm : |m| ≤ 73 / 10 * Real.sqrt v := by
    apply abs_le_of_sq_le_sq
    · rw [mul_pow, Real.sq_sqrt hv]; linarith
    · positivity
  have hden : 0 < Real.sqrt v / Real.sqrt B + 1 / 100000000 := by positivity
  rw [abs_mul, abs_neg, abs_div, abs_div, abs_of_nonneg hlr, abs_of_pos hA, abs_of_pos hden]
  have h1 : |m| / (Real.sqrt v / Real.sqrt B + 1 / 100000000) ≤ 73 / 10 * A := by
    rw [div_le_iff₀ hden]
    have e1 : Real.sqrt v = (Real.sqrt v / Real.sqrt B) * Real.sqrt B := by field_simp
    have e2 : (Real.sqrt v / Real.sqrt B) * Real.sqrt B ≤ (Real.sqrt v / Real.sqrt B) * A :=
      mul_le_mul_of_nonneg_left hs (by positivity)
    nlinarith
  calc lr / A * (|m| / (Real.sqrt v / Real.sqrt B + 1 / 100000000)) ≤ lr / A * (73 / 10 * A) :=
        mul_le_mul_of_nonneg_left h1 (by positivity)
    _ = 73 / 10 * lr := by field_simp

theorem adamEntry_le (lr : ℝ) (hlr : 0 ≤ lr) (hlr' : lr ≤ 100000) (t : Nat) (ht : 1 ≤ t) (m v p : ℝ) (hv : 0 ≤ v)
    (h : m ^ 2 ≤ 5329 / 100 * v) : |adamEntry lr t m v p| ≤ |p| + 73 / 10 * lr := by
  unfold adamEntry
  refine (abs_add_le _ _).trans (add_le_add ?_ (adam_move lr hlr t ht m v hv h))
  rw [abs_mul]
  have : |1 - lr * (1 / 100000)| ≤ 1 := by rw [abs_le]; constructor <;> linarith
  exact mul_le_of_le_one_right (abs_nonneg p) this

theorem adamEntry_dist (lr : ℝ) (hlr : 0 ≤ lr) (hlr' : lr ≤ 100000) (t : Nat) (ht : 1 ≤ t) (m v p q : ℝ) (hv : 0 ≤ v)
    (h : m ^ 2 ≤ 5329 / 100 * v) : |adamEntry lr t m v p - q| ≤ |p - q| + (73 / 10 + |q| / 100000) * lr := by
  have hmove := adam_move lr hlr t ht m v hv h
  unfold adamEntry
  set mv := (-(lr / (1 - (9 / 10) ^ t))) * (m / (Real.sqrt v / Real.sqrt (1 - (999 / 1000) ^ t) + 1 / 100000000))
  have e : p * (1 - lr * (1 / 100000)) + mv - q = (p - q) * (1 - lr * (1 / 100000)) + (-(q * (lr / 100000)) + mv) := by ring
  rw [e]
  have h1 : |(p - q) * (1 - lr * (1 / 100000))| ≤ |p - q| := by
    rw [abs_mul]
    have : |1 - lr * (1 / 100000)| ≤ 1 := by rw [abs_le]; constructor <;> linarith
    exact mul_le_of_le_one_right (abs_nonneg _) this
  have h2 : |-(q * (lr / 100000))| = |q| / 100000 * lr := by
    rw [abs_neg, abs_mul, abs_of_nonneg (by positivity : 0 ≤ lr / 100000)]; ring
  have h3 := abs_add_le ((p - q) * (1 - lr * (1 / 100000))) (-(q * (lr / 100000)) + mv)
  have h4 := abs_add_le (-(q * (lr / 100000))) mv
  linarith

theorem schedLr_nonneg {lr : ℝ} (h : 0 ≤ lr) (k : Nat) : 0 ≤ schedLr lr k := by unfold schedLr; positivity

theorem schedLr_le {lr : ℝ} (h : 0 ≤ lr) (k : Nat) : schedLr lr k ≤ lr := by
  unfold schedLr
  exact mul_le_of_le_one_right h (pow_le_one₀ (by norm_num) (by norm_num))

/-- the learning rates of all epochs -/
theorem sum_rates (n : Nat) : ∑ e ∈ range n, (9 / 10 : ℝ) ^ (e / 50) = 500 - (500 - (n % 50 : ℕ)) * (9 / 10) ^ (n / 50) := by
  induction n with
  | zero => norm_num
  | succ n ih =>
    rw [sum_range_succ, ih]
    by_cases h : n % 50 = 49
    · have h1 : (n + 1) % 50 = 0 := by omega
      have h2 : (n + 1) / 50 = n / 50 + 1 := by omega
      rw [h, h1, h2, pow_succ]; push_cast; ring
    · have h1 : (n + 1) % 50 = n % 50 + 1 := by omega
      have h2 : (n + 1) / 50 = n / 50 := by omega
      rw [h1, h2]; push_cast; ring

theorem sum_rates_le (n : Nat) : ∑ e ∈ range n, (9 / 10 : ℝ) ^ (e / 50) ≤ 500 := by
  rw [sum_rates]
  have : ((n % 50 : ℕ) : ℝ) ≤ 50 := by exact_mod_cast (Nat.mod_lt n (by norm_num)).le
  have h2 : 0 < (9 / 10 : ℝ) ^ (n / 50) := by positivity
  nlinarith

/-! ### all entries -/

theorem tensorEntry_writeParams (ps : List ParamId) (old new : Weights M M w) (c : ParamId) (o i : Nat) :
    tensorEntry (writeParams ps old new) c o i = if c ∈ ps then tensorEntry new c o i else tensorEntry old c o i := by
  cases c with
  | weight l =>
    simp only [tensorEntry, writeParams]
    split <;> split <;> rfl
  | bias l =>
    simp only [tensorEntry, writeParams]
    split <;> split <;> rfl

theorem rateSum_append (lr : ℝ) (ps qs : List (Pass M w)) : rateSum lr (ps ++ qs) = rateSum lr ps + rateSum lr qs := by
  simp [rateSum, trainingPasses]

/-- the invariant for the bound -/
structure AdamInv (lr : ℝ) (W₀ : Weights M M w) (e : Nat) (s : TrainState M w G AdamState) : Prop where
  sched : s.opt.sched = e
  mom : ∀ c o i, 0 ≤ s.opt.v c o i ∧ s.opt.m c o i ^ 2 ≤ 5329 / 100 * s.opt.v c o i
  cur : ∀ c o i, |tensorEntry s.weights c o i| ≤ |tensorEntry W₀ c o i| + 73 / 10 * rateSum lr s.passes
  past : ∀ p ∈ s.passes, ∀ c o i, |tensorEntry p.weights c o i| ≤ |tensorEntry W₀ c o i| + 73 / 10 * rateSum lr s.passes
  dist : ∀ V, V = s.weights ∨ (∃ p ∈ s.passes, V = p.weights) → ∀ c o i, |tensorEntry V c o i - tensorEntry W₀ c o i| ≤
    (73 / 10 + |tensorEntry W₀ c o i| / 100000) * rateSum lr s.passes

theorem adamInv_final (env : NcfaEnv G O) (lr : ℝ) (hlr : 0 ≤ lr) (hlr' : lr ≤ 100000) (grad : Autograd) (hp : Hyper)
    (tl vl : List (List (Row M))) (g : G) (r : TrainState M hp.width G AdamState) (h : Histories)
    (hr : trainVae (withAdamW env lr grad) hp tl vl g = (r, .ok h)) :
    AdamInv lr (env.gen.init M M hp.numHidden hp.width g).1 hp.numEpochs r := by
  refine trainVae_invariant (withAdamW env lr grad) hp tl vl g
    (AdamInv lr (env.gen.init M M hp.numHidden hp.width g).1) ?_ ?_ ?_ ?_ r h hr
  · constructor
    · rfl
    · intro c o i; simp [trainStart, withAdamW]
    · intro c o i; simp [trainStart, withAdamW, rateSum, trainingPasses]
    · simp [trainStart]
    · rintro V (rfl | ⟨p, hp, -⟩) c o i
      · simp [trainStart, withAdamW, rateSum, trainingPasses]
      · simp [trainStart] at hp
  · rintro e s a b ⟨h1, h2, h3, h4, h5⟩
    have hrate : rateSum lr (trainBatch (withAdamW env lr grad) hp (vaeObj hp.numHidden).parameters e (s, a) b).1.passes =
        rateSum lr s.passes + schedLr lr e := by
      simp only [trainBatch, rateSum_append]
      simp [rateSum, trainingPasses, schedLr]
    have hnn := schedLr_nonneg hlr e
    constructor
    · exact h1
    · intro c o i
      exact ⟨nextV_nonneg _ _ (h2 c o i).1, moments_step _ _ _ (h2 c o i).2⟩
    · intro c o i
      rw [hrate]
      have key : ∀ (m v p : ℝ), 0 ≤ v → m ^ 2 ≤ 5329 / 100 * v →
          |adamEntry (schedLr lr s.opt.sched) (s.opt.t + 1) m v p| ≤ |p| + 73 / 10 * schedLr lr e := by
        intro m v p hv hm
        rw [h1]
        exact adamEntry_le _ hnn ((schedLr_le hlr e).trans hlr') _ (by omega) m v p hv hm
      simp only [trainBatch, tensorEntry_writeParams]
      have h3' := h3 c o i
      split
      · cases c with
        | weight l =>
          simp only [tensorEntry] at h3' ⊢
          split at h3'
          · rename_i hh
            rw [dif_pos hh]
            simp only [dif_pos hh] 
            refine (key _ _ _ (nextV_nonneg _ _ (h2 _ _ _).1) (moments_step _ _ _ (h2 _ _ _).2)).trans ?_
            linarith
          · rename_i hh
            rw [dif_neg hh]
            simp only [dif_neg hh] at h3' ⊢
            linarith
        | bias l =>
          simp only [tensorEntry] at h3' ⊢
          split at h3'
          · rename_i hh
            rw [dif_pos hh]
            simp only [dif_pos hh] 
            refine (key _ _ _ (nextV_nonneg _ _ (h2 _ _ _).1) (moments_step _ _ _ (h2 _ _ _).2)).trans ?_
            linarith
          · rename_i hh
            rw [dif_neg hh]
            simp only [dif_neg hh] at h3' ⊢
            linarith
      · linarith
    · intro p hp' c o i
      rw [hrate]
      simp only [trainBatch, List.mem_append, List.mem_singleton] at hp'
      rcases hp' with hp' | rfl
      · have := h4 p hp' c o i; linarith
      · have := h3 c o i
        simp only
        linarith
    · intro V hV c o i
      rw [hrate]
      have hc : 0 ≤ 73 / 10 + |tensorEntry (env.gen.init M M hp.numHidden hp.width g).1 c o i| / 100000 := by positivity
      have hmono : ∀ x, x ≤ (73 / 10 + |tensorEntry (env.gen.init M M hp.numHidden hp.width g).1 c o i| / 100000) *
          rateSum lr s.passes → x ≤ (73 / 10 + |tensorEntry (env.gen.init M M hp.numHidden hp.width g).1 c o i| / 100000) *
          (rateSum lr s.passes + schedLr lr e) := fun x hx => by nlinarith [mul_nonneg hc hnn]
      rcases hV with rfl | ⟨p, hp', rfl⟩
      · have h5' := h5 s.weights (.inl rfl) c o i
        have key : ∀ (m v p q : ℝ), 0 ≤ v → m ^ 2 ≤ 5329 / 100 * v →
            |adamEntry (schedLr lr s.opt.sched) (s.opt.t + 1) m v p - q| ≤
              |p - q| + (73 / 10 + |q| / 100000) * schedLr lr e := by
          intro m v p q hv hm
          rw [h1]
          exact adamEntry_dist _ hnn ((schedLr_le hlr e).trans hlr') _ (by omega) m v p q hv hm
        simp only [trainBatch, tensorEntry_writeParams]
        split
        · cases c with
          | weight l =>
            by_cases hh : o < l.out M M hp.width ∧ i < l.inn M M hp.width
            · simp only [tensorEntry, dif_pos hh] at h5' ⊢
              refine (key _ _ _ _ (nextV_nonneg _ _ (h2 _ _ _).1) (moments_step _ _ _ (h2 _ _ _).2)).trans ?_
              linarith
            · simp only [tensorEntry, dif_neg hh] at h5' hmono ⊢
              exact hmono _ h5'
          | bias l =>
            by_cases hh : o < l.out M M hp.width
            · simp only [tensorEntry, dif_pos hh] at h5' ⊢
              refine (key _ _ _ _ (nextV_nonneg _ _ (h2 _ _ _).1) (moments_step _ _ _ (h2 _ _ _).2)).trans ?_
              linarith
            · simp only [tensorEntry, dif_neg hh] at h5' hmono ⊢
              exact hmono _ h5'
        · exact hmono _ h5'
      · simp only [trainBatch, List.mem_append, List.mem_singleton] at hp'
        rcases hp' with hp' | rfl
        · exact hmono _ (h5 _ (.inr ⟨p, hp', rfl⟩) c o i)
        · exact hmono _ (h5 _ (.inl rfl) c o i)
  · rintro e s s' ⟨h1, h2, h3, h4, h5⟩ hw ho hp'
    have hrate : rateSum lr s'.passes = rateSum lr s.passes := by
      rcases hp' with hp' | ⟨p, hp1, -, hp'⟩
      · rw [hp']
      · rw [hp', rateSum_append]; simp [rateSum, trainingPasses, hp1]
    constructor
    · rw [ho]; exact h1
    · rw [ho]; exact h2
    · rw [hw, hrate]; exact h3
    · rw [hrate]
      rcases hp' with hp' | ⟨p, hp1, hp2, hp'⟩
      · rw [hp']; exact h4
      · rw [hp']
        intro q hq
        rcases List.mem_append.mp hq with hq | hq
        · exact h4 q hq
        · rw [List.mem_singleton.mp hq, hp2]; exact h3
    · rw [hrate]
      rintro V (rfl | ⟨q, hq, rfl⟩)
      · rw [hw]; exact h5 _ (.inl rfl)
      · rcases hp' with hp' | ⟨p, hp1, hp2, hp'⟩
        · rw [hp'] at hq; exact h5 _ (.inr ⟨q, hq, rfl⟩)
        · rw [hp'] at hq
          rcases List.mem_append.mp hq with hq | hq
          · exact h5 _ (.inr ⟨q, hq, rfl⟩)
          · rw [List.mem_singleton.mp hq, hp2]; exact h5 _ (.inl rfl)
  · rintro e s ⟨h1, h2, h3, h4, h5⟩
    exact ⟨by simp [withAdamW, h1], h2, h3, h4, h5⟩

end Medil

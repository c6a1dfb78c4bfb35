import Verif.Proofs.MaxCliques
import Mathlib.Data.Real.Basic
import Mathlib.Analysis.SpecialFunctions.Pow.Real
import Mathlib.Tactic.Linarith
import Mathlib.Tactic.NormNum
import Mathlib.Tactic.IntervalCases
/-
  A bound on the work of `max_cliques`: a potential that decreases in every pass of the loop.
-/
namespace Medil
variable {n : Nat}

/-- the number of common neighbours drops by the size of `ext_u`, because the pivot has the most neighbours in `cand` -/
theorem pivot_bound {o : Sched n} {t : Nat} {A : BMat n} {subg cand : BVec n} (hsub : ∀ v, cand v = true → subg v = true)
    {q : Fin n} (hq : (extSet o t A subg cand) q = true) :
    (subg.inter (nbrSet A q)).card + (extSet o t A subg cand).card ≤ subg.card := by
  have hqc := extSet_sub _ _ _ _ _ _ hq
  unfold extSet at hq ⊢
  split at hq
  · rename_i u hu
    have hu' := pick_some hu
    simp only [BVec.get_of, Bool.and_eq_true, List.all_eq_true, BVec.mem_toList, decide_eq_true_eq] at hu'
    have hmax := hu'.2 q (hsub q hqc)
    simp only [BVec.card_eq] at hmax ⊢
    have e1 : (children (subg.inter (nbrSet A q))).card =
        (children (cand.inter (nbrSet A q))).card + (children ((subg.diff cand).inter (nbrSet A q))).card := by
      rw [← Finset.card_union_of_disjoint]
      · congr 1
        ext v
        simp
        have := hsub v
        cases h1 : cand v <;> simp_all
      · rw [Finset.disjoint_left]
        intro v
        simp
        intros
        simp_all
    have e2 : (children ((subg.diff cand).inter (nbrSet A q))).card ≤ (children (subg.diff cand)).card := by
      apply Finset.card_le_card
      intro v
      simp
      intros
      simp_all
    have e3 : (children cand).card = (children (cand.inter (nbrSet A u))).card + (children (cand.diff (nbrSet A u))).card := by
      rw [← Finset.card_union_of_disjoint]
      · congr 1
        ext v
        simp
        cases cand v <;> cases A u v <;> by_cases hvu : v = u <;> simp [hvu]
      · rw [Finset.disjoint_left]
        intro v
        simp
        intros
        simp_all
    have e4 : (children subg).card = (children cand).card + (children (subg.diff cand)).card := by
      rw [← Finset.card_union_of_disjoint]
      · congr 1
        ext v
        simp
        have := hsub v
        cases h1 : cand v <;> simp_all
      · rw [Finset.disjoint_left]
        intro v
        simp
        intros
        simp_all
    omega
  · simp at hq

/-- what a frame may still cost: `m` bounds the number of common neighbours of every child -/
structure FrameBd (A : BMat n) (subg cand ext : BVec n) (m : Nat) : Prop where
  cs : ∀ v, cand v = true → subg v = true
  ec : ∀ v, ext v = true → cand v = true
  bd : ∀ v, ext v = true → (subg.inter (nbrSet A v)).card ≤ m

inductive StackBd (A : BMat n) (T : Nat → ℝ) (a : ℝ) : List (BVec n × BVec n × BVec n) → ℝ → Prop
  | nil : StackBd A T a [] 0
  | cons {subg cand ext st m p} : FrameBd A subg cand ext m → StackBd A T a st p →
      StackBd A T a ((subg, cand, ext) :: st) ((ext.card * T m + a) + p)

def StateBd (A : BMat n) (T : Nat → ℝ) (a : ℝ) (s : MCState n) (p : ℝ) : Prop :=
  StackBd A T a ((s.subg, s.cand, s.ext) :: s.stack) p

/-- the conditions on the cost `T m` of a child with `m` common neighbours; `a` is the cost of a pass that yields nothing -/
structure CostFn (T : Nat → ℝ) (a : ℝ) : Prop where
  a0 : 0 ≤ a
  a1 : a ≤ 1
  one : ∀ m, 1 ≤ T m
  mono : Monotone T
  step : ∀ s k, k ≤ s → a + (k * T (s - k) + a) ≤ T s

theorem newFrame {o : Sched n} {t : Nat} {A : BMat n} {subg cand : BVec n} (hsub : ∀ v, cand v = true → subg v = true) :
    FrameBd A subg cand (extSet o t A subg cand) (subg.card - (extSet o t A subg cand).card) where
  cs := hsub
  ec := fun v => extSet_sub _ _ _ _ _ v
  bd := fun v hv => by have := pivot_bound hsub hv; omega

theorem ext_card_le {o : Sched n} {t : Nat} {A : BMat n} {subg cand : BVec n} (hsub : ∀ v, cand v = true → subg v = true) :
    (extSet o t A subg cand).card ≤ subg.card :=
  BVec.card_mono fun v hv => hsub v (extSet_sub _ _ _ _ _ v hv)

theorem StackBd.nonneg {A : BMat n} {T : Nat → ℝ} {a : ℝ} (hT : CostFn T a) {st p} (h : StackBd A T a st p) : 0 ≤ p := by
  induction h with
  | nil => exact le_rfl
  | @cons subg cand ext st m p hf _ ih =>
    have h1 := hT.one m
    have : (0 : ℝ) ≤ ext.card * T m := mul_nonneg (Nat.cast_nonneg _) (by linarith)
    linarith [hT.a0]

theorem mcStep_bd {o : Sched n} {A : BMat n} {T : Nat → ℝ} {a : ℝ} (hT : CostFn T a) {s : MCState n} {p : ℝ}
    (h : StateBd A T a s p) :
    match mcStep o A s with
    | .stop => a ≤ p
    | .raise _ => False
    | .next s' => ∃ p', StateBd A T a s' p' ∧ p' + a ≤ p
    | .yield _ s' => ∃ p', StateBd A T a s' p' ∧ p' + 1 ≤ p := by
  unfold StateBd at h
  obtain ⟨m, p0, hF, hS, rfl⟩ : ∃ m p0, FrameBd A s.subg s.cand s.ext m ∧ StackBd A T a s.stack p0 ∧
      p = (s.ext.card * T m + a) + p0 := by
    cases h with
    | cons hF hS => exact ⟨_, _, hF, hS, rfl⟩
  have hp0 := hS.nonneg hT
  have hT1 := hT.one m
  have hE0 : (0 : ℝ) ≤ s.ext.card * T m := mul_nonneg (Nat.cast_nonneg _) (by linarith)
  cases hp : pick o s.t s.ext with
  | some q =>
    have hq := pick_some hp
    have hc := hF.ec q hq
    cases hqs : s.q with
    | nil =>
      unfold mcStep
      simp only [hp, hc, hqs]
      simp
      linarith
    | cons x qs =>
      have hcard := BVec.card_lt_of_erase hq
      have hFe : FrameBd A s.subg (s.cand.erase q) (s.ext.erase q) m := by
        refine ⟨fun v hv => hF.cs v ?_, fun v hv => ?_, fun v hv => hF.bd v ?_⟩
        · simp at hv; exact hv.1
        · simp at hv ⊢; exact ⟨hF.ec v hv.1, hv.2⟩
        · simp at hv; exact hv.1
      have hcardR : (s.ext.card : ℝ) = (s.ext.erase q).card + 1 := by exact_mod_cast hcard.symm
      by_cases h1 : (s.subg.inter (nbrSet A q)).isEmpty
      · rw [mcStep_yield hp hc hqs h1]
        refine ⟨_, StackBd.cons hFe hS, ?_⟩
        rw [hcardR]
        linarith
      · by_cases h2 : ((s.cand.erase q).inter (nbrSet A q)).isEmpty
        · rw [mcStep_drop hp hc hqs h1 h2]
          refine ⟨_, StackBd.cons hFe hS, ?_⟩
          rw [hcardR]
          linarith [hT.a1]
        · rw [mcStep_push hp hc hqs h1 h2]
          have hsub : ∀ v, ((s.cand.erase q).inter (nbrSet A q)) v = true → (s.subg.inter (nbrSet A q)) v = true := by
            intro v hv
            simp at hv ⊢
            exact ⟨hF.cs v hv.1.1, hv.2⟩
          refine ⟨_, StackBd.cons (newFrame (o := o) (t := s.t + 1) hsub) (StackBd.cons hFe hS), ?_⟩
          have hr := hT.step _ _ (ext_card_le (o := o) (t := s.t + 1) (A := A) hsub)
          have hm := hT.mono (hF.bd q hq)
          rw [hcardR]
          linarith
  | none =>
    unfold mcStep
    cases hq : s.q with
    | nil => simp only [hp]; linarith
    | cons x qs =>
    cases hs : s.stack with
    | nil => simp only [hp]; linarith
    | cons f st =>
      simp only [hp]
      rw [hs] at hS
      refine ⟨p0, hS, by linarith⟩

theorem mcRun_halts {o : Sched n} {A : BMat n} {T : Nat → ℝ} (hT : CostFn T 1) (fuel : Nat) :
    ∀ (s : MCState n) (p : ℝ), StateBd A T 1 s p → p ≤ fuel → ∃ ys, mcRun o A fuel s = .ok ys := by
  induction fuel with
  | zero =>
    intro s p h hp
    exfalso
    have h' := mcStep_bd (o := o) hT h
    have hge : (1 : ℝ) ≤ p := by
      unfold StateBd at h
      cases h with
      | @cons _ _ _ _ m p' hF hS =>
        have h1 := hS.nonneg hT
        have h2 := hT.one m
        have : (0 : ℝ) ≤ s.ext.card * T m := mul_nonneg (Nat.cast_nonneg _) (by linarith)
        linarith
    simp at hp
    linarith
  | succ fuel ih =>
    intro s p h hp
    have h' := mcStep_bd (o := o) hT h
    push_cast at hp
    unfold mcRun
    split at h' <;> rename_i heq
    · simp [heq]
    · exact h'.elim
    · obtain ⟨p', hb, hle⟩ := h'
      simp only [heq]
      exact ih _ p' hb (by linarith)
    · obtain ⟨p', hb, hle⟩ := h'
      obtain ⟨ys, hy⟩ := ih _ p' hb (by linarith)
      simp only [heq, hy]
      exact ⟨_, rfl⟩

theorem mcRun_count {o : Sched n} {A : BMat n} {T : Nat → ℝ} (hT : CostFn T 0) (fuel : Nat) :
    ∀ (s : MCState n) (p : ℝ), StateBd A T 0 s p → ∀ ys, mcRun o A fuel s = .ok ys → (ys.length : ℝ) ≤ p := by
  induction fuel with
  | zero => intro s p _ ys h; cases h
  | succ fuel ih =>
    intro s p h ys hr
    have h' := mcStep_bd (o := o) hT h
    unfold mcRun at hr
    split at h' <;> rename_i heq
    · simp only [heq] at hr
      cases hr
      simpa using h'
    · exact h'.elim
    · obtain ⟨p', hb, hle⟩ := h'
      simp only [heq] at hr
      linarith [ih _ p' hb ys hr]
    · obtain ⟨p', hb, hle⟩ := h'
      simp only [heq] at hr
      cases hm : mcRun o A fuel _ with
      | error e => rw [hm] at hr; cases hr
      | ok zs =>
        rw [hm] at hr
        cases hr
        have := ih _ p' hb zs hm
        simp only [List.length_cons]
        push_cast
        linarith

/-- more fuel does not change the result -/
theorem mcRun_mono {o : Sched n} {A : BMat n} {fuel fuel' : Nat} (hle : fuel ≤ fuel') {s : MCState n} {ys}
    (h : mcRun o A fuel s = .ok ys) : mcRun o A fuel' s = .ok ys := by
  induction fuel generalizing s ys fuel' with
  | zero => cases h
  | succ fuel ih =>
    obtain ⟨f, rfl⟩ : ∃ f, fuel' = f + 1 := ⟨fuel' - 1, by omega⟩
    unfold mcRun at h ⊢
    split at h
    · exact h
    · cases h
    · exact ih (by omega) h
    · rename_i c s' heq
      cases hm : mcRun o A fuel s' with
      | error e => rw [hm] at h; cases h
      | ok zs =>
        rw [hm] at h
        rw [ih (by omega) hm]
        exact h

/-! ### powers of the cube root of 3 -/

/-- the cube root of 3 -/
noncomputable def cbrt3 : ℝ := (3 : ℝ) ^ (1 / 3 : ℝ)

theorem cbrt3_pos : 0 < cbrt3 := Real.rpow_pos_of_pos (by norm_num) _

theorem cbrt3_cube : cbrt3 ^ 3 = 3 := by
  unfold cbrt3
  rw [← Real.rpow_natCast, ← Real.rpow_mul (by norm_num)]
  norm_num

theorem cbrt3_ge : (144 / 100 : ℝ) ≤ cbrt3 := by
  by_contra hc
  push Not at hc
  have := pow_lt_pow_left₀ hc cbrt3_pos.le (by norm_num : (3 : Nat) ≠ 0)
  rw [cbrt3_cube] at this
  norm_num at this

theorem cube_le_pow (k : Nat) : k ^ 3 ≤ 3 ^ k := by
  rcases Nat.lt_or_ge k 3 with h | h
  · interval_cases k <;> norm_num
  · induction k, h using Nat.le_induction with
    | base => norm_num
    | succ k hk ih =>
      rw [pow_succ 3 k]
      nlinarith [sq_nonneg (k : ℤ), Nat.mul_le_mul hk (Nat.mul_le_mul hk hk), Nat.mul_le_mul hk hk]

theorem le_cbrt3_pow (k : Nat) : (k : ℝ) ≤ cbrt3 ^ k := by
  by_contra hc
  push Not at hc
  have := pow_lt_pow_left₀ hc (pow_nonneg cbrt3_pos.le _) (by norm_num : (3 : Nat) ≠ 0)
  rw [← pow_mul, mul_comm, pow_mul, cbrt3_cube] at this
  have h2 : k ^ 3 ≤ 3 ^ k := cube_le_pow k
  have : (3 : ℝ) ^ k < (k : ℝ) ^ 3 := this
  have h3 : (k : ℝ) ^ 3 ≤ 3 ^ k := by exact_mod_cast h2
  linarith

theorem one_le_cbrt3_pow (k : Nat) : 1 ≤ cbrt3 ^ k := one_le_pow₀ (by linarith [cbrt3_ge])

theorem mul_cbrt3_le {s k : Nat} (h : k ≤ s) : (k : ℝ) * cbrt3 ^ (s - k) ≤ cbrt3 ^ s := by
  calc (k : ℝ) * cbrt3 ^ (s - k) ≤ cbrt3 ^ k * cbrt3 ^ (s - k) :=
        mul_le_mul_of_nonneg_right (le_cbrt3_pow k) (pow_nonneg cbrt3_pos.le _)
    _ = cbrt3 ^ s := by rw [← pow_add]; congr 1; omega

theorem costYield : CostFn (fun m => cbrt3 ^ m) 0 where
  a0 := le_rfl
  a1 := zero_le_one
  one := one_le_cbrt3_pow
  mono := pow_right_mono₀ (by linarith [cbrt3_ge])
  step := fun s k h => by simpa using mul_cbrt3_le h

theorem costPass : CostFn (fun m => 5 * cbrt3 ^ m - 2) 1 where
  a0 := zero_le_one
  a1 := le_rfl
  one := fun m => by linarith [one_le_cbrt3_pow m]
  mono := fun a b h => by
    have : cbrt3 ^ a ≤ cbrt3 ^ b := pow_right_mono₀ (by linarith [cbrt3_ge]) h
    simp only
    linarith
  step := fun s k h => by
    have h1 := mul_cbrt3_le h
    have hs := one_le_cbrt3_pow s
    rcases Nat.lt_or_ge k 2 with hk | hk
    · interval_cases k
      · norm_num
        linarith
      · obtain ⟨s, rfl⟩ : ∃ r, s = r + 1 := ⟨s - 1, by omega⟩
        have := one_le_cbrt3_pow s
        have h3 := cbrt3_ge
        rw [pow_succ]
        simp
        nlinarith
    · have : (2 : ℝ) ≤ k := by exact_mod_cast hk
      nlinarith

theorem card_full : (BVec.full : BVec n).card = n := by
  rw [BVec.card_eq]
  have : children (BVec.full : BVec n) = Finset.univ := by ext; simp
  rw [this]; simp

theorem init_bd {T : Nat → ℝ} {a : ℝ} (hT : CostFn T a) (o : Sched n) (A : BMat n) :
    ∃ p, StateBd A T a (mcInit o A) p ∧ p + a ≤ T n := by
  have hF := newFrame (o := o) (t := 0) (A := A) (subg := BVec.full) (cand := BVec.full) (fun v h => h)
  refine ⟨_, StackBd.cons hF StackBd.nil, ?_⟩
  have := hT.step n _ (by simpa [card_full] using ext_card_le (o := o) (t := 0) (A := A) (subg := BVec.full) (cand := BVec.full) (fun v h => h))
  rw [card_full]
  simp only [mcInit]
  linarith

end Medil

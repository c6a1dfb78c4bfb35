import Verif.Props.Ncfa
/-
  The data that `NeuroCausalFactorAnalysis.fit` trains on (C68, C82, C83), reproducibility (C81).
-/
namespace Medil
open Finset
variable {M w : Nat} {G O : Type}

/-! ### C82: standardization -/

theorem sampleMean_const {N : Nat} (hN : 0 < N) (x : Fin N → ℝ) (hx : Constant x) (k : Fin N) : sampleMean x = x k := by
  unfold sampleMean
  rw [sum_congr rfl fun l _ => hx l k]
  have : (N : ℝ) ≠ 0 := by exact_mod_cast hN.ne'
  simp; field_simp

theorem popVar_eq_zero {N : Nat} (hN : 0 < N) (x : Fin N → ℝ) :
    sampleMean (fun k => (x k - sampleMean x) ^ 2) = 0 ↔ Constant x := by
  have hN' : (N : ℝ) ≠ 0 := by exact_mod_cast hN.ne'
  constructor
  · intro h
    rw [sampleMean, div_eq_zero_iff, or_iff_left hN', sum_eq_zero_iff_of_nonneg (fun _ _ => sq_nonneg _)] at h
    have h' : ∀ k, x k = sampleMean x := fun k => by
      have := pow_eq_zero_iff (two_ne_zero) |>.mp (h k (mem_univ k))
      linarith
    intro k l; rw [h' k, h' l]
  · intro h
    rw [sampleMean, sum_eq_zero, zero_div]
    intro k _
    rw [sampleMean_const hN x h k]; simp

theorem standardizeRow_eq (d : Dataset M) (k : Fin d.size) : standardizeRow d k = standardizedRow d k := by
  funext j
  have hN : 0 < d.size := by have := d.two_le; omega
  have hv := popVar_eq_zero hN fun k => d.val k j
  show (d.val k j - d.mean j) / (if sampleMean (fun k => (d.val k j - d.mean j) ^ 2) = 0 then 1 else
    Real.sqrt (sampleMean (fun k => (d.val k j - d.mean j) ^ 2))) = _
  unfold standardizedRow standardizedSample
  rw [Dataset.mean_eq]
  by_cases hc : Constant fun k => d.val k j
  · rw [if_pos (hv.mpr hc), if_pos hc, ← sampleMean_const hN _ hc k]; simp
  · rw [if_neg (fun h => hc (hv.mp h)), if_neg hc]; rfl

theorem sampleMean_div_self {N : Nat} {f : Fin N → ℝ} (hv : sampleMean f ≠ 0) :
    sampleMean (fun k => f k / sampleMean f) = 1 := by
  have h : sampleMean (fun k => f k / sampleMean f) = sampleMean f / sampleMean f := by
    conv_lhs => unfold sampleMean
    rw [← sum_div, div_right_comm]; rfl
  rw [h, div_self hv]

theorem sampleMean_affine {N : Nat} (hN : 0 < N) (a b : ℝ) (x : Fin N → ℝ) :
    sampleMean (fun k => a * x k + b) = a * sampleMean x + b := by
  have : (N : ℝ) ≠ 0 := by exact_mod_cast hN.ne'
  unfold sampleMean
  rw [sum_add_distrib, ← mul_sum]
  simp; field_simp

theorem standardizedSample_affine {N : Nat} (hN : 0 < N) (a b : ℝ) (ha : 0 < a) (x : Fin N → ℝ) (k : Fin N) :
    standardizedSample (fun k => a * x k + b) k = standardizedSample x k := by
  have hc : Constant (fun k => a * x k + b) ↔ Constant x := by
    constructor
    · intro h k l
      have : a * x k + b = a * x l + b := h k l
      have : a * x k = a * x l := by linarith
      exact mul_left_cancel₀ ha.ne' this
    · intro h k l; show a * x k + b = a * x l + b; rw [h k l]
  unfold standardizedSample
  by_cases h : Constant x
  · rw [if_pos h, if_pos (hc.mpr h)]
  · rw [if_neg h, if_neg (fun h' => h (hc.mp h'))]
    have hs : popStd (fun k => a * x k + b) = a * popStd x := by
      unfold popStd
      rw [sampleMean_affine hN]
      have : (fun k => (a * x k + b - (a * sampleMean x + b)) ^ 2) = fun k => a ^ 2 * (x k - sampleMean x) ^ 2 + 0 := by
        funext k; ring
      rw [this, sampleMean_affine hN, add_zero, Real.sqrt_mul (sq_nonneg a), Real.sqrt_sq ha.le]
    rw [hs, sampleMean_affine hN]
    rw [show a * x k + b - (a * sampleMean x + b) = a * (x k - sampleMean x) by ring]
    rw [mul_div_mul_left _ _ ha.ne']

/-- **C82**.  A standardized column has mean 0; its variance is 1 unless the column was constant, and then it is 0
everywhere.  Nothing changes if the measurements are given in other units. -/
theorem C82_standardized (d : Dataset M) (j : Fin M) :
    sampleMean (fun k => standardizeRow d k j) = 0 ∧
    (¬ Constant (fun k => d.val k j) → sampleMean (fun k => standardizeRow d k j ^ 2) = 1) ∧
    (Constant (fun k => d.val k j) → ∀ k, standardizeRow d k j = 0) ∧
    (∀ (d' : Dataset M) (hsz : d'.size = d.size) (a b : Fin M → ℝ), (∀ j, 0 < a j) →
      (∀ k j, d'.val k j = a j * d.val (Fin.cast hsz k) j + b j) →
      ∀ k, standardizeRow d' k j = standardizeRow d (Fin.cast hsz k) j) := by
  have hN : 0 < d.size := by have := d.two_le; omega
  have hN' : (d.size : ℝ) ≠ 0 := by exact_mod_cast hN.ne'
  have hsum : ∑ k, (d.val k j - sampleMean fun k => d.val k j) = 0 := by
    rw [sum_sub_distrib]; simp [sampleMean]; field_simp; simp
  refine ⟨?_, ?_, ?_, ?_⟩
  · simp only [standardizeRow_eq, standardizedRow, standardizedSample]
    split
    · simp [sampleMean]
    · unfold sampleMean at hsum ⊢
      rw [← sum_div, hsum]; simp
  · intro hc
    have hv : sampleMean (fun k => (d.val k j - sampleMean fun k => d.val k j) ^ 2) ≠ 0 :=
      fun h => hc ((popVar_eq_zero hN _).mp h)
    have hp : 0 ≤ sampleMean (fun k => (d.val k j - sampleMean fun k => d.val k j) ^ 2) :=
      div_nonneg (sum_nonneg fun _ _ => sq_nonneg _) (by positivity)
    simp only [standardizeRow_eq, standardizedRow, standardizedSample, if_neg hc, div_pow, popStd, Real.sq_sqrt hp]
    exact sampleMean_div_self hv
  · intro hc k
    simp only [standardizeRow_eq, standardizedRow, standardizedSample, if_pos hc]
  · intro d' hsz a b ha hd k
    obtain ⟨n, hn, x⟩ := d
    obtain ⟨n', hn', x'⟩ := d'
    dsimp only at hsz hd k
    subst hsz
    simp only [Fin.cast_eq_self] at hd ⊢
    simp only [standardizeRow_eq, standardizedRow]
    rw [show (fun k => x' k j) = fun k => a j * (fun k => x k j) k + b j from funext fun k => hd k j]
    exact standardizedSample_affine (by omega) (a j) (b j) (ha j) _ k

/-- not vacuous: a column that is not constant -/
example : ¬ Constant (fun k => demoData.val k 0) := fun h => by
  have := h ⟨0, by decide⟩ ⟨1, by decide⟩
  simp [demoData] at this

/-! ### C83: batches -/

/-- **C83**.  A loader exists exactly for a positive batch size.  Its batches, one after the other, are the rows in
their order; batch `i` has the rows from `i·n` on, `n` of them or as many as are left, and at least one; the number
of batches is the number of rows divided by `n`, rounded up. -/
theorem C83_batches {α : Type} (n : Nat) (rows : List α) :
    (n = 0 → dataLoader n rows = .error .valueError) ∧
    (n ≠ 0 → ∃ bs, dataLoader n rows = .ok bs ∧ bs.flatten = rows ∧ bs.length = (rows.length + n - 1) / n ∧
      (∀ i (h : i < bs.length), bs[i] = (rows.drop (i * n)).take n ∧ bs[i] ≠ [] ∧ bs[i].length ≤ n ∧
        (i + 1 < bs.length → bs[i].length = n))) := by
  constructor
  · intro h; simp [dataLoader, h]
  · intro hn
    have hlen : (batches n rows).length = (rows.length + n - 1) / n := batchesAux_length n hn _ rows (Nat.le_refl _)
    refine ⟨batches n rows, by simp [dataLoader, hn], batches_flatten n hn rows, hlen, ?_⟩
    have lt : ∀ i, i < (batches n rows).length → i * n < rows.length := by
      intro i h
      rw [hlen, Nat.lt_iff_add_one_le, Nat.le_div_iff_mul_le (by omega), Nat.add_mul] at h
      omega
    intro i h
    have hin := lt i h
    have hget := batchesAux_get n hn rows.length rows (Nat.le_refl _) i hin
    have hb : (batches n rows)[i] = (rows.drop (i * n)).take n := by
      have := List.getElem?_eq_getElem h
      rw [show (batches n rows)[i]? = some ((rows.drop (i * n)).take n) from hget] at this
      exact (Option.some.inj this).symm
    rw [hb]
    refine ⟨rfl, ?_, ?_, ?_⟩
    · intro h0
      have := congrArg List.length h0
      simp only [List.length_take, List.length_drop, List.length_nil] at this
      omega
    · rw [List.length_take]; omega
    · intro h'
      have := lt (i + 1) h'
      rw [Nat.add_mul] at this
      simp only [List.length_take, List.length_drop]
      omega

example : dataLoader 2 [10, 11, 12, 13, 14] = .ok [[10, 11], [12, 13], [14]] := rfl

/-! ### C68: what the network is trained on -/

/-- **C68** (as stated; false): every row that is used is a row of the standardized dataset -/
def C68_statement : Prop :=
  ∀ (G O : Type) (env : NcfaEnv G O) (M : Nat) (d : Dataset M) (split : Option (List Int × List Int)) (st : NState M)
    (wd : NWorld G), ∀ p ∈ (ncfaFit env d split st wd).2.2.1, ∀ row ∈ p.batch, ∃ k, row = standardizedRow d k

/-- row `i` of an array, counted from the end if `i` is negative -/
def pyRow (d : Dataset M) (i : Int) (h : -(d.size : Int) ≤ i ∧ i < d.size) : Row M :=
  if h0 : 0 ≤ i then d.val ⟨i.toNat, by omega⟩ else d.val ⟨(i + d.size).toNat, by omega⟩

theorem takeRows_eq (d : Dataset M) (l : List Int) (h : ∀ i ∈ l, -(d.size : Int) ≤ i ∧ i < d.size) :
    takeRows d l = .ok (l.attach.map fun i => pyRow d i.1 (h i.1 i.2)) := by
  induction l with
  | nil => rfl
  | cons i l ih =>
    have ih := ih fun i hi => h i (List.mem_cons_of_mem _ hi)
    have hi := h i List.mem_cons_self
    have e : (List.map (fun j : {x // x ∈ i :: l} => pyRow d j.1 (h j.1 j.2)) (i :: l).attach) =
        pyRow d i hi :: (l.attach.map fun j => pyRow d j.1 (h j.1 (List.mem_cons_of_mem _ j.2))) := by
      rw [List.attach_cons, List.map_cons, List.map_map]; rfl
    rw [e]
    unfold takeRows
    rw [ih]
    by_cases h0 : 0 ≤ i
    · rw [dif_pos ⟨h0, by omega⟩]; simp [pyRow, h0]
    · rw [dif_neg (by omega), dif_pos (by omega)]; simp [pyRow, h0]

theorem flatMap_batch {ps : List (Pass M w)} {bs : List (List (Row M))} (h : ps.map (·.batch) = bs) :
    ps.flatMap (·.batch) = bs.flatten := by
  rw [← h, ← List.flatMap_def]

/-- **C68**, what is true instead.
Without explicit indices: the dataset's rows are divided, depending only on the seed and the number of rows, into
training and validation rows, each row going to exactly one of them, none of the two empty; and in every epoch the
training batches are the standardized training rows and the validation batches the standardized validation rows.
With explicit indices: they are the rows with these indices as they are, *not* standardized. -/
theorem C68_partial (env : NcfaEnv G O) :
    (∃ divide : Nat → (N : Nat) → List (Fin N) × List (Fin N),
      ∀ (M : Nat) (d : Dataset M) (st : NState M) (wd : NWorld G), (ncfaFit env d none st wd).2.2.2 = .ok () →
        let a := (divide st.seed d.size).1
        let b := (divide st.seed d.size).2
        (∀ k, (a ++ b).count k = 1) ∧ a.length = env.trainSize d.size ∧ a ≠ [] ∧ b ≠ [] ∧
        ∀ e < st.hp.numEpochs,
          (passesOf (ncfaFit env d none st wd).2.2.1 e true).flatMap (·.batch) = a.map (standardizedRow d) ∧
          (passesOf (ncfaFit env d none st wd).2.2.1 e false).flatMap (·.batch) = b.map (standardizedRow d)) ∧
    (∀ (M : Nat) (d : Dataset M) (a b : List Int) (st : NState M) (wd : NWorld G),
      (ncfaFit env d (some (a, b)) st wd).2.2.2 = .ok () →
      ∃ (ha : ∀ i ∈ a, -(d.size : Int) ≤ i ∧ i < d.size) (hb : ∀ i ∈ b, -(d.size : Int) ≤ i ∧ i < d.size),
        ∀ e < st.hp.numEpochs,
          (passesOf (ncfaFit env d (some (a, b)) st wd).2.2.1 e true).flatMap (·.batch) =
            a.attach.map (fun i => pyRow d i.1 (ha i.1 i.2)) ∧
          (passesOf (ncfaFit env d (some (a, b)) st wd).2.2.1 e false).flatMap (·.batch) =
            b.attach.map (fun i => pyRow d i.1 (hb i.1 i.2))) := by
  constructor
  · refine ⟨fun seed N => (((List.finRange N).map (env.perm seed N)).drop (N - env.trainSize N),
      ((List.finRange N).map (env.perm seed N)).take (N - env.trainSize N)), ?_⟩
    intro M d st wd h
    have h1 := env.trainSize_lt d.size d.two_le
    have h2 := env.trainSize_pos d.size d.two_le
    dsimp only
    refine ⟨?_, ?_, ?_, ?_, ?_⟩
    · intro k
      have hp : ((((List.finRange d.size).map (env.perm st.seed d.size)).drop (d.size - env.trainSize d.size)) ++
        (((List.finRange d.size).map (env.perm st.seed d.size)).take (d.size - env.trainSize d.size))).Perm
          ((List.finRange d.size).map (env.perm st.seed d.size)) :=
        List.perm_append_comm.trans (List.Perm.of_eq (List.take_append_drop _ _))
      rw [hp.count_eq]
      apply List.count_eq_one_of_mem
      · exact (List.nodup_finRange _).map (Equiv.injective _)
      · exact List.mem_map.mpr ⟨(env.perm st.seed d.size).symm k, List.mem_finRange _, by simp⟩
    · simp only [List.length_drop, List.length_map, List.length_finRange]; omega
    · intro h0
      have := congrArg List.length h0
      simp only [List.length_drop, List.length_map, List.length_finRange, List.length_nil] at this; omega
    · intro h0
      have := congrArg List.length h0
      simp only [List.length_take, List.length_map, List.length_finRange, List.length_nil] at this; omega
    · rcases ncfaFit_cases env d none st wd with ⟨e, _, h2⟩ | ⟨t, v, _, _, h3⟩ | ⟨t, v, _, _, _, _, r, h5⟩ |
        ⟨t, v, g1, g2, g3, r, hist, g4, ok, g5⟩
      · rw [h2] at h; cases h
      · rw [h3] at h; cases h
      · rw [h5] at h; cases h
      · intro e he
        rw [g5]
        dsimp only
        obtain ⟨x, y⟩ := ok.batchesOf e he
        rw [flatMap_batch x, flatMap_batch y, batches_flatten _ g2, batches_flatten _ g2]
        unfold ncfaSplit at g1
        split at g1
        · cases g1
        · simp only [Except.ok.injEq, randomSplit, Prod.mk.injEq] at g1
          have : standardizeRow d = standardizedRow d := funext fun k => standardizeRow_eq d k
          rw [this] at g1
          exact ⟨g1.1.symm, g1.2.symm⟩
  · intro M d a b st wd h
    rcases ncfaFit_cases env d (some (a, b)) st wd with ⟨e, _, h2⟩ | ⟨t, v, _, _, h3⟩ | ⟨t, v, _, _, _, _, r, h5⟩ |
      ⟨t, v, g1, g2, g3, r, hist, g4, ok, g5⟩
    · rw [h2] at h; cases h
    · rw [h3] at h; cases h
    · rw [h5] at h; cases h
    · unfold ncfaSplit at g1
      split at g1
      · cases g1
      · dsimp only at g1
        by_cases ha : ∃ i ∈ a, ¬ (-(d.size : Int) ≤ i ∧ i < d.size)
        · rw [takeRows_error d a ha] at g1; cases g1
        · push Not at ha
          rw [takeRows_eq d a ha] at g1
          by_cases hb : ∃ i ∈ b, ¬ (-(d.size : Int) ≤ i ∧ i < d.size)
          · rw [takeRows_error d b hb] at g1; cases g1
          · push Not at hb
            rw [takeRows_eq d b hb] at g1
            simp only [Except.ok.injEq, Prod.mk.injEq] at g1
            refine ⟨ha, hb, fun e he => ?_⟩
            rw [g5]
            dsimp only
            obtain ⟨x, y⟩ := ok.batchesOf e he
            rw [flatMap_batch x, flatMap_batch y, batches_flatten _ g2, batches_flatten _ g2, g1.1, g1.2]
            exact ⟨rfl, rfl⟩

/-- the claim is false with explicit indices: the rows are used as they are -/
theorem C68_false : ¬ C68_statement := by
  intro h
  have hok : (ncfaFit demoEnv demoData (some ([0, 1, 2], [0])) demoNcfa demoWorld).2.2.2 = .ok () := by
    rw [C67_outcome]
    have : SplitIn demoData ([0, 1, 2], [0]) := by
      intro i hi
      simp only [List.mem_cons, List.not_mem_nil, or_false] at hi
      simp only [demoData]
      omega
    simp [demoNcfa, this]
  obtain ⟨ha, hb, hrows⟩ := (C68_partial demoEnv).2 1 demoData [0, 1, 2] [0] demoNcfa demoWorld hok
  have h0 := (hrows 0 (by simp [demoNcfa])).1
  -- the three raw rows are used; their mean is not 0, but all standardized rows have mean 0
  have hmem : ∀ k, demoData.val k ∈ (passesOf (ncfaFit demoEnv demoData (some ([0, 1, 2], [0])) demoNcfa demoWorld).2.2.1
      0 true).flatMap (·.batch) := by
    intro k
    rw [h0, List.mem_map]
    have hk : k.val < 3 := k.isLt
    refine ⟨⟨(k.val : Int), ?_⟩, List.mem_attach _ _, ?_⟩
    · simp; omega
    · simp [pyRow]
  have hstd : ∀ k, ∃ k', demoData.val k = standardizedRow demoData k' := by
    intro k
    obtain ⟨p, hp, hk⟩ := List.mem_flatMap.mp (hmem k)
    exact h _ _ demoEnv 1 demoData _ demoNcfa demoWorld p (List.mem_filter.mp hp).1 _ hk
  -- no standardized value exceeds the square root of 3, whose square is at most 3 rows
  have hbound : ∀ k', standardizedRow demoData k' 0 ^ 2 ≤ 3 := by
    intro k'
    by_cases hc : Constant fun k => demoData.val k 0
    · rw [← standardizeRow_eq, (C82_standardized demoData 0).2.2.1 hc k']; norm_num
    · have := (C82_standardized demoData 0).2.1 hc
      unfold sampleMean at this
      have hs : (demoData.size : ℝ) = 3 := by norm_num [demoData]
      rw [hs, div_eq_one_iff_eq (by norm_num)] at this
      rw [← this, ← standardizeRow_eq]
      exact single_le_sum (f := fun k => standardizeRow demoData k 0 ^ 2) (fun _ _ => sq_nonneg _) (mem_univ k')
  obtain ⟨k', hk'⟩ := hstd ⟨2, by decide⟩
  have h9 := hbound k'
  have hv : demoData.val ⟨2, by decide⟩ 0 = 3 := by
    show (if (2 : Nat) = 0 then (0 : ℝ) else if (2 : Nat) = 1 then 1 else 3) = 3
    simp
  rw [← hk', hv] at h9
  norm_num at h9

/-- not vacuous: a run without indices -/
example : (ncfaFit demoEnv demoData none demoNcfa demoWorld).2.2.2 = .ok () := demo_ok

/-! ### C81: reproducibility -/

/-- **C81** (as stated; false): two objects with the same seed and hyperparameters that are fitted to the same data have
the same network and losses afterwards -/
def C81_statement : Prop :=
  ∀ (G O : Type) (env : NcfaEnv G O) (M : Nat) (d : Dataset M) (split : Option (List Int × List Int))
    (st st' : NState M) (wd wd' : NWorld G), st.seed = st'.seed → st.hp = st'.hp →
    (ncfaFit env d split st wd).2.2.2 = .ok () → (ncfaFit env d split st' wd').2.2.2 = .ok () →
    (ncfaFit env d split st wd).1.vae = (ncfaFit env d split st' wd').1.vae ∧
    (ncfaFit env d split st wd).1.loss = (ncfaFit env d split st' wd').1.loss

/-- **C81**, what is true instead: this holds if torch's global generator is in the same state before both calls;
then also the passes, the weights and the new log entries are the same, whatever was fitted before, and numpy's state
does not matter.  (`fit` seeds numpy's generator, which is not used afterwards.) -/
theorem C81_partial (env : NcfaEnv G O) (d : Dataset M) (split : Option (List Int × List Int)) (st st' : NState M)
    (wd wd' : NWorld G) (hseed : st.seed = st'.seed) (hhp : st.hp = st'.hp) (htorch : wd.torch = wd'.torch) :
    (ncfaFit env d split st wd).2.2.2 = (ncfaFit env d split st' wd').2.2.2 ∧
    HEq (ncfaFit env d split st wd).2.2.1 (ncfaFit env d split st' wd').2.2.1 ∧
    ((ncfaFit env d split st wd).2.2.2 = .ok () →
      (ncfaFit env d split st wd).1.vae = (ncfaFit env d split st' wd').1.vae ∧
      (ncfaFit env d split st wd).1.weights = (ncfaFit env d split st' wd').1.weights ∧
      (ncfaFit env d split st wd).1.loss = (ncfaFit env d split st' wd').1.loss ∧
      (ncfaFit env d split st wd).2.1.torch = (ncfaFit env d split st' wd').2.1.torch) := by
  obtain ⟨biadj, udg, hp, seed, path, verbose, ds, ws, vae, loss⟩ := st
  obtain ⟨biadj', udg', hp', seed', path', verbose', ds', ws', vae', loss'⟩ := st'
  obtain ⟨g, np, logs, files, out⟩ := wd
  obtain ⟨g', np', logs', files', out'⟩ := wd'
  dsimp only at hseed hhp htorch
  subst hseed hhp htorch
  unfold ncfaFit
  dsimp only
  rcases ncfaSplit env seed d split with e | ⟨t, v⟩
  · exact ⟨rfl, HEq.rfl, fun h => by cases h⟩
  · dsimp only
    rcases dataLoader hp.batchSize t with e | tl
    · exact ⟨rfl, HEq.rfl, fun h => by cases h⟩
    · rcases dataLoader hp.batchSize v with e | vl
      · exact ⟨rfl, HEq.rfl, fun h => by cases h⟩
      · dsimp only
        rcases (trainVae env hp tl vl g).2 with e | hist
        · exact ⟨rfl, HEq.rfl, fun h => by cases h⟩
        · exact ⟨rfl, HEq.rfl, fun _ => ⟨rfl, rfl, rfl, rfl⟩⟩

/-- a generator whose initial values depend on its state -/
def seededGen : TorchGen Nat where
  normal _ _ g := (fun _ _ => 0, g)
  init _ _ _ _ g := (fun _ => ⟨fun _ _ => g, fun _ => g⟩, g)

/-- the claim is false: the initial weights come from torch's generator, which `fit` does not seed -/
theorem C81_false : ¬ C81_statement := by
  intro h
  have ok : ∀ wd, (ncfaFit { demoEnv with gen := seededGen } demoData none demoNcfa wd).2.2.2 = .ok () := by
    intro wd
    rw [C67_outcome]; simp [demoNcfa]
  have h1 := (h _ _ { demoEnv with gen := seededGen } 1 demoData none demoNcfa demoNcfa
    demoWorld { demoWorld with torch := 1 } rfl rfl (ok _) (ok _)).1
  obtain ⟨W, a1, a2, _⟩ := C80_hidden_layers_stay_random { demoEnv with gen := seededGen } demoData none demoNcfa
    demoWorld (ok _) 0
  obtain ⟨W', b1, b2, _⟩ := C80_hidden_layers_stay_random { demoEnv with gen := seededGen } demoData none demoNcfa
    { demoWorld with torch := 1 } (ok _) 0
  rw [a1, b1] at h1
  simp only [Option.some.injEq, VaeModel.mk.injEq, heq_eq_eq, true_and, and_true] at h1
  rw [h1, b2] at a2
  have := congrArg Layer.bias a2
  have := congrFun this ⟨0, by simp [demoNcfa]⟩
  simp [seededGen, demoWorld] at this

end Medil

import Verif.Props.Gaussian
import Verif.Props.XiNull
/-
  Property theorem C183: the order of the observations.
-/
namespace Medil
open Finset
variable {M : Nat}

/-- the same observations in another order -/
def Dataset.reorder (d : Dataset M) (π : Equiv.Perm (Fin d.size)) : Dataset M := { d with val := fun k => d.val (π k) }

theorem reorder_mean (d : Dataset M) (π : Equiv.Perm (Fin d.size)) : (d.reorder π).mean = d.mean := by
  funext j
  unfold Dataset.mean Dataset.reorder
  exact congrArg (· / (d.size : ℝ)) (Equiv.sum_comp π fun k => d.val k j)

theorem reorder_cov (d : Dataset M) (π : Equiv.Perm (Fin d.size)) : (d.reorder π).cov = d.cov := by
  funext i j
  unfold Dataset.cov
  rw [reorder_mean]
  exact congrArg (· / ((d.size : ℝ) - 1)) (Equiv.sum_comp π fun k => (d.val k i - d.mean i) * (d.val k j - d.mean j))

theorem reorder_udg (d : Dataset M) (π : Equiv.Perm (Fin d.size)) : estimateUdgCov (d.reorder π) = estimateUdgCov d := by
  have h : udgTriu (d.reorder π) = udgTriu d := by
    funext i j
    unfold udgTriu Dataset.corr
    rw [reorder_cov]
    rfl
  unfold estimateUdgCov
  rw [h]

/-- **C183** `GaussianMCM.fit` does not depend on the order of the observations: on every object, with every optimizer and set order, the call has the same
outcome, and all attributes but the stored dataset are the same afterwards. -/
theorem C183_gaussian_partial (opt : Optimizer) (o : Sched M) (d : Dataset M) (π : Equiv.Perm (Fin d.size)) (st : GState M) :
    (gaussianFit opt o (d.reorder π) st).2 = (gaussianFit opt o d st).2 ∧
    (gaussianFit opt o (d.reorder π) st).1 = { (gaussianFit opt o d st).1 with dataset := some (d.reorder π) } := by
  have hp : ∀ st' st'' : GState M, st'' = { st' with dataset := some (d.reorder π) } →
      (fitParams opt (d.reorder π) st'').2 = (fitParams opt d st').2 ∧
      (fitParams opt (d.reorder π) st'').1 = { (fitParams opt d st').1 with dataset := some (d.reorder π) } := by
    rintro st' _ rfl
    unfold fitParams
    rw [reorder_cov, reorder_mean]
    exact ⟨rfl, rfl⟩
  have hu : ∀ u, udgOr (d.reorder π) u = udgOr d u := by
    intro u
    unfold udgOr
    rw [reorder_udg]
  unfold gaussianFit computeBiadj
  simp only [hu]
  split_ifs with h0
  · rcases hU : udgOr d st.udg with e | U
    · exact ⟨rfl, rfl⟩
    · rcases hB : findHeuristic1pc o U with e | B
      · simp only [hB]
        exact ⟨trivial, trivial⟩
      · obtain ⟨h1, h2⟩ := hp { { { st with dataset := some d } with udg := some U } with biadj := B } _ rfl
        simp only [hB]
        exact ⟨congrArg Except.ok h1, h2⟩
  · obtain ⟨h1, h2⟩ := hp { st with dataset := some d } _ rfl
    exact ⟨congrArg Except.ok h1, h2⟩

theorem xiFr_reorder {n : Nat} (y : Fin n → ℝ) (π : Equiv.Perm (Fin n)) (k : Fin n) : xiFr (fun i => y (π i)) k = xiFr y (π k) := by
  unfold xiFr
  rw [rankAvg_perm]

theorem xiGr_reorder {n : Nat} (y : Fin n → ℝ) (π : Equiv.Perm (Fin n)) (k : Fin n) : xiGr (fun i => y (π i)) k = xiGr y (π k) := by
  unfold xiGr
  rw [rankAvg_perm (fun i => -y i) π k]

theorem xiCu_reorder {n : Nat} (y : Fin n → ℝ) (π : Equiv.Perm (Fin n)) : xiCu (fun i => y (π i)) = xiCu y := by
  unfold xiCu
  simp only [xiGr_reorder]
  exact congrArg (· / (n : ℝ)) (Equiv.sum_comp π fun i => xiGr y i * (1 - xiGr y i))

theorem xiQfr_reorder {n : Nat} (y : Fin n → ℝ) (π : Equiv.Perm (Fin n)) : xiQfr (fun i => y (π i)) = xiQfr y := by
  funext i
  unfold xiQfr
  have h : xiFr (fun i => y (π i)) = xiFr y ∘ π := by funext k; exact xiFr_reorder y π k
  have := congrFun (Tuple.comp_perm_comp_sort_eq_comp_sort (f := xiFr y) (σ := π)) i
  rw [h]
  exact this

theorem xiVar_reorder {n : Nat} (y : Fin n → ℝ) (π : Equiv.Perm (Fin n)) : xiVar (fun i => y (π i)) = xiVar y := by
  unfold xiVar xiM
  rw [xiQfr_reorder, xiCu_reorder]

theorem xiStat_reorder {n : Nat} (srt : ArgSort ℝ) (x y : Fin n → ℝ) (hx : Function.Injective x) (π : Equiv.Perm (Fin n)) :
    xiStat srt (fun i => x (π i)) (fun i => y (π i)) = xiStat srt x y := by
  have hsort : ∀ k, π (srt.sort (rankAvg fun i => x (π i)) k) = srt.sort (rankAvg x) k := by
    have hmono : ∀ τ : Equiv.Perm (Fin n), (Monotone fun k => rankAvg x (τ k)) → StrictMono fun k => x (τ k) := by
      intro τ hτ a b hab
      by_contra hn
      have hne : x (τ b) ≠ x (τ a) := fun h => absurd (τ.injective (hx h)) (ne_of_gt hab)
      exact absurd (hτ hab.le) (not_le.mpr (rankAvg_lt (lt_of_le_of_ne (not_lt.mp hn) hne)))
    have h1 := hmono (srt.sort (rankAvg x)) (srt.sorted (rankAvg x))
    have h2 := hmono ((srt.sort (rankAvg fun i => x (π i))).trans π) (by
      have := srt.sorted (rankAvg fun i => x (π i))
      simp only [rankAvg_perm] at this
      exact this)
    have hr : (fun k => x (srt.sort (rankAvg x) k)) = fun k => x (((srt.sort (rankAvg fun i => x (π i))).trans π) k) := by
      refine StrictMono.range_inj h1 h2 |>.mp ?_
      rw [show (fun k => x (srt.sort (rankAvg x) k)) = x ∘ (srt.sort (rankAvg x)) from rfl,
        show (fun k => x (((srt.sort (rankAvg fun i => x (π i))).trans π) k)) = x ∘ ((srt.sort (rankAvg fun i => x (π i))).trans π) from rfl,
        Set.range_comp, Set.range_comp, (Equiv.range_eq_univ _), (Equiv.range_eq_univ _)]
    intro k
    exact (hx (congrFun hr k)).symm
  unfold xiStat xiA1
  rw [xiCu_reorder]
  simp only [xiFr_reorder, hsort]

/-- **C183** `xicorr` does not depend on the order of the observations if `x` has no ties: statistic and p-value are the same, for both settings of
`ties`. -/
theorem C183_xicorr_partial {n : Nat} (srt : ArgSort ℝ) (Φ : ℝ → ℝ) (x y : Fin n → ℝ) (hx : Function.Injective x)
    (π : Equiv.Perm (Fin n)) (ties : Bool) :
    xicorr srt Φ (List.ofFn fun i => x (π i)) (List.ofFn fun i => y (π i)) ties = xicorr srt Φ (List.ofFn x) (List.ofFn y) ties := by
  rcases Nat.eq_zero_or_pos n with rfl | hn
  · have : ∀ f g : Fin 0 → ℝ, f = g := fun f g => funext fun i => i.elim0
    rw [this (fun i => x (π i)) x, this (fun i => y (π i)) y]
  · rw [xicorr_ok srt Φ _ _ hn, xicorr_ok srt Φ _ _ hn, xiStat_reorder srt x y hx π, xiVar_reorder]

/-- **C183** `estimate_UDG` with method `"dcov_fast"`, for all data, and with method `"xicor"`, if no column has ties, returns the same graph and p-values
when the observations are reordered. -/
theorem C183_estimate_partial {N : Nat} (srt : ArgSort ℝ) (Φ : ℝ → ℝ) (lib : TestLib ℝ N) (hlib : lib.xicorTest = xicorTest srt Φ)
    (s : Fin N → Fin M → ℝ) (level : ℝ) (m : String)
    (hm : m = "dcov_fast" ∨ (m = "xicor" ∧ ∀ i, Function.Injective fun k => s k i)) (π : Equiv.Perm (Fin N)) :
    estimateUDG lib (fun k i => s (π k) i) (.name m) level = estimateUDG lib s (.name m) level := by
  rcases hm with rfl | ⟨rfl, hinj⟩
  · obtain ⟨u, hu, -, -, -, -, h⟩ := C47_dcov_fast lib s level
    rw [hu, h π]
  · have h : pairPvals lib.xicorTest (fun k i => s (π k) i) = pairPvals lib.xicorTest s := by
      rw [hlib]
      funext i j
      unfold pairPvals
      have e : ∀ a b : Fin M, xicorTest srt Φ (fun k => s (π k) a) (fun k => s (π k) b) = xicorTest srt Φ (fun k => s k a) (fun k => s k b) := by
        intro a b
        unfold xicorTest
        rw [C183_xicorr_partial srt Φ (fun k => s k a) (fun k => s k b) (hinj a) π true]
      simp only [e]
    unfold estimateUDG
    have e1 : ("xicor" = "dcov_fast") = False := by decide
    have e2 : ("xicor" = "g-test") = False := by decide
    have e3 : ("xicor" = "dcov_big") = False := by decide
    simp only [h, e1, e2, e3, if_false]

/-- **C183** (as stated; false) `xicorr` does not depend on the order of the observations. -/
def C183_statement : Prop :=
  ∀ (srt : ArgSort ℝ) (Φ : ℝ → ℝ) (n : Nat) (x y : Fin n → ℝ) (π : Equiv.Perm (Fin n)) (ties : Bool),
    xicorr srt Φ (List.ofFn fun i => x (π i)) (List.ofFn fun i => y (π i)) ties = xicorr srt Φ (List.ofFn x) (List.ofFn y) ties

/-- **C183** fails for every sorting algorithm: three observations, `x` is 0, 0, 1 and `y` is 0, 1, 2; exchanging the first two rows changes the statistic,
because the tie in `x` is broken by the position. -/
theorem C183_tie (srt : ArgSort ℝ) (Φ : ℝ → ℝ) (ties : Bool) :
    xicorr srt Φ (List.ofFn fun i => (![0, 0, 1] : Fin 3 → ℝ) (Equiv.swap 0 1 i)) (List.ofFn fun i => (![0, 1, 2] : Fin 3 → ℝ) (Equiv.swap 0 1 i)) ties ≠
      xicorr srt Φ (List.ofFn (![0, 0, 1] : Fin 3 → ℝ)) (List.ofFn (![0, 1, 2] : Fin 3 → ℝ)) ties := by
  rw [xicorr_ok srt Φ _ _ (by norm_num), xicorr_ok srt Φ _ _ (by norm_num)]
  intro h
  have h1 := congrArg Prod.fst (Except.ok.inj h)
  have hx : (fun i => (![0, 0, 1] : Fin 3 → ℝ) (Equiv.swap 0 1 i)) = ![0, 0, 1] := by
    funext i
    fin_cases i <;> simp [Equiv.swap_apply_def]
  have hfr : ∀ k, xiFr (![0, 1, 2] : Fin 3 → ℝ) k = (k.val + 1) / 3 := by
    intro k
    unfold xiFr
    rw [rankAvg_strictMono _ (by intro a b hab; fin_cases a <;> fin_cases b <;> simp_all)]
    norm_num
  have hcu : xiCu (![0, 1, 2] : Fin 3 → ℝ) = 4 / 27 := by
    have hg : ∀ k, xiGr (![0, 1, 2] : Fin 3 → ℝ) k = (3 - k.val) / 3 := by
      intro k
      unfold xiGr
      rw [rankAvg_strictAnti _ (by intro a b hab; fin_cases a <;> fin_cases b <;> simp_all)]
      norm_num
    unfold xiCu
    simp only [hg, Fin.sum_univ_three]
    norm_num
  have hr : rankAvg (![0, 0, 1] : Fin 3 → ℝ) 0 < rankAvg (![0, 0, 1] : Fin 3 → ℝ) 2 := rankAvg_lt (by simp)
  have hr' : rankAvg (![0, 0, 1] : Fin 3 → ℝ) 1 < rankAvg (![0, 0, 1] : Fin 3 → ℝ) 2 := rankAvg_lt (by simp)
  have hs := srt.sorted (rankAvg (![0, 0, 1] : Fin 3 → ℝ))
  unfold xiStat xiA1 at h1
  rw [hx, xiCu_reorder, hcu] at h1
  simp only [xiFr_reorder, hfr] at h1
  generalize srt.sort (rankAvg (![0, 0, 1] : Fin 3 → ℝ)) = τ at h1 hs
  have h12 := hs (show (1 : Fin 3) ≤ 2 by decide)
  have h02 := hs (show (0 : Fin 3) ≤ 2 by decide)
  simp only at h12 h02
  have hcase : (τ 0 = 0 ∧ τ 1 = 1 ∧ τ 2 = 2) ∨ (τ 0 = 1 ∧ τ 1 = 0 ∧ τ 2 = 2) := by
    have n01 : τ 0 ≠ τ 1 := fun h => absurd (τ.injective h) (by decide)
    have n02 : τ 0 ≠ τ 2 := fun h => absurd (τ.injective h) (by decide)
    have n12 : τ 1 ≠ τ 2 := fun h => absurd (τ.injective h) (by decide)
    have n2 : τ 2 = 2 := by
      by_contra hne
      have : τ 0 = 2 ∨ τ 1 = 2 := by
        revert n01 n02 n12 hne
        generalize τ 0 = a; generalize τ 1 = b; generalize τ 2 = c
        revert a b c
        decide
      have hlt : rankAvg (![0, 0, 1] : Fin 3 → ℝ) (τ 2) < rankAvg (![0, 0, 1] : Fin 3 → ℝ) 2 := by
        have : τ 2 = 0 ∨ τ 2 = 1 := by
          revert hne
          generalize τ 2 = c
          revert c
          decide
        rcases this with h | h <;> rw [h] <;> assumption
      rcases this with h | h
      · rw [h] at h02; exact absurd h02 (not_le.mpr hlt)
      · rw [h] at h12; exact absurd h12 (not_le.mpr hlt)
    revert n01 n02 n12 n2
    generalize τ 0 = a; generalize τ 1 = b; generalize τ 2 = c
    revert a b c
    decide
  unfold absDiffSum at h1
  simp only [sum_range_succ, sum_range_zero, Nat.reduceAdd] at h1
  rcases hcase with ⟨e0, e1, e2⟩ | ⟨e0, e1, e2⟩
  · simp [e0, e1, e2, Fl.div, Fl.oneSub, Equiv.swap_apply_def] at h1
    norm_num at h1
  · simp [e0, e1, e2, Fl.div, Fl.oneSub, Equiv.swap_apply_def] at h1
    norm_num at h1

theorem C183_false : ¬ C183_statement := fun h => by
  obtain ⟨srt⟩ : Nonempty (ArgSort ℝ) := ⟨⟨fun f => Tuple.sort f, fun f => Tuple.monotone_sort f⟩⟩
  exact C183_tie srt id true (h srt id 3 _ _ (Equiv.swap 0 1) true)

/-- the hypotheses of `C183_xicorr_partial` and `C183_estimate_partial` are met: two columns without ties, and an exchange that changes the data -/
theorem C183_example : Function.Injective (![2, 0, 1] : Fin 3 → ℝ) ∧
    (fun i => (![2, 0, 1] : Fin 3 → ℝ) (Equiv.swap 0 1 i)) ≠ ![2, 0, 1] ∧
    ∀ (srt : ArgSort ℝ) (Φ : ℝ → ℝ), xicorr srt Φ (List.ofFn fun i => (![2, 0, 1] : Fin 3 → ℝ) (Equiv.swap 0 1 i))
      (List.ofFn fun i => (![1, 1, 0] : Fin 3 → ℝ) (Equiv.swap 0 1 i)) true =
      xicorr srt Φ (List.ofFn (![2, 0, 1] : Fin 3 → ℝ)) (List.ofFn (![1, 1, 0] : Fin 3 → ℝ)) true := by
  have hi : Function.Injective (![2, 0, 1] : Fin 3 → ℝ) := by
    intro a b h
    fin_cases a <;> fin_cases b <;> simp_all
  refine ⟨hi, fun h => ?_, fun srt Φ => C183_xicorr_partial srt Φ _ _ hi _ true⟩
  have := congrFun h 0
  simp at this

end Medil

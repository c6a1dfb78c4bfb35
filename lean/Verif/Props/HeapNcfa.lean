import Verif.Model.HeapNcfa
import Verif.Props.Ncfa
/-
  Property theorem C232: `parameters.weights` of a fitted `NeuroCausalFactorAnalysis` shares its memory with the network.
-/
namespace Medil
variable {M : Nat} {G O : Type}

/-- a forward pass of a network on a batch -/
noncomputable def VaeModel.run {G : Type} (gen : TorchGen G) (m : VaeModel M) {N : Nat} (x : Fin N → Fin M → ℝ) (g : G) : VaeOut N M M :=
  (vaeForward gen m.numHidden m.weights m.training x g).1

/-- a process before any fit -/
def HNSession.Fresh (s : HNSession M G) : Prop := s.next = 0 ∧ s.vars = [] ∧ ∀ i, (s.objs i).vae = none ∧ (s.objs i).weights = none

/-- **C232** (as stated; false): after any history, an edit of an entry of `parameters.weights` does not change what the fitted network
computes -/
def C232_statement : Prop :=
  ∀ (G O : Type) (env : NcfaEnv G O) (M : Nat) (s : HNSession M G), s.Fresh → ∀ (cs : List (HNStep M)) (i : Nat) (a : Fin M) (o : Nat) (x : ℝ)
    (m m' : VaeModel M), (s.run env cs).vaeOf i = some m → ((s.run env cs).step env (.edit i a o x)).vaeOf i = some m' →
    ∀ (N : Nat) (b : Fin N → Fin M → ℝ) (g : G), m'.run env.gen b g = m.run env.gen b g

/-- what is true of every reachable process -/
structure HNSession.Inv (s : HNSession M G) : Prop where
  same : ∀ i, (s.objs i).weights = (s.objs i).vae
  bound : ∀ i r, (s.objs i).vae = some r → r < s.next
  vars : ∀ r ∈ s.vars, r < s.next
  apart : ∀ i j r, (s.objs i).vae = some r → (s.objs j).vae = some r → i = j

theorem HNSession.Fresh.inv {s : HNSession M G} (h : s.Fresh) : s.Inv := by
  obtain ⟨h1, h2, h3⟩ := h
  refine ⟨fun i => by rw [(h3 i).1, (h3 i).2], fun i r hr => ?_, fun r hr => ?_, fun i j r hr => ?_⟩
  · rw [(h3 i).1] at hr; cases hr
  · rw [h2] at hr; cases hr
  · rw [(h3 i).1] at hr; cases hr

/-- the two cases of `fit` -/
theorem HNSession.step_fit (env : NcfaEnv G O) (s : HNSession M G) (i : Nat) (d : Dataset M) (split : Option (List Int × List Int)) :
    (∃ m wd st, (ncfaFit env d split (s.objs i).base s.world).2.2.2 = .ok () ∧
      (ncfaFit env d split (s.objs i).base s.world).1.vae = some m ∧ s.step env (.fit i d split) =
      { s with net := Function.update s.net s.next m, next := s.next + 1, world := wd,
               objs := Function.update s.objs i { base := st, vae := some s.next, weights := some s.next } }) ∨
    ∃ wd st, (ncfaFit env d split (s.objs i).base s.world).2.2.2 ≠ .ok () ∧
      s.step env (.fit i d split) = { s with world := wd, objs := Function.update s.objs i { s.objs i with base := st } } := by
  simp only [HNSession.step]
  rcases ncfaFit_cases env d split (s.objs i).base s.world with ⟨e, _, g⟩ | ⟨t, v, _, _, g⟩ | ⟨t, v, _, _, _, _, r, g⟩ | ⟨t, v, _, _, _, r, h, _, _, g⟩
  · rw [g]; exact Or.inr ⟨_, _, by simp, rfl⟩
  · rw [g]; exact Or.inr ⟨_, _, by simp, rfl⟩
  · rw [g]; exact Or.inr ⟨_, _, by simp, rfl⟩
  · rw [g]; exact Or.inl ⟨_, _, _, rfl, rfl, rfl⟩

theorem HNSession.Inv.step {s : HNSession M G} (h : s.Inv) (env : NcfaEnv G O) (c : HNStep M) : (s.step env c).Inv := by
  cases c with
  | fit i d split =>
    rcases s.step_fit env i d split with ⟨m, wd, st, _, _, e⟩ | ⟨wd, st, _, e⟩ <;> rw [e]
    · constructor
      · intro j
        by_cases hj : j = i
        · subst hj; simp
        · simp [hj, h.same j]
      · intro j r hr
        by_cases hj : j = i
        · subst hj; simp at hr; simp [← hr]
        · simp only [Function.update_of_ne hj] at hr
          exact Nat.lt_succ_of_lt (h.bound j r hr)
      · intro r hr
        exact Nat.lt_succ_of_lt (h.vars r hr)
      · intro j k r hj hk
        by_cases h1 : j = i <;> by_cases h2 : k = i
        · rw [h1, h2]
        · subst h1
          simp only [Function.update_self, Option.some.injEq] at hj
          simp only [Function.update_of_ne h2] at hk
          have := h.bound k r hk
          omega
        · subst h2
          simp only [Function.update_self, Option.some.injEq] at hk
          simp only [Function.update_of_ne h1] at hj
          have := h.bound j r hj
          omega
        · simp only [Function.update_of_ne h1] at hj
          simp only [Function.update_of_ne h2] at hk
          exact h.apart j k r hj hk
    · have hv : ∀ j, (Function.update s.objs i { s.objs i with base := st } j).vae = (s.objs j).vae := by
        intro j; by_cases hj : j = i
        · subst hj; simp
        · simp [hj]
      have hw : ∀ j, (Function.update s.objs i { s.objs i with base := st } j).weights = (s.objs j).weights := by
        intro j; by_cases hj : j = i
        · subst hj; simp
        · simp [hj]
      exact ⟨fun j => by dsimp only; rw [hv, hw]; exact h.same j, fun j r hr => by dsimp only at hr ⊢; rw [hv] at hr; exact h.bound j r hr, h.vars,
        fun j k r hj hk => by dsimp only at hj hk; rw [hv] at hj hk; exact h.apart j k r hj hk⟩
  | edit i a o x =>
    simp only [HNSession.step]
    split
    · exact ⟨h.same, h.bound, h.vars, h.apart⟩
    · exact h
  | keep i =>
    simp only [HNSession.step]
    split
    · next r hr =>
      refine ⟨h.same, h.bound, fun r' hr' => ?_, h.apart⟩
      rcases List.mem_append.mp hr' with h1 | h1
      · exact h.vars r' h1
      · simp only [List.mem_singleton] at h1
        subst h1
        exact h.bound i _ (by rw [← h.same]; exact hr)
    · exact h
  | editKept v a o x =>
    simp only [HNSession.step]
    split
    · exact ⟨h.same, h.bound, h.vars, h.apart⟩
    · exact h

theorem HNSession.Inv.run {s : HNSession M G} (h : s.Inv) (env : NcfaEnv G O) (cs : List (HNStep M)) : (s.run env cs).Inv := by
  unfold HNSession.run
  induction cs generalizing s with
  | nil => exact h
  | cons c cs ih => exact ih (h.step env c)

/-- an edit changes one layer -/
theorem setEntry_run (gen : TorchGen G) (m : VaeModel M) (a : Fin M) (o : Nat) (x : ℝ) {N : Nat} (b : Fin N → Fin M → ℝ) (g : G) :
    ((m.setEntry a o x).run gen b g).recon = (m.run gen b g).recon ∧ ((m.setEntry a o x).run gen b g).mu = (m.run gen b g).mu ∧
    ((m.setEntry a o x).run gen b g).logvar = (m.run gen b g).logvar := by
  unfold VaeModel.setEntry
  split
  · refine ⟨?_, ?_, ?_⟩ <;> simp [VaeModel.run, vaeForward, encode, decode]
  · exact ⟨rfl, rfl, rfl⟩

/-- **C232** What is true, for every history: `parameters.weights` always shows the current (transposed) weights of the network's layer
`decoder.cov_linear_fulcon`.  An edit leaves the network's reconstructions, `mu` and `logvar` as they are, does not touch the networks and
weights of other objects, nor any file.  A fit does not touch the networks and weights of other objects, nor any array that was kept; edits of
arrays kept before a fit of an object that returns do not change the object's new network and weights.

Missing from the full claim: the fourth output of the network, the log-variances of the measurements (`C232_false`). -/
theorem C232_shared_memory_partial (env : NcfaEnv G O) (s0 : HNSession M G) (h0 : s0.Fresh) (cs : List (HNStep M)) :
    let s := s0.run env cs
    (∀ i, s.weightsOf i = (s.vaeOf i).map fun m => ⟨m.width, fun a o => (m.weights .covFulcon).weight o a⟩) ∧
    (∀ i a o x, (s.step env (.edit i a o x)).world = s.world ∧
      (∀ j, j ≠ i → (s.step env (.edit i a o x)).vaeOf j = s.vaeOf j ∧ (s.step env (.edit i a o x)).weightsOf j = s.weightsOf j) ∧
      ∀ m, s.vaeOf i = some m → ∃ m', (s.step env (.edit i a o x)).vaeOf i = some m' ∧ m'.training = m.training ∧
        ∀ (N : Nat) (b : Fin N → Fin M → ℝ) (g : G), (m'.run env.gen b g).recon = (m.run env.gen b g).recon ∧
          (m'.run env.gen b g).mu = (m.run env.gen b g).mu ∧ (m'.run env.gen b g).logvar = (m.run env.gen b g).logvar) ∧
    (∀ i d split,
      (∀ j, j ≠ i → (s.step env (.fit i d split)).vaeOf j = s.vaeOf j ∧ (s.step env (.fit i d split)).weightsOf j = s.weightsOf j) ∧
      (∀ v : Nat, ((s.step env (.fit i d split)).vars[v]?.map (s.step env (.fit i d split)).net) = s.vars[v]?.map s.net) ∧
      ((ncfaFit env d split (s.objs i).base s.world).2.2.2 = .ok () → ∀ v a o x,
        ((s.step env (.fit i d split)).step env (.editKept v a o x)).vaeOf i = (s.step env (.fit i d split)).vaeOf i ∧
        ((s.step env (.fit i d split)).step env (.editKept v a o x)).weightsOf i = (s.step env (.fit i d split)).weightsOf i)) := by
  intro s
  have inv : s.Inv := h0.inv.run env cs
  have hview : ∀ (s : HNSession M G), s.Inv → ∀ i, s.weightsOf i = (s.vaeOf i).map fun m => ⟨m.width, fun a o => (m.weights .covFulcon).weight o a⟩ := by
    intro s inv i
    unfold HNSession.weightsOf HNSession.vaeOf
    rw [inv.same, Option.map_map]
    rfl
  refine ⟨hview s inv, fun i a o x => ?_, fun i d split => ?_⟩
  · have inv' := inv.step env (.edit i a o x)
    have hv : ∀ j, j ≠ i → (s.step env (.edit i a o x)).vaeOf j = s.vaeOf j := by
      intro j hj
      simp only [HNSession.step]
      split
      · next r hr =>
        unfold HNSession.vaeOf HNSession.write
        dsimp only
        cases hv : (s.objs j).vae with
        | none => rfl
        | some r' =>
          have : r' ≠ r := by
            rintro rfl
            exact hj (inv.apart j i _ hv (by rw [← inv.same]; exact hr))
          simp [this]
      · rfl
    refine ⟨?_, fun j hj => ⟨hv j hj, ?_⟩, fun m hm => ?_⟩
    · simp only [HNSession.step]; split <;> rfl
    · rw [hview _ inv', hview _ inv, hv j hj]
    · unfold HNSession.vaeOf at hm
      obtain ⟨r, hr, rfl⟩ := Option.map_eq_some_iff.mp hm
      have hs : s.step env (.edit i a o x) = s.write r a o x := by
        simp only [HNSession.step]
        rw [inv.same, hr]
      refine ⟨(s.net r).setEntry a o x, ?_, ?_, fun N b g => setEntry_run _ _ _ _ _ _ _⟩
      · rw [hs]
        unfold HNSession.vaeOf HNSession.write
        dsimp only
        rw [hr]
        simp
      · unfold VaeModel.setEntry; split <;> rfl
  · have inv' := inv.step env (.fit i d split)
    have hv : ∀ j, j ≠ i → (s.step env (.fit i d split)).vaeOf j = s.vaeOf j := by
      intro j hj
      rcases s.step_fit env i d split with ⟨m, wd, st, _, _, e⟩ | ⟨wd, st, _, e⟩ <;> rw [e] <;> unfold HNSession.vaeOf <;> dsimp only <;>
        rw [Function.update_of_ne hj]
      cases hv : (s.objs j).vae with
      | none => rfl
      | some r => have := inv.bound j r hv; simp [(show r ≠ s.next by omega)]
    refine ⟨fun j hj => ⟨hv j hj, ?_⟩, fun v => ?_, fun hok v a o x => ?_⟩
    · rw [hview _ inv', hview _ inv, hv j hj]
    · rcases s.step_fit env i d split with ⟨m, wd, st, _, _, e⟩ | ⟨wd, st, _, e⟩ <;> rw [e]
      dsimp only
      cases hv : s.vars[v]? with
      | none => rfl
      | some r =>
        have := inv.vars r (List.mem_of_getElem? hv)
        simp [(show r ≠ s.next by omega)]
    · have hvv : ((s.step env (.fit i d split)).step env (.editKept v a o x)).vaeOf i = (s.step env (.fit i d split)).vaeOf i := by
        rcases s.step_fit env i d split with ⟨m, wd, st, _, _, e⟩ | ⟨wd, st, hne, e⟩
        · rw [e]
          simp only [HNSession.step]
          split
          · next r hr =>
            have := inv.vars r (List.mem_of_getElem? hr)
            unfold HNSession.vaeOf HNSession.write
            simp [(show s.next ≠ r by omega)]
          · rfl
        · exact absurd hok hne
      refine ⟨hvv, ?_⟩
      rw [hview _ (inv'.step env _), hview _ inv', hvv]

/-! ### the variances do change -/

/-- with one hidden unit per measurement and no zero weight on the way, the log-variance of a measurement changes with the
activation of its hidden unit -/
theorem decodeHead_ne (f f' : Layer M (M * 1)) (hidden : List (Layer (M * 1) (M * 1))) (output : Layer (M * 1) M) (z : Fin M → ℝ) (j : Fin M)
    (hh : ∀ l ∈ hidden, l.weight ⟨j.val, by omega⟩ ⟨j.val, by omega⟩ ≠ 0) (ho : output.weight j ⟨j.val, by omega⟩ ≠ 0)
    (hne : f.sparse noMask z ⟨j.val, by omega⟩ ≠ f'.sparse noMask z ⟨j.val, by omega⟩) :
    decodeHead f hidden output z j ≠ decodeHead f' hidden output z j := by
  have hsig : ∀ s t : ℝ, sigmoid s = sigmoid t → s = t := by
    intro s t h
    unfold sigmoid at h
    have h1 := Real.exp_pos (-s)
    have h2 := Real.exp_pos (-t)
    rw [div_eq_div_iff (by positivity) (by positivity)] at h
    have := Real.exp_injective (show Real.exp (-s) = Real.exp (-t) by linarith)
    linarith
  let jj : Fin (M * 1) := ⟨j.val, by omega⟩
  have hlay : ∀ (l : Layer (M * 1) (M * 1)) (h : Fin (M * 1) → ℝ), l.sparse (hiddenMask M 1) h jj = h jj * l.weight jj jj + l.bias jj := by
    intro l h
    unfold Layer.sparse linear hiddenMask
    rw [Finset.sum_eq_single jj]
    · simp
    · intro b _ hb
      have : jj.val ≠ b.val := fun h => hb (Fin.ext h.symm)
      simp [this]
    · intro h; exact absurd (Finset.mem_univ _) h
  have hout : ∀ h : Fin (M * 1) → ℝ, output.sparse (outputMask M 1) h j = h jj * output.weight j jj + output.bias j := by
    intro h
    unfold Layer.sparse linear outputMask
    rw [Finset.sum_eq_single jj]
    · simp [jj]
    · intro b _ hb
      have : j.val ≠ b.val := fun h => hb (Fin.ext h.symm)
      simp [this]
    · intro h; exact absurd (Finset.mem_univ _) h
  have hfold : ∀ (ls : List (Layer (M * 1) (M * 1))) (h h' : Fin (M * 1) → ℝ), (∀ l ∈ ls, l.weight jj jj ≠ 0) → h jj ≠ h' jj →
      ls.foldl (fun h l => fun k => sigmoid (l.sparse (hiddenMask M 1) h k)) h jj ≠
        ls.foldl (fun h l => fun k => sigmoid (l.sparse (hiddenMask M 1) h k)) h' jj := by
    intro ls
    induction ls with
    | nil => intro h h' _ hn; exact hn
    | cons l ls ih =>
      intro h h' hl hn
      apply ih _ _ fun l' hl' => hl l' (by simp [hl'])
      intro he
      have := hsig _ _ he
      rw [hlay, hlay] at this
      exact hn (mul_right_cancel₀ (hl l (by simp)) (by linarith))
  unfold decodeHead
  rw [hout, hout]
  intro he
  refine hfold hidden (fun k => sigmoid (f.sparse noMask z k)) (fun k => sigmoid (f'.sparse noMask z k)) hh
    (fun h => hne (hsig _ _ h)) (mul_right_cancel₀ ho (by linarith))

/-- an environment whose initial weights are 1 -/
def unitEnv : NcfaEnv Nat Unit :=
  { demoEnv with gen := { onesGen with init := fun _ _ _ _ g => (fun _ => ⟨fun _ _ => 1, fun _ => 1⟩, g + 1) } }

/-- a process with new objects that train for no epoch -/
noncomputable def unitSession : HNSession 1 Nat :=
  { net := fun _ => ⟨1, 0, fun _ => ⟨fun _ _ => 0, fun _ => 0⟩, true⟩, next := 0,
    objs := fun _ => { base := { hp := { numEpochs := 0 } } }, world := demoWorld }

theorem unitSession_fit : ∃ W : Weights 1 1 1, (W = fun _ => ⟨fun _ _ => 1, fun _ => 1⟩) ∧
    (unitSession.run unitEnv [.fit 0 demoData none]).vaeOf 0 = some ⟨1, 1, W, true⟩ := by
  refine ⟨_, rfl, ?_⟩
  have : (ncfaFit unitEnv demoData none (unitSession.objs 0).base unitSession.world).2.2.2 = .ok () := by
    rw [C67_outcome]; simp [unitSession]
  show (unitSession.step unitEnv (.fit 0 demoData none)).vaeOf 0 = _
  rcases unitSession.step_fit unitEnv 0 demoData none with ⟨m, wd, st, _, hm, e⟩ | ⟨wd, st, hne, e⟩
  · rw [e]
    unfold HNSession.vaeOf
    simp only [Function.update_self, Option.map_some]
    rw [← hm]
    rfl
  · exact absurd this hne

theorem C232_false : ¬ C232_statement := by
  intro h
  obtain ⟨W, rfl, hW⟩ := unitSession_fit
  have hfresh : unitSession.Fresh := ⟨rfl, rfl, fun _ => ⟨rfl, rfl⟩⟩
  have inv := hfresh.inv.run unitEnv [.fit 0 demoData none]
  obtain ⟨r, hr, hnet⟩ := Option.map_eq_some_iff.mp hW
  have hs : (unitSession.run unitEnv [.fit 0 demoData none]).step unitEnv (.edit 0 0 0 2) =
      (unitSession.run unitEnv [.fit 0 demoData none]).write r 0 0 2 := by
    simp only [HNSession.step]
    rw [inv.same, hr]
  have := h _ _ unitEnv 1 unitSession hfresh [.fit 0 demoData none] 0 0 0 2 _ _ hW
    (by rw [hs]; unfold HNSession.vaeOf HNSession.write; dsimp only; rw [hr]; simp; rfl) 1 (fun _ _ => 0) 0
  rw [hnet] at this
  have hl := congrFun (congrFun (congrArg VaeOut.logcov this) 0) 0
  unfold VaeModel.setEntry at hl
  rw [dif_pos (by norm_num)] at hl
  revert hl
  unfold VaeModel.run vaeForward
  dsimp only
  simp only [decode, Function.update_self]
  refine decodeHead_ne _ _ _ _ _ 0 ?_ ?_ ?_
  · intro l hl
    obtain ⟨i, _, rfl⟩ := List.mem_map.mp hl
    simp [Function.update]
  · simp [Function.update]
  · simp [Layer.sparse, linear, noMask, latentSample, encode, Layer.apply, relu, unitEnv, onesGen]
    have := Real.exp_pos ((1 + 1 + 1) * 2⁻¹)
    intro h
    linarith

/-- the hypotheses of `C232_shared_memory_partial` and an edit after a fit -/
example : unitSession.Fresh ∧ ∃ m, (unitSession.run unitEnv [.fit 0 demoData none]).vaeOf 0 = some m :=
  ⟨⟨rfl, rfl, fun _ => ⟨rfl, rfl⟩⟩, by obtain ⟨W, _, h⟩ := unitSession_fit; exact ⟨_, h⟩⟩

end Medil

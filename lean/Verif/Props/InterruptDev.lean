import Verif.Model.InterruptDev
import Verif.Props.Dev
/-
  Property theorems C191, C192: interrupted calls of `DevMedil.fit`.
-/
namespace Medil
open Matrix
variable {G : Type}

/-- a completed fit: what it stores besides the state of the generator -/
def DevState.stored (st : DevState G) (method : String) (e : DevEst) (b : Bool) : DevState G :=
  if method = "mle" then { st with est := some e, successMle := some b } else { st with est := some e, successLse := some b }

/-- the flag stored last -/
def lastAssign (method : String) (b : Bool) : DevAssign G := if method = "mle" then .successMle b else .successLse b

theorem devAssigns_cases (env : DevEnv G) (a : DevAttrs G) (st : DevState G) (h1 : a.onePureChild = st.onePureChild) (h2 : a.g = st.g)
    (h3 : a.initW = st.initW) (d : AnyData) (method : String) (lam mu : ℝ) :
    ∃ (pre : List G) (g : G), pre.length ≤ 2 ∧ pre.getLast?.getD a.g = g ∧
      ((devAssigns env a d method lam mu = pre.map .gen ∧ ∃ e, devFit env st d method lam mu = ({ st with g := g }, .error e)) ∨
       ∃ e b, devAssigns env a d method lam mu =
          pre.map .gen ++ [.wHat ⟨e.latents, e.meas, e.W⟩, .dHat ⟨e.meas, e.meas, e.D⟩, lastAssign method b] ∧
          devFit env st d method lam mu = (({ st with g := g } : DevState G).stored method e b, .ok ())) := by
  obtain ⟨opc, g0, iw, wh, dh, sm, sl⟩ := a
  obtain ⟨opc', g0', iw', est, sm', sl', wm, dm, wl, dl⟩ := st
  dsimp only at h1 h2 h3
  subst h1 h2 h3
  unfold devAssigns devFit
  by_cases hm : method = "mle"
  · rw [if_pos hm, if_pos hm]
    unfold mleAssigns fitMle mleStart
    cases iw with
    | none =>
      refine ⟨[(env.normal (devLatents opc d.cols * d.cols) g0).2, (env.uniform d.cols (env.normal (devLatents opc d.cols * d.cols) g0).2).2],
        (env.uniform d.cols (env.normal (devLatents opc d.cols * d.cols) g0).2).2, le_refl _, rfl, ?_⟩
      dsimp only [Option.isSome]
      cases hr : env.minimize (fun x : Fin (devLatents opc d.cols * d.cols + d.cols) → ℝ =>
          mleLoss env.nuc lam mu (Matrix.of d.data.cov) (devW x) (diagonal (devD x)))
          (devStart (env.normal (devLatents opc d.cols * d.cols) g0).1 (env.uniform d.cols (env.normal (devLatents opc d.cols * d.cols) g0).2).1) with
      | error e => exact Or.inl ⟨rfl, e, rfl⟩
      | ok r =>
        refine Or.inr ⟨⟨_, _, devW r.1, diagonal (devD r.1)⟩, r.2, ?_, ?_⟩
        · simp [lastAssign, hm]
        · simp [DevState.stored, hm]
    | some w =>
      dsimp only [Option.isSome]
      by_cases hs : devLatents opc d.cols * d.cols = w.rows * w.cols
      · refine ⟨[(env.uniform d.cols g0).2], (env.uniform d.cols g0).2, by simp, rfl, ?_⟩
        simp only [dif_pos hs]
        cases hr : env.minimize (fun x : Fin (devLatents opc d.cols * d.cols + d.cols) → ℝ =>
            mleLoss env.nuc lam mu (Matrix.of d.data.cov) (devW x) (diagonal (devD x)))
            (devStart (fun i => w.mat (finProdFinEquiv.symm (Fin.cast hs i)).1 (finProdFinEquiv.symm (Fin.cast hs i)).2) (env.uniform d.cols g0).1) with
        | error e => exact Or.inl ⟨rfl, e, rfl⟩
        | ok r =>
          refine Or.inr ⟨⟨_, _, devW r.1, diagonal (devD r.1)⟩, r.2, ?_, ?_⟩
          · simp [lastAssign, hm]
          · simp [DevState.stored, hm]
      · refine ⟨[], g0, by simp, rfl, Or.inl ?_⟩
        simp only [dif_neg hs]
        exact ⟨rfl, _, rfl⟩
  · rw [if_neg hm, if_neg hm]
    by_cases hl : method = "lse"
    · rw [if_pos hl, if_pos hl]
      unfold lseAssigns fitLse
      refine ⟨[(env.normal (devLatents opc d.cols * d.cols) g0).2, (env.normal d.cols (env.normal (devLatents opc d.cols * d.cols) g0).2).2],
        (env.normal d.cols (env.normal (devLatents opc d.cols * d.cols) g0).2).2, le_refl _, rfl, ?_⟩
      dsimp only
      cases hr : env.minimize (fun x : Fin (devLatents opc d.cols * d.cols + d.cols) → ℝ =>
          Except.ok (ε := PyErr) (Fl.fin (lseLoss env.nuc lam mu (Matrix.of d.data.cov) (devW x) (diagonal (devD x)))))
          (devStart (env.normal (devLatents opc d.cols * d.cols) g0).1 fun j => |(env.normal d.cols (env.normal (devLatents opc d.cols * d.cols) g0).2).1 j|) with
      | error e => exact Or.inl ⟨rfl, e, rfl⟩
      | ok r =>
        refine Or.inr ⟨⟨_, _, devW r.1, diagonal fun j => |devD r.1 j|⟩, r.2, ?_, ?_⟩
        · simp [lastAssign, hm]
        · simp [DevState.stored, hm]
    · rw [if_neg hl, if_neg hl]
      exact ⟨[], g0, by simp, rfl, Or.inl ⟨rfl, _, rfl⟩⟩

theorem foldl_gen (pre : List G) (a : DevAttrs G) : (pre.map DevAssign.gen).foldl DevAssign.apply a = { a with g := pre.getLast?.getD a.g } := by
  induction pre generalizing a with
  | nil => rfl
  | cons x l ih =>
    rw [List.map_cons, List.foldl_cons, ih]
    simp only [DevAssign.apply]
    cases l with
    | nil => rfl
    | cons y l =>
      rw [List.getLast?_cons_cons, List.getLast?_eq_some_getLast (List.cons_ne_nil y l)]
      rfl

theorem stored_attrs (st : DevState G) (method : String) (e : DevEst) (b : Bool) :
    (st.stored method e b).attrs = ([.wHat ⟨e.latents, e.meas, e.W⟩, .dHat ⟨e.meas, e.meas, e.D⟩, lastAssign method b] : List (DevAssign G)).foldl
      DevAssign.apply st.attrs := by
  unfold DevState.stored lastAssign
  split <;> rfl

/-- **C191** a call that is not interrupted: all changes together are those of `fit` -/
theorem C191_all_changes (env : DevEnv G) (st : DevState G) (d : AnyData) (method : String) (lam mu : ℝ) :
    devInterrupted env st.attrs d method lam mu (devAssigns env st.attrs d method lam mu).length = (devFit env st d method lam mu).1.attrs := by
  unfold devInterrupted
  rw [List.take_length]
  obtain ⟨pre, g, -, hg, ⟨h1, e, h2⟩ | ⟨e, b, h1, h2⟩⟩ := devAssigns_cases env st.attrs st rfl rfl rfl d method lam mu
  · rw [h1, h2, foldl_gen, hg]; rfl
  · rw [h1, h2, List.foldl_append, foldl_gen, hg, stored_attrs]; rfl

/-- **C191** (refuted) wherever `fit` is interrupted, `W_hat` and `D_hat` are both those from before the call or both those of the call -/
def C191_statement : Prop := ∀ (G : Type) (env : DevEnv G) (st : DevState G) (d : AnyData) (method : String) (lam mu : ℝ) (k : Nat),
  let s := devInterrupted env st.attrs d method lam mu k
  let before := st.attrs
  let after := (devFit env st d method lam mu).1.attrs
  (s.wHat = before.wHat ∧ s.dHat = before.dHat) ∨ (s.wHat = after.wHat ∧ s.dHat = after.dHat)

/-- **C191**, what is true: a number `p` of draws from the generator (at most two) comes first, then `W_hat`, `D_hat` and the flag of the method are stored,
in this order.  So there is one bad point, after `p + 1` changes. -/
theorem C191_partial (env : DevEnv G) (st : DevState G) (d : AnyData) (method : String) (lam mu : ℝ) : ∃ p ≤ 2, ∀ k,
    let s := devInterrupted env st.attrs d method lam mu k
    let before := st.attrs
    let after := (devFit env st d method lam mu).1.attrs
    s.onePureChild = before.onePureChild ∧ s.initW = before.initW ∧ (p ≤ k → s.g = after.g) ∧
    s.wHat = (if k < p + 1 then before.wHat else after.wHat) ∧
    s.dHat = (if k < p + 2 then before.dHat else after.dHat) ∧
    s.successMle = (if k < p + 3 then before.successMle else after.successMle) ∧
    s.successLse = (if k < p + 3 then before.successLse else after.successLse) := by
  obtain ⟨pre, g, hp, hg, hc⟩ := devAssigns_cases env st.attrs st rfl rfl rfl d method lam mu
  refine ⟨pre.length, hp, fun k => ?_⟩
  have key : ∀ post : List (DevAssign G), devAssigns env st.attrs d method lam mu = pre.map .gen ++ post →
      ∃ g', (pre.length ≤ k → g' = g) ∧
        devInterrupted env st.attrs d method lam mu k = (post.take (k - pre.length)).foldl DevAssign.apply { st.attrs with g := g' } := by
    intro post h
    refine ⟨(pre.take k).getLast?.getD st.attrs.g, fun hk => by rw [List.take_of_length_le hk, hg], ?_⟩
    unfold devInterrupted
    rw [h, List.take_append, List.foldl_append, List.length_map, ← List.map_take, foldl_gen]
  rcases hc with ⟨h1, e, h2⟩ | ⟨e, b, h1, h2⟩
  · obtain ⟨g', hg', hk⟩ := key [] (by rw [h1, List.append_nil])
    rw [List.take_nil] at hk
    dsimp only
    rw [hk, h2]
    refine ⟨rfl, rfl, fun h => hg' h, ?_, ?_, ?_, ?_⟩ <;> (split <;> rfl)
  · obtain ⟨g', hg', hk⟩ := key _ h1
    dsimp only
    rw [hk, h2, stored_attrs]
    obtain h | h | h | h : k - pre.length = 0 ∨ k - pre.length = 1 ∨ k - pre.length = 2 ∨ 3 ≤ k - pre.length := by omega
    · have h1 : k < pre.length + 1 := by omega
      have h2 : k < pre.length + 2 := by omega
      have h3 : k < pre.length + 3 := by omega
      simp only [h, if_pos h1, if_pos h2, if_pos h3]
      refine ⟨rfl, rfl, fun h => ?_, rfl, rfl, rfl, rfl⟩
      unfold lastAssign
      split <;> exact hg' h
    · have h1 : ¬ k < pre.length + 1 := by omega
      have h2 : k < pre.length + 2 := by omega
      have h3 : k < pre.length + 3 := by omega
      simp only [h, if_neg h1, if_pos h2, if_pos h3]
      unfold lastAssign
      split <;> exact ⟨rfl, rfl, fun h => hg' h, rfl, rfl, rfl, rfl⟩
    · have h1 : ¬ k < pre.length + 1 := by omega
      have h2 : ¬ k < pre.length + 2 := by omega
      have h3 : k < pre.length + 3 := by omega
      simp only [h, if_neg h1, if_neg h2, if_pos h3]
      unfold lastAssign
      split <;> exact ⟨rfl, rfl, fun h => hg' h, rfl, rfl, rfl, rfl⟩
    · have h1 : ¬ k < pre.length + 1 := by omega
      have h2 : ¬ k < pre.length + 2 := by omega
      have h3 : ¬ k < pre.length + 3 := by omega
      rw [List.take_of_length_le (by simpa using h)]
      simp only [if_neg h1, if_neg h2, if_neg h3]
      unfold lastAssign
      split <;> exact ⟨rfl, rfl, fun h => hg' h, rfl, rfl, rfl, rfl⟩

/-- a new object whose first fit is interrupted between the assignments of `W_hat` and `D_hat` has only one of them -/
theorem C191_false : ¬ C191_statement := by
  intro h
  have := h Unit idEnv { onePureChild := true, g := () } smallData "lse" 0 0 3
  rcases this with h | h
  · exact absurd h.1 (by intro h; cases h)
  · exact absurd h.2 (by intro h; cases h)

/-- **C192** a fit that is not interrupted, after any history of interrupted fits and assignments of `init_W`: if it returns then it stores what the same
call stores in a new object with the same generator state and `init_W`; if it raises then it keeps the estimate -/
theorem C192_completed_fit (env : DevEnv G) (a : DevAttrs G) (cs : List DevICall) (d : AnyData) (method : String) (lam mu : ℝ) :
    let left := runDInterrupted env a cs
    let new : DevState G := { onePureChild := a.onePureChild, g := left.g, initW := left.initW }
    let t := devInterrupted env left d method lam mu (devAssigns env left d method lam mu).length
    let r := devFit env new d method lam mu
    t.g = r.1.attrs.g ∧
    (r.2 = .ok () → t.wHat = r.1.attrs.wHat ∧ t.dHat = r.1.attrs.dHat ∧
      (method = "mle" → t.successMle = r.1.attrs.successMle) ∧ (method = "lse" → t.successLse = r.1.attrs.successLse) ∧
      ∃ e, r.1.est = some e) ∧
    ((∃ x, r.2 = .error x) → t.wHat = left.wHat ∧ t.dHat = left.dHat) := by
  dsimp only
  have hopc : ∀ (cs : List DevICall) (a : DevAttrs G), (runDInterrupted env a cs).onePureChild = a.onePureChild := by
    intro cs
    induction cs with
    | nil => intro a; rfl
    | cons c cs ih =>
      intro a
      refine (ih _).trans ?_
      cases c with
      | setInitW W => rfl
      | fit d method lam mu stop =>
        show (((devAssigns env a d method lam mu).take stop).foldl DevAssign.apply a).onePureChild = a.onePureChild
        generalize (devAssigns env a d method lam mu).take stop = l
        induction l generalizing a with
        | nil => rfl
        | cons x l ih2 =>
          rw [List.foldl_cons, ih2]
          cases x <;> rfl
  generalize hl : runDInterrupted env a cs = left
  have ho := hopc cs a
  rw [hl] at ho
  unfold devInterrupted
  rw [List.take_length]
  obtain ⟨pre, g, -, hg, ⟨h1, e, h2⟩ | ⟨e, b, h1, h2⟩⟩ :=
    devAssigns_cases env left { onePureChild := a.onePureChild, g := left.g, initW := left.initW } ho rfl rfl d method lam mu
  · rw [h1, h2, foldl_gen, hg]
    exact ⟨rfl, fun h => by (cases h), fun _ => ⟨rfl, rfl⟩⟩
  · rw [h1, h2, List.foldl_append, foldl_gen, hg, stored_attrs]
    unfold lastAssign DevState.stored
    refine ⟨?_, fun _ => ⟨?_, ?_, ?_, ?_, e, ?_⟩, fun h => ?_⟩
    · split <;> rfl
    · split <;> rfl
    · split <;> rfl
    · intro hm; rw [if_pos hm]; rfl
    · intro hm; rw [if_neg (by rw [hm]; decide)]; rfl
    · split <;> rfl
    · obtain ⟨x, hx⟩ := h; cases hx

/-- **C192** the `init_W` that a history leaves: the last one that was assigned, or the one from before -/
theorem C192_init_W_history (env : DevEnv G) (a : DevAttrs G) (cs : List DevICall) :
    ((∀ W, DevICall.setInitW W ∉ cs) → (runDInterrupted env a cs).initW = a.initW) ∧
    ∀ pre W post, cs = pre ++ .setInitW W :: post → (∀ W', DevICall.setInitW W' ∉ post) → (runDInterrupted env a cs).initW = some W := by
  have hfit : ∀ (a : DevAttrs G) d method lam mu stop, (devInterrupted env a d method lam mu stop).initW = a.initW := by
    intro a d method lam mu stop
    unfold devInterrupted
    generalize (devAssigns env a d method lam mu).take stop = l
    induction l generalizing a with
    | nil => rfl
    | cons x l ih => rw [List.foldl_cons, ih]; cases x <;> rfl
  have hkeep : ∀ (cs : List DevICall) (a : DevAttrs G), (∀ W, DevICall.setInitW W ∉ cs) → (runDInterrupted env a cs).initW = a.initW := by
    intro cs
    induction cs with
    | nil => intro a _; rfl
    | cons c cs ih =>
      intro a h
      refine (ih _ fun W hW => h W (List.mem_cons_of_mem _ hW)).trans ?_
      cases c with
      | setInitW W => exact absurd List.mem_cons_self (h W)
      | fit d method lam mu stop => exact hfit a d method lam mu stop
  refine ⟨hkeep cs a, ?_⟩
  rintro pre W post rfl hp
  unfold runDInterrupted
  rw [List.foldl_append, List.foldl_cons]
  exact hkeep post _ hp

/-- a new object whose first fit was interrupted at the bad point, and the fit after it -/
theorem C192_example :
    let left := runDInterrupted idEnv { onePureChild := true, g := () } [.fit smallData "lse" 0 0 3]
    let t := devInterrupted idEnv left smallData "lse" 0 0 (devAssigns idEnv left smallData "lse" 0 0).length
    left.wHat.isSome = true ∧ left.dHat = none ∧ t.wHat.isSome = true ∧ t.dHat.isSome = true ∧ t.successLse = some true :=
  ⟨rfl, rfl, rfl, rfl, rfl⟩

end Medil

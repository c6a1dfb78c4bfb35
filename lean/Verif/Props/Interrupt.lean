import Verif.Model.Interrupt
import Verif.Props.NcfaWorld
/-
  Property theorems C156, C157: interrupted calls of `NeuroCausalFactorAnalysis.fit`.
-/
namespace Medil
variable {M : Nat} {G O : Type}

theorem foldl_logs (f : String) (es : List LogEntry) (s : NCrash M) :
    (es.map (NEffect.log f)).foldl NEffect.apply s =
      { s with logs := fun f' => if f' = f then s.logs f' ++ es else s.logs f' } := by
  induction es generalizing s with
  | nil => simp
  | cons e es ih =>
    rw [List.map_cons, List.foldl_cons, ih]
    simp only [NEffect.apply]
    congr 1
    funext f'
    by_cases h : f' = f <;> simp [h]

/-- the effects of a call, by cases -/
theorem ncfaEffects_cases (env : NcfaEnv G O) (d : Dataset M) (split : Option (List Int × List Int)) (st : NState M)
    (wd : NWorld G) :
    (∃ e es torch np out, (ncfaFit env d split st wd).1 = { st with dataset := some d } ∧
      (ncfaFit env d split st wd).2.1 = ⟨torch, np, fun f => if f = st.path ++ "training.log" then wd.logs f ++ es else wd.logs f, wd.files, out⟩ ∧
      (ncfaFit env d split st wd).2.2.2 = .error e ∧
      ncfaEffects env d split st wd.torch = .setDataset d :: es.map (.log (st.path ++ "training.log"))) ∨
    (∃ es m h torch np out,
      (ncfaFit env d split st wd).1 = { st with dataset := some d, weights := some ⟨m.width, fun i o => (m.weights .covFulcon).weight o i⟩, vae := some m, loss := some h } ∧
      (ncfaFit env d split st wd).2.1 = (((NWorld.mk torch np (fun f => if f = st.path ++ "training.log" then wd.logs f ++ es else wd.logs f) wd.files out).save
            (pathJoin st.path "model_recon.pt") (.network m)).save
            (pathJoin st.path "loss_recon.pkl") (.arrays h.trainElbo h.validElbo)).save
            (pathJoin st.path "error_recon.pkl") (.arrays h.trainError h.validError) ∧
      (ncfaFit env d split st wd).2.2.2 = .ok () ∧
      ncfaEffects env d split st wd.torch = .setDataset d :: (es.map (.log (st.path ++ "training.log")) ++ saveEffects st m h)) := by
  unfold ncfaFit ncfaEffects
  dsimp only
  rcases hs : ncfaSplit env st.seed d split with e | ⟨t, v⟩
  · left
    exact ⟨e, [], wd.torch, wd.numpySeed, wd.stdout, rfl, by simp, rfl, rfl⟩
  · rcases h1 : dataLoader st.hp.batchSize t with e | tl
    · left
      refine ⟨e, [], wd.torch, wd.numpySeed, wd.stdout, ?_, ?_, ?_, ?_⟩ <;> simp [h1]
    · rcases h2 : dataLoader st.hp.batchSize v with e | vl
      · left
        refine ⟨e, [], wd.torch, wd.numpySeed, wd.stdout, ?_, ?_, ?_, ?_⟩ <;> simp [h1, h2]
      · simp only [h1, h2]
        rcases hr : trainVae env st.hp tl vl wd.torch with ⟨r, e | h⟩
        · left
          exact ⟨e, r.log, r.gen, some st.seed, _, rfl, rfl, rfl, by simp⟩
        · right
          exact ⟨r.log, ⟨st.hp.width, st.hp.numHidden, r.weights, r.training⟩, h, r.gen, some st.seed, _, rfl, rfl, rfl, rfl⟩

theorem recon_names (p : String) :
    pathJoin p "model_recon.pt" ≠ pathJoin p "loss_recon.pkl" ∧ pathJoin p "model_recon.pt" ≠ pathJoin p "error_recon.pkl" ∧
    pathJoin p "loss_recon.pkl" ≠ pathJoin p "error_recon.pkl" := by
  refine ⟨?_, ?_, ?_⟩ <;> · intro h; have := pathJoin_inj h; revert this; decide

/-- A call that is not interrupted has exactly the effects listed: the object, the logs and the files are those of the modelled `fit`. -/
theorem C156_all_effects (env : NcfaEnv G O) (d : Dataset M) (split : Option (List Int × List Int)) (st : NState M)
    (wd : NWorld G) :
    interrupted env d split (wd.toCrash st) wd.torch (ncfaEffects env d split st wd.torch).length =
      (ncfaFit env d split st wd).2.1.toCrash (ncfaFit env d split st wd).1 := by
  unfold interrupted
  have hobj : (wd.toCrash st).obj = st := rfl
  rw [hobj, List.take_length]
  obtain ⟨n1, n2, n3⟩ := recon_names st.path
  rcases ncfaEffects_cases env d split st wd with ⟨e, es, torch, np, out, h1, h2, h3, h4⟩ | ⟨es, m, h, torch, np, out, h1, h2, h3, h4⟩
  · rw [h4, h2, h1, List.foldl_cons, foldl_logs]
    rfl
  · rw [h4, h2, h1, List.foldl_cons, List.foldl_append, foldl_logs]
    simp only [saveEffects, List.foldl_cons, List.foldl_nil, NEffect.apply, NCrash.setFile, NWorld.toCrash, NWorld.save]
    congr 1
    funext f
    by_cases a : f = pathJoin st.path "error_recon.pkl"
    · simp [a]
    · by_cases b : f = pathJoin st.path "loss_recon.pkl"
      · simp [b, n3]
      · by_cases c : f = pathJoin st.path "model_recon.pt"
        · simp [c, n1, n2]
        · simp [a, b, c]

/-- **C156** (as stated; false): whenever `fit` is interrupted, if the three result files can be read they come from the same fit: all
three are as before the call, or all three are those of the call -/
def C156_statement : Prop :=
  ∀ (G O : Type) (env : NcfaEnv G O) (M : Nat) (d : Dataset M) (split : Option (List Int × List Int)) (st : NState M)
    (wd : NWorld G) (k : Nat),
    let s := interrupted env d split (wd.toCrash st) wd.torch k
    let before := wd.toCrash st
    let after := (ncfaFit env d split st wd).2.1.toCrash (ncfaFit env d split st wd).1
    (∀ n ∈ fileNames, ∃ c, s.files (pathJoin st.path n) = .whole c) →
    (∀ n ∈ fileNames, s.files (pathJoin st.path n) = before.files (pathJoin st.path n)) ∨
    (∀ n ∈ fileNames, s.files (pathJoin st.path n) = after.files (pathJoin st.path n))

/-- what an interrupted call leaves when `j` of the nine saving steps are done: a result file is as before, then incomplete, then the one of
the complete call, in the order model, loss, error; after the files the attributes `weights`, `vae`, `loss` are replaced, in this order -/
structure SavedUpTo (j : Nat) (before after s : NCrash M) (model loss error : String) : Prop where
  model_file : s.files model = if j = 0 then before.files model else if j = 1 then .incomplete else after.files model
  loss_file : s.files loss = if j < 3 then before.files loss else if j = 3 then .incomplete else after.files loss
  error_file : s.files error = if j < 5 then before.files error else if j = 5 then .incomplete else after.files error
  weights : s.obj.weights = if j < 7 then before.obj.weights else after.obj.weights
  vae : s.obj.vae = if j < 8 then before.obj.vae else after.obj.vae
  loss : s.obj.loss = if j < 9 then before.obj.loss else after.obj.loss

theorem take_save {es : List LogEntry} {x : NEffect M} {l : List (NEffect M)} (f : String) (k : Nat) :
    (x :: (es.map (NEffect.log f) ++ l)).take (k + 1) = x :: ((es.take k).map (NEffect.log f) ++ l.take (k - es.length)) := by
  rw [List.take_succ_cons, List.take_append, List.length_map, List.map_take]

/-- **C156**, what is true: wherever a call of `fit` is interrupted, there is a number `j` of saving steps that were done, in the fixed order
model, loss, error, attributes (`SavedUpTo`).  Hence at most one of the files is incomplete, a new attribute is only seen when all files
are complete and new.  Other files and the structure, hyperparameters, seed and path of the object are unchanged, the dataset
attribute is the old or the new one, and the log has only been extended, by a prefix of the lines of the complete call, by all of them once
saving has begun.

Missing from the full claim: files of two fits may be mixed, `C156_false`. -/
theorem C156_partial (env : NcfaEnv G O) (d : Dataset M) (split : Option (List Int × List Int)) (st : NState M)
    (wd : NWorld G) (k : Nat) :
    let s := interrupted env d split (wd.toCrash st) wd.torch k
    let before := wd.toCrash st
    let after := (ncfaFit env d split st wd).2.1.toCrash (ncfaFit env d split st wd).1
    let log := st.path ++ "training.log"
    ∃ j ≤ 9,
      SavedUpTo j before after s (pathJoin st.path "model_recon.pt") (pathJoin st.path "loss_recon.pkl") (pathJoin st.path "error_recon.pkl") ∧
      (∀ f, (∀ n ∈ fileNames, f ≠ pathJoin st.path n) → s.files f = before.files f) ∧
      s.obj = { st with
        dataset := if k = 0 then st.dataset else some d
        weights := s.obj.weights, vae := s.obj.vae, loss := s.obj.loss } ∧
      (∀ f, f ≠ log → s.logs f = wd.logs f) ∧
      wd.logs log <+: s.logs log ∧ s.logs log <+: after.logs log ∧ (0 < j → s.logs log = after.logs log) := by
  dsimp only
  obtain ⟨n1, n2, n3⟩ := recon_names st.path
  cases k with
  | zero =>
    refine ⟨0, by omega, ⟨rfl, rfl, rfl, rfl, rfl, rfl⟩, fun _ _ => rfl, rfl, fun _ _ => rfl, List.prefix_rfl, ?_, by omega⟩
    show wd.logs _ <+: (ncfaFit env d split st wd).2.1.logs _
    rcases ncfaEffects_cases env d split st wd with ⟨e, es, torch, np, out, h1, h2, h3, h4⟩ | ⟨es, m, h, torch, np, out, h1, h2, h3, h4⟩
    · rw [h2]; simp
    · rw [h2]; simp [NWorld.save]
  | succ k =>
    unfold interrupted
    have hobj : (wd.toCrash st).obj = st := rfl
    rw [hobj]
    rcases ncfaEffects_cases env d split st wd with ⟨e, es, torch, np, out, h1, h2, h3, h4⟩ | ⟨es, m, h, torch, np, out, h1, h2, h3, h4⟩
    · rw [h4, h1, h2, ← List.append_nil (es.map _), take_save, List.take_nil, List.append_nil, List.foldl_cons, foldl_logs]
      refine ⟨0, by omega, ⟨rfl, rfl, rfl, rfl, rfl, rfl⟩, fun _ _ => rfl, ?_, ?_, ?_, ?_, by omega⟩
      · simp [NEffect.apply, NWorld.toCrash]
      · intro f hf; simp [NEffect.apply, NWorld.toCrash, hf]
      · simp [NEffect.apply, NWorld.toCrash]
      · simp [NEffect.apply, NWorld.toCrash, List.take_prefix]
    · rw [h4, h1, h2, take_save, List.foldl_cons, List.foldl_append, foldl_logs]
      have hj : (saveEffects st m h).take (k - es.length) = (saveEffects st m h).take (min (k - es.length) 9) := by
        rw [List.take_eq_take_min, show (saveEffects st m h).length = 9 from rfl]
      have hl : 0 < min (k - es.length) 9 → es.take k = es := fun h => List.take_of_length_le (by omega)
      rw [hj]
      have hle : min (k - es.length) 9 ≤ 9 := min_le_right _ _
      generalize min (k - es.length) 9 = j at hl hle
      refine ⟨j, hle, ?_⟩
      have hf : ∀ f, (∀ n ∈ fileNames, f ≠ pathJoin st.path n) → f ≠ pathJoin st.path "model_recon.pt" ∧
          f ≠ pathJoin st.path "loss_recon.pkl" ∧ f ≠ pathJoin st.path "error_recon.pkl" := fun f h =>
        ⟨h _ (by simp [fileNames]), h _ (by simp [fileNames]), h _ (by simp [fileNames])⟩
      have hj10 : j = 0 ∨ j = 1 ∨ j = 2 ∨ j = 3 ∨ j = 4 ∨ j = 5 ∨ j = 6 ∨ j = 7 ∨ j = 8 ∨ j = 9 := by omega
      rcases hj10 with rfl | rfl | rfl | rfl | rfl | rfl | rfl | rfl | rfl | rfl
      · refine ⟨⟨rfl, rfl, rfl, rfl, rfl, rfl⟩, fun f hf => ?_, ?_, fun f hf => ?_, ?_, ?_, ?_⟩ <;>
          simp [saveEffects, NEffect.apply, NWorld.toCrash, NWorld.save, List.take_prefix, *]
      all_goals
        rw [hl (by omega)]
        refine ⟨⟨?_, ?_, ?_, ?_, ?_, ?_⟩, fun f hff => ?_, ?_, fun f hff => ?_, ?_, ?_, fun _ => ?_⟩
        iterate 6
          · simp [saveEffects, NEffect.apply, NCrash.setFile, NWorld.toCrash, NWorld.save, n1, n2, n3, n1.symm, n2.symm, n3.symm]
        · obtain ⟨q1, q2, q3⟩ := hf f hff
          simp [saveEffects, NEffect.apply, NCrash.setFile, NWorld.toCrash, q1, q2, q3]
        · simp [saveEffects, NEffect.apply, NCrash.setFile, NWorld.toCrash]
        · simp [saveEffects, NEffect.apply, NCrash.setFile, NWorld.toCrash, hff]
        iterate 3
          · simp [saveEffects, NEffect.apply, NCrash.setFile, NWorld.toCrash, NWorld.save]

/-- a world in which `demoNcfa` was fitted without any epoch: the histories are empty -/
noncomputable def olderFit : NWorld Nat :=
  (ncfaFit demoEnv demoData none { demoNcfa with hp := { demoNcfa.hp with numEpochs := 0 } } demoWorld).2.1

/-- the claim is false: a second fit with the same path, interrupted when the network has been saved, leaves the network of the second fit and the
histories of the first, all readable -/
theorem C156_false : ¬ C156_statement := by
  intro hc
  obtain ⟨n1, n2, n3⟩ := recon_names demoNcfa.path
  have hok0 : (ncfaFit demoEnv demoData none { demoNcfa with hp := { demoNcfa.hp with numEpochs := 0 } } demoWorld).2.2.2 = .ok () := by
    rw [C67_outcome]; simp [demoNcfa]
  have hok1 : (ncfaFit demoEnv demoData none demoNcfa olderFit).2.2.2 = .ok () := by
    rw [C67_outcome]; simp [demoNcfa]
  obtain ⟨W0, a0, -⟩ := C80_training _ _ _ _ _ hok0
  obtain ⟨W1, a1, -⟩ := C80_training _ _ _ _ _ hok1
  rcases ncfaEffects_cases demoEnv demoData none { demoNcfa with hp := { demoNcfa.hp with numEpochs := 0 } } demoWorld with
    ⟨e, es, torch, np, out, h1, h2, h3, h4⟩ | ⟨es0, m0, l0, torch0, np0, out0, g1, g2, g3, g4⟩
  · rw [hok0] at h3; cases h3
  rcases ncfaEffects_cases demoEnv demoData none demoNcfa olderFit with
    ⟨e, es, torch, np, out, h1, h2, h3, h4⟩ | ⟨es, m, h, torch, np, out, h1, h2, h3, h4⟩
  · rw [hok1] at h3; cases h3
  rw [g1] at a0
  rw [h1] at a1
  have t0 : m0.training = true := by rw [Option.some.inj a0]; simp
  have t1 : m.training = false := by rw [Option.some.inj a1]; simp [demoNcfa]
  have l0e : l0.trainElbo.length = 0 := by
    obtain ⟨hist, ps, b1, -, b2, -⟩ := C67_histories _ _ _ _ _ hok0
    rw [g1] at b1; rw [Option.some.inj b1, b2]
  have l1e : h.trainElbo.length = 2 := by
    obtain ⟨hist, ps, b1, -, b2, -⟩ := C67_histories _ _ _ _ _ hok1
    rw [h1] at b1; rw [Option.some.inj b1, b2]; rfl
  have fm : olderFit.files (pathJoin demoNcfa.path "model_recon.pt") = some (.network m0) := by
    unfold olderFit; rw [g2]; simp [NWorld.save, n1, n2]
  have fl : olderFit.files (pathJoin demoNcfa.path "loss_recon.pkl") = some (.arrays l0.trainElbo l0.validElbo) := by
    unfold olderFit; rw [g2]; simp [NWorld.save, n3]
  have fe : olderFit.files (pathJoin demoNcfa.path "error_recon.pkl") = some (.arrays l0.trainError l0.validError) := by
    unfold olderFit; rw [g2]; simp [NWorld.save]
  have key := hc _ _ demoEnv 1 demoData none demoNcfa olderFit (es.length + 2 + 1)
  dsimp only at key
  have hs : interrupted demoEnv demoData none (olderFit.toCrash demoNcfa) olderFit.torch (es.length + 2 + 1) =
      ((saveEffects demoNcfa m h).take 2).foldl NEffect.apply
        ((es.map (.log (demoNcfa.path ++ "training.log"))).foldl NEffect.apply (NEffect.apply (olderFit.toCrash demoNcfa) (.setDataset demoData))) := by
    unfold interrupted
    have hobj : (olderFit.toCrash demoNcfa).obj = demoNcfa := rfl
    rw [hobj, h4, take_save, List.foldl_cons, List.foldl_append]
    rw [List.take_of_length_le (by omega), show es.length + 2 - es.length = 2 by omega]
  rw [foldl_logs] at hs
  generalize interrupted demoEnv demoData none (olderFit.toCrash demoNcfa) olderFit.torch (es.length + 2 + 1) = S at hs key
  have sm : S.files (pathJoin demoNcfa.path "model_recon.pt") = .whole (.network m) := by
    rw [hs]; simp [saveEffects, NEffect.apply, NCrash.setFile]
  have sl : S.files (pathJoin demoNcfa.path "loss_recon.pkl") = .whole (.arrays l0.trainElbo l0.validElbo) := by
    rw [hs]; simp [saveEffects, NEffect.apply, NCrash.setFile, NWorld.toCrash, n1.symm, fl]
  have se : S.files (pathJoin demoNcfa.path "error_recon.pkl") = .whole (.arrays l0.trainError l0.validError) := by
    rw [hs]; simp [saveEffects, NEffect.apply, NCrash.setFile, NWorld.toCrash, n2.symm, fe]
  rcases key (by
    intro n hn
    simp only [fileNames, List.mem_cons, List.not_mem_nil, or_false] at hn
    rcases hn with rfl | rfl | rfl
    · exact ⟨_, sm⟩
    · exact ⟨_, sl⟩
    · exact ⟨_, se⟩) with key | key
  · have h5 := key "model_recon.pt" (by simp [fileNames])
    rw [sm] at h5
    simp only [NWorld.toCrash, fm, Option.elim_some] at h5
    have : m = m0 := by cases h5; rfl
    rw [this, t0] at t1
    cases t1
  · have h5 := key "loss_recon.pkl" (by simp [fileNames])
    rw [sl, h2] at h5
    simp only [NWorld.toCrash, NWorld.save, n3, if_true, if_false, Option.elim_some] at h5
    have : l0.trainElbo = h.trainElbo := by injection h5 with h5; injection h5
    rw [this, l1e] at l0e
    cases l0e

/-! ### C157: fitting again -/

/-- a call of `fit` that is interrupted after `steps` effects; `g` is the state of torch's generator -/
structure ICall (M : Nat) (G : Type) where
  data : Dataset M
  split : Option (List Int × List Int)
  g : G
  steps : Nat

/-- several interrupted calls on one object -/
noncomputable def runInterrupted (env : NcfaEnv G O) (s : NCrash M) (cs : List (ICall M G)) : NCrash M :=
  cs.foldl (fun s c => interrupted env c.data c.split s c.g c.steps) s

theorem apply_keeps (s : NCrash M) (e : NEffect M) :
    (e.apply s).obj.hp = s.obj.hp ∧ (e.apply s).obj.seed = s.obj.seed ∧ (e.apply s).obj.path = s.obj.path ∧
    (e.apply s).obj.biadj = s.obj.biadj ∧ (e.apply s).obj.udg = s.obj.udg ∧ (e.apply s).obj.verbose = s.obj.verbose := by
  cases e <;> exact ⟨rfl, rfl, rfl, rfl, rfl, rfl⟩

theorem foldl_keeps (es : List (NEffect M)) (s : NCrash M) :
    (es.foldl NEffect.apply s).obj.hp = s.obj.hp ∧ (es.foldl NEffect.apply s).obj.seed = s.obj.seed ∧
    (es.foldl NEffect.apply s).obj.path = s.obj.path ∧ (es.foldl NEffect.apply s).obj.biadj = s.obj.biadj ∧
    (es.foldl NEffect.apply s).obj.udg = s.obj.udg ∧ (es.foldl NEffect.apply s).obj.verbose = s.obj.verbose := by
  induction es generalizing s with
  | nil => exact ⟨rfl, rfl, rfl, rfl, rfl, rfl⟩
  | cons e es ih =>
    obtain ⟨a1, a2, a3, a4, a5, a6⟩ := ih (e.apply s)
    obtain ⟨b1, b2, b3, b4, b5, b6⟩ := apply_keeps s e
    rw [List.foldl_cons]
    exact ⟨a1.trans b1, a2.trans b2, a3.trans b3, a4.trans b4, a5.trans b5, a6.trans b6⟩

theorem runInterrupted_keeps (env : NcfaEnv G O) (cs : List (ICall M G)) (s : NCrash M) :
    ∃ a b c d, (runInterrupted env s cs).obj = { s.obj with dataset := a, weights := b, vae := c, loss := d } := by
  induction cs generalizing s with
  | nil => exact ⟨_, _, _, _, rfl⟩
  | cons c cs ih =>
    obtain ⟨x, y, z, u, h⟩ := ih (interrupted env c.data c.split s c.g c.steps)
    obtain ⟨b1, b2, b3, b4, b5, b6⟩ := foldl_keeps ((ncfaEffects env c.data c.split s.obj c.g).take c.steps) s
    refine ⟨x, y, z, u, ?_⟩
    unfold runInterrupted at h ⊢
    rw [List.foldl_cons, h]
    unfold interrupted
    dsimp only
    rw [b1, b2, b3, b4, b5, b6]

/-- **C157** However many calls of `fit` on an object were interrupted, wherever, and whatever they left in the files: a call that then completes
gives the object the very attributes, and writes the very result files, it would have with the same generator state if the interrupted calls had
never been made; the files are complete and agree with the attributes. -/
theorem C157_recovers (env : NcfaEnv G O) (s : NCrash M) (cs : List (ICall M G)) (d : Dataset M)
    (split : Option (List Int × List Int)) (wd : NWorld G) (hok : (ncfaFit env d split s.obj wd).2.2.2 = .ok ()) :
    let left := runInterrupted env s cs
    let t := interrupted env d split left wd.torch (ncfaEffects env d split left.obj wd.torch).length
    t.obj = (ncfaFit env d split s.obj wd).1 ∧
    ∃ m h, t.obj.vae = some m ∧ t.obj.loss = some h ∧ t.obj.weights = some ⟨m.width, fun i o => (m.weights .covFulcon).weight o i⟩ ∧
      t.files (pathJoin s.obj.path "model_recon.pt") = .whole (.network m) ∧
      t.files (pathJoin s.obj.path "loss_recon.pkl") = .whole (.arrays h.trainElbo h.validElbo) ∧
      t.files (pathJoin s.obj.path "error_recon.pkl") = .whole (.arrays h.trainError h.validError) := by
  dsimp only
  obtain ⟨x, y, z, u, hl⟩ := runInterrupted_keeps env cs s
  generalize runInterrupted env s cs = left at hl
  have he : ncfaEffects env d split left.obj wd.torch = ncfaEffects env d split s.obj wd.torch := by rw [hl]; rfl
  obtain ⟨n1, n2, n3⟩ := recon_names s.obj.path
  unfold interrupted
  rw [List.take_length, he]
  rcases ncfaEffects_cases env d split s.obj wd with ⟨e, es, torch, np, out, h1, h2, h3, h4⟩ | ⟨es, m, h, torch, np, out, h1, h2, h3, h4⟩
  · rw [hok] at h3; cases h3
  · rw [h4, h1, List.foldl_cons, List.foldl_append, foldl_logs]
    refine ⟨?_, m, h, rfl, rfl, rfl, ?_, ?_, ?_⟩
    · simp only [saveEffects, List.foldl_cons, List.foldl_nil, NEffect.apply, NCrash.setFile]
      rw [hl]
    · simp [saveEffects, NEffect.apply, NCrash.setFile, n1, n2]
    · simp [saveEffects, NEffect.apply, NCrash.setFile, n3]
    · simp [saveEffects, NEffect.apply, NCrash.setFile]

/-- not vacuous: two interrupted calls, one of them in the middle of saving, then a complete one -/
example : (interrupted demoEnv demoData none (runInterrupted demoEnv (demoWorld.toCrash demoNcfa) [⟨demoData, none, 0, 3⟩, ⟨demoData, none, 1, 9⟩]) 0
    (ncfaEffects demoEnv demoData none (runInterrupted demoEnv (demoWorld.toCrash demoNcfa) [⟨demoData, none, 0, 3⟩, ⟨demoData, none, 1, 9⟩]).obj 0).length).obj =
    (ncfaFit demoEnv demoData none demoNcfa { demoWorld with torch := 0 }).1 :=
  (C157_recovers demoEnv (demoWorld.toCrash demoNcfa) [⟨demoData, none, 0, 3⟩, ⟨demoData, none, 1, 9⟩] demoData none { demoWorld with torch := 0 }
    (by rw [C67_outcome]; simp [demoNcfa, NWorld.toCrash])).1

end Medil

import Verif.Props.NcfaData
/-
  Attributes and files after histories of `fit` calls on `NeuroCausalFactorAnalysis` objects (C87-C91).
-/
namespace Medil
open Finset
variable {M w : Nat} {G O : Type}

/-! ### C87: the structure -/

theorem ncfaFit_keeps (env : NcfaEnv G O) (d : Dataset M) (split : Option (List Int × List Int)) (st : NState M)
    (wd : NWorld G) :
    (ncfaFit env d split st wd).1.biadj = st.biadj ∧ (ncfaFit env d split st wd).1.udg = st.udg ∧
    (ncfaFit env d split st wd).1.hp = st.hp ∧ (ncfaFit env d split st wd).1.seed = st.seed ∧
    (ncfaFit env d split st wd).1.path = st.path ∧ (ncfaFit env d split st wd).1.verbose = st.verbose ∧
    (ncfaFit env d split st wd).1.dataset = some d := by
  rcases ncfaFit_cases env d split st wd with ⟨e, _, h⟩ | ⟨t, v, _, _, h⟩ | ⟨t, v, _, _, _, _, r, h⟩ |
    ⟨t, v, _, _, _, r, hist, _, _, h⟩ <;> rw [h] <;> exact ⟨rfl, rfl, rfl, rfl, rfl, rfl, rfl⟩

/-- **C87**.  No history of `fit` calls changes the structure (`biadj`, `udg`), the hyperparameters, the seed, the path
or the verbosity of any object: `fit` neither learns a structure nor uses one.  Its `dataset` is the one of its last
call, even if that call failed. -/
theorem C87_structure_kept (env : NcfaEnv G O) (s : NSession M G) (cs : List (NCall M)) (i : Nat) :
    let st := (s.run env cs).obj i
    st.biadj = (s.obj i).biadj ∧ st.udg = (s.obj i).udg ∧ st.hp = (s.obj i).hp ∧ st.seed = (s.obj i).seed ∧
    st.path = (s.obj i).path ∧ st.verbose = (s.obj i).verbose ∧
    st.dataset = (((cs.filter fun c => c.on = i).getLast?).map (·.data)).or (s.obj i).dataset := by
  dsimp only
  induction cs using List.reverseRecOn with
  | nil => exact ⟨rfl, rfl, rfl, rfl, rfl, rfl, by simp [NSession.run]⟩
  | append_singleton cs c ih =>
    have hrun : s.run env (cs ++ [c]) = (s.run env cs).step env c := by simp [NSession.run]
    rw [hrun]
    by_cases hi : i = c.on
    · subst hi
      obtain ⟨a1, a2, a3, a4, a5, a6, a7⟩ := ih
      obtain ⟨b1, b2, b3, b4, b5, b6, b7⟩ := ncfaFit_keeps env c.data c.split ((s.run env cs).obj c.on) (s.run env cs).world
      simp only [NSession.step, if_true]
      rw [b1, b2, b3, b4, b5, b6, b7]
      refine ⟨a1, a2, a3, a4, a5, a6, ?_⟩
      rw [List.filter_append]
      simp
    · have : ¬ c.on = i := fun h => hi h.symm
      simp only [NSession.step, if_neg hi]
      rw [List.filter_append]
      simpa [this] using ih

/-- sampling is not implemented, whatever was fitted before -/
theorem C87_sample_not_implemented (st : NState M) (size : Nat) : ncfaSample st size = .error .notImplemented := rfl

/-! ### C89: failing calls -/

/-- **C89**.  A call of `fit` that raises an exception changes, of the object, only the attribute `dataset`: network,
weights and losses of an earlier fit stay; and of the file system only the end of its own log. -/
theorem C89_failing_fit (env : NcfaEnv G O) (d : Dataset M) (split : Option (List Int × List Int)) (st : NState M)
    (wd : NWorld G) (h : (ncfaFit env d split st wd).2.2.2 ≠ .ok ()) :
    (ncfaFit env d split st wd).1 = { st with dataset := some d } ∧
    (ncfaFit env d split st wd).2.1.files = wd.files ∧
    ∃ es, (ncfaFit env d split st wd).2.1.logs (st.path ++ "training.log") = wd.logs (st.path ++ "training.log") ++ es ∧
      ∀ f, f ≠ st.path ++ "training.log" → (ncfaFit env d split st wd).2.1.logs f = wd.logs f := by
  rcases ncfaFit_cases env d split st wd with ⟨e, _, h1⟩ | ⟨t, v, _, _, h1⟩ | ⟨t, v, _, _, _, _, r, h1⟩ |
    ⟨t, v, _, _, _, r, hist, _, _, h1⟩
  · rw [h1]; exact ⟨rfl, rfl, [], by simp, fun _ _ => rfl⟩
  · rw [h1]; exact ⟨rfl, rfl, [], by simp, fun _ _ => rfl⟩
  · rw [h1]
    refine ⟨rfl, rfl, r.log, ?_, ?_⟩
    · simp [NWorld.addLog]
    · intro f hf; simp [NWorld.addLog, hf]
  · rw [h1] at h; exact absurd rfl h

/-- **C209**.  Whatever way a call of `fit` ends, there are lines `es` that were added to its log; a verbose object
prints exactly these lines, and one that is not verbose prints nothing. -/
theorem C209_printed_lines (env : NcfaEnv G O) (d : Dataset M) (split : Option (List Int × List Int)) (st : NState M)
    (wd : NWorld G) :
    ∃ es, (ncfaFit env d split st wd).2.1.logs (st.path ++ "training.log") = wd.logs (st.path ++ "training.log") ++ es ∧
      (∀ f, f ≠ st.path ++ "training.log" → (ncfaFit env d split st wd).2.1.logs f = wd.logs f) ∧
      (st.verbose = true → (ncfaFit env d split st wd).2.1.stdout = wd.stdout ++ es) ∧
      (st.verbose = false → (ncfaFit env d split st wd).2.1.stdout = wd.stdout) ∧
      ((ncfaFit env d split st wd).2.2.2 = .ok () → es ≠ []) := by
  rcases ncfaFit_cases env d split st wd with ⟨e, _, h1⟩ | ⟨t, v, _, _, h1⟩ | ⟨t, v, _, _, _, _, r, h1⟩ |
    ⟨t, v, _, _, _, r, hist, _, hok, h1⟩
  · rw [h1]; exact ⟨[], by simp, fun _ _ => rfl, fun _ => by simp, fun _ => rfl, fun h => by cases h⟩
  · rw [h1]; exact ⟨[], by simp, fun _ _ => rfl, fun _ => by simp, fun _ => rfl, fun h => by cases h⟩
  · rw [h1]
    refine ⟨r.log, ?_, ?_, ?_, ?_, fun h => by cases h⟩
    · simp [NWorld.addLog]
    · intro f hf; simp [NWorld.addLog, hf]
    · intro hv; simp [NWorld.addLog, hv]
    · intro hv; simp [NWorld.addLog, hv]
  · rw [h1]
    refine ⟨r.log, ?_, ?_, ?_, ?_, ?_⟩
    · simp [NWorld.addLog, NWorld.save]
    · intro f hf; simp [NWorld.addLog, NWorld.save, hf]
    · intro hv; simp [NWorld.addLog, NWorld.save, hv]
    · intro hv; simp [NWorld.addLog, NWorld.save, hv]
    · intro _ h; rw [hok.log] at h; cases h

/-- not vacuous: an index outside the dataset -/
example : (ncfaFit demoEnv demoData (some ([0], [3])) demoNcfa demoWorld).2.2.2 = .error .indexError := by
  rw [C67_outcome]
  have : ¬ SplitIn demoData ([0], [3]) := by
    intro h
    have := (h 3 (by simp)).2
    simp [demoData] at this
  simp [this]

/-! ### C88: files and attributes belong together -/

theorem append_left_cancel_str {a b c : String} (h : a ++ b = a ++ c) : b = c := by
  have := congrArg String.toList h
  rw [String.toList_append, String.toList_append, List.append_cancel_left_eq] at this
  exact String.toList_inj.mp this

theorem pathJoin_inj {p n n' : String} (h : pathJoin p n = pathJoin p n') : n = n' := by
  unfold pathJoin at h
  split at h
  · exact append_left_cancel_str h
  · exact append_left_cancel_str h

/-- the saved files and the attributes of an object agree: `model_recon.pt` is the network, `loss_recon.pkl` and
`error_recon.pkl` are the histories, and `parameters.weights` are the transposed weights of the first layer of the
covariance half of the decoder -/
def Agree (st : NState M) (wd : NWorld G) : Prop :=
  ∀ m, st.vae = some m →
    wd.files (pathJoin st.path "model_recon.pt") = some (.network m) ∧
    st.weights = some ⟨m.width, fun i o => (m.weights .covFulcon).weight o i⟩ ∧
    ∃ h, st.loss = some h ∧
      wd.files (pathJoin st.path "loss_recon.pkl") = some (.arrays h.trainElbo h.validElbo) ∧
      wd.files (pathJoin st.path "error_recon.pkl") = some (.arrays h.trainError h.validError)

theorem agree_fit (env : NcfaEnv G O) (d : Dataset M) (split : Option (List Int × List Int)) (st : NState M)
    (wd : NWorld G) (h : Agree st wd) : Agree (ncfaFit env d split st wd).1 (ncfaFit env d split st wd).2.1 := by
  rcases ncfaFit_cases env d split st wd with ⟨e, _, h1⟩ | ⟨t, v, _, _, h1⟩ | ⟨t, v, _, _, _, _, r, h1⟩ |
    ⟨t, v, _, _, _, r, hist, _, _, h1⟩
  · rw [h1]; exact h
  · rw [h1]; exact h
  · rw [h1]; exact h
  · rw [h1]
    intro m hm
    cases hm
    have n1 : pathJoin st.path "model_recon.pt" ≠ pathJoin st.path "loss_recon.pkl" := fun h => by
      have := pathJoin_inj h; revert this; decide
    have n2 : pathJoin st.path "model_recon.pt" ≠ pathJoin st.path "error_recon.pkl" := fun h => by
      have := pathJoin_inj h; revert this; decide
    have n3 : pathJoin st.path "loss_recon.pkl" ≠ pathJoin st.path "error_recon.pkl" := fun h => by
      have := pathJoin_inj h; revert this; decide
    refine ⟨?_, rfl, hist, rfl, ?_, ?_⟩
    · simp [NWorld.save, n1, n2]
    · simp [NWorld.save, n3]
    · simp [NWorld.save]

/-- the files that a call of `fit` may write -/
def fileNames : List String := ["model_recon.pt", "loss_recon.pkl", "error_recon.pkl"]

theorem ncfaFit_files (env : NcfaEnv G O) (d : Dataset M) (split : Option (List Int × List Int)) (st : NState M)
    (wd : NWorld G) (f : String) (hf : ∀ n ∈ fileNames, f ≠ pathJoin st.path n) :
    (ncfaFit env d split st wd).2.1.files f = wd.files f := by
  rcases ncfaFit_cases env d split st wd with ⟨e, _, h1⟩ | ⟨t, v, _, _, h1⟩ | ⟨t, v, _, _, _, _, r, h1⟩ |
    ⟨t, v, _, _, _, r, hist, _, _, h1⟩
  · rw [h1]
  · rw [h1]
  · rw [h1]; rfl
  · rw [h1]
    have a := hf "model_recon.pt" (by simp [fileNames])
    have b := hf "loss_recon.pkl" (by simp [fileNames])
    have c := hf "error_recon.pkl" (by simp [fileNames])
    simp [NWorld.save, NWorld.addLog, a, b, c]

/-- **C91** (as stated; false): whatever is done with other objects, the files saved for an object hold its network and
its histories -/
def C91_statement : Prop :=
  ∀ (G O : Type) (env : NcfaEnv G O) (M : Nat) (s : NSession M G) (cs : List (NCall M)) (i : Nat),
    Agree (s.obj i) s.world → Agree ((s.run env cs).obj i) (s.run env cs).world

/-- **C88** and **C91**, what is true: after any history of calls, successful or not, the files saved for an object agree
with its attributes, provided that no *other* object on which `fit` was called writes to the same files. -/
theorem C91_partial (env : NcfaEnv G O) (s : NSession M G) (cs : List (NCall M)) (i : Nat)
    (h : Agree (s.obj i) s.world)
    (hother : ∀ c ∈ cs, c.on ≠ i → ∀ n ∈ fileNames, ∀ n' ∈ fileNames,
      pathJoin (s.obj i).path n ≠ pathJoin (s.obj c.on).path n') :
    Agree ((s.run env cs).obj i) (s.run env cs).world := by
  induction cs using List.reverseRecOn with
  | nil => exact h
  | append_singleton cs c ih =>
    have ih := ih fun c hc => hother c (List.mem_append_left _ hc)
    have hrun : s.run env (cs ++ [c]) = (s.run env cs).step env c := by simp [NSession.run]
    rw [hrun]
    by_cases hi : i = c.on
    · subst hi
      simp only [NSession.step, if_true]
      exact agree_fit env c.data c.split _ _ ih
    · simp only [NSession.step, if_neg hi]
      have hp := fun j => (C87_structure_kept env s cs j).2.2.2.2.1
      have hf : ∀ n ∈ fileNames, (ncfaFit env c.data c.split ((s.run env cs).obj c.on) (s.run env cs).world).2.1.files
          (pathJoin ((s.run env cs).obj i).path n) = (s.run env cs).world.files (pathJoin ((s.run env cs).obj i).path n) := by
        intro n hn
        apply ncfaFit_files
        intro n' hn'
        rw [hp i, hp c.on]
        exact hother c (by simp) (fun h => hi h.symm) n hn n' hn'
      intro m hm
      obtain ⟨a1, a2, hist, a3, a4, a5⟩ := ih m hm
      refine ⟨?_, a2, hist, a3, ?_, ?_⟩
      · rw [hf _ (by simp [fileNames])]; exact a1
      · rw [hf _ (by simp [fileNames])]; exact a4
      · rw [hf _ (by simp [fileNames])]; exact a5

/-- **C88**.  In particular for a process in which only one object is fitted, starting with a new object. -/
theorem C88_files_agree (env : NcfaEnv G O) (s : NSession M G) (cs : List (NCall M)) (i : Nat)
    (hnew : (s.obj i).vae = none) (hcs : ∀ c ∈ cs, c.on = i) :
    Agree ((s.run env cs).obj i) (s.run env cs).world :=
  C91_partial env s cs i (fun m hm => by rw [hnew] at hm; cases hm) fun c hc hne => absurd (hcs c hc) hne

/-- two new objects with the default path; object 1 has no hidden layer -/
noncomputable def twoObjects : NSession 1 Nat :=
  ⟨fun i => if i = 0 then demoNcfa else { demoNcfa with hp := { demoNcfa.hp with numHidden := 0 } }, demoWorld⟩

/-- the claim is false: both objects use the default path, and the second call overwrites the files of the first -/
theorem C91_false : ¬ C91_statement := by
  intro h
  have h1 := h _ _ demoEnv 1 twoObjects [⟨0, demoData, none⟩, ⟨1, demoData, none⟩] 0
    (fun m hm => by cases hm)
  simp only [NSession.run, List.foldl_cons, List.foldl_nil] at h1
  have s1 : (twoObjects.step demoEnv ⟨0, demoData, none⟩).obj 1 =
      { demoNcfa with hp := { demoNcfa.hp with numHidden := 0 } } := rfl
  set A := twoObjects.step demoEnv ⟨0, demoData, none⟩ with hA
  have o1 : (ncfaFit demoEnv demoData none demoNcfa demoWorld).2.2.2 = .ok () := demo_ok
  have o2 : (ncfaFit demoEnv demoData none (A.obj 1) A.world).2.2.2 = .ok () := by
    rw [C67_outcome, s1]; simp [demoNcfa]
  obtain ⟨W, a1, _⟩ := C80_training demoEnv demoData none demoNcfa demoWorld o1
  obtain ⟨W', b1, _⟩ := C80_training demoEnv demoData none (A.obj 1) A.world o2
  have c1 : ((A.step demoEnv ⟨1, demoData, none⟩).obj 0).vae =
      some ⟨demoNcfa.hp.width, demoNcfa.hp.numHidden, W, decide (demoNcfa.hp.numEpochs = 0)⟩ := a1
  obtain ⟨d1, _⟩ := h1 _ c1
  have c2 : ((A.step demoEnv ⟨1, demoData, none⟩).obj 1).vae =
      some ⟨(A.obj 1).hp.width, (A.obj 1).hp.numHidden, W', decide ((A.obj 1).hp.numEpochs = 0)⟩ := b1
  have ag : Agree ((A.step demoEnv ⟨1, demoData, none⟩).obj 1) (A.step demoEnv ⟨1, demoData, none⟩).world :=
    agree_fit demoEnv demoData none (A.obj 1) A.world (fun m hm => by cases hm)
  obtain ⟨d2, _⟩ := ag _ c2
  have hp : ((A.step demoEnv ⟨1, demoData, none⟩).obj 1).path = ((A.step demoEnv ⟨1, demoData, none⟩).obj 0).path := by
    have e0 := (C87_structure_kept demoEnv twoObjects [⟨0, demoData, none⟩, ⟨1, demoData, none⟩] 0).2.2.2.2.1
    have e1 := (C87_structure_kept demoEnv twoObjects [⟨0, demoData, none⟩, ⟨1, demoData, none⟩] 1).2.2.2.2.1
    simp only [NSession.run, List.foldl_cons, List.foldl_nil] at e0 e1
    rw [← hA] at e0 e1
    rw [e0, e1]; rfl
  rw [hp, d1] at d2
  have := Option.some.inj d2
  have hnum : ∀ (m m' : VaeModel 1), Saved.network m = Saved.network m' → m.numHidden = m'.numHidden := by
    intro m m' h
    cases h; rfl
  have := hnum _ _ this
  dsimp only at this
  have hA1 : (A.obj 1).hp.numHidden = 0 := by rw [s1]
  rw [hA1] at this
  simp [demoNcfa] at this

/-! ### C90: where the files are -/

/-- `f` is the name of a file in the directory `path` -/
def InDirectory (path f : String) : Prop :=
  ∃ name : String, '/' ∉ name.toList ∧ (f = path ++ "/" ++ name ∨ (path = "" ∨ path.endsWith "/" = true) ∧ f = path ++ name)

/-- **C90** (as stated; false): `fit` only changes files in the directory `path` -/
def C90_statement : Prop :=
  ∀ (G O : Type) (env : NcfaEnv G O) (M : Nat) (d : Dataset M) (split : Option (List Int × List Int)) (st : NState M)
    (wd : NWorld G) (f : String), ¬ InDirectory st.path f →
    (ncfaFit env d split st wd).2.1.files f = wd.files f ∧ (ncfaFit env d split st wd).2.1.logs f = wd.logs f

theorem inDirectory_join (path name : String) (h : '/' ∉ name.toList) : InDirectory path (pathJoin path name) := by
  unfold pathJoin
  split
  · rename_i hp
    exact ⟨name, h, .inr ⟨hp, rfl⟩⟩
  · exact ⟨name, h, .inl rfl⟩

theorem ncfaFit_logs (env : NcfaEnv G O) (d : Dataset M) (split : Option (List Int × List Int)) (st : NState M)
    (wd : NWorld G) (f : String) (hf : f ≠ st.path ++ "training.log") :
    (ncfaFit env d split st wd).2.1.logs f = wd.logs f := by
  rcases ncfaFit_cases env d split st wd with ⟨e, _, h1⟩ | ⟨t, v, _, _, h1⟩ | ⟨t, v, _, _, _, _, r, h1⟩ |
    ⟨t, v, _, _, _, r, hist, _, _, h1⟩ <;> rw [h1] <;> simp [NWorld.save, NWorld.addLog, hf]

/-- **C90**, what is true instead: the three result files are in the directory; the log is the file whose name is `path`
followed by `training.log`, which is in the directory if the path is empty or ends with a slash.  So the claim holds
for such paths (the default is one). -/
theorem C90_partial (env : NcfaEnv G O) (d : Dataset M) (split : Option (List Int × List Int)) (st : NState M)
    (wd : NWorld G) (f : String) :
    (¬ InDirectory st.path f → (ncfaFit env d split st wd).2.1.files f = wd.files f) ∧
    (f ≠ st.path ++ "training.log" → (ncfaFit env d split st wd).2.1.logs f = wd.logs f) ∧
    (st.path = "" ∨ st.path.endsWith "/" = true → ¬ InDirectory st.path f →
      (ncfaFit env d split st wd).2.1.logs f = wd.logs f) := by
  refine ⟨?_, ncfaFit_logs env d split st wd f, ?_⟩
  · intro hf
    apply ncfaFit_files
    intro n hn h
    apply hf
    rw [h]
    apply inDirectory_join
    simp only [fileNames, List.mem_cons, List.not_mem_nil, or_false] at hn
    rcases hn with rfl | rfl | rfl <;> decide
  · intro hp hf
    apply ncfaFit_logs
    rintro rfl
    exact hf ⟨"training.log", by decide, .inr ⟨hp, rfl⟩⟩

/-- the claim is false for a path without slash at the end: with `path="out"` the log is `outtraining.log`, outside the
directory -/
theorem C90_false : ¬ C90_statement := by
  intro h
  let st : NState 1 := { demoNcfa with path := "out" }
  have hok : (ncfaFit demoEnv demoData none st demoWorld).2.2.2 = .ok () := by
    rw [C67_outcome]; simp [st, demoNcfa]
  have hn : ¬ InDirectory "out" "outtraining.log" := by
    rintro ⟨name, _, h | ⟨h | h, _⟩⟩
    · have := congrArg String.toList h
      rw [String.toList_append, String.toList_append] at this
      have h3 := congrArg (fun l : List Char => l[3]?) this
      simp at h3
    · exact absurd h (by decide)
    · revert h; decide +kernel
  have h1 := (h _ _ demoEnv 1 demoData none st demoWorld "outtraining.log" hn).2
  obtain ⟨_, _, _, _, _, _, _, _, _, _, _, es, h2, h3, _⟩ := C67_histories demoEnv demoData none st demoWorld hok
  have he : st.path ++ "training.log" = "outtraining.log" := by decide
  rw [he, h1] at h2
  have : es = [] := by
    have := congrArg List.length h2
    rw [List.length_append] at this
    exact List.length_eq_zero_iff.mp (by omega)
  rw [this] at h3
  simp only [List.length_nil] at h3
  omega

end Medil

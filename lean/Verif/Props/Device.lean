import Verif.Model.Device
import Verif.Props.Ncfa
/-
  Property theorem C231: `NeuroCausalFactorAnalysis.fit` on a machine with a GPU.
-/
namespace Medil
variable {M w : Nat} {G O : Type}

/-- **C231** (as stated; false): `fit` returns on a machine with a GPU if it does on one without -/
def C231_statement : Prop :=
  ∀ (G O : Type) (env : NcfaEnv G O) (M : Nat) (d : Dataset M) (split : Option (List Int × List Int)) (st : NState M) (wd : NWorld G),
    (ncfaFitOn env .cpu d split st wd).2.2.2 = .ok () → (ncfaFitOn env .cuda d split st wd).2.2.2 = .ok ()

theorem placement_cpu (H : Nat) (p : ParamId) : placement H .cpu p = ⟨.cpu, false⟩ := by
  unfold placement; split <;> rfl

theorem sparse_cpu (H : Nat) (l : LayerId) : sparseDev (placement H .cpu) l ⟨.cpu, false⟩ = .ok ⟨.cpu, false⟩ := by
  unfold sparseDev; rw [placement_cpu, placement_cpu]; rfl

theorem linear_cpu (H : Nat) (l : LayerId) : linearDev (placement H .cpu) l ⟨.cpu, false⟩ = .ok ⟨.cpu, false⟩ := by
  unfold linearDev; rw [placement_cpu, placement_cpu]; rfl

theorem hidden_cpu (H : Nat) (ls : List LayerId) : hiddenDev (placement H .cpu) ls ⟨.cpu, false⟩ = .ok ⟨.cpu, false⟩ := by
  induction ls with
  | nil => rfl
  | cons l ls ih => unfold hiddenDev; rw [sparse_cpu]; exact ih

/-- on the CPU a forward pass does not fail -/
theorem forward_cpu (H : Nat) : forwardDev H (placement H .cpu) ⟨.cpu, false⟩ = .ok ⟨.cpu, false⟩ := by
  have hw : DTensor.with ⟨.cpu, false⟩ ⟨.cpu, false⟩ = .ok ⟨.cpu, false⟩ := rfl
  unfold forwardDev
  simp only [linear_cpu, sparse_cpu, hidden_cpu, hw, bind, Except.bind]

/-- on a GPU every forward pass fails: the mask of the first decoder layer is on the CPU -/
theorem forward_cuda (H : Nat) : forwardDev H (placement H .cuda) ⟨.cuda, false⟩ = .error .exception := by
  have hp : ∀ l ∈ [LayerId.enc1, .enc2, .fcMu, .fcLogvar, .meanFulcon],
      placement H .cuda (.weight l) = ⟨.cuda, false⟩ ∧ placement H .cuda (.bias l) = ⟨.cuda, false⟩ := by
    intro l hl
    unfold placement
    rw [parameters_vae]
    simp only [List.mem_cons, List.not_mem_nil, or_false] at hl
    rcases hl with rfl | rfl | rfl | rfl | rfl <;> constructor <;> simp
  have hw : DTensor.with ⟨.cuda, false⟩ ⟨.cuda, false⟩ = .ok ⟨.cuda, false⟩ := rfl
  have hm : DTensor.with ⟨.cuda, false⟩ maskTensor = .error .exception := rfl
  have hl : ∀ l ∈ [LayerId.enc1, .enc2, .fcMu, .fcLogvar], linearDev (placement H .cuda) l ⟨.cuda, false⟩ = .ok ⟨.cuda, false⟩ := by
    intro l hl
    have := hp l (by simp only [List.mem_cons, List.not_mem_nil, or_false] at hl ⊢; tauto)
    unfold linearDev; rw [this.1, this.2]; rfl
  have hs : sparseDev (placement H .cuda) .meanFulcon ⟨.cuda, false⟩ = .error .exception := by
    unfold sparseDev; rw [(hp _ (by simp)).1]; rfl
  unfold forwardDev
  simp only [hl .enc1 (by simp), hl .enc2 (by simp), hl .fcMu (by simp), hl .fcLogvar (by simp), hs, hw, bind, Except.bind]

theorem batchesOn_cpu {S : Type} (H : Nat) (body : S → List (Row M) → S) (s : S) (l : List (List (Row M))) :
    batchesOn H .cpu body s l = (l.foldl body s, .ok ()) := by
  induction l generalizing s with
  | nil => rfl
  | cons b bs ih => simp only [batchesOn, forward_cpu, List.foldl_cons, ih]

theorem batchesOn_cuda {S : Type} (H : Nat) (body : S → List (Row M) → S) (s : S) (l : List (List (Row M))) :
    batchesOn H .cuda body s l = (s, if l = [] then .ok () else .error .exception) := by
  cases l with
  | nil => rfl
  | cons b bs => simp [batchesOn, forward_cuda]

theorem validVaeOn_cpu (env : NcfaEnv G O) (hp : Hyper) (epoch : Nat) (vl : List (List (Row M))) (s : TrainState M w G O) :
    validVaeOn env hp .cpu epoch vl s = validVae env hp epoch vl s := by
  unfold validVaeOn validVae
  simp only [batchesOn_cpu]

theorem trainEpochsOn_cpu (env : NcfaEnv G O) (hp : Hyper) (ps : List ParamId) (tl vl : List (List (Row M))) (es : List Nat)
    (s : TrainState M w G O) (h : Histories) : trainEpochsOn env hp .cpu ps tl vl es s h = trainEpochs env hp ps tl vl es s h := by
  induction es generalizing s h with
  | nil => rfl
  | cons e es ih =>
    have he : trainEpochOn env hp .cpu ps tl vl e s h = trainEpoch env hp ps tl vl e s h := by
      unfold trainEpochOn trainEpoch
      simp only [batchesOn_cpu, validVaeOn_cpu]
      rfl
    unfold trainEpochsOn trainEpochs
    rw [he]
    generalize trainEpoch env hp ps tl vl e s h = r
    obtain ⟨r1, r2⟩ := r
    cases r2 with
    | error err => rfl
    | ok h => exact ih _ _

/-- **C231** What is true: without a GPU the device of tensors never matters, `fit` is `ncfaFit`.

Missing from the full claim: machines with a GPU, where `fit` never returns (`C231_gpu`, `C231_false`). -/
theorem C231_cpu_partial (env : NcfaEnv G O) (d : Dataset M) (split : Option (List Int × List Int)) (st : NState M) (wd : NWorld G) :
    ncfaFitOn env .cpu d split st wd = ncfaFit env d split st wd := by
  have ht : ∀ (hp : Hyper) tl vl g, trainVaeOn (M := M) env hp .cpu tl vl g = trainVae env hp tl vl g := by
    intro hp tl vl g
    unfold trainVaeOn trainVae
    exact trainEpochsOn_cpu _ _ _ _ _ _ _ _
  unfold ncfaFitOn ncfaFit
  simp only [ht, placement_cpu, reduceCtorEq, if_false]
  rfl

/-- on a GPU the first epoch ends with an exception, before anything but its first log entry happens -/
theorem trainEpoch_cuda (env : NcfaEnv G O) (hp : Hyper) (ps : List ParamId) (tl vl : List (List (Row M))) (e : Nat)
    (s : TrainState M w G O) (h : Histories) : ∃ err, (trainEpochOn env hp .cuda ps tl vl e s h).2 = .error err ∧
      (tl ≠ [] → trainEpochOn env hp .cuda ps tl vl e s h = ({ s with log := s.log ++ [.trainingOn e] }, .error .exception)) := by
  unfold trainEpochOn
  simp only [batchesOn_cuda]
  by_cases ht : tl = []
  · refine ⟨.zeroDivision, ?_, fun h => absurd ht h⟩
    rw [if_pos ht]
    rfl
  · rw [if_neg ht]
    exact ⟨.exception, rfl, fun _ => rfl⟩

/-- **C231** With a GPU `fit` never returns: it raises an exception and changes only the attribute `dataset`.  If it would have returned
without a GPU, the exception is `RuntimeError` in the first forward pass, no file is written and the log gets two entries; with
`num_epochs = 0` it is `TypeError`, after the three files have been written. -/
theorem C231_gpu (env : NcfaEnv G O) (d : Dataset M) (split : Option (List Int × List Int)) (st : NState M) (wd : NWorld G) :
    (∃ e, (ncfaFitOn env .cuda d split st wd).2.2.2 = .error e) ∧
    (ncfaFitOn env .cuda d split st wd).1 = { st with dataset := some d } ∧
    ((ncfaFit env d split st wd).2.2.2 = .ok () →
      (st.hp.numEpochs ≠ 0 →
        (ncfaFitOn env .cuda d split st wd).2.2.2 = .error .exception ∧
        (ncfaFitOn env .cuda d split st wd).2.1.files = wd.files ∧
        ∃ n, (ncfaFitOn env .cuda d split st wd).2.1.logs (st.path ++ "training.log") =
          wd.logs (st.path ++ "training.log") ++ [.numParams n, .trainingOn 0]) ∧
      (st.hp.numEpochs = 0 →
        (ncfaFitOn env .cuda d split st wd).2.2.2 = .error .typeError ∧
        (ncfaFitOn env .cuda d split st wd).2.1.files = (ncfaFit env d split st wd).2.1.files)) := by
  unfold ncfaFitOn ncfaFit
  dsimp only
  cases hs : ncfaSplit env st.seed d split with
  | error e => exact ⟨⟨e, rfl⟩, rfl, fun h => by cases h⟩
  | ok tv =>
    obtain ⟨train, valid⟩ := tv
    dsimp only
    cases hb1 : dataLoader st.hp.batchSize train with
    | error e => exact ⟨⟨e, rfl⟩, rfl, fun h => by cases h⟩
    | ok tl =>
      cases hb2 : dataLoader st.hp.batchSize valid with
      | error e => exact ⟨⟨e, rfl⟩, rfl, fun h => by cases h⟩
      | ok vl =>
        dsimp only
        have hcov : (placement st.hp.numHidden .cuda (.weight .covFulcon)).dev = .cuda := by
          unfold placement; rw [parameters_vae]; simp
        by_cases h0 : st.hp.numEpochs = 0
        · have h1 : (trainVaeOn env st.hp .cuda tl vl wd.torch) = trainVae env st.hp tl vl wd.torch := by
            unfold trainVaeOn trainVae; rw [h0]; rfl
          rw [h1]
          have h2 : (trainVae env st.hp tl vl wd.torch).2 = .ok {} := by unfold trainVae; rw [h0]; rfl
          simp only [h2, hcov, if_true]
          exact ⟨⟨_, rfl⟩, trivial, fun _ => ⟨fun h => absurd h0 h, fun _ => ⟨trivial, trivial⟩⟩⟩
        · obtain ⟨n, hn⟩ := Nat.exists_eq_succ_of_ne_zero h0
          obtain ⟨err, he1, he2⟩ := trainEpoch_cuda env st.hp (vaeObj st.hp.numHidden).parameters tl vl 0
            { weights := (env.gen.init M M st.hp.numHidden st.hp.width wd.torch).1, training := true,
              gen := (env.gen.init M M st.hp.numHidden st.hp.width wd.torch).2, opt := env.optInit,
              log := [.numParams (numParams M st.hp.width (vaeObj st.hp.numHidden).parameters)], passes := [] } {}
          have h1 : (trainVaeOn env st.hp .cuda tl vl wd.torch) =
              trainEpochOn env st.hp .cuda (vaeObj st.hp.numHidden).parameters tl vl 0
            { weights := (env.gen.init M M st.hp.numHidden st.hp.width wd.torch).1, training := true,
              gen := (env.gen.init M M st.hp.numHidden st.hp.width wd.torch).2, opt := env.optInit,
              log := [.numParams (numParams M st.hp.width (vaeObj st.hp.numHidden).parameters)], passes := [] } {} := by
            unfold trainVaeOn
            rw [hn, List.range_succ_eq_map]
            dsimp only
            unfold trainEpochsOn
            generalize trainEpochOn env st.hp .cuda _ tl vl 0 _ _ = r at he1
            obtain ⟨r1, r2⟩ := r
            dsimp only at he1
            rw [he1]
          rw [h1, he1]
          refine ⟨⟨err, rfl⟩, rfl, fun hok => ⟨fun _ => ?_, fun h => absurd h h0⟩⟩
          have ht : tl ≠ [] := by
            rintro rfl
            have hz : (trainVae env st.hp [] vl wd.torch).2 = .error .zeroDivision := by
              unfold trainVae
              rw [hn, List.range_succ_eq_map]
              rfl
            rw [hz] at hok
            cases hok
          rw [he2 ht] at he1 ⊢
          cases he1
          exact ⟨rfl, rfl, _, if_pos rfl⟩

theorem C231_false : ¬ C231_statement := by
  intro h
  obtain ⟨e, he⟩ := (C231_gpu demoEnv demoData none demoNcfa demoWorld).1
  have := h _ _ demoEnv 1 demoData none demoNcfa demoWorld (by rw [C231_cpu_partial]; exact demo_ok)
  rw [he] at this
  cases this

/-- the demonstration of C81: returns without a GPU, with one `RuntimeError` in the first forward pass -/
example : (ncfaFitOn demoEnv .cpu demoData none demoNcfa demoWorld).2.2.2 = .ok () ∧
    (ncfaFitOn demoEnv .cuda demoData none demoNcfa demoWorld).2.2.2 = .error .exception :=
  ⟨by rw [C231_cpu_partial]; exact demo_ok, ((C231_gpu _ _ _ _ _).2.2 demo_ok).1 (by decide) |>.1⟩

end Medil

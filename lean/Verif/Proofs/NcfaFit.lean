import Verif.Proofs.Ncfa
/-
  `NeuroCausalFactorAnalysis.fit` as a whole.
-/
namespace Medil
open Finset
variable {M w : Nat} {G O : Type}

theorem passesOf_flatMap (n : Nat) (T V : Nat → List (Pass M w))
    (hT : ∀ e < n, ∀ p ∈ T e, p.epoch = e ∧ p.isTrain = true)
    (hV : ∀ e < n, ∀ p ∈ V e, p.epoch = e ∧ p.isTrain = false) (e : Nat) (he : e < n) :
    passesOf ((List.range n).flatMap fun e => T e ++ V e) e true = T e ∧
    passesOf ((List.range n).flatMap fun e => T e ++ V e) e false = V e := by
  have gen : ∀ (es : List Nat), es.Nodup → (∀ e ∈ es, e < n) → ∀ b,
      passesOf (es.flatMap fun e => T e ++ V e) e b = if e ∈ es then (if b then T e else V e) else [] := by
    intro es
    induction es with
    | nil => intro _ _ b; simp [passesOf]
    | cons a es ih =>
      intro hn hl b
      rw [List.nodup_cons] at hn
      have ih' := ih hn.2 (fun e he => hl e (List.mem_cons_of_mem _ he)) b
      have ha := hl a List.mem_cons_self
      simp only [passesOf, List.flatMap_cons, List.filter_append] at ih' ⊢
      rw [ih']
      have fT : ∀ (l : List (Pass M w)) (c : Bool), (∀ p ∈ l, p.epoch = a ∧ p.isTrain = c) →
          l.filter (fun p => decide (p.epoch = e ∧ p.isTrain = b)) = if a = e ∧ c = b then l else [] := by
        intro l c hl
        split
        · rename_i h
          apply List.filter_eq_self.mpr
          intro p hp
          obtain ⟨h1, h2⟩ := hl p hp
          simp [h1, h2, h]
        · rename_i h
          apply List.filter_eq_nil_iff.mpr
          intro p hp
          obtain ⟨h1, h2⟩ := hl p hp
          simpa [h1, h2] using h
      rw [fT (T a) true (hT a ha), fT (V a) false (hV a ha)]
      by_cases hae : a = e
      · subst hae
        cases b <;> simp [hn.1]
      · have : ¬ e = a := fun h => hae h.symm
        simp [hae, this]
  constructor
  · rw [gen _ List.nodup_range (fun e he => List.mem_range.mp he) true]; simp [he]
  · rw [gen _ List.nodup_range (fun e he => List.mem_range.mp he) false]; simp [he]

/-- the state at the start of the training loop -/
noncomputable def trainStart (env : NcfaEnv G O) (hp : Hyper) (M : Nat) (g : G) : TrainState M hp.width G O :=
  { weights := (env.gen.init M M hp.numHidden hp.width g).1, training := true
    gen := (env.gen.init M M hp.numHidden hp.width g).2, opt := env.optInit
    log := [.numParams (numParams M hp.width (vaeObj hp.numHidden).parameters)], passes := [] }

/-- what `_train_vae` records, stores and logs -/
structure TrainOk (env : NcfaEnv G O) (hp : Hyper) (tl vl : List (List (Row M))) (g : G)
    (r : TrainState M hp.width G O) (h : Histories) : Prop where
  hist : h =
    { trainElbo := (List.range hp.numEpochs).map fun e => average ((passesOf r.passes e true).map Pass.lossPerRow)
      trainError := (List.range hp.numEpochs).map fun e => average ((passesOf r.passes e true).map Pass.errorPerRow)
      validElbo := (List.range hp.numEpochs).map fun e => average ((passesOf r.passes e false).map Pass.lossPerRow)
      validError := (List.range hp.numEpochs).map fun e => average ((passesOf r.passes e false).map Pass.errorPerRow) }
  shape : r.passes.map (fun p => (p.epoch, p.isTrain, p.batch)) =
    (List.range hp.numEpochs).flatMap fun e => tl.map (fun b => (e, true, b)) ++ vl.map (fun b => (e, false, b))
  batchesOf : ∀ e < hp.numEpochs, (passesOf r.passes e true).map (·.batch) = tl ∧
    (passesOf r.passes e false).map (·.batch) = vl
  each : ∀ p ∈ r.passes, PassOk hp p ∧ p.noise.isSome = decide (p.isTrain = true ∧ p.epoch = 0)
  log : r.log = .numParams (numParams M hp.width (vaeObj hp.numHidden).parameters) ::
    (List.range hp.numEpochs).flatMap fun e => [.trainingOn e,
      .finishTraining e (average ((passesOf r.passes e true).map Pass.lossPerRow)),
      .finishValidation (average ((passesOf r.passes e false).map Pass.lossPerRow))]
  evolves : Evolves (OptimizerStep env hp (vaeObj hp.numHidden).parameters) (env.gen.init M M hp.numHidden hp.width g).1 r.passes r.weights
  mode : r.training = decide (hp.numEpochs = 0)

theorem trainVae_ok (env : NcfaEnv G O) (hp : Hyper) (tl vl : List (List (Row M))) (g : G)
    (hne : hp.numEpochs = 0 ∨ tl ≠ [] ∧ vl ≠ []) :
    ∃ r h, trainVae env hp tl vl g = (r, .ok h) ∧ TrainOk env hp tl vl g r h := by
  have hne' : List.range hp.numEpochs = [] ∨ tl ≠ [] ∧ vl ≠ [] := by
    rcases hne with h | h
    · left; rw [h]; rfl
    · right; exact h
  obtain ⟨T, V, r, h0, h1, h2, h3, h4, h5, h6⟩ := trainEpochs_ok env hp (vaeObj hp.numHidden).parameters tl vl
    (List.range hp.numEpochs) hne' List.nodup_range (trainStart env hp M g) {}
  have hTV := passesOf_flatMap hp.numEpochs T V
    (fun e he p hp' => let q := (h2 e (List.mem_range.mpr he)).2.2.1 p hp'; ⟨q.1, q.2.1⟩)
    (fun e he p hp' => let q := (h2 e (List.mem_range.mpr he)).2.2.2 p hp'; ⟨q.1, q.2.1⟩)
  have hpass : r.passes = (List.range hp.numEpochs).flatMap fun e => T e ++ V e := by
    rw [h1]; simp [trainStart]
  have mapT : ∀ {β : Type} (f : Nat → List (Pass M hp.width) → List (Pass M hp.width) → β),
      ((List.range hp.numEpochs).map fun e => f e (passesOf r.passes e true) (passesOf r.passes e false)) =
      (List.range hp.numEpochs).map fun e => f e (T e) (V e) := by
    intro β f
    apply List.map_congr_left
    intro e he
    obtain ⟨a, b⟩ := hTV e (List.mem_range.mp he)
    rw [hpass, a, b]
  refine ⟨r, _, h0, ?_⟩
  constructor
  · simp only [List.nil_append]
    rw [mapT fun _ a _ => average (a.map Pass.lossPerRow), mapT fun _ a _ => average (a.map Pass.errorPerRow),
      mapT fun _ _ b => average (b.map Pass.lossPerRow), mapT fun _ _ b => average (b.map Pass.errorPerRow)]
  · rw [hpass, List.map_flatMap]
    apply List.flatMap_congr
    intro e he
    obtain ⟨a, b, c, d⟩ := h2 e he
    rw [List.map_append]
    congr 1
    · rw [← a, List.map_map]
      apply List.map_congr_left
      intro p hp'
      obtain ⟨x, y, _⟩ := c p hp'
      simp [x, y]
    · rw [← b, List.map_map]
      apply List.map_congr_left
      intro p hp'
      obtain ⟨x, y, _⟩ := d p hp'
      simp [x, y]
  · intro e he
    obtain ⟨a, b⟩ := hTV e he
    obtain ⟨c, d, _⟩ := h2 e (List.mem_range.mpr he)
    rw [hpass, a, b]
    exact ⟨c, d⟩
  · intro p hp'
    rw [hpass, List.mem_flatMap] at hp'
    obtain ⟨e, he, hp'⟩ := hp'
    obtain ⟨a, b, c, d⟩ := h2 e he
    have hhead : (List.range hp.numEpochs).head? = some 0 := by
      have := List.mem_range.mp he
      rw [List.head?_eq_getElem?, List.getElem?_range (by omega)]
    rcases List.mem_append.mp hp' with hp' | hp'
    · obtain ⟨x, y, z, u⟩ := c p hp'
      refine ⟨u, ?_⟩
      rw [z, hhead]
      simp only [trainStart, Bool.and_true, x, y, Option.some.injEq, true_and]
      exact decide_eq_decide.mpr ⟨fun h => h.symm, fun h => h.symm⟩
    · obtain ⟨x, y, z, u⟩ := d p hp'
      refine ⟨u, ?_⟩
      rw [z]; simp [y]
  · rw [h3]
    simp only [trainStart, List.cons_append, List.nil_append]
    congr 1
    apply List.flatMap_congr
    intro e he
    obtain ⟨a, b⟩ := hTV e (List.mem_range.mp he)
    rw [hpass, a, b]
  · rw [hpass]; exact h4
  · by_cases hn : hp.numEpochs = 0
    · have : trainEpochs env hp (vaeObj hp.numHidden).parameters tl vl (List.range hp.numEpochs) (trainStart env hp M g) {} =
          (trainStart env hp M g, .ok {}) := by rw [hn]; rfl
      rw [this] at h0
      have : trainStart env hp M g = r := congrArg Prod.fst h0
      rw [← this]; simp [trainStart, hn]
    · rw [h6 (by simpa using hn)]; simp [hn]

theorem trainVae_zero (env : NcfaEnv G O) (hp : Hyper) (tl vl : List (List (Row M))) (g : G)
    (hn : hp.numEpochs ≠ 0) (hne : tl = [] ∨ vl = []) : (trainVae env hp tl vl g).2 = .error .zeroDivision := by
  unfold trainVae
  obtain ⟨n, hn⟩ := Nat.exists_eq_succ_of_ne_zero hn
  dsimp only
  rw [hn, List.range_succ_eq_map]
  exact trainEpochs_empty _ _ _ _ _ hne _ _ _ _

/-- the outcome of `fit`, by cases -/
theorem ncfaFit_cases (env : NcfaEnv G O) (d : Dataset M) (split : Option (List Int × List Int)) (st : NState M)
    (wd : NWorld G) :
    (∃ e, ncfaSplit env st.seed d split = .error e ∧
      ncfaFit env d split st wd = ({ st with dataset := some d }, wd, [], .error e)) ∨
    (∃ t v, ncfaSplit env st.seed d split = .ok (t, v) ∧ st.hp.batchSize = 0 ∧
      ncfaFit env d split st wd = ({ st with dataset := some d }, wd, [], .error .valueError)) ∨
    (∃ t v, ncfaSplit env st.seed d split = .ok (t, v) ∧ st.hp.batchSize ≠ 0 ∧ st.hp.numEpochs ≠ 0 ∧ (t = [] ∨ v = []) ∧
      ∃ r : TrainState M st.hp.width G O, ncfaFit env d split st wd = ({ st with dataset := some d },
        { ({ wd with numpySeed := some st.seed }).addLog st r.log with torch := r.gen }, r.passes,
        .error .zeroDivision)) ∨
    (∃ t v, ncfaSplit env st.seed d split = .ok (t, v) ∧ st.hp.batchSize ≠ 0 ∧
      (st.hp.numEpochs = 0 ∨ t ≠ [] ∧ v ≠ []) ∧
      ∃ r h, trainVae env st.hp (batches st.hp.batchSize t) (batches st.hp.batchSize v) wd.torch = (r, .ok h) ∧
        TrainOk env st.hp (batches st.hp.batchSize t) (batches st.hp.batchSize v) wd.torch r h ∧
        ncfaFit env d split st wd = (
          { st with
            dataset := some d
            weights := some ⟨st.hp.width, fun i o => (r.weights .covFulcon).weight o i⟩
            vae := some ⟨st.hp.width, st.hp.numHidden, r.weights, r.training⟩
            loss := some h },
          ((({ ({ wd with numpySeed := some st.seed }).addLog st r.log with torch := r.gen }).save
            (pathJoin st.path "model_recon.pt") (.network ⟨st.hp.width, st.hp.numHidden, r.weights, r.training⟩)).save
            (pathJoin st.path "loss_recon.pkl") (.arrays h.trainElbo h.validElbo)).save
            (pathJoin st.path "error_recon.pkl") (.arrays h.trainError h.validError),
          r.passes, .ok ())) := by
  rcases hs : ncfaSplit env st.seed d split with e | ⟨t, v⟩
  · left; exact ⟨e, rfl, by simp only [ncfaFit, hs]⟩
  · right
    by_cases hb : st.hp.batchSize = 0
    · left
      exact ⟨t, v, rfl, hb, by simp only [ncfaFit, hs, dataLoader, hb, if_true]⟩
    · right
      by_cases hne : st.hp.numEpochs = 0 ∨ t ≠ [] ∧ v ≠ []
      · right
        have hne' : st.hp.numEpochs = 0 ∨ batches st.hp.batchSize t ≠ [] ∧ batches st.hp.batchSize v ≠ [] := by
          rw [Ne, Ne, batches_eq_nil, batches_eq_nil]; exact hne
        obtain ⟨r, h, h1, h2⟩ := trainVae_ok env st.hp _ _ wd.torch hne'
        refine ⟨t, v, rfl, hb, hne, r, h, h1, h2, ?_⟩
        simp only [ncfaFit, hs, dataLoader, hb, if_false, h1]
        rfl
      · left
        push Not at hne
        obtain ⟨hn, hne⟩ := hne
        have hne' : t = [] ∨ v = [] := by
          by_cases h : t = []
          · exact .inl h
          · exact .inr (hne h)
        have hz := trainVae_zero env st.hp (batches st.hp.batchSize t) (batches st.hp.batchSize v) wd.torch hn
          (by rw [batches_eq_nil, batches_eq_nil]; exact hne')
        refine ⟨t, v, rfl, hb, hn, hne', (trainVae env st.hp (batches st.hp.batchSize t) (batches st.hp.batchSize v) wd.torch).1, ?_⟩
        simp only [ncfaFit, hs, dataLoader, hb, if_false]
        rw [hz]
        rfl

end Medil

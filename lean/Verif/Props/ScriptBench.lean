import Verif.Model.ScriptBench
import Verif.Props.ScriptGrid
import Verif.Props.RoundTrip
import Verif.Proofs.Evaluate
/-
  Property theorems C148, C149: the benchmark drivers of scripts/developing.py.
-/
namespace Medil
open Finset

variable {G : Type}

/-- with numbers as penalties, `devFitPy` is `devFit` of a new object -/
theorem devFitPy_some (env : DevEnv G) (g : G) (d : AnyData) (method : String) (hm : method = "mle" ∨ method = "lse") (lam mu : ℝ) :
    devFitPy env g d method (some lam) (some mu) =
      match devFit env (freshDev g) d method lam mu with
      | (_, .error e) => .error e
      | (st, .ok _) => match st.est with | some e => .ok e | none => .error .attributeError := by
  rcases hm with rfl | rfl
  · simp only [devFitPy, devFit, fitMle, mleStart, freshDev, if_true, mleLossPy]
    generalize env.minimize _ _ = r
    rcases r with e | ⟨x, s⟩ <;> rfl
  · simp only [devFitPy, devFit, fitLse, freshDev, show ¬ ("lse" = "mle") by decide, if_false, if_true, lseLossPy]
    generalize env.minimize _ _ = r
    rcases r with e | ⟨x, s⟩ <;> rfl

/-- an optimizer that evaluates the objective at least once and passes on its exceptions -/
def PassesErrors (env : DevEnv G) : Prop :=
  ∀ (dim : Nat) (f : (Fin dim → ℝ) → Except PyErr (Fl ℝ)) (x : Fin dim → ℝ) (e : PyErr), (∀ y, f y = .error e) → env.minimize f x = .error e

/-- the object drawn by `mcm` can be sampled from -/
theorem benchTruth_sample (env : BenchEnv G) {M : Nat} (B : List (BVec M)) (hB : B.length * M ≠ 0) (size : Nat) (g : G) :
    ∃ s g', (benchTruth env B).1.sample env.dev.mvn size g = (.ok s, g') := by
  obtain ⟨h1, h2⟩ := mul_ne_zero_iff.mp hB
  unfold benchTruth GState.sample
  simp only [h1, h2, if_false]
  simp

/-- **C148** The models that the benchmarks draw for a structure: for uniform draws in [0, 1), error means in (-2, 2), error variances in [1/2, 2) and
weights that are 0 off the structure and of absolute value in [1/2, 2) on it. -/
theorem C148_truth (env : BenchEnv G) (hu : ∀ k g j, 0 ≤ (env.dev.uniform k g).1 j ∧ (env.dev.uniform k g).1 j < 1) {M : Nat} (B : List (BVec M)) :
    ∃ means w, (benchTruth env B).1.biadj = B ∧ (benchTruth env B).1.means = some means ∧ (benchTruth env B).1.params = some (benchTruth env B).2 ∧
      (∀ j, |means j| < 2) ∧ (∀ j, 1 / 2 ≤ (benchTruth env B).2.variances j ∧ (benchTruth env B).2.variances j < 2) ∧
      (benchTruth env B).2 = ⟨(benchTruth env B).2.variances, B, w⟩ ∧
      ∀ (i : Fin B.length) j, (B[i] j = false → w i j = 0) ∧ (B[i] j = true → 1 / 2 ≤ |w i j| ∧ |w i j| < 2) := by
  refine ⟨_, (benchTruth env B).2.weights, rfl, rfl, rfl, fun j => ?_, fun j => ?_, rfl, fun i j => ⟨fun h => ?_, fun h => ?_⟩⟩
  · have := hu M (env.choice (maskPositions B).length (env.dev.uniform (maskPositions B).length env.seed3).2).2 j
    split_ifs
    · rw [abs_neg, abs_of_nonneg (by linarith)]; linarith
    · rw [abs_of_nonneg (by linarith)]; linarith
  · have := hu M (env.choice M (env.dev.uniform M (env.choice (maskPositions B).length (env.dev.uniform (maskPositions B).length env.seed3).2).2).2).2 j
    change 1 / 2 ≤ _ * (3 / 2) + (1 / 2 : ℝ) ∧ _ * (3 / 2) + (1 / 2 : ℝ) < 2
    constructor <;> linarith
  · exact weightsFrom_off (B := B) _ _ h
  · change 1 / 2 ≤ |weightsFrom B _ _ i j| ∧ |weightsFrom B _ _ i j| < 2
    rw [weightsFrom_edge _ _ h, abs_mul]
    have := hu (maskPositions B).length env.seed3 (edgePos i j h)
    rw [show ∀ b : Bool, |(if b = true then -1 else 1 : ℝ)| = 1 by intro b; cases b <;> simp, one_mul, abs_of_nonneg (by linarith)]
    constructor <;> linarith

/-- the fit of the second object with the given structure returns -/
theorem benchFit_ok (opt : Optimizer) {M : Nat} (o : Sched M) (d : Dataset M) (B : List (BVec M)) (h : B.length * M ≠ 0) :
    ∃ st w p, gaussianFit opt o d { biadj := B } = (st, .ok w) ∧ st.params = some p ∧ p.weightsOn = B := by
  refine ⟨(gaussianFit opt o d { biadj := B }).1, (fitParams opt d { biadj := B, dataset := some d }).2, ?_⟩
  unfold gaussianFit
  simp only [h, if_false]
  exact ⟨_, trivial, rfl, rfl⟩

/-- the loop body fails for every structure -/
theorem benchGraph_fails (env : BenchEnv G) (o : (M : Nat) → Sched M) (size : Nat) (hs : 2 ≤ size) {M : Nat} (B : List (BVec M)) (g : G) :
    ∃ e, (benchGraph env o size hs B g).2.1 = .error e := by
  unfold benchGraph
  split
  · exact ⟨_, rfl⟩
  rename_i hB
  obtain ⟨s, g', h⟩ := benchTruth_sample env B hB size g
  simp only [h]
  split
  · exact ⟨_, rfl⟩
  · split
    · exact ⟨_, rfl⟩
    · split
      · exact ⟨_, rfl⟩
      · split
        · exact ⟨_, rfl⟩
        · exact ⟨_, rfl⟩

/-- **C148** `benchmark_graphs_deep_dive` finishes only if its list is empty -/
theorem C148_finishes_iff_partial (env : BenchEnv G) (o : (M : Nat) → Sched M) (size : Nat) (hs : 2 ≤ size)
    (graphs : List ((M : Nat) × List (BVec M))) (g : G) : (deepDive env o size hs graphs g).2 = .ok () ↔ graphs = [] := by
  constructor
  · intro h
    rcases graphs with _ | ⟨⟨M, B⟩, rest⟩
    · rfl
    · exfalso
      unfold deepDive at h
      obtain ⟨e, he⟩ := benchGraph_fails env o size hs B g
      split at h
      · cases h
      · rename_i heq
        rw [heq] at he
        cases he
  · rintro rfl
    rfl

/-- **C148** for a list that starts with a non-empty structure whose predictions can be compared to the truth, and an optimizer that passes on exceptions, exactly one
report is printed, with `None` for all penalties and `inf` for both minima, and then a `TypeError` is raised; nothing is reported for the other structures -/
theorem C148_first_graph (env : BenchEnv G) (hp : PassesErrors env.dev) (o : (M : Nat) → Sched M) (size : Nat) (hs : 2 ≤ size)
    (M : Nat) (B : List (BVec M)) (hB : B ≠ []) (hM : 0 < M) (rest : List ((M : Nat) × List (BVec M))) (g : G) :
    ∃ dist, deepDive env o size hs (⟨M, B⟩ :: rest) g = ([⟨dist, none, none, none, none⟩], .error .typeError) := by
  have hlen : B.length * M ≠ 0 := Nat.mul_ne_zero (by simpa using hB) (by omega)
  unfold deepDive benchGraph
  rw [if_neg hlen]
  obtain ⟨s, g', h⟩ := benchTruth_sample env B hlen size g
  simp only [h]
  obtain ⟨st, w, p, h1, h2, h3⟩ := benchFit_ok env.opt (o M) ⟨size, hs, s⟩ B hlen
  simp only [h1, h2]
  have hon : (benchTruth env B).2.weightsOn = B := rfl
  have hdist : ∃ q dist, minPermDistPy (fun x : ℝ => |x|) id p.weights (benchTruth env B).2.weights = .ok (q, dist) := by
    have hl : (benchTruth env B).2.weightsOn.length ≤ p.weightsOn.length := by rw [h3, hon]
    have h0 : 0 < p.weightsOn.length := by rw [h3]; exact List.length_pos_of_ne_nil hB
    obtain ⟨σ, hσ, -⟩ := minPermDist_spec (fun x : ℝ => |x|) id p.weights (benchTruth env B).2.weights hl h0
    refine ⟨List.ofFn σ, matchDist (fun x : ℝ => |x|) p.weights (padded id (benchTruth env B).2.weights) σ, ?_⟩
    unfold minPermDistPy
    rw [dif_pos rfl]
    exact hσ
  obtain ⟨q, dist, hq⟩ := hdist
  simp only [hq]
  obtain ⟨-, hb1, hb2, hm1, hm2, -, -⟩ := C136_always_fails env.dev env.seed3 ⟨_, _, (benchTruth env B).2.weights⟩ ⟨M, ⟨size, hs, s⟩⟩
  have hfit : devFitPy env.dev env.seed3 ⟨M, ⟨size, hs, s⟩⟩ "lse" none none = .error .typeError := by
    simp only [devFitPy, show ¬ ("lse" = "mle") by decide, if_false]
    have := hp _ (fun x => lseLossPy env.dev.nuc none none (Matrix.of (Dataset.cov ⟨size, hs, s⟩)) (devW x) (Matrix.diagonal (devD x)))
      (devStart (env.dev.normal (devLatents true M * M) env.seed3).1 fun j =>
          |(env.dev.normal M (env.dev.normal (devLatents true M * M) env.seed3).2).1 j|) .typeError fun y => rfl
    rw [this]
  refine ⟨dist, ?_⟩
  simp only [hb1, hb2, hm1, hm2, bestLam, bestMu, bestPair, Option.map_none, hfit]

/-- the full property: every run finishes, with a report for each structure -/
def C148_statement : Prop := ∀ (G : Type) (env : BenchEnv G) (o : (M : Nat) → Sched M) (graphs : List ((M : Nat) × List (BVec M))) (g : G),
  (∀ b ∈ graphs, b.2 ≠ [] ∧ 0 < b.1) →
  (deepDive env o 5000 (by norm_num) graphs g).2 = .ok () ∧ (deepDive env o 5000 (by norm_num) graphs g).1.length = graphs.length

/-- an environment whose optimizer evaluates the objective at the start and returns the start values -/
noncomputable def startEnv : BenchEnv Unit where
  dev := { idEnv with minimize := fun f x => match f x with | .error e => .error e | .ok _ => .ok (x, true) }
  choice _ g := (fun _ => true, g)
  opt _ _ := (fun _ => 1, true)
  seed3 := ()

theorem startEnv_passes : PassesErrors startEnv.dev := fun dim f x e h => by
  simp only [startEnv, h x]

/-- the first structure of the script, `[[True, True]]` (scripts/developing.py:348) -/
def firstFixed : (M : Nat) × List (BVec M) := ⟨2, [BVec.full]⟩

/-- the property fails -/
theorem C148_false : ¬ C148_statement := by
  intro h
  have h1 := (h Unit startEnv (fun _ => default) [firstFixed] () (by simp [firstFixed])).1
  rw [C148_finishes_iff_partial] at h1
  cases h1

/-! ### C149: cross-validation driver -/

/-- **C149** `benchmark_graphs_deep_dive_kfold` finishes and draws two figures for each structure, if there are at least two folds and at least two rows per fold and no structure is empty.
In each of them the tables of the distances and of the SFD are nan everywhere, and the table of the validation errors is that of
`grid_search_kfold` (C137) for rows sampled from the model drawn for this structure. -/
theorem C149_kfold_partial (env : BenchEnv G) (size : Nat) (hs : 2 ≤ size) (perm : Equiv.Perm (Fin size)) (k : Nat) (hk : 2 ≤ k) (hN : 2 * k ≤ size)
    (graphs : List ((M : Nat) × List (BVec M))) (hB : ∀ b ∈ graphs, b.2.length * b.1 ≠ 0) (g : G) :
    let r := deepDiveKfold env size hs perm k graphs g
    r.2 = .ok () ∧ List.Forall₂ (fun b f => ∃ (g' : G) (s : Fin size → Fin b.1 → ℝ) (folds : List (AnyData × AnyData)),
      ((benchTruth env b.2).1.sample env.dev.mvn size g').1 = .ok s ∧
      kfoldSplit ⟨b.1, ⟨size, hs, s⟩⟩ perm k = folds.map some ∧
      ∀ i j, f.1.dist i j = .nan ∧ f.1.sfd i j = .nan ∧ f.2.dist i j = .nan ∧ f.2.sfd i j = .nan ∧
        f.1.validation i j = (kfoldCell env.dev env.seed3 ⟨_, _, (benchTruth env b.2).2.weights⟩ folds "lse" (logGrid i) (logGrid j)).1 ∧
        f.2.validation i j = (kfoldCell env.dev env.seed3 ⟨_, _, (benchTruth env b.2).2.weights⟩ folds "mle" (logGrid i) (logGrid j)).1) graphs r.1 := by
  induction graphs generalizing g with
  | nil => exact ⟨rfl, .nil⟩
  | cons b rest ih =>
    obtain ⟨M, B⟩ := b
    intro r
    have hne : B.length * M ≠ 0 := hB ⟨M, B⟩ (by simp)
    obtain ⟨s, g', h⟩ := benchTruth_sample env B hne size g
    obtain ⟨hlen, hsome⟩ := C138_split ⟨M, ⟨size, hs, s⟩⟩ perm k hk hN
    have hall : ∀ x ∈ kfoldSplit ⟨M, ⟨size, hs, s⟩⟩ perm k, ∃ y, x = some y := by
      intro x hx
      obtain ⟨i, hi, rfl⟩ := List.getElem_of_mem hx
      rw [hlen] at hi
      obtain ⟨ht, hv, he⟩ := hsome i hi
      rw [List.getElem?_eq_getElem (by omega)] at he
      exact ⟨_, Option.some.inj he⟩
    obtain ⟨folds, hf⟩ : ∃ folds : List (AnyData × AnyData), kfoldSplit ⟨M, ⟨size, hs, s⟩⟩ perm k = folds.map some := by
      have gen : ∀ l : List (Option (AnyData × AnyData)), (∀ x ∈ l, ∃ y, x = some y) → ∃ folds : List (AnyData × AnyData), l = folds.map some := by
        intro l
        induction l with
        | nil => exact fun _ => ⟨[], rfl⟩
        | cons a l ih =>
          intro h
          obtain ⟨y, rfl⟩ := h a (by simp)
          obtain ⟨f, rfl⟩ := ih fun x hx => h x (by simp [hx])
          exact ⟨y :: f, rfl⟩
      exact gen _ hall
    have hmap : (kfoldSplit ⟨M, ⟨size, hs, s⟩⟩ perm k).mapM id = some folds := by
      rw [hf]
      clear hf hall hsome hlen
      induction folds with
      | nil => rfl
      | cons a l ih => simp [ih]
    obtain ⟨h1, h2⟩ := ih (fun b hb => hB b (by simp [hb])) g'
    have hr : r = ((figureOf (gridSearchKfold env.dev env.seed3 ⟨_, _, (benchTruth env B).2.weights⟩ folds "lse"),
        figureOf (gridSearchKfold env.dev env.seed3 ⟨_, _, (benchTruth env B).2.weights⟩ folds "mle")) ::
        (deepDiveKfold env size hs perm k rest g').1, (deepDiveKfold env size hs perm k rest g').2) := by
      show deepDiveKfold env size hs perm k (⟨M, B⟩ :: rest) g = _
      conv_lhs => unfold deepDiveKfold
      rw [if_neg hne]
      simp only [h, hmap]
    rw [hr]
    refine ⟨h1, .cons ⟨g, s, folds, by rw [h], hf, fun i j => ?_⟩ h2⟩
    have e1 := C136_kfold_always_fails env.dev env.seed3 ⟨_, _, (benchTruth env B).2.weights⟩ folds "lse" (Or.inr rfl) i j
    have e2 := C136_kfold_always_fails env.dev env.seed3 ⟨_, _, (benchTruth env B).2.weights⟩ folds "mle" (Or.inl rfl) i j
    simp only [figureOf, e1, e2, ← gridSearchKfold_eq, and_self]

/-- the full property: the distance tables of the figures contain numbers whenever the fits succeed -/
def C149_statement : Prop := ∀ (G : Type) (env : BenchEnv G) (perm : Equiv.Perm (Fin 5000)) (graphs : List ((M : Nat) × List (BVec M))) (g : G),
  (∀ dim f (x : Fin dim → ℝ), ∃ r, env.dev.minimize f x = .ok r) →
  ∀ f ∈ (deepDiveKfold env 5000 (by norm_num) perm 5 graphs g).1, ∀ i j, ∃ x, f.1.dist i j = .fin x

/-- the property fails -/
theorem C149_false : ¬ C149_statement := by
  intro h
  obtain ⟨-, hall⟩ := C149_kfold_partial { startEnv with dev := idEnv } 5000 (by norm_num) 1 5 (by norm_num) (by norm_num) [firstFixed] (by simp [firstFixed]) ()
  generalize hr : deepDiveKfold { startEnv with dev := idEnv } 5000 (by norm_num) 1 5 [firstFixed] () = r at hall
  obtain ⟨f, l, hf, -, hl⟩ := List.forall₂_cons_left_iff.mp hall
  obtain ⟨g', s, folds, -, -, h1⟩ := hf
  obtain ⟨x, hx⟩ := h Unit { startEnv with dev := idEnv } 1 [firstFixed] () (fun dim f x => ⟨_, rfl⟩) f (by rw [hr, hl]; simp) 0 0
  rw [(h1 0 0).1] at hx
  cases hx

/-- **non-vacuity of C149**: ten rows, five folds and the first structure of the script -/
example (perm : Equiv.Perm (Fin 10)) :
    let r := deepDiveKfold startEnv 10 (by omega) perm 5 [firstFixed] ()
    r.2 = .ok () ∧ r.1.length = 1 := by
  have h := C149_kfold_partial startEnv 10 (by omega) perm 5 (by omega) (by omega) [firstFixed] (by simp [firstFixed]) ()
  exact ⟨h.1, h.2.length_eq.symm⟩

end Medil

import Verif.Model.ScriptGrid
import Verif.Model.SampleReal
/-
  Model of the benchmark drivers of scripts/developing.py (lines 346-612).

  Floats are exact reals.  What is printed or plotted is the result; the layout is not modelled.
-/
namespace Medil
open Finset Matrix

variable {G : Type}

/-- external functions: those of `DevMedil`, `rng.choice((True, False), size)` (sample.py:24, 30), the optimizer of `GaussianMCM` and the state of
`default_rng(3)` (scripts/developing.py:16-17) -/
structure BenchEnv (G : Type) where
  dev : DevEnv G
  choice : (k : Nat) → G → (Fin k → Bool) × G
  opt : Optimizer
  seed3 : G

/-- `mcm(rng=rng(), parameterization="Gaussian", biadj=B)` for a bool array (sample.py:18-34; scripts/developing.py:386, 528) -/
noncomputable def benchTruth (env : BenchEnv G) {M : Nat} (B : List (BVec M)) : GState M × GParams M :=
  let (u, g) := env.dev.uniform (maskPositions B).length env.seed3
  let (f, g) := env.choice (maskPositions B).length g
  let (a, g) := env.dev.uniform M g
  let (af, g) := env.choice M g
  let (v, _) := env.dev.uniform M g
  let p : GParams M := ⟨fun j => v j * (3 / 2) + 1 / 2, B, weightsFrom B u f⟩
  ({ biadj := B, means := some fun j => if af j then -(a j * 2) else a j * 2, params := some p }, p)

/-! ### `DevMedil.fit` with penalties that may be `None` -/

section loss
variable {k m : Nat}

/-- the least squares loss (models.py:556-566); `None * number` is a `TypeError` -/
noncomputable def lseLossPy (nuc : Matrix (Fin k) (Fin m) ℝ → ℝ) (lam mu : Option ℝ) (S : Matrix (Fin m) (Fin m) ℝ)
    (W : Matrix (Fin k) (Fin m) ℝ) (D : Matrix (Fin m) (Fin m) ℝ) : Except PyErr (Fl ℝ) :=
  match lam, mu with
  | some lam, some mu => .ok (.fin (lseLoss nuc lam mu S W D))
  | _, _ => .error .typeError

/-- the likelihood loss (models.py:494-508): the penalties are read after the inverse and the test of the sign -/
noncomputable def mleLossPy (nuc : Matrix (Fin k) (Fin m) ℝ → ℝ) (lam mu : Option ℝ) (S : Matrix (Fin m) (Fin m) ℝ)
    (W : Matrix (Fin k) (Fin m) ℝ) (D : Matrix (Fin m) (Fin m) ℝ) : Except PyErr (Fl ℝ) :=
  match lam, mu with
  | some lam, some mu => mleLoss nuc lam mu S W D
  | _, _ =>
    if (computeSigma W D).det = 0 then .error .linAlg
    else if (computeSigma W D)⁻¹.det ≤ 0 then .ok .pinf
    else .error .typeError

end loss

/-- `DevMedil(rng=rng()).fit(dataset, method=..., lambda_reg=lam, mu_reg=mu)` (scripts/developing.py:487-488, 492-493; models.py:481-579, 621-629) for one
of the two methods: the estimates or the exception -/
noncomputable def devFitPy (env : DevEnv G) (g : G) (d : AnyData) (method : String) (lam mu : Option ℝ) : Except PyErr DevEst :=
  let m := d.cols
  let k := devLatents true m
  let (w, g) := env.normal (k * m) g
  if method = "mle" then
    let (u, _) := env.uniform m g
    match env.minimize (fun x : Fin (k * m + m) → ℝ => mleLossPy env.nuc lam mu (Matrix.of d.data.cov) (devW x) (diagonal (devD x))) (devStart w u) with
    | .error e => .error e
    | .ok (x, _) => .ok ⟨k, m, devW x, diagonal (devD x)⟩
  else
    let (u, _) := env.normal m g
    match env.minimize (fun x : Fin (k * m + m) → ℝ => lseLossPy env.nuc lam mu (Matrix.of d.data.cov) (devW x) (diagonal (devD x)))
        (devStart w fun j => |u j|) with
    | .error e => .error e
    | .ok (x, _) => .ok ⟨k, m, devW x, diagonal fun j => |devD x j|⟩

/-- what is printed for a structure (scripts/developing.py:419-422, 473-479, 495-520).  `lse` and `mle` are not printed: reading `W_hat_lse` fails before. -/
structure BenchReport where
  distGaussian : ℝ
  bestLse : Option (ℝ × ℝ)
  bestMle : Option (ℝ × ℝ)
  minLse : Option ℝ
  minMle : Option ℝ

/-- penalties as arguments -/
def bestLam (best : Option (ℝ × ℝ × List Nat)) : Option ℝ := best.map fun b => b.1
def bestMu (best : Option (ℝ × ℝ × List Nat)) : Option ℝ := best.map fun b => b.2.1
def bestPair (best : Option (ℝ × ℝ × List Nat)) : Option (ℝ × ℝ) := best.map fun b => (b.1, b.2.1)

/-- the body of the loop of `benchmark_graphs_deep_dive` (scripts/developing.py:381-520) for one structure, with `size` (5000) rows; `shared` is the
state of the generator shared by all `GaussianMCM` objects made without `rng`.  The result is what was printed, the exception and the generator.
For an array of size 0, `mcm` calls `biadj()` without its required argument (sample.py:17): `TypeError`.
`W_hat_lse` (line 489) does not exist after a fit (models.py:520-523, 574-577): `AttributeError`. -/
noncomputable def benchGraph (env : BenchEnv G) (o : (M : Nat) → Sched M) (size : Nat) (hs : 2 ≤ size) {M : Nat} (B : List (BVec M)) (shared : G) :
    List BenchReport × Except PyErr Unit × G :=
  if B.length * M = 0 then ([], .error .typeError, shared) else
  let (truth, p) := benchTruth env B
  match truth.sample env.dev.mvn size shared with
  | (.error e, shared) => ([], .error e, shared)
  | (.ok s, shared) =>
    let d : AnyData := ⟨M, ⟨size, hs, s⟩⟩
    let r := gridSearch env.dev env.seed3 ⟨_, _, p.weights⟩ d
    match gaussianFit env.opt (o M) ⟨size, hs, s⟩ { biadj := B } with
    | (_, .error e) => ([], .error e, shared)
    | (st, .ok _) =>
      match st.params with
      | none => ([], .error .attributeError, shared)
      | some q =>
        match minPermDistPy (fun x : ℝ => |x|) id q.weights p.weights with
        | .error e => ([], .error e, shared)
        | .ok (_, dist) =>
          let report : BenchReport := ⟨dist, bestPair r.2.best, bestPair r.1.best, r.2.min, r.1.min⟩
          match devFitPy env.dev env.seed3 d "lse" (bestLam r.2.best) (bestMu r.2.best) with
          | .error e => ([report], .error e, shared)
          | .ok _ => ([report], .error .attributeError, shared)

/-- `benchmark_graphs_deep_dive` (scripts/developing.py:380-520): the reports printed and the exception -/
noncomputable def deepDive (env : BenchEnv G) (o : (M : Nat) → Sched M) (size : Nat) (hs : 2 ≤ size) :
    List ((M : Nat) × List (BVec M)) → G → List BenchReport × Except PyErr Unit
  | [], _ => ([], .ok ())
  | ⟨_, B⟩ :: rest, shared =>
    match benchGraph env o size hs B shared with
    | (reps, .error e, _) => (reps, .error e)
    | (reps, .ok _, shared) =>
      let r := deepDive env o size hs rest shared
      (reps ++ r.1, r.2)

/-- the three tables of a figure (scripts/developing.py:544-561, 564-606) -/
structure Figure where
  validation : Fin 6 → Fin 6 → Fl ℝ
  dist : Fin 6 → Fin 6 → Fl ℝ
  sfd : Fin 6 → Fin 6 → Fl ℝ

/-- the figure for one method -/
noncomputable def figureOf (T : Fin 6 → Fin 6 → Fl ℝ × Fl ℝ × Fl ℝ) : Figure :=
  ⟨fun i j => (T i j).1, fun i j => (T i j).2.1, fun i j => (T i j).2.2⟩

/-- `benchmark_graphs_deep_dive_kfold` (scripts/developing.py:525-561): the figures for `"lse"` and `"mle"` of every structure, and the exception.
`perm` is the shuffle of the rows made by `KFold` with `random_state=3`, the same in each call.  A split in which a part has fewer than
two rows is not modelled. -/
noncomputable def deepDiveKfold (env : BenchEnv G) (size : Nat) (hs : 2 ≤ size) (perm : Equiv.Perm (Fin size)) (k : Nat) :
    List ((M : Nat) × List (BVec M)) → G → List (Figure × Figure) × Except PyErr Unit
  | [], _ => ([], .ok ())
  | ⟨M, B⟩ :: rest, shared =>
    if B.length * M = 0 then ([], .error .typeError) else
    let (truth, p) := benchTruth env B
    match truth.sample env.dev.mvn size shared with
    | (.error e, _) => ([], .error e)
    | (.ok s, shared) =>
      let d : AnyData := ⟨M, ⟨size, hs, s⟩⟩
      match (kfoldSplit d perm k).mapM id with
      | none => ([], .error .unmodelled)
      | some folds =>
        let T := fun method => figureOf (gridSearchKfold env.dev env.seed3 ⟨_, _, p.weights⟩ folds method)
        let r := deepDiveKfold env size hs perm k rest shared
        ((T "lse", T "mle") :: r.1, r.2)

end Medil

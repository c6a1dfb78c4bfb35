import Verif.Model.ScriptGrid
import Verif.Props.Dev
/-
  Property theorems C136-C138: the hyperparameter search of scripts/developing.py.
-/
namespace Medil
open Finset

variable {G : Type}

/-! ### the grid -/

/-- **C136** the values tried for both penalties: six, from a millionth to ten, each `10^(7/5)` times the one before -/
theorem C136_grid_values : logGrid 0 = 1 / 10 ^ 6 ∧ logGrid 5 = 10 ∧ ∀ i j : Fin 6, j.val = i.val + 1 → logGrid j = 10 ^ (7 / 5 : ℝ) * logGrid i := by
  refine ⟨?_, ?_, fun i j h => ?_⟩
  · unfold logGrid
    rw [show (-6 : ℝ) + ((0 : Fin 6).val : ℝ) * ((1 - -6) / (6 - 1)) = -((6 : ℕ) : ℝ) by norm_num, Real.rpow_neg (by norm_num), Real.rpow_natCast]
    norm_num
  · unfold logGrid
    rw [show (-6 : ℝ) + ((5 : Fin 6).val : ℝ) * ((1 - -6) / (6 - 1)) = 1 by norm_num, Real.rpow_one]
  · unfold logGrid
    rw [← Real.rpow_add (by norm_num), h]
    congr 1
    push_cast
    ring


theorem logGrid_strictMono : StrictMono logGrid := by
  intro i j h
  unfold logGrid
  refine Real.rpow_lt_rpow_of_exponent_lt (by norm_num) ?_
  have : (i.val : ℝ) < j.val := by exact_mod_cast h
  linarith

theorem dictIdx_eq {k : Nat} (vals : Fin k → ℝ) (h : Function.Injective vals) (j : Fin k) : dictIdx vals j = j := by
  have := (univ.filter fun i => vals i = vals j).max'_mem ⟨j, mem_filter.mpr ⟨mem_univ j, rfl⟩⟩
  exact h (mem_filter.mp this).2

/-- cells in the order of the loops -/
def CellLt {k : Nat} (c c' : Fin k × Fin k) : Prop := c.1 < c'.1 ∨ c.1 = c'.1 ∧ c.2 < c'.2

theorem mem_gridCells {k : Nat} (c : Fin k × Fin k) : c ∈ gridCells k := by
  unfold gridCells
  simp only [List.mem_flatMap, List.mem_map, List.mem_finRange, true_and]
  exact ⟨c.1, c.2, rfl⟩

theorem gridCells_pairwise (k : Nat) : (gridCells k).Pairwise CellLt := by
  unfold gridCells
  rw [List.pairwise_flatMap]
  constructor
  · intro i _
    rw [List.pairwise_map]
    exact (List.pairwise_lt_finRange k).imp fun h => Or.inr ⟨rfl, h⟩
  · refine (List.pairwise_lt_finRange k).imp fun {i i'} h x hx y hy => ?_
    obtain ⟨_, _, rfl⟩ := List.mem_map.mp hx
    obtain ⟨_, _, rfl⟩ := List.mem_map.mp hy
    exact Or.inl h

theorem gridCells_nodup (k : Nat) : (gridCells k).Nodup :=
  (gridCells_pairwise k).imp fun {a b} h e => by
    subst e
    rcases h with h | h
    · exact lt_irrefl _ h
    · exact lt_irrefl _ h.2

theorem gridCells_length (k : Nat) : (gridCells k).length = k * k := by
  unfold gridCells
  simp [List.length_flatMap]

/-! ### C136 -/

/-- what the variables contain after the cells `done` -/
structure GridInv {k : Nat} (run : ℝ → ℝ → Except PyErr Metrics) (vals : Fin k → ℝ) (done : List (Fin k × Fin k)) (s : GridState k) : Prop where
  ok : ∀ c ∈ done, ∀ r, run (vals c.1) (vals c.2) = .ok r → s.dist c.1 c.2 = r.dist ∧ s.sfd c.1 c.2 = r.sfd
  err : ∀ c, (c ∉ done ∨ ∃ e, run (vals c.1) (vals c.2) = .error e) → s.dist c.1 c.2 = 0 ∧ s.sfd c.1 c.2 = 0
  fails : s.failures = done.countP fun c => !(run (vals c.1) (vals c.2)).isOk
  none : (∀ c ∈ done, ∃ e, run (vals c.1) (vals c.2) = .error e) → s.min = none ∧ s.best = none
  some : (∃ c ∈ done, ∃ r, run (vals c.1) (vals c.2) = .ok r) →
    ∃ pre c post r, done = pre ++ c :: post ∧ run (vals c.1) (vals c.2) = .ok r ∧ s.min = some r.dist ∧
      s.best = some (vals c.1, vals c.2, r.perm) ∧
      (∀ c' ∈ done, ∀ r', run (vals c'.1) (vals c'.2) = .ok r' → r.dist ≤ r'.dist) ∧
      ∀ c' ∈ pre, ∀ r', run (vals c'.1) (vals c'.2) = .ok r' → r.dist < r'.dist

theorem gridInv_step {k : Nat} {run : ℝ → ℝ → Except PyErr Metrics} {vals : Fin k → ℝ} (hv : Function.Injective vals)
    {done : List (Fin k × Fin k)} {s : GridState k} (h : GridInv run vals done s) (c : Fin k × Fin k) (hc : c ∉ done) :
    GridInv run vals (done ++ [c]) (gridStep run vals s c) := by
  unfold gridStep
  cases hr : run (vals c.1) (vals c.2) with
  | error e =>
    dsimp only
    refine ⟨?_, ?_, ?_, ?_, ?_⟩
    · intro c' hc' r' hr'
      rcases List.mem_append.mp hc' with h1 | h1
      · exact h.ok c' h1 r' hr'
      · rw [List.mem_singleton.mp h1, hr] at hr'
        cases hr'
    · rintro c' (h1 | h1)
      · exact h.err c' (Or.inl fun h2 => h1 (List.mem_append_left _ h2))
      · exact h.err c' (Or.inr h1)
    · rw [List.countP_append, ← h.fails]
      simp [hr, Except.isOk, Except.toBool]
    · intro h1
      exact h.none fun c' hc' => h1 c' (List.mem_append_left _ hc')
    · rintro ⟨c', hc', r', hr'⟩
      have hc'' : c' ∈ done := by
        rcases List.mem_append.mp hc' with h1 | h1
        · exact h1
        · rw [List.mem_singleton.mp h1, hr] at hr'
          cases hr'
      obtain ⟨pre, c0, post, r, h1, h2, h3, h4, h5, h6⟩ := h.some ⟨c', hc'', r', hr'⟩
      refine ⟨pre, c0, post ++ [c], r, by rw [h1]; simp, h2, h3, h4, fun c1 hc1 r1 hr1 => ?_, h6⟩
      rcases List.mem_append.mp hc1 with h7 | h7
      · exact h5 c1 h7 r1 hr1
      · rw [List.mem_singleton.mp h7, hr] at hr1
        cases hr1
  | ok r =>
    dsimp only
    rw [dictIdx_eq vals hv, dictIdx_eq vals hv]
    have hupd : ∀ {α : Type} (T : Fin k → Fin k → α) (x : α) (c' : Fin k × Fin k),
        Function.update T c.1 (Function.update (T c.1) c.2 x) c'.1 c'.2 = if c' = c then x else T c'.1 c'.2 := by
      intro α T x c'
      by_cases h1 : c'.1 = c.1
      · rw [h1, Function.update_self]
        by_cases h2 : c'.2 = c.2
        · rw [h2, Function.update_self, if_pos (Prod.ext h1 h2)]
        · rw [Function.update_of_ne h2, if_neg fun h : c' = c => h2 (by rw [h])]
      · rw [Function.update_of_ne h1, if_neg fun h : c' = c => h1 (by rw [h])]
    have hok : ∀ c' ∈ done ++ [c], ∀ r', run (vals c'.1) (vals c'.2) = .ok r' →
        Function.update s.dist c.1 (Function.update (s.dist c.1) c.2 r.dist) c'.1 c'.2 = r'.dist ∧
        Function.update s.sfd c.1 (Function.update (s.sfd c.1) c.2 r.sfd) c'.1 c'.2 = r'.sfd := by
      intro c' hc' r' hr'
      rw [hupd, hupd]
      split
      · rename_i h1
        subst h1
        rw [hr] at hr'
        cases hr'
        exact ⟨rfl, rfl⟩
      · rename_i h1
        rcases List.mem_append.mp hc' with h2 | h2
        · exact h.ok c' h2 r' hr'
        · exact absurd (List.mem_singleton.mp h2) h1
    have herr : ∀ c', (c' ∉ done ++ [c] ∨ ∃ e, run (vals c'.1) (vals c'.2) = .error e) →
        Function.update s.dist c.1 (Function.update (s.dist c.1) c.2 r.dist) c'.1 c'.2 = 0 ∧
        Function.update s.sfd c.1 (Function.update (s.sfd c.1) c.2 r.sfd) c'.1 c'.2 = 0 := by
      intro c' hc'
      rw [hupd, hupd]
      rw [if_neg, if_neg]
      · rcases hc' with h1 | h1
        · exact h.err c' (Or.inl fun h2 => h1 (List.mem_append_left _ h2))
        · exact h.err c' (Or.inr h1)
      all_goals
        rintro rfl
        rcases hc' with h1 | ⟨e, h1⟩
        · exact h1 (by simp)
        · rw [hr] at h1
          cases h1
    have hfail : s.failures = (done ++ [c]).countP fun c => !(run (vals c.1) (vals c.2)).isOk := by
      rw [List.countP_append, ← h.fails]
      simp [hr, Except.isOk, Except.toBool]
    have hnone : ¬ ∀ c' ∈ done ++ [c], ∃ e, run (vals c'.1) (vals c'.2) = .error e := by
      intro h1
      obtain ⟨e, h2⟩ := h1 c (by simp)
      rw [hr] at h2
      cases h2
    by_cases hex : ∃ c ∈ done, ∃ r, run (vals c.1) (vals c.2) = .ok r
    · obtain ⟨pre, c0, post, r0, h1, h2, h3, h4, h5, h6⟩ := h.some hex
      rw [h3]
      by_cases hlt : r.dist < r0.dist
      · rw [if_pos (by simpa using hlt)]
        refine ⟨hok, herr, hfail, fun hh => absurd hh hnone, fun _ => ⟨done, c, [], r, by simp, hr, rfl, rfl, fun c' hc' r' hr' => ?_,
          fun c' hc' r' hr' => hlt.trans_le (h5 c' hc' r' hr')⟩⟩
        rcases List.mem_append.mp hc' with h7 | h7
        · exact hlt.le.trans (h5 c' h7 r' hr')
        · rw [List.mem_singleton.mp h7, hr] at hr'
          cases hr'
          exact le_rfl
      · rw [if_neg (by simpa using hlt)]
        refine ⟨hok, herr, hfail, fun hh => absurd hh hnone, fun _ => ⟨pre, c0, post ++ [c], r0, by rw [h1]; simp, h2, rfl, h4,
          fun c' hc' r' hr' => ?_, h6⟩⟩
        rcases List.mem_append.mp hc' with h7 | h7
        · exact h5 c' h7 r' hr'
        · rw [List.mem_singleton.mp h7, hr] at hr'
          cases hr'
          exact not_lt.mp hlt
    · have hall : ∀ c' ∈ done, ∃ e, run (vals c'.1) (vals c'.2) = .error e := by
        intro c' hc'
        cases h1 : run (vals c'.1) (vals c'.2) with
        | error e => exact ⟨e, rfl⟩
        | ok r' => exact absurd ⟨c', hc', r', h1⟩ hex
      obtain ⟨h1, h2⟩ := h.none hall
      rw [h1]
      rw [if_pos (by simp)]
      refine ⟨hok, herr, hfail, fun hh => absurd hh hnone, fun _ => ⟨done, c, [], r, by simp, hr, rfl, rfl, fun c' hc' r' hr' => ?_,
        fun c' hc' r' hr' => ?_⟩⟩
      · rcases List.mem_append.mp hc' with h7 | h7
        · obtain ⟨e, he⟩ := hall c' h7
          rw [he] at hr'
          cases hr'
        · rw [List.mem_singleton.mp h7, hr] at hr'
          cases hr'
          exact le_rfl
      · obtain ⟨e, he⟩ := hall c' hc'
        rw [he] at hr'
        cases hr'

theorem gridInv_all {k : Nat} (run : ℝ → ℝ → Except PyErr Metrics) (vals : Fin k → ℝ) (hv : Function.Injective vals) :
    GridInv run vals (gridCells k) (gridLoop run vals) := by
  have key : ∀ (todo done : List (Fin k × Fin k)) (s : GridState k), (done ++ todo).Nodup → GridInv run vals done s →
      GridInv run vals (done ++ todo) (todo.foldl (gridStep run vals) s) := by
    intro todo
    induction todo with
    | nil => intro done s _ h; simpa using h
    | cons c todo ih =>
      intro done s hnd h
      have h1 : c ∉ done := fun h2 => (List.nodup_append.mp hnd).2.2 c h2 c (by simp) rfl
      have := ih (done ++ [c]) _ (by simpa using hnd) (gridInv_step hv h c h1)
      simpa using this
  refine key (gridCells k) [] {} (by simpa using gridCells_nodup k) ⟨by simp, fun _ _ => ⟨rfl, rfl⟩, rfl, fun _ => ⟨rfl, rfl⟩, by simp⟩

/-- **C136** the loop of `grid_search`, whatever happens in its cells (`run lam mu` is the outcome of fitting and scoring with these penalties): the tables
contain the scores of the cells that succeed and 0 for the others; the reported penalties are those of a cell with the smallest distance, the
first one in the order of the loops; if all cells fail they are `None` and the reported minimum is infinite.  (In the program all cells fail: `C136_always_fails`.) -/
theorem C136_loop_partial (run : ℝ → ℝ → Except PyErr Metrics) :
    let s := gridLoop run logGrid
    (∀ i j r, run (logGrid i) (logGrid j) = .ok r → s.dist i j = r.dist ∧ s.sfd i j = r.sfd) ∧
    (∀ i j e, run (logGrid i) (logGrid j) = .error e → s.dist i j = 0 ∧ s.sfd i j = 0) ∧
    ((∀ i j, ∃ e, run (logGrid i) (logGrid j) = .error e) → s.min = none ∧ s.best = none ∧ s.failures = 36) ∧
    ((∃ i j r, run (logGrid i) (logGrid j) = .ok r) →
      ∃ i j r, run (logGrid i) (logGrid j) = .ok r ∧ s.min = some r.dist ∧ s.best = some (logGrid i, logGrid j, r.perm) ∧
        ∀ i' j' r', run (logGrid i') (logGrid j') = .ok r' →
          r.dist ≤ r'.dist ∧ ((i' < i ∨ i' = i ∧ j' < j) → r.dist < r'.dist)) := by
  intro s
  have h := gridInv_all run logGrid logGrid_strictMono.injective
  refine ⟨fun i j r hr => h.ok (i, j) (mem_gridCells _) r hr, fun i j e he => h.err (i, j) (Or.inr ⟨e, he⟩), fun hall => ?_, ?_⟩
  · obtain ⟨h1, h2⟩ := h.none fun c _ => hall c.1 c.2
    refine ⟨h1, h2, ?_⟩
    rw [h.fails, List.countP_eq_length.mpr, gridCells_length]
    intro c _
    obtain ⟨e, he⟩ := hall c.1 c.2
    simp [he, Except.isOk, Except.toBool]
  · rintro ⟨i, j, r, hr⟩
    obtain ⟨pre, c, post, r, h1, h2, h3, h4, h5, h6⟩ := h.some ⟨(i, j), mem_gridCells _, r, hr⟩
    refine ⟨c.1, c.2, r, h2, h3, h4, fun i' j' r' hr' => ⟨h5 (i', j') (mem_gridCells _) r' hr', fun hlt => h6 (i', j') ?_ r' hr'⟩⟩
    have hm : (i', j') ∈ pre ++ c :: post := h1 ▸ mem_gridCells (i', j')
    rcases List.mem_append.mp hm with h7 | h7
    · exact h7
    · exfalso
      have hp := h1 ▸ gridCells_pairwise 6
      have hp2 := (List.pairwise_append.mp hp).2.1
      rcases List.mem_cons.mp h7 with h8 | h8
      · rw [← h8] at hlt
        rcases hlt with h9 | h9
        · exact lt_irrefl _ h9
        · exact lt_irrefl _ h9.2
      · have h9 := (List.pairwise_cons.mp hp2).1 _ h8
        rcases h9 with h9 | ⟨h9, h10⟩ <;> rcases hlt with h11 | ⟨h11, h12⟩
        · exact lt_asymm h9 h11
        · exact absurd h11 (ne_of_gt h9)
        · exact absurd h9 (ne_of_gt h11)
        · exact lt_asymm h10 h12

theorem calculateMetrics_noHats (st : DevState G) (h : st.noHats) (method : String) (x : ℝ) (W : AnyMat) :
    calculateMetrics st method x W = .error .attributeError := by
  unfold calculateMetrics
  obtain ⟨h1, _, h2, _⟩ := h
  rw [h1, h2]
  simp

/-- in every run of `grid_search`, for all data, all true weights and all behaviours of the optimizer, every cell fails (the metrics
read attributes that `fit` never sets), so the tables are 0, the reported penalties are `None` and the reported minima infinite -/
theorem C136_always_fails (env : DevEnv G) (g : G) (Wstar : AnyMat) (d : AnyData) :
    let r := gridSearch env g Wstar d
    (∀ i j, r.1.dist i j = 0 ∧ r.1.sfd i j = 0 ∧ r.2.dist i j = 0 ∧ r.2.sfd i j = 0) ∧
    r.1.best = none ∧ r.2.best = none ∧ r.1.min = none ∧ r.2.min = none ∧ r.1.failures = 36 ∧ r.2.failures = 36 := by
  intro r
  have hrun : ∀ method lam mu, ∃ e, gridRun env g Wstar d method lam mu = .error e := by
    intro method lam mu
    unfold gridRun
    have hno := devFit_noHats env (freshDev g) d method lam mu ⟨rfl, rfl, rfl, rfl⟩
    split
    · exact ⟨_, rfl⟩
    · rename_i st _ heq
      rw [heq] at hno
      exact ⟨_, calculateMetrics_noHats st hno method _ _⟩
  obtain ⟨-, h1, h2, -⟩ := C136_loop_partial (gridRun env g Wstar d "mle")
  obtain ⟨-, h3, h4, -⟩ := C136_loop_partial (gridRun env g Wstar d "lse")
  obtain ⟨h5, h6, h7⟩ := h2 fun i j => hrun _ _ _
  obtain ⟨h8, h9, h10⟩ := h4 fun i j => hrun _ _ _
  refine ⟨fun i j => ?_, h6, h9, h5, h8, h7, h10⟩
  obtain ⟨e, he⟩ := hrun "mle" (logGrid i) (logGrid j)
  obtain ⟨e', he'⟩ := hrun "lse" (logGrid i) (logGrid j)
  exact ⟨(h1 i j e he).1, (h1 i j e he).2, (h3 i j e' he').1, (h3 i j e' he').2⟩

/-- the full property: if fitting succeeds for some penalties, `grid_search` reports penalties -/
def C136_statement : Prop := ∀ (G : Type) (env : DevEnv G) (g : G) (Wstar : AnyMat) (d : AnyData),
  (∃ i j, (devFit env (freshDev g) d "lse" (logGrid i) (logGrid j)).2 = .ok ()) → (gridSearch env g Wstar d).2.best ≠ none

/-- the property fails -/
theorem C136_false : ¬ C136_statement := by
  intro h
  refine h Unit idEnv () ⟨1, 1, fun _ _ => 1⟩ smallData ⟨0, 0, ?_⟩ (C136_always_fails idEnv () ⟨1, 1, fun _ _ => 1⟩ smallData).2.2.1
  rfl

/-- a case in which the loop does find a smallest distance: the distance is `(lam - 1)^2`, cells with the smallest `mu` fail -/
example : ∃ run : ℝ → ℝ → Except PyErr Metrics, (∃ i j r, run (logGrid i) (logGrid j) = .ok r) ∧ ∃ i j e, run (logGrid i) (logGrid j) = .error e := by
  refine ⟨fun lam mu => if mu = logGrid 0 then .error .linAlg else .ok ⟨(lam - 1) ^ 2, [], 0, 0⟩, ⟨0, 1, ⟨_, _, _, _⟩, if_neg ?_⟩, ⟨0, 0, .linAlg, if_pos rfl⟩⟩
  exact fun h => absurd (logGrid_strictMono.injective h) (by decide)

/-! ### C137: cross-validation errors -/

/-- the mean of a list of errors that are numbers or `inf` -/
theorem flMean_eq (l : List (Fl ℝ)) (h : ∀ x ∈ l, x = .pinf ∨ ∃ z, x = .fin z) (hne : l ≠ []) :
    (.pinf ∈ l → flMean l = .pinf) ∧
    ∀ zs : List ℝ, l = zs.map .fin → flMean l = .fin (zs.sum / zs.length) := by
  have key : ∀ l : List (Fl ℝ), (∀ x ∈ l, x = .pinf ∨ ∃ z, x = .fin z) →
      (.pinf ∈ l → l.foldr Fl.add (.fin 0) = .pinf) ∧ (.pinf ∉ l → ∃ z, l.foldr Fl.add (.fin 0) = .fin z) := by
    intro l
    induction l with
    | nil => intro _; exact ⟨by simp, fun _ => ⟨0, rfl⟩⟩
    | cons a l ih =>
      intro h
      obtain ⟨h1, h2⟩ := ih fun x hx => h x (List.mem_cons_of_mem _ hx)
      rw [List.foldr_cons]
      rcases h a (by simp) with rfl | ⟨z, rfl⟩
      · refine ⟨fun _ => ?_, fun hn => absurd (by simp) hn⟩
        by_cases hp : Fl.pinf ∈ l
        · rw [h1 hp]; rfl
        · obtain ⟨z, hz⟩ := h2 hp
          rw [hz]; rfl
      · constructor
        · intro hm
          have hp : Fl.pinf ∈ l := by simpa using hm
          rw [h1 hp]; rfl
        · intro hm
          have hp : Fl.pinf ∉ l := fun h => hm (List.mem_cons_of_mem _ h)
          obtain ⟨z', hz⟩ := h2 hp
          exact ⟨z + z', by rw [hz]; rfl⟩
  unfold flMean
  rw [if_neg hne]
  refine ⟨fun hp => by rw [(key l h).1 hp]; rfl, ?_⟩
  rintro zs rfl
  have : ∀ zs : List ℝ, (zs.map Fl.fin).foldr Fl.add (.fin 0) = .fin zs.sum := by
    intro zs
    induction zs with
    | nil => rfl
    | cons z zs ih => rw [List.map_cons, List.foldr_cons, ih, List.sum_cons]; rfl
  rw [this, List.length_map]
  rfl

/-- the validation error of one fold: fit a new object to the first part with the penalties `lam`, `mu`, then validate on the second part; `none` if one
of the two raises -/
noncomputable def foldError (env : DevEnv G) (g : G) (method : String) (lam mu : ℝ) (f : AnyData × AnyData) : Option (Fl ℝ) :=
  match devFit env { onePureChild := true, g := g } f.1 method lam mu with
  | (_, .error _) => none
  | (st, .ok _) =>
    match if method = "mle" then validationMle env st lam mu f.2 else (validationLse env st lam mu f.2).map .fin with
    | .error _ => none
    | .ok v => some v

theorem foldStep_eq (env : DevEnv G) (g : G) (W : AnyMat) (method : String) (hm : method = "mle" ∨ method = "lse") (lam mu : ℝ) (s : FoldLists)
    (f : AnyData × AnyData) :
    foldStep env g W method lam mu s f = { s with val := s.val ++ (foldError env g method lam mu f).toList } := by
  have hno := devFit_noHats env (freshDev g) f.1 method lam mu ⟨rfl, rfl, rfl, rfl⟩
  have hv : ∀ st, calculateValidationError env st method f.2 lam mu =
      if method = "mle" then validationMle env st lam mu f.2 else (validationLse env st lam mu f.2).map .fin := by
    intro st
    unfold calculateValidationError
    rcases hm with rfl | rfl <;> simp
  unfold foldStep foldError
  rw [show ({ onePureChild := true, g := g } : DevState G) = freshDev g from rfl]
  rcases hd : devFit env (freshDev g) f.1 method lam mu with ⟨st, e | u⟩
  · simp
  · rw [hd] at hno
    dsimp only
    rw [hv st, calculateMetrics_noHats st hno]
    cases (if method = "mle" then validationMle env st lam mu f.2 else (validationLse env st lam mu f.2).map .fin) with
    | error e => simp
    | ok v => simp

theorem kfoldCell_eq (env : DevEnv G) (g : G) (W : AnyMat) (folds : List (AnyData × AnyData)) (method : String)
    (hm : method = "mle" ∨ method = "lse") (lam mu : ℝ) :
    kfoldCell env g W folds method lam mu = (flMean (folds.filterMap (foldError env g method lam mu)), .nan, .nan) := by
  have key : ∀ (folds : List (AnyData × AnyData)) (s : FoldLists), folds.foldl (foldStep env g W method lam mu) s =
      { s with val := s.val ++ folds.filterMap (foldError env g method lam mu) } := by
    intro folds
    induction folds with
    | nil => intro s; simp
    | cons f folds ih =>
      intro s
      rw [List.foldl_cons, ih, foldStep_eq env g W method hm]
      simp only [List.append_assoc]
      cases hf : foldError env g method lam mu f with
      | none => simp [hf]
      | some v => simp [hf]
  unfold kfoldCell
  rw [key]
  simp [flMean]

theorem gridSearchKfold_eq (env : DevEnv G) (g : G) (W : AnyMat) (folds : List (AnyData × AnyData)) (method : String) (i j : Fin 6) :
    gridSearchKfold env g W folds method i j = kfoldCell env g W folds method (logGrid i) (logGrid j) := by
  have hinj := logGrid_strictMono.injective
  unfold gridSearchKfold
  simp only [dictIdx_eq logGrid hinj]
  have key : ∀ (L : List (Fin 6 × Fin 6)) (T : Fin 6 → Fin 6 → Fl ℝ × Fl ℝ × Fl ℝ),
      ((i, j) ∈ L ∨ T i j = kfoldCell env g W folds method (logGrid i) (logGrid j)) →
      (L.foldl (fun T c => Function.update T c.1 (Function.update (T c.1) c.2 (kfoldCell env g W folds method (logGrid c.1) (logGrid c.2)))) T) i j =
        kfoldCell env g W folds method (logGrid i) (logGrid j) := by
    intro L
    induction L with
    | nil => intro T h; exact h.resolve_left (by simp)
    | cons c L ih =>
      intro T h
      rw [List.foldl_cons]
      refine ih _ ?_
      by_cases hc : c = (i, j)
      · right
        subst hc
        simp
      · rcases h with h | h
        · rcases List.mem_cons.mp h with h1 | h1
          · exact absurd h1.symm hc
          · exact Or.inl h1
        · right
          by_cases h1 : i = c.1
          · subst h1
            rw [Function.update_self, Function.update_of_ne, h]
            intro h2
            exact hc (Prod.ext rfl h2.symm)
          · rw [Function.update_of_ne h1, h]
  exact key _ _ (Or.inl (mem_gridCells _))

/-- **C137** the validation tables of `grid_search_kfold`: the entry for the penalties `lam`, `mu` is the average, over the folds on which fit and
validation both succeed, of the loss with these penalties on the held-out part of the model fitted to the other part: nan if there is no such
fold, `inf` if one of the losses is, and otherwise the mean -/
theorem C137_validation_table (env : DevEnv G) (g : G) (W : AnyMat) (folds : List (AnyData × AnyData)) (method : String)
    (hm : method = "mle" ∨ method = "lse") (i j : Fin 6) :
    let errors := folds.filterMap (foldError env g method (logGrid i) (logGrid j))
    (errors = [] → (gridSearchKfold env g W folds method i j).1 = .nan) ∧
    (.pinf ∈ errors → (gridSearchKfold env g W folds method i j).1 = .pinf) ∧
    ∀ zs : List ℝ, zs ≠ [] → errors = zs.map .fin → (gridSearchKfold env g W folds method i j).1 = .fin (zs.sum / zs.length) := by
  intro errors
  rw [gridSearchKfold_eq, kfoldCell_eq env g W folds method hm]
  have hval : ∀ x ∈ errors, x = .pinf ∨ ∃ z, x = .fin z := by
    intro x hx
    obtain ⟨f, -, hf⟩ := List.mem_filterMap.mp hx
    unfold foldError at hf
    split at hf
    · cases hf
    · split at hf
      · cases hf
      · rename_i st _ _ _ v hv
        cases hf
        split at hv
        · unfold validationMle at hv
          split at hv
          · cases hv
          · split at hv
            · unfold mleLoss at hv
              dsimp only at hv
              split at hv
              · cases hv
              · split at hv
                · cases hv; exact Or.inl rfl
                · cases hv; exact Or.inr ⟨_, rfl⟩
            · dsimp only at hv
              split at hv
              · cases hv
              · split at hv
                · cases hv; exact Or.inl rfl
                · split at hv
                  · cases hv; exact Or.inr ⟨_, rfl⟩
                  · cases hv
        · cases hl : validationLse env st (logGrid i) (logGrid j) f.2 with
          | error e => rw [hl] at hv; cases hv
          | ok z => rw [hl] at hv; cases hv; exact Or.inr ⟨z, rfl⟩
  refine ⟨fun h => ?_, fun h => ?_, fun zs hz h => ?_⟩
  · show flMean errors = .nan
    rw [h]
    simp [flMean]
  · exact (flMean_eq errors hval (List.ne_nil_of_mem h)).1 h
  · exact (flMean_eq errors hval (by rw [h]; simpa using hz)).2 zs h

/-- what the loss of a fold is, for least squares: if the fit returns, the error is that of the fitted weights and variances on the covariance matrix of
the held-out rows -/
theorem C137_lse_error (env : DevEnv G) (g : G) (lam mu : ℝ) (f : AnyData × AnyData) (hcols : f.2.cols = f.1.cols)
    (h : (devFit env { onePureChild := true, g := g } f.1 "lse" lam mu).2 = .ok ()) :
    ∃ e : DevEst, (devFit env { onePureChild := true, g := g } f.1 "lse" lam mu).1.est = some e ∧ ∃ hm : f.2.cols = e.meas,
      foldError env g "lse" lam mu f = some (.fin ((∑ a, ∑ b,
        (sampleCov (fun k => f.2.data.val k (a.cast hm.symm)) (fun k => f.2.data.val k (b.cast hm.symm)) - (∑ r, e.W r a * e.W r b) - e.D a b) ^ 2)
        + lam * env.nuc e.W + mu * ∑ r, ∑ b, |e.W r b|)) := by
  rcases hd : devFit env { onePureChild := true, g := g } f.1 "lse" lam mu with ⟨st, e | u⟩
  · rw [hd] at h; cases h
  have hd' := hd
  have hdf : devFit env { onePureChild := true, g := g } f.1 "lse" lam mu = fitLse env { onePureChild := true, g := g } f.1 lam mu := by
    unfold devFit; simp
  rw [hdf] at hd'
  unfold fitLse at hd'
  dsimp only at hd'
  split at hd'
  · cases hd'
  · rename_i x success hx
    injection hd' with h1 h2
    refine ⟨_, by rw [← h1], hcols, ?_⟩
    unfold foldError
    rw [hd]
    simp only [show ¬ ("lse" = "mle") by decide, if_false]
    unfold validationLse
    rw [← h1]
    simp only [hcols, dif_pos]
    unfold lseLoss
    rw [froNorm_sq]
    rfl

/-- what the loss of a fold is, for maximum likelihood: if the fit returns, the error is that of the fitted weights and variances on the covariance
matrix of the held-out rows; a model covariance without an inverse makes the fold fail, one with a negative determinant gives infinity -/
theorem C137_mle_error (env : DevEnv G) (g : G) (lam mu : ℝ) (f : AnyData × AnyData) (hcols : f.2.cols = f.1.cols)
    (h : (devFit env { onePureChild := true, g := g } f.1 "mle" lam mu).2 = .ok ()) :
    ∃ e : DevEst, (devFit env { onePureChild := true, g := g } f.1 "mle" lam mu).1.est = some e ∧ ∃ hm : f.2.cols = e.meas,
      ∀ Sigma : Matrix (Fin e.meas) (Fin e.meas) ℝ, (∀ a b, Sigma a b = (∑ r, e.W r a * e.W r b) + e.D a b) →
        (Sigma.det = 0 → foldError env g "mle" lam mu f = none) ∧
        (Sigma.det < 0 → foldError env g "mle" lam mu f = some .pinf) ∧
        (0 < Sigma.det → foldError env g "mle" lam mu f = some (.fin (
          (Matrix.of (fun (a b : Fin e.meas) => sampleCov (fun k => f.2.data.val k (a.cast hm.symm)) (fun k => f.2.data.val k (b.cast hm.symm))) * Sigma⁻¹).trace
          + Real.log Sigma.det + lam * env.nuc e.W + mu * ∑ r, ∑ b, |e.W r b|))) := by
  rcases hd : devFit env { onePureChild := true, g := g } f.1 "mle" lam mu with ⟨st, e | u⟩
  · rw [hd] at h; cases h
  have hd' := hd
  have hdf : devFit env { onePureChild := true, g := g } f.1 "mle" lam mu = fitMle env { onePureChild := true, g := g } f.1 lam mu := by
    unfold devFit; simp
  rw [hdf] at hd'
  unfold fitMle at hd'
  dsimp only at hd'
  split at hd'
  · cases hd'
  split at hd'
  · cases hd'
  · rename_i x success hx
    injection hd' with h1 h2
    refine ⟨_, by rw [← h1], hcols, ?_⟩
    intro Sigma hS
    unfold foldError
    rw [hd]
    simp only [if_true]
    unfold validationMle
    rw [← h1]
    simp only [hcols, dif_pos]
    have e : computeSigma (devW x) (Matrix.diagonal (devD x)) = Sigma := by
      rw [computeSigma_eq]
      funext a b
      rw [hS]
      simp [modelCov, Matrix.diagonal_apply]
    unfold mleLoss
    simp only [e]
    refine ⟨fun h0 => by rw [if_pos h0], fun h0 => ?_, fun h0 => ?_⟩
    · rw [if_neg h0.ne, if_pos]
      rw [Matrix.det_nonsing_inv, Ring.inverse_eq_inv']
      exact (inv_lt_zero.mpr h0).le
    · have hi : (Sigma⁻¹).det = (Sigma.det)⁻¹ := by rw [Matrix.det_nonsing_inv, Ring.inverse_eq_inv']
      have hp : 0 < (Sigma.det)⁻¹ := inv_pos.mpr h0
      rw [if_neg h0.ne', hi, if_neg (not_le.mpr hp), abs_of_pos hp, Real.log_inv]
      refine congrArg (fun z => some (Fl.fin z)) ?_
      show _ - _ + (_ + mu * sumAbs _) = _
      rw [sub_neg_eq_add, ← add_assoc]
      rfl

/-- the distance and SFD tables of `grid_search_kfold` are nan everywhere -/
theorem C136_kfold_always_fails (env : DevEnv G) (g : G) (W : AnyMat) (folds : List (AnyData × AnyData)) (method : String)
    (hm : method = "mle" ∨ method = "lse") (i j : Fin 6) : (gridSearchKfold env g W folds method i j).2 = (.nan, .nan) := by
  rw [gridSearchKfold_eq, kfoldCell_eq env g W folds method hm]

/-! ### C138: folds -/

theorem foldStart_succ (N k i : Nat) : foldStart N k (i + 1) = foldStart N k i + (N / k + if i < N % k then 1 else 0) := by
  unfold foldStart
  rw [Nat.add_mul, one_mul]
  rcases Nat.lt_or_ge i (N % k) with h | h
  · rw [if_pos h, show Nat.min (i + 1) (N % k) = i + 1 from Nat.min_eq_left h, show Nat.min i (N % k) = i from Nat.min_eq_left h.le]
    omega
  · rw [if_neg (by omega), show Nat.min (i + 1) (N % k) = N % k from Nat.min_eq_right (by omega),
      show Nat.min i (N % k) = N % k from Nat.min_eq_right h]
    omega

theorem foldStart_last (N k : Nat) (hk : 0 < k) : foldStart N k k = N := by
  unfold foldStart
  rw [show Nat.min k (N % k) = N % k from Nat.min_eq_right (Nat.mod_lt N hk).le]
  exact Nat.div_add_mod N k

theorem foldStart_mono (N k : Nat) : Monotone (foldStart N k) := monotone_nat_of_le_succ fun i => by rw [foldStart_succ]; exact Nat.le_add_right _ _

theorem mem_foldVal {N : Nat} (perm : Equiv.Perm (Fin N)) (k i : Nat) (r : Fin N) :
    r ∈ foldVal perm k i ↔ foldStart N k i ≤ (perm.symm r).val ∧ (perm.symm r).val < foldStart N k (i + 1) := by
  unfold foldVal
  simp

/-- **C138** the folds of the cross-validation, for every number `N` of rows, every `k` and every shuffle: each row is in exactly one of the `k` validation
parts; the training part of a fold contains exactly the other rows; no part contains a row twice; the validation parts have `N / k` rows, the first
`N % k` of them one more -/
theorem C138_folds {N : Nat} (perm : Equiv.Perm (Fin N)) (k : Nat) (hk : 0 < k) :
    (∀ r : Fin N, ∃! i, i < k ∧ r ∈ foldVal perm k i) ∧
    (∀ (i : Nat) (r : Fin N), r ∈ foldTrain perm k i ↔ r ∉ foldVal perm k i) ∧
    (∀ i, (foldVal perm k i).Nodup ∧ (foldTrain perm k i).Nodup) ∧
    ∀ i < k, (foldVal perm k i).length = N / k + (if i < N % k then 1 else 0) ∧
      (foldTrain perm k i).length + (foldVal perm k i).length = N := by
  refine ⟨fun r => ?_, fun i r => ?_, fun i => ⟨(List.nodup_finRange N).filter _, (List.nodup_finRange N).filter _⟩, fun i hi => ⟨?_, ?_⟩⟩
  · have key : ∀ k' p, p < foldStart N k k' → ∃ i < k', foldStart N k i ≤ p ∧ p < foldStart N k (i + 1) := by
      intro k'
      induction k' with
      | zero => intro p hp; simp [foldStart] at hp
      | succ k' ih =>
        intro p hp
        rcases Nat.lt_or_ge p (foldStart N k k') with h | h
        · obtain ⟨i, hi, h1⟩ := ih p h
          exact ⟨i, by omega, h1⟩
        · exact ⟨k', by omega, h, hp⟩
    obtain ⟨i, hi, h1⟩ := key k (perm.symm r).val (by rw [foldStart_last N k hk]; exact (perm.symm r).isLt)
    refine ⟨i, ⟨hi, (mem_foldVal perm k i r).mpr h1⟩, ?_⟩
    rintro i' ⟨-, h2⟩
    have h2 := (mem_foldVal perm k i' r).mp h2
    rcases lt_trichotomy i' i with h | h | h
    · have := foldStart_mono N k (show i' + 1 ≤ i from h)
      omega
    · exact h
    · have := foldStart_mono N k (show i + 1 ≤ i' from h)
      omega
  · unfold foldTrain foldVal
    simp only [List.mem_filter, List.mem_finRange, true_and, Bool.not_eq_true']
    simp
  · have h1 : (foldVal perm k i).length = ((univ : Finset (Fin N)).filter fun r =>
        foldStart N k i ≤ (perm.symm r).val ∧ (perm.symm r).val < foldStart N k (i + 1)).card := by
      rw [← List.toFinset_card_of_nodup (show (foldVal perm k i).Nodup from (List.nodup_finRange N).filter _)]
      congr 1
      ext r
      rw [List.mem_toFinset, mem_foldVal]
      simp
    have hle : foldStart N k (i + 1) ≤ N := by
      have := foldStart_mono N k (show i + 1 ≤ k from hi)
      rw [foldStart_last N k hk] at this
      exact this
    have h2 : ((univ : Finset (Fin N)).filter fun r =>
        foldStart N k i ≤ (perm.symm r).val ∧ (perm.symm r).val < foldStart N k (i + 1)).card =
        (Finset.Ico (foldStart N k i) (foldStart N k (i + 1))).card := by
      refine Finset.card_bij (fun r _ => (perm.symm r).val) (fun r hr => ?_) (fun r _ r' _ h => ?_) fun p hp => ?_
      · rw [Finset.mem_Ico]
        exact (mem_filter.mp hr).2
      · exact perm.symm.injective (Fin.ext h)
      · rw [Finset.mem_Ico] at hp
        exact ⟨perm ⟨p, by omega⟩, by simpa using hp, by simp⟩
    rw [h1, h2, Nat.card_Ico, foldStart_succ, Nat.add_sub_cancel_left]
  · have h1 : ∀ (p : Fin N → Bool) (l : List (Fin N)), (l.filter fun r => !p r).length + (l.filter p).length = l.length := by
      intro p l
      induction l with
      | nil => rfl
      | cons a l ih => cases h : p a <;> simp [h] <;> omega
    unfold foldTrain foldVal
    rw [h1, List.length_finRange]

/-- **C138** with at least two folds and at least two rows per validation part, the split gives `k` pairs of datasets: the rows of the data, in their
order, at the positions of the two parts -/
theorem C138_split (d : AnyData) (perm : Equiv.Perm (Fin d.data.size)) (k : Nat) (hk : 2 ≤ k) (hN : 2 * k ≤ d.data.size) :
    (kfoldSplit d perm k).length = k ∧ ∀ i < k, ∃ (ht : 2 ≤ (foldTrain perm k i).length) (hv : 2 ≤ (foldVal perm k i).length),
      (kfoldSplit d perm k)[i]? = some (some (⟨d.cols, ⟨_, ht, fun a b => d.data.val ((foldTrain perm k i).get a) b⟩⟩,
        ⟨d.cols, ⟨_, hv, fun a b => d.data.val ((foldVal perm k i).get a) b⟩⟩)) := by
  have hlen : (kfoldSplit d perm k).length = k := by simp [kfoldSplit]
  refine ⟨hlen, fun i hi => ?_⟩
  obtain ⟨-, -, -, h⟩ := C138_folds perm k (by omega)
  obtain ⟨h1, h2⟩ := h i hi
  have hdiv : 2 ≤ d.data.size / k := (Nat.le_div_iff_mul_le (by omega)).mpr hN
  have hmul : k * (d.data.size / k) ≤ d.data.size := Nat.mul_div_le _ _
  have h2d : 2 * (d.data.size / k) ≤ k * (d.data.size / k) := Nat.mul_le_mul_right _ hk
  have hmod : d.data.size = k * (d.data.size / k) + d.data.size % k := (Nat.div_add_mod _ _).symm
  generalize d.data.size / k = q at *
  have hv : 2 ≤ (foldVal perm k i).length := by omega
  have ht : 2 ≤ (foldTrain perm k i).length := by split at h1 <;> omega
  refine ⟨ht, hv, ?_⟩
  unfold kfoldSplit
  rw [List.getElem?_map, List.getElem?_range hi, Option.map_some]
  unfold foldRows
  rw [dif_pos ht, dif_pos hv]
  rfl

example : ∃ (d : AnyData) (_ : Equiv.Perm (Fin d.data.size)), 2 * 5 ≤ d.data.size :=
  ⟨⟨1, ⟨10, by omega, fun _ _ => 0⟩⟩, Equiv.refl _, le_refl _⟩

end Medil

import Verif.Model.ParamText
import Mathlib.Data.List.Dedup
import Mathlib.Data.List.Nodup
import Mathlib.Data.List.Induction
/-
  C239: what `str(parameters)` shows.
-/
namespace Medil
variable {V : Type}

/-- the value last assigned to the attribute in the history, or `x` -/
def lastValue (h : List (String × V)) (k : String) (x : V) : V := ((h.filter fun e => e.1 = k).map (·.2)).getLastD x

theorem lastValue_cons (e : String × V) (h : List (String × V)) (k : String) (x : V) :
    lastValue (e :: h) k x = lastValue h k (if e.1 = k then e.2 else x) := by
  unfold lastValue
  by_cases he : e.1 = k
  · rw [List.filter_cons_of_pos (by simpa using he), List.map_cons, List.getLastD_cons, if_pos he]
  · rw [List.filter_cons_of_neg (by simpa using he), if_neg he]

theorem sets_cons (d : PyAttrs V) (e : String × V) (h : List (String × V)) : d.sets (e :: h) = (d.set e.1 e.2).sets h := rfl

/-- **C239** For every history of assignments to the three parameters of a `GaussianMCM` (by fits, complete or not, or by the user) the text has
four entries in a fixed order, with the values last assigned. -/
theorem C239_gaussian (shw : V → String) (name empty net : V) (h : List (String × V))
    (hh : ∀ e ∈ h, e.1 = "error_means" ∨ e.1 = "error_variances" ∨ e.1 = "biadj_weights") :
    parametersStr shw ((parametersInit "Gaussian" name empty net).sets h) =
      "parameters.parameterization: " ++ shw name ++
      "\nparameters.error_means: " ++ shw (lastValue h "error_means" empty) ++
      "\nparameters.error_variances: " ++ shw (lastValue h "error_variances" empty) ++
      "\nparameters.biadj_weights: " ++ shw (lastValue h "biadj_weights" empty) := by
  have main : ∀ (h : List (String × V)), (∀ e ∈ h, e.1 = "error_means" ∨ e.1 = "error_variances" ∨ e.1 = "biadj_weights") → ∀ a b c : V,
      PyAttrs.sets [("parameterization", name), ("error_means", a), ("error_variances", b), ("biadj_weights", c)] h =
      [("parameterization", name), ("error_means", lastValue h "error_means" a), ("error_variances", lastValue h "error_variances" b),
        ("biadj_weights", lastValue h "biadj_weights" c)] := by
    intro h
    induction h with
    | nil => intro _ a b c; rfl
    | cons e h ih =>
      intro hh a b c
      have hh' := fun x hx => hh x (List.mem_cons_of_mem e hx)
      simp only [lastValue_cons]
      rw [sets_cons, ← ih hh']
      congr 1
      obtain ⟨k, v⟩ := e
      rcases hh (k, v) (by simp) with rfl | rfl | rfl <;> simp [PyAttrs.set]
  have hi : parametersInit "Gaussian" name empty net = [("parameterization", name), ("error_means", empty), ("error_variances", empty), ("biadj_weights", empty)] := by
    simp [parametersInit, PyAttrs.sets, PyAttrs.set]
  rw [hi, main h hh]
  refine String.toList_inj.mp ?_
  simp [parametersStr]

/-- **C239** After a complete fit, whatever was assigned to the three parameters before, the text shows the parameters of this fit. -/
theorem C239_fit (shw : V → String) (name empty net m v w : V) (h : List (String × V))
    (hh : ∀ e ∈ h, e.1 = "error_means" ∨ e.1 = "error_variances" ∨ e.1 = "biadj_weights") :
    parametersStr shw ((parametersInit "Gaussian" name empty net).sets (h ++ gaussianFitSets m v w)) =
      "parameters.parameterization: " ++ shw name ++ "\nparameters.error_means: " ++ shw m ++ "\nparameters.error_variances: " ++ shw v ++
      "\nparameters.biadj_weights: " ++ shw w := by
  rw [C239_gaussian shw name empty net _ fun e he => by
    rcases List.mem_append.mp he with he | he
    · exact hh e he
    · simp only [gaussianFitSets, List.mem_cons, List.not_mem_nil, or_false] at he
      rcases he with rfl | rfl | rfl <;> simp]
  simp [lastValue, gaussianFitSets]

/-- **C239** The same for `NeuroCausalFactorAnalysis`. -/
theorem C239_ncfa (shw : V → String) (name empty net w n : V) (fits : List (V × V)) :
    parametersStr shw ((parametersInit "VAE" name empty net).sets ((fits.flatMap fun f => ncfaFitSets f.1 f.2) ++ ncfaFitSets w n)) =
      "parameters.parameterization: " ++ shw name ++ "\nparameters.weights: " ++ shw w ++ "\nparameters.vae: " ++ shw n := by
  have hi : parametersInit "VAE" name empty net = [("parameterization", name), ("weights", empty), ("vae", net)] := by
    simp [parametersInit, PyAttrs.sets, PyAttrs.set]
  have main : ∀ (fits : List (V × V)) (a b : V), ∃ a' b', PyAttrs.sets [("parameterization", name), ("weights", a), ("vae", b)]
      (fits.flatMap fun f => ncfaFitSets f.1 f.2) = [("parameterization", name), ("weights", a'), ("vae", b')] := by
    intro fits
    induction fits with
    | nil => intro a b; exact ⟨a, b, rfl⟩
    | cons f fits ih =>
      intro a b
      obtain ⟨a', b', h⟩ := ih f.1 f.2
      refine ⟨a', b', ?_⟩
      rw [← h]
      simp [PyAttrs.sets, PyAttrs.set, ncfaFitSets]
  obtain ⟨a, b, h⟩ := main fits empty net
  have e : (parametersInit "VAE" name empty net).sets ((fits.flatMap fun f => ncfaFitSets f.1 f.2) ++ ncfaFitSets w n) =
      [("parameterization", name), ("weights", w), ("vae", n)] := by
    unfold PyAttrs.sets at h ⊢
    rw [List.foldl_append, hi, h]
    simp [PyAttrs.set, ncfaFitSets]
  rw [e]
  refine String.toList_inj.mp ?_
  simp [parametersStr]

/-- **C239** For every history of assignments, of any attributes: the attributes come in the order in which they were first assigned, each once,
with the value last assigned (or the old one). -/
theorem C239_attributes (d : PyAttrs V) (hd : (d.map (·.1)).Nodup) (h : List (String × V)) :
    (d.sets h).map (·.1) = ((d.map (·.1) ++ h.map (·.1)).reverse.dedup).reverse ∧
    ∀ k v, (k, v) ∈ d.sets h ↔ (k ∈ h.map (·.1) ∧ ∀ x, v = lastValue h k x) ∨ (k ∉ h.map (·.1) ∧ (k, v) ∈ d) := by
  induction h using List.reverseRecOn with
  | nil =>
    refine ⟨?_, fun k v => by simp [PyAttrs.sets]⟩
    rw [List.map_nil, List.append_nil, List.dedup_eq_self.mpr (List.nodup_reverse.mpr hd), List.reverse_reverse]
    rfl
  | append_singleton h e ih =>
    obtain ⟨ih1, ih2⟩ := ih
    obtain ⟨k', v'⟩ := e
    have es : d.sets (h ++ [(k', v')]) = (d.sets h).set k' v' := by unfold PyAttrs.sets; rw [List.foldl_append]; rfl
    have hmem : k' ∈ (d.sets h).map (·.1) ↔ k' ∈ (d.map (·.1) ++ h.map (·.1)).reverse := by
      rw [ih1, List.mem_reverse, List.mem_dedup]
    have hl : ∀ k x, lastValue (h ++ [(k', v')]) k x = if k' = k then v' else lastValue h k x := by
      intro k x
      unfold lastValue
      by_cases hk : k' = k <;> simp [List.filter_append, hk]
    rw [es]
    constructor
    · have e1 : (d.map (·.1) ++ (h ++ [(k', v')]).map (·.1)).reverse = k' :: (d.map (·.1) ++ h.map (·.1)).reverse := by simp
      rw [e1]
      unfold PyAttrs.set
      split_ifs with hk
      · rw [List.dedup_cons_of_mem (hmem.mp hk), ← ih1, List.map_map]
        refine List.map_congr_left fun e _ => ?_
        by_cases he : e.1 = k' <;> simp [he]
      · rw [List.dedup_cons_of_notMem (fun hc => hk (hmem.mpr hc)), List.reverse_cons, ← ih1]
        simp
    · intro k v
      have hs : (k, v) ∈ (d.sets h).set k' v' ↔ (k = k' ∧ v = v') ∨ (k ≠ k' ∧ (k, v) ∈ d.sets h) := by
        unfold PyAttrs.set
        split_ifs with hk
        · rw [List.mem_map]
          constructor
          · rintro ⟨e, he, h1⟩
            by_cases hek : e.1 = k'
            · rw [if_pos hek] at h1
              simp only [Prod.mk.injEq] at h1
              exact Or.inl ⟨h1.1.symm, h1.2.symm⟩
            · rw [if_neg hek] at h1
              subst h1
              exact Or.inr ⟨hek, he⟩
          · rintro (⟨rfl, rfl⟩ | ⟨h1, h2⟩)
            · obtain ⟨e, he, hek⟩ := List.mem_map.mp hk
              exact ⟨e, he, by rw [if_pos hek]⟩
            · exact ⟨(k, v), h2, by rw [if_neg h1]⟩
        · rw [List.mem_append, List.mem_singleton]
          constructor
          · rintro (h1 | h1)
            · refine Or.inr ⟨fun hc => hk ?_, h1⟩
              rw [← hc]
              exact List.mem_map.mpr ⟨(k, v), h1, rfl⟩
            · simp only [Prod.mk.injEq] at h1
              exact Or.inl h1
          · rintro (⟨rfl, rfl⟩ | ⟨h1, h2⟩)
            · exact Or.inr rfl
            · exact Or.inl h2
      rw [hs, ih2]
      simp only [hl]
      by_cases hk : k = k'
      · subst hk
        simp only [ne_eq, not_true_eq_false, true_and, false_and, or_false, if_true, List.map_append, List.map_cons, List.map_nil, List.mem_append, List.mem_singleton, or_true]
        exact ⟨fun h _ => h, fun h => h v⟩
      · have hk' : ¬ k' = k := fun h => hk h.symm
        simp [hk, hk']

/-- a case: a fit that stops after its first assignment, with an attribute set by the user -/
theorem C239_example : parametersStr id ((parametersInit "Gaussian" "Gaussian" "[]" "").sets
    (gaussianFitSets "[0.]" "[1.]" "[[2.]]" ++ [("note", "mine"), ("error_means", "[3.]")])) =
      "parameters.parameterization: Gaussian\nparameters.error_means: [3.]\nparameters.error_variances: [1.]\nparameters.biadj_weights: [[2.]]\nparameters.note: mine" := by
  decide +kernel

end Medil

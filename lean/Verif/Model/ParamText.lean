import Mathlib.Data.List.Basic
/-
  Model of the attributes of `Parameters` and of `str(parameters)` (medil/models.py:48-66).
-/
namespace Medil
variable {V : Type}

/-- the attributes of a Python object in the order of `vars(self).items()` (models.py:65): names with values -/
abbrev PyAttrs (V : Type) := List (String × V)

/-- `obj.k = v`: a new attribute comes last, an existing one keeps its place -/
def PyAttrs.set (d : PyAttrs V) (k : String) (v : V) : PyAttrs V :=
  if k ∈ d.map (·.1) then d.map fun e => if e.1 = k then (k, v) else e else d ++ [(k, v)]

/-- assignments one after the other -/
def PyAttrs.sets (d : PyAttrs V) (h : List (String × V)) : PyAttrs V := h.foldl (fun d e => d.set e.1 e.2) d

/-- `Parameters(parameterization)` (models.py:51-61); `name` is the string, `empty` the value `np.array([])`, `net` the empty network -/
def parametersInit (parameterization : String) (name empty net : V) : PyAttrs V :=
  let d := PyAttrs.set [] "parameterization" name
  if parameterization = "Gaussian" then
    PyAttrs.sets d [("error_means", empty), ("error_variances", empty), ("biadj_weights", empty)]
  else if parameterization = "VAE" then PyAttrs.sets d [("weights", empty), ("vae", net)]
  else d

/-- `str(parameters)` (models.py:63-66); `shw` is what a value is formatted as -/
def parametersStr (shw : V → String) (d : PyAttrs V) : String :=
  "\n".intercalate (d.map fun e => "parameters." ++ e.1 ++ ": " ++ shw e.2)

/-- the assignments of a call of `GaussianMCM.fit` that gets to its end (models.py:83, 105, 107): the array of the weights is filled in place
afterwards (108), `w` is the filled one -/
def gaussianFitSets (m v w : V) : List (String × V) := [("error_means", m), ("error_variances", v), ("biadj_weights", w)]

/-- those of `NeuroCausalFactorAnalysis.fit` (models.py:215, 218) -/
def ncfaFitSets (w net : V) : List (String × V) := [("weights", w), ("vae", net)]

end Medil

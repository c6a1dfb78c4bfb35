import Verif.Model.Indep
/-
  `estimate_UDG` (medil/independence_testing.py:46-75) with the critical value as scipy computes it for every significance level:
  `chi2(1).ppf` may return infinity and nan.  `Verif/Model/Indep.lean` has a finite critical value.
-/
namespace Medil
variable {K : Type} [Field K] [LinearOrder K] {N M : Nat}

/-- `a >= b` for floats (false if one of them is nan) -/
def Fl.geFl : Fl K → Fl K → Bool
  | .nan, _ => false
  | _, .nan => false
  | .pinf, _ => true
  | _, .ninf => true
  | .fin x, .fin y => decide (y ≤ x)
  | _, _ => false

/-- `estimate_UDG(sample, "dcov_fast", level)` (independence_testing.py:52-57, 74-75); `ppf` is `chi2(1).ppf` (line 54) -/
def dcovFastAt (ppf : K → Fl K) (s : Fin N → Fin M → K) (level : K) : Fin M → Fin M → Bool :=
  clearDiag fun i j => (Fl.div (N * (dcov s).1 i j) ((dcov s).2 i * (dcov s).2 j)).geFl (ppf (1 - level))

/-- `estimate_UDG(sample, method, level)` (independence_testing.py:46-75) for every level: the other methods compare p-values with the
level (`estimateUDG`), which does not use the critical value -/
def estimateUDGAt (ppf : K → Fl K) (lib : TestLib K N) (s : Fin N → Fin M → K) (method : Method K M) (level : K) :
    Except PyErr ((Fin M → Fin M → Bool) × Option (Fin M → Fin M → Fl K)) :=
  match method with
  | .pvals p => estimateUDG lib s (.pvals p) level
  | .name m => if m = "dcov_fast" then .ok (dcovFastAt ppf s level, none) else estimateUDG lib s (.name m) level

end Medil

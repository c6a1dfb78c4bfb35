import Verif.Model.Indep
/-
  `estimate_UDG(sample, p_vals, level)` (medil/independence_testing.py:46-51, 74-75) for an array of p-values of any shape, with numpy's
  `fill_diagonal` as it works on the flat array.
-/
namespace Medil

/-- a numpy array: its shape, and its entries in C order (entry `t` for `t <` the product of the shape) -/
structure NdArr (α : Type) where
  shape : List Nat
  data : Nat → α

/-- `np.cumprod(l).sum()`, with the product `p` so far -/
def cumprodSum (p : Nat) : List Nat → Nat
  | [] => 0
  | d :: ds => p * d + cumprodSum (p * d) ds

/-- `np.fill_diagonal(a, False)` (independence_testing.py:74; numpy): `a.flat[:end:step] = False`, with `step = a.shape[1] + 1` and
`end = a.shape[1] ** 2` in two dimensions, and `step = 1 + np.cumprod(a.shape[:-1]).sum()` in more, where the shape must be constant -/
def fillDiagonal (a : NdArr Bool) : Except PyErr (NdArr Bool) :=
  match a.shape with
  | [] => .error .valueError
  | [_] => .error .valueError
  | [_, c] => .ok { a with data := fun t => if t < c * c ∧ t % (c + 1) = 0 then false else a.data t }
  | d :: ds =>
    if ds.all (· == d) then
      .ok { a with data := fun t => if t % (1 + cumprodSum 1 (d :: ds).dropLast) = 0 then false else a.data t }
    else .error .valueError

variable {K : Type} [LinearOrder K]

/-- `estimate_UDG(sample, p_vals, level)` for a sample with shape `sampleShape` (independence_testing.py:47 unpacks two numbers): the graph;
the second result is `p_vals` itself -/
def estimateUDGPvals (sampleShape : List Nat) (p : NdArr (Fl K)) (level : K) : Except PyErr (NdArr Bool × NdArr (Fl K)) :=
  match sampleShape with
  | [_, _] =>
    match fillDiagonal ⟨p.shape, fun t => (p.data t).lt level⟩ with
    | .ok u => .ok (u, p)
    | .error e => .error e
  | _ => .error .valueError

end Medil

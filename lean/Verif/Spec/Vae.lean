import Verif.Model.Vae
/-
  Vocabulary for the properties of the network.  The properties speak about the weights of the layers, the results
  of the two parts of the network, and the tensors that can be found from the Python objects.
-/
namespace Medil

/-- the tensor `p` is an `nn.Parameter` that can be found from an object by going through attributes and dict
entries any number of times -/
inductive Stored : PyObj → ParamId → Prop
  | self (p : ParamId) : Stored (.param p) p
  | attr {attrs : List (String × PyObj)} {a : String × PyObj} {p : ParamId} :
      a ∈ attrs → Stored a.2 p → Stored (.module attrs) p
  | item {items : List (Nat × PyObj)} {a : Nat × PyObj} {p : ParamId} :
      a ∈ items → Stored a.2 p → Stored (.dict items) p

/-- the tensor belongs to one of the hidden layers of the decoder -/
def ParamId.hidden : ParamId → Bool
  | .weight (.meanHidden _) | .weight (.covHidden _) | .bias (.meanHidden _) | .bias (.covHidden _) => true
  | _ => false

/-- the hidden unit `k` belongs to measurement `j` (there are `w` units for every measurement) -/
def InBlock (w : Nat) (j k : Nat) : Prop := j * w ≤ k ∧ k < (j + 1) * w

end Medil

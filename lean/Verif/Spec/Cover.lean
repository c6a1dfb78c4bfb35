import Verif.Spec
/-
  Vocabulary for the recovery property C96: latents that are witnessed by private pairs of
  measurements.  Only dependence graphs and structures are mentioned, no function of the model.
-/
namespace Medil
variable {n : Nat}

/-- two different children `u`, `v` of the latent `r` whose common (closed) neighbours in the
dependence graph are all children of `r`: the edge `u - v` lies in one maximal clique only -/
def PrivatePair (A : BMat n) (r : BVec n) (u v : Fin n) : Prop :=
  u ≠ v ∧ r u = true ∧ r v = true ∧ ∀ w, A u w = true → A v w = true → r w = true

/-- no two latents have the same children, no latent is childless, and every child of a latent is
an endpoint of a private pair of this latent or independent of all other measurements -/
def PrivatelyWitnessed (A : BMat n) (B : List (BVec n)) : Prop :=
  (B.map children).Nodup ∧ (∀ r ∈ B, ∃ v, r v = true) ∧
  ∀ r ∈ B, ∀ v, r v = true → (∃ u, PrivatePair A r u v) ∨ ∀ w, A v w = true → w = v

instance (A : BMat n) (r : BVec n) (u v : Fin n) : Decidable (PrivatePair A r u v) :=
  inferInstanceAs (Decidable (_ ∧ _))

instance (A : BMat n) (B : List (BVec n)) : Decidable (PrivatelyWitnessed A B) :=
  inferInstanceAs (Decidable (_ ∧ _))

end Medil

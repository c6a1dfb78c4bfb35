import Verif.Spec
import Mathlib.Data.Finset.Prod
import Mathlib.Data.Fintype.Card
import Mathlib.Data.Finset.Max
import Mathlib.Data.Finset.Powerset
import Mathlib.Tactic.Ring
import Mathlib.Tactic.Linarith
import Mathlib.Tactic.Push
/-
  Two classical bounds on the number of cliques in a cover, for the property theorem C100:
  at most `n^2/4` (Erdős, Goodman, Pósa) and at most `p + s` with `s (s-1) ≤ p`, where `p` is the number of
  non-adjacent pairs (Lovász).
-/
namespace Medil
variable {n : Nat}

/-- the list `L` of cliques covers the vertices and the edges inside `S` -/
structure CovIn (A : BMat n) (S : Finset (Fin n)) (L : List (Finset (Fin n))) : Prop where
  cliques : ∀ K ∈ L, IsClique A K
  edges : ∀ i ∈ S, ∀ j ∈ S, Adj A i j → ∃ K ∈ L, i ∈ K ∧ j ∈ K

theorem CovIn.toCover {A : BMat n} {L : List (Finset (Fin n))} (h : CovIn A Finset.univ L)
    (hV : ∀ v, ∃ K ∈ L, v ∈ K) : IsCover A (L.map fun K => BVec.of fun j => decide (j ∈ K)) := by
  have hch : ∀ K : Finset (Fin n), children (BVec.of fun j => decide (j ∈ K)) = K := by
    intro K; ext x; simp
  refine ⟨?_, ?_, ?_⟩
  · intro r hr
    obtain ⟨K, hK, rfl⟩ := List.mem_map.mp hr
    rw [hch]; exact h.cliques K hK
  · intro i j hij
    obtain ⟨K, hK, h1, h2⟩ := h.edges i (by simp) j (by simp) hij
    exact ⟨_, List.mem_map_of_mem hK, by simpa using h1, by simpa using h2⟩
  · intro v
    obtain ⟨K, hK, h1⟩ := hV v
    exact ⟨_, List.mem_map_of_mem hK, by simpa using h1⟩

theorem adj_comm {A : BMat n} (hA : Symm A) {i j : Fin n} (h : Adj A i j) : Adj A j i :=
  ⟨by rw [hA]; exact h.1, h.2.symm⟩

/-- `w` together with its neighbours in the clique `K` -/
def starIn (A : BMat n) (K : Finset (Fin n)) (w : Fin n) : Finset (Fin n) :=
  insert w (K.filter fun v => Adj A w v)

theorem starIn_clique {A : BMat n} (hA : Symm A) {K : Finset (Fin n)} (hK : IsClique A K) (w : Fin n) :
    IsClique A (starIn A K w) := by
  intro i hi j hj hij
  simp only [starIn, Finset.mem_insert, Finset.mem_filter] at hi hj
  rcases hi with rfl | ⟨hi, hi'⟩
  · rcases hj with rfl | ⟨_, hj'⟩
    · exact absurd rfl hij
    · exact hj'
  · rcases hj with rfl | ⟨hj, _⟩
    · exact adj_comm hA hi'
    · exact hK i hi j hj hij

theorem pair_clique {A : BMat n} (hA : Symm A) {u v : Fin n} (h : Adj A u v) :
    IsClique A ({u, v} : Finset (Fin n)) := by
  intro i hi j hj hij
  simp only [Finset.mem_insert, Finset.mem_singleton] at hi hj
  rcases hi with rfl | rfl <;> rcases hj with rfl | rfl
  · exact absurd rfl hij
  · exact h
  · exact adj_comm hA h
  · exact absurd rfl hij

/-- a cover of what remains after removing a clique `K`, and the star of every remaining vertex into
`K`, and `K` itself -/
theorem CovIn.step {A : BMat n} (hA : Symm A) {S K : Finset (Fin n)} (hK : IsClique A K)
    {L : List (Finset (Fin n))} (hL : CovIn A (S \ K) L) :
    CovIn A S (K :: ((S \ K).toList.map (starIn A K) ++ L)) := by
  constructor
  · intro C hC
    simp only [List.mem_cons, List.mem_append, List.mem_map, Finset.mem_toList] at hC
    rcases hC with rfl | ⟨w, _, rfl⟩ | hC
    · exact hK
    · exact starIn_clique hA hK w
    · exact hL.cliques C hC
  · have key : ∀ i ∈ S, ∀ j ∈ S, i ∉ K → Adj A i j →
        ∃ C ∈ K :: ((S \ K).toList.map (starIn A K) ++ L), i ∈ C ∧ j ∈ C := by
      intro i hi j hj hiK hij
      by_cases hjK : j ∈ K
      · refine ⟨starIn A K i, ?_, by simp [starIn], by simp [starIn, hjK, hij]⟩
        simp only [List.mem_cons, List.mem_append, List.mem_map, Finset.mem_toList]
        exact Or.inr (Or.inl ⟨i, by simp [hi, hiK], rfl⟩)
      · obtain ⟨C, hC, h1, h2⟩ := hL.edges i (by simp [hi, hiK]) j (by simp [hj, hjK]) hij
        exact ⟨C, by simp [hC], h1, h2⟩
    intro i hi j hj hij
    by_cases hiK : i ∈ K
    · by_cases hjK : j ∈ K
      · exact ⟨K, by simp, hiK, hjK⟩
      · obtain ⟨C, hC, h1, h2⟩ := key j hj i hi hjK (adj_comm hA hij)
        exact ⟨C, hC, h2, h1⟩
    · exact key i hi j hj hiK hij

theorem step_verts {A : BMat n} {S K : Finset (Fin n)} {L : List (Finset (Fin n))} (v : Fin n) (hv : v ∈ S) :
    ∃ C ∈ K :: ((S \ K).toList.map (starIn A K) ++ L), v ∈ C := by
  by_cases h : v ∈ K
  · exact ⟨K, by simp, h⟩
  · refine ⟨starIn A K v, ?_, by simp [starIn]⟩
    simp only [List.mem_cons, List.mem_append, List.mem_map, Finset.mem_toList]
    exact Or.inr (Or.inl ⟨v, by simp [hv, h], rfl⟩)

/-- Erdős, Goodman, Pósa: the edges inside `S` are covered by at most `|S|^2/4` cliques -/
theorem egp_edges {A : BMat n} (hA : Symm A) :
    ∀ m (S : Finset (Fin n)), S.card = m → ∃ L, CovIn A S L ∧ 4 * L.length ≤ m ^ 2 := by
  intro m
  induction m using Nat.strong_induction_on with
  | _ m ih =>
    intro S hS
    by_cases hE : ∃ u ∈ S, ∃ v ∈ S, Adj A u v
    · obtain ⟨u, hu, v, hv, huv⟩ := hE
      have hsub : ({u, v} : Finset (Fin n)) ⊆ S := by
        intro x hx
        simp only [Finset.mem_insert, Finset.mem_singleton] at hx
        rcases hx with rfl | rfl <;> assumption
      have hc2 : ({u, v} : Finset (Fin n)).card = 2 := Finset.card_pair huv.2
      have hc := Finset.card_sdiff_of_subset hsub
      have hle := Finset.card_le_card hsub
      obtain ⟨L, hL, hlen⟩ := ih (m - 2) (by omega) (S \ {u, v}) (by omega)
      refine ⟨_, hL.step hA (pair_clique hA huv), ?_⟩
      simp only [List.length_cons, List.length_append, List.length_map, Finset.length_toList]
      obtain ⟨k, rfl⟩ : ∃ k, m = k + 2 := ⟨m - 2, by omega⟩
      have : (S \ {u, v}).card = k := by omega
      rw [this]
      simp only [Nat.add_sub_cancel] at hlen
      nlinarith
    · exact ⟨[], ⟨by simp, fun i hi j hj hij => (hE ⟨i, hi, j, hj, hij⟩).elim⟩, by simp⟩

/-- Erdős, Goodman, Pósa, vertices included: a graph with an edge has a cover with at most `n^2/4`
cliques -/
theorem egp_cover {A : BMat n} (hA : Symm A) (hE : ∃ i j, Adj A i j) :
    ∃ C, IsCover A C ∧ C.length ≤ n ^ 2 / 4 := by
  obtain ⟨u, v, huv⟩ := hE
  have hc2 : ({u, v} : Finset (Fin n)).card = 2 := Finset.card_pair huv.2
  have hc := Finset.card_sdiff_of_subset (Finset.subset_univ ({u, v} : Finset (Fin n)))
  have hle := Finset.card_le_card (Finset.subset_univ ({u, v} : Finset (Fin n)))
  rw [Finset.card_univ, Fintype.card_fin] at hc hle
  obtain ⟨L, hL, hlen⟩ := egp_edges hA (n - 2) (Finset.univ \ {u, v}) (by omega)
  refine ⟨_, (hL.step hA (pair_clique hA huv)).toCover fun w => step_verts w (by simp), ?_⟩
  simp only [List.length_cons, List.length_append, List.length_map, Finset.length_toList]
  rw [hc, hc2, Nat.le_div_iff_mul_le (by norm_num)]
  obtain ⟨k, rfl⟩ : ∃ k, n = k + 2 := ⟨n - 2, by omega⟩
  simp only [Nat.add_sub_cancel] at hlen ⊢
  nlinarith

/-! ### Lovász -/

/-- the non-adjacent pairs inside `S` -/
def nonPairs (A : BMat n) (S : Finset (Fin n)) : Finset (Fin n × Fin n) :=
  (S ×ˢ S).filter fun e => e.1 < e.2 ∧ ¬ Adj A e.1 e.2

/-- a clique inside `S` that no vertex of `S` extends -/
def MaxIn (A : BMat n) (S K : Finset (Fin n)) : Prop :=
  K ⊆ S ∧ IsClique A K ∧ ∀ v ∈ S, v ∉ K → ∃ u ∈ K, ¬ Adj A v u

theorem exists_maxIn {A : BMat n} (hA : Symm A) {S K : Finset (Fin n)} (hKS : K ⊆ S) (hK : IsClique A K) :
    ∃ K', K ⊆ K' ∧ MaxIn A S K' := by
  classical
  obtain ⟨K', hK', hmax⟩ := Finset.exists_max_image
    (S.powerset.filter fun K' => K ⊆ K' ∧ IsClique A K') Finset.card ⟨K, by simp [hKS, hK]⟩
  simp only [Finset.mem_filter, Finset.mem_powerset] at hK' hmax
  refine ⟨K', hK'.2.1, hK'.1, hK'.2.2, ?_⟩
  intro v hv hvK
  by_contra hno
  push Not at hno
  have := hmax (insert v K') ⟨Finset.insert_subset hv hK'.1, fun x hx => by simp [hK'.2.1 hx], ?_⟩
  · rw [Finset.card_insert_of_notMem hvK] at this; omega
  · intro i hi j hj hij
    simp only [Finset.mem_insert] at hi hj
    rcases hi with rfl | hi <;> rcases hj with rfl | hj
    · exact absurd rfl hij
    · exact hno j hj
    · exact adj_comm hA (hno i hi)
    · exact hK'.2.2 i hi j hj hij

/-- every vertex outside the clique contributes its own non-adjacent pair -/
theorem nonPairs_step {A : BMat n} (hA : Symm A) {S K : Finset (Fin n)} (hK : MaxIn A S K) :
    (nonPairs A (S \ K)).card + (S \ K).card ≤ (nonPairs A S).card := by
  classical
  have hex : ∀ v : Fin n, ∃ u, v ∈ S \ K → u ∈ K ∧ ¬ Adj A v u := by
    intro v
    by_cases hv : v ∈ S \ K
    · obtain ⟨h1, h2⟩ := Finset.mem_sdiff.mp hv
      obtain ⟨u, hu, h⟩ := hK.2.2 v h1 h2
      exact ⟨u, fun _ => ⟨hu, h⟩⟩
    · exact ⟨v, fun h => (hv h).elim⟩
  choose f hf using hex
  let g : Fin n → Fin n × Fin n := fun v => if v < f v then (v, f v) else (f v, v)
  have hg : ∀ v ∈ S \ K, g v ∈ nonPairs A S ∧ ((v = (g v).1 ∧ f v = (g v).2) ∨ (f v = (g v).1 ∧ v = (g v).2)) := by
    intro v hv
    obtain ⟨h1, h2⟩ := Finset.mem_sdiff.mp hv
    obtain ⟨h3, h4⟩ := hf v hv
    have hne : v ≠ f v := fun h => h2 (h ▸ h3)
    by_cases hlt : v < f v
    · simp only [g, if_pos hlt]
      refine ⟨?_, by simp⟩
      simp only [nonPairs, Finset.mem_filter, Finset.mem_product]
      exact ⟨⟨h1, hK.1 h3⟩, hlt, h4⟩
    · simp only [g, if_neg hlt]
      refine ⟨?_, by simp⟩
      simp only [nonPairs, Finset.mem_filter, Finset.mem_product]
      exact ⟨⟨hK.1 h3, h1⟩, by omega, fun h => h4 (adj_comm hA h)⟩
  have hinj : Set.InjOn g (S \ K : Finset (Fin n)) := by
    intro v hv w hw hvw
    have hv' := Finset.mem_coe.mp hv
    have hw' := Finset.mem_coe.mp hw
    have hvK := (Finset.mem_sdiff.mp hv').2
    have hwK := (Finset.mem_sdiff.mp hw').2
    have hv3 := (hf v hv').1
    have hw3 := (hf w hw').1
    rcases (hg v hv').2 with ⟨a, b⟩ | ⟨a, b⟩ <;> rcases (hg w hw').2 with ⟨c, d⟩ | ⟨c, d⟩
    · rw [a, c, hvw]
    · exact absurd (by rw [a, hvw, ← c]; exact hw3) hvK
    · exact absurd (by rw [b, hvw, ← d]; exact hw3) hvK
    · rw [b, d, hvw]
  have hdis : Disjoint (nonPairs A (S \ K)) ((S \ K).image g) := by
    rw [Finset.disjoint_left]
    intro e he hi
    obtain ⟨v, hv, rfl⟩ := Finset.mem_image.mp hi
    simp only [nonPairs, Finset.mem_filter, Finset.mem_product] at he
    have hk := (hf v hv).1
    rcases (hg v hv).2 with ⟨_, b⟩ | ⟨b, _⟩
    · exact (Finset.mem_sdiff.mp he.1.2).2 (b ▸ hk)
    · exact (Finset.mem_sdiff.mp he.1.1).2 (b ▸ hk)
  rw [← Finset.card_image_of_injOn hinj, ← Finset.card_union_of_disjoint hdis]
  apply Finset.card_le_card
  intro e he
  rcases Finset.mem_union.mp he with h | h
  · simp only [nonPairs, Finset.mem_filter, Finset.mem_product, Finset.mem_sdiff] at h ⊢
    exact ⟨⟨h.1.1.1, h.1.2.1⟩, h.2⟩
  · obtain ⟨v, hv, rfl⟩ := Finset.mem_image.mp h
    exact (hg v hv).1

/-- Lovász: the edges inside `S` are covered by at most `p + s` cliques, `s (s-1) ≤ p`, where `p` is the
number of non-adjacent pairs inside `S` -/
theorem lovasz_edges {A : BMat n} (hA : Symm A) :
    ∀ m (S : Finset (Fin n)), S.card = m → ∃ L s, CovIn A S L ∧
      L.length ≤ (nonPairs A S).card + s ∧ s * s ≤ (nonPairs A S).card + s ∧ 2 * s ≤ m := by
  intro m
  induction m using Nat.strong_induction_on with
  | _ m ih =>
    intro S hS
    by_cases hE : ∃ u ∈ S, ∃ v ∈ S, Adj A u v
    · obtain ⟨u, hu, v, hv, huv⟩ := hE
      have hsub : ({u, v} : Finset (Fin n)) ⊆ S := by
        intro x hx
        simp only [Finset.mem_insert, Finset.mem_singleton] at hx
        rcases hx with rfl | rfl <;> assumption
      obtain ⟨K, hKuv, hK⟩ := exists_maxIn hA hsub (pair_clique hA huv)
      have hc2 : ({u, v} : Finset (Fin n)).card = 2 := Finset.card_pair huv.2
      have hK2 := Finset.card_le_card hKuv
      have hKS := Finset.card_le_card hK.1
      have hc := Finset.card_sdiff_of_subset hK.1
      obtain ⟨L, s, hL, h1, h2, h3⟩ := ih (m - K.card) (by omega) (S \ K) (by omega)
      have hp := nonPairs_step hA hK
      refine ⟨_, s + 1, hL.step hA hK.2.1, ?_, ?_, ?_⟩
      · simp only [List.length_cons, List.length_append, List.length_map, Finset.length_toList]
        omega
      · have : 2 * s ≤ (S \ K).card := by omega
        nlinarith
      · omega
    · exact ⟨[], 0, ⟨by simp, fun i hi j hj hij => (hE ⟨i, hi, j, hj, hij⟩).elim⟩, by simp⟩

/-- Lovász, vertices included -/
theorem lovasz_cover {A : BMat n} (hA : Symm A) (hE : ∃ i j, Adj A i j) :
    ∃ C s, IsCover A C ∧ C.length ≤ (nonPairs A Finset.univ).card + s ∧
      s * s ≤ (nonPairs A Finset.univ).card + s := by
  obtain ⟨u, v, huv⟩ := hE
  obtain ⟨K, hKuv, hK⟩ := exists_maxIn hA (Finset.subset_univ _) (pair_clique hA huv)
  have hc2 : ({u, v} : Finset (Fin n)).card = 2 := Finset.card_pair huv.2
  have hK2 := Finset.card_le_card hKuv
  obtain ⟨L, s, hL, h1, h2, h3⟩ := lovasz_edges hA _ (Finset.univ \ K) rfl
  have hp := nonPairs_step hA hK
  refine ⟨_, s + 1, (hL.step hA hK.2.1).toCover fun w => step_verts w (by simp), ?_, ?_⟩
  · simp only [List.length_cons, List.length_append, List.length_map, Finset.length_toList]
    omega
  · nlinarith

end Medil

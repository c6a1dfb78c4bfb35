import Verif.Proofs.Sample
import Verif.Proofs.PermCount
/-
  How many rearrangements drawn by the second branch of `sample.biadj` lead to a given graph.
-/
namespace Medil
open Finset

variable {n : Nat}

/-- the number of edges for a density -/
def udgEdges (n : Nat) (d : ℚ) : Nat := sliceLen (n * (n - 1) / 2) (roundHalfEven (d * (n * (n - 1) / 2 : Nat)))

/-- pair number `k` -/
def pairAt (n : Nat) (k : Fin (n * (n - 1) / 2)) : Fin n × Fin n :=
  (triuPairs n)[k.val]'(by rw [triuPairs_length]; exact k.isLt)

theorem pairAt_lt (k : Fin (n * (n - 1) / 2)) : (pairAt n k).1 < (pairAt n k).2 := by
  have : pairAt n k ∈ triuPairs n := List.getElem_mem _
  exact mem_triuPairs.mp this

theorem pairAt_surj {i j : Fin n} (h : i < j) : ∃ k, pairAt n k = (i, j) := by
  have hm : (i, j) ∈ triuPairs n := mem_triuPairs.mpr h
  refine ⟨⟨(triuPairs n).idxOf (i, j), by rw [← triuPairs_length]; exact List.idxOf_lt_length_of_mem hm⟩, ?_⟩
  exact List.getElem_idxOf _

theorem randomUdg_pairAt (d : ℚ) (π : Equiv.Perm (Fin (n * (n - 1) / 2))) (k : Fin (n * (n - 1) / 2)) :
    randomUdg n d π (pairAt n k).1 (pairAt n k).2 = decide ((π k).val < udgEdges n d) := by
  have h := pairAt_lt k
  have hpos : triuPos (pairAt n k).1 (pairAt n k).2 = k.val := by
    unfold triuPos pairAt
    exact (triuPairs_nodup n).idxOf_getElem k.val _
  unfold randomUdg
  simp only [BMat.get_of]
  rw [if_neg (ne_of_lt h), if_pos h, if_neg (not_lt.mpr (le_of_lt h)), Bool.or_false, hpos, dif_pos k.isLt]
  rfl

theorem randomUdg_eq_iff (d : ℚ) (π : Equiv.Perm (Fin (n * (n - 1) / 2))) (A : Fin n → Fin n → Bool)
    (hs : ∀ i j, A i j = A j i) (hd : ∀ i, A i i = true) :
    randomUdg n d π = BMat.of A ↔ ∀ k, decide ((π k).val < udgEdges n d) = A (pairAt n k).1 (pairAt n k).2 := by
  constructor
  · intro h k
    rw [← randomUdg_pairAt, h, BMat.get_of]
  · intro h
    have hent : ∀ i j, randomUdg n d π i j = A i j := by
      have hlt : ∀ i j : Fin n, i < j → randomUdg n d π i j = A i j := by
        intro i j hij
        obtain ⟨k, hk⟩ := pairAt_surj hij
        have := h k
        rw [← randomUdg_pairAt, hk] at this
        exact this
      intro i j
      rcases lt_trichotomy i j with hij | rfl | hij
      · exact hlt i j hij
      · rw [hd]; exact randomUdg_diag d π i
      · rw [randomUdg_symm d π i j, hs]; exact hlt j i hij
    have : (fun i j => if i = j then true else
        (if i < j then (fun k => if h : k < n * (n - 1) / 2 then decide ((π ⟨k, h⟩).val < sliceLen (n * (n - 1) / 2) (roundHalfEven (d * (n * (n - 1) / 2 : Nat)))) else false) (triuPos i j) else false) ||
        (if j < i then (fun k => if h : k < n * (n - 1) / 2 then decide ((π ⟨k, h⟩).val < sliceLen (n * (n - 1) / 2) (roundHalfEven (d * (n * (n - 1) / 2 : Nat)))) else false) (triuPos j i) else false)) = A := by
      funext i j
      have := hent i j
      unfold randomUdg at this
      rwa [BMat.get_of] at this
    unfold randomUdg
    exact congrArg BMat.of this

theorem card_pairs (A : Fin n → Fin n → Bool) :
    (univ.filter fun k => A (pairAt n k).1 (pairAt n k).2 = true).card = numUEdges (BMat.of A) := by
  unfold numUEdges
  refine Finset.card_bij (fun k _ => pairAt n k) ?_ ?_ ?_
  · intro k hk
    rw [mem_filter] at hk ⊢
    exact ⟨mem_univ _, pairAt_lt k, by rw [BMat.get_of]; exact hk.2⟩
  · intro k _ k' _ h
    exact Fin.ext ((List.Nodup.getElem_inj_iff (triuPairs_nodup n)).mp h)
  · rintro ⟨i, j⟩ h
    rw [mem_filter] at h
    obtain ⟨k, hk⟩ := pairAt_surj h.2.1
    refine ⟨k, ?_, hk⟩
    rw [mem_filter, hk]
    refine ⟨mem_univ _, ?_⟩
    have := h.2.2
    rwa [BMat.get_of] at this

theorem card_udg (d : ℚ) (A : Fin n → Fin n → Bool) (hs : ∀ i j, A i j = A j i) (hd : ∀ i, A i i = true)
    (hE : numUEdges (BMat.of A) = udgEdges n d) :
    (univ.filter fun π : Equiv.Perm (Fin (n * (n - 1) / 2)) => randomUdg n d π = BMat.of A).card =
      (udgEdges n d).factorial * (n * (n - 1) / 2 - udgEdges n d).factorial := by
  rw [← card_perm_set (udgEdges n d) (fun k => A (pairAt n k).1 (pairAt n k).2) (by rw [card_pairs, hE])]
  congr 1
  ext π
  rw [mem_filter, mem_filter, randomUdg_eq_iff d π A hs hd]

theorem card_udg_pair (d : ℚ) (i j : Fin n) (hij : i < j) :
    (univ.filter fun π : Equiv.Perm (Fin (n * (n - 1) / 2)) => randomUdg n d π i j = true).card =
      udgEdges n d * (n * (n - 1) / 2 - 1).factorial := by
  obtain ⟨k, hk⟩ := pairAt_surj hij
  have h1 := card_perm_symm_mem k (fun k' : Fin (n * (n - 1) / 2) => decide (k'.val < udgEdges n d))
  have h2 : (univ.filter fun k' : Fin (n * (n - 1) / 2) => decide (k'.val < udgEdges n d) = true).card = udgEdges n d := by
    have hle : udgEdges n d ≤ n * (n - 1) / 2 := sliceLen_le _ _
    have : (univ.filter fun k : Fin (n * (n - 1) / 2) => decide (k.val < udgEdges n d) = true) = univ.image (Fin.castLE hle) := by
      ext k
      simp only [mem_filter, mem_univ, true_and, mem_image, decide_eq_true_eq]
      exact ⟨fun h => ⟨⟨k, h⟩, rfl⟩, by rintro ⟨a, rfl⟩; exact a.2⟩
    rw [this, Finset.card_image_of_injective _ (Fin.castLE_injective hle)]; simp
  rw [h2] at h1
  rw [← h1]
  have hpair : ∀ π : Equiv.Perm (Fin (n * (n - 1) / 2)), randomUdg n d π i j = decide ((π k).val < udgEdges n d) := by
    intro π
    rw [← randomUdg_pairAt, hk]
  refine Finset.card_bij' (fun π _ => π.symm) (fun π _ => π.symm) ?_ ?_ ?_ ?_
  · intro π h
    rw [mem_filter, hpair] at h
    rw [mem_filter]; exact ⟨mem_univ _, h.2⟩
  · intro π h
    rw [mem_filter] at h
    rw [mem_filter, hpair]; exact ⟨mem_univ _, h.2⟩
  · intro π _; rfl
  · intro π _; rfl

end Medil

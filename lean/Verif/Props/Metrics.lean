import Verif.Props.Evaluate
import Verif.Props.Bounds
import Verif.Props.Identify
import Mathlib.Analysis.InnerProductSpace.PiL2
/-
  C120-C123: the scores of `medil.evaluate` as distances.
-/
namespace Medil
open Finset
variable {n : Nat}

theorem sqrt_sum_triangle {ι : Type} [Fintype ι] (f g h : ι → ℝ) :
    √(∑ i, (f i - h i) ^ 2) ≤ √(∑ i, (f i - g i) ^ 2) + √(∑ i, (g i - h i) ^ 2) := by
  have := dist_triangle (WithLp.toLp 2 f) (WithLp.toLp 2 g) (WithLp.toLp 2 h)
  simpa only [EuclideanSpace.dist_eq, Real.dist_eq, sq_abs] using this

theorem sqrt_sum_triangle₂ {ι κ : Type} [Fintype ι] [Fintype κ] (f g h : ι → κ → ℝ) :
    √(∑ i, ∑ j, (f i j - h i j) ^ 2) ≤ √(∑ i, ∑ j, (f i j - g i j) ^ 2) + √(∑ i, ∑ j, (g i j - h i j) ^ 2) := by
  have := sqrt_sum_triangle (fun x : ι × κ => f x.1 x.2) (fun x => g x.1 x.2) (fun x => h x.1 x.2)
  simpa only [Fintype.sum_prod_type] using this

/-! ### C120 -/

/-- **C120** the square root of the first component of `sfd` satisfies the triangle inequality -/
theorem C120_sfd_triangle (P Q R : List (BVec n)) :
    √((sfd P R).1 : ℝ) ≤ √((sfd P Q).1 : ℝ) + √((sfd Q R).1 : ℝ) := by
  have := sqrt_sum_triangle₂ (fun i j => (wtdUg R i j : ℝ)) (fun i j => (wtdUg Q i j : ℝ)) (fun i j => (wtdUg P i j : ℝ))
  unfold sfd
  push_cast
  linarith

/-- the first component itself does not: no latent, one latent and two latents on one measurement -/
theorem C120_squared_not_triangle : ∃ P Q R : List (BVec 1), (sfd P Q).1 + (sfd Q R).1 < (sfd P R).1 :=
  ⟨[], [⟨1⟩], [⟨1⟩, ⟨1⟩], by decide +kernel⟩


/-! ### C121 -/

theorem padded_self {m : Nat} (T : Fin m → Fin n → ℝ) : (padded id T : Fin m → Fin n → ℝ) = T := by
  funext i j
  unfold padded
  rw [dif_pos i.isLt]; rfl

theorem minPerm_sym {m : Nat} {f : ℝ → ℝ} {P T : Fin m → Fin n → ℝ} {p q : List (Fin m)} {d e : ℝ}
    (h : minPermDist f id P T = .ok (p, d)) (h' : minPermDist f id T P = .ok (q, e)) : d ≤ e := by
  obtain ⟨-, hmin⟩ := minPerm_least (le_refl m) h
  obtain ⟨⟨σ, -, he⟩, -⟩ := minPerm_least (le_refl m) h'
  rw [padded_self] at hmin he
  refine le_trans (hmin σ.symm) (le_of_eq ?_)
  rw [he]
  unfold matchDist
  rw [← Equiv.sum_comp σ]
  refine sum_congr rfl fun i _ => sum_congr rfl fun j _ => ?_
  rw [Equiv.symm_apply_apply]
  ring

theorem minPerm_triangle {m : Nat} {f : ℝ → ℝ} {P Q R : Fin m → Fin n → ℝ} {p q r : List (Fin m)} {a b c : ℝ}
    (hpq : minPermDist f id P Q = .ok (p, a)) (hqr : minPermDist f id Q R = .ok (q, b))
    (hpr : minPermDist f id P R = .ok (r, c)) : √c ≤ √a + √b := by
  obtain ⟨-, hmin⟩ := minPerm_least (le_refl m) hpr
  obtain ⟨⟨σ, -, ha⟩, -⟩ := minPerm_least (le_refl m) hpq
  obtain ⟨⟨τ, -, hb⟩, -⟩ := minPerm_least (le_refl m) hqr
  rw [padded_self] at hmin ha hb
  refine le_trans (Real.sqrt_le_sqrt (hmin (τ.trans σ))) ?_
  have := sqrt_sum_triangle₂ (fun i j => f (P (σ (τ i)) j)) (fun i j => f (Q (τ i) j)) (fun i j => f (R i j))
  refine le_trans this (le_of_eq ?_)
  rw [ha, hb]
  congr 2
  exact Equiv.sum_comp τ fun i => ∑ j, (f (P (σ i) j) - f (Q i j)) ^ 2

/-- **C121** for matrices with equally many rows (at least one) `min_perm_squared_l2_dist` and its `_abs` variant return a distance; it
does not depend on which matrix is called the true one, is 0 for equal matrices, and its square root
satisfies the triangle inequality. -/
theorem C121_min_perm_distance {m : Nat} (hm : 0 < m)
    (D : (Fin m → Fin n → ℝ) → (Fin m → Fin n → ℝ) → Except PyErr (List (Fin m) × ℝ))
    (hD : D = minPermSquaredL2Dist ∨ D = minPermSquaredL2DistAbs) :
    ∃ δ : (Fin m → Fin n → ℝ) → (Fin m → Fin n → ℝ) → ℝ,
      (∀ P T, ∃ p, D P T = .ok (p, δ P T)) ∧ (∀ P T, δ P T = δ T P) ∧ (∀ P, δ P P = 0) ∧ (∀ P T, 0 ≤ δ P T) ∧
      ∀ P Q R, √(δ P R) ≤ √(δ P Q) + √(δ Q R) := by
  obtain ⟨f, rfl⟩ : ∃ f : ℝ → ℝ, D = minPermDist f id := by
    rcases hD with h | h
    · exact ⟨id, h⟩
    · exact ⟨_, h⟩
  have hex : ∀ P T : Fin m → Fin n → ℝ, ∃ d p, minPermDist f id P T = .ok (p, d) := fun P T => by
    obtain ⟨σ, h, -⟩ := minPermDist_spec f id P T (le_refl m) hm
    exact ⟨_, _, h⟩
  choose δ hδ using hex
  have hn : ∀ P T, 0 ≤ δ P T := fun P T => by
    obtain ⟨p, hp⟩ := hδ P T
    obtain ⟨⟨σ, -, h⟩, -⟩ := minPerm_least (le_refl m) hp
    rw [h]; exact matchDist_nonneg _ _ _ _
  refine ⟨δ, hδ, fun P T => ?_, fun P => ?_, hn, fun P Q R => ?_⟩
  · obtain ⟨p, hp⟩ := hδ P T
    obtain ⟨q, hq⟩ := hδ T P
    exact le_antisymm (minPerm_sym hp hq) (minPerm_sym hq hp)
  · obtain ⟨p, hp⟩ := hδ P P
    obtain ⟨-, h⟩ := minPerm_least (le_refl m) hp
    refine le_antisymm (le_trans (h 1) (le_of_eq ?_)) (hn _ _)
    rw [padded_self]
    exact (matchDist_eq_zero f P P 1).mpr fun _ _ => rfl
  · obtain ⟨p, hp⟩ := hδ P Q
    obtain ⟨q, hq⟩ := hδ Q R
    obtain ⟨r, hr⟩ := hδ P R
    exact minPerm_triangle hp hq hr

/-! ### C122 -/

/-- **C122** a call of `min_perm_squared_l2_dist` (or `_abs`) that returns a value had at least one predicted row, and no more true
rows than predicted rows; its matrices had equally many columns, or the true matrix had a single column, which then stands for `n` equal columns.  The value is the least distance
of a rearrangement of the predicted rows to the true rows followed by zero rows.  With at least one predicted row, all other calls
raise `ValueError`. -/
theorem C122_min_perm_shapes {m l c : Nat} {K : Type} [Field K] [LinearOrder K] [IsStrictOrderedRing K] (f : K → K)
    (_ : f = id ∨ f = fun x => |x|) (P : Fin m → Fin n → K) (T : Fin l → Fin c → K) :
    (∀ p d, minPermDistPy f id P T = .ok (p, d) → 0 < m ∧ l ≤ m ∧ (c = n ∨ c = 1) ∧
      ∃ T' : Fin m → Fin n → K, (∀ i (h : i.val < l) (j : Fin n) (j' : Fin c), (c = n → j'.val = j.val) → T' i j = T ⟨i, h⟩ j') ∧
        (∀ i j, l ≤ i.val → T' i j = 0) ∧
        (∃ σ : Equiv.Perm (Fin m), p = List.ofFn σ ∧ d = ∑ i, ∑ j, (f (P (σ i) j) - f (T' i j)) ^ 2) ∧
        ∀ τ : Equiv.Perm (Fin m), d ≤ ∑ i, ∑ j, (f (P (τ i) j) - f (T' i j)) ^ 2) ∧
    (0 < m → ¬ (l ≤ m ∧ (c = n ∨ c = 1)) → minPermDistPy f id P T = .error .valueError) := by
  have key : ∀ (T0 : Fin l → Fin n → K) p d, minPermDist f id P T0 = .ok (p, d) → 0 < m ∧ l ≤ m ∧
      (∃ σ : Equiv.Perm (Fin m), p = List.ofFn σ ∧ d = matchDist f P (padded id T0) σ) ∧
        ∀ τ : Equiv.Perm (Fin m), d ≤ matchDist f P (padded id T0) τ := by
    intro T0 p d h
    have hm : 0 < m := by
      rcases Nat.eq_zero_or_pos m with hm | hm
      · exfalso
        unfold minPermDist at h
        split at h
        · cases h
        · rw [if_pos hm] at h; cases h
      · exact hm
    have hl : l ≤ m := by
      by_contra hl
      unfold minPermDist padTrue at h
      rw [if_neg (by omega)] at h
      cases h
    exact ⟨hm, hl, minPerm_least hl h⟩
  constructor
  · intro p d h
    unfold minPermDistPy at h
    by_cases hc : c = n
    · subst hc
      rw [dif_pos rfl] at h
      obtain ⟨hm, hl, h1, h2⟩ := key _ p d h
      refine ⟨hm, hl, Or.inl rfl, padded id fun i j => T i (j.cast rfl), ?_, ?_, h1, h2⟩
      · intro i h j j' hj
        unfold padded
        rw [dif_pos h]
        exact congrArg (T ⟨i, h⟩) (Fin.ext (hj rfl).symm)
      · intro i j h
        unfold padded
        rw [dif_neg (by omega)]
    · rw [dif_neg hc] at h
      by_cases hc1 : c = 1
      · subst hc1
        rw [dif_pos rfl] at h
        obtain ⟨hm, hl, h1, h2⟩ := key _ p d h
        refine ⟨hm, hl, Or.inr rfl, padded id fun i _ => T i ⟨0, by omega⟩, ?_, ?_, h1, h2⟩
        · intro i h j j' hj
          unfold padded
          rw [dif_pos h]
          exact congrArg (T ⟨i, h⟩) (Subsingleton.elim _ _)
        · intro i j h
          unfold padded
          rw [dif_neg (by omega)]
      · rw [dif_neg hc1] at h; cases h
  · intro hm hno
    unfold minPermDistPy
    have hlm : ¬ l ≤ m → ∀ T0 : Fin l → Fin n → K, minPermDist f id P T0 = .error .valueError := by
      intro hl T0
      unfold minPermDist padTrue
      rw [if_neg (by omega)]
    by_cases hc : c = n
    · rw [dif_pos hc]
      exact hlm (fun hl => hno ⟨hl, Or.inl hc⟩) _
    · rw [dif_neg hc]
      by_cases hc1 : c = 1
      · rw [dif_pos hc1]
        exact hlm (fun hl => hno ⟨hl, Or.inr hc1⟩) _
      · rw [dif_neg hc1]

-- a 2 x 2 matrix is compared with a single column without complaint
example : minPermDistPy (K := ℚ) id id (fun (i : Fin 2) (_ : Fin 2) => (i.val : ℚ)) (fun (i : Fin 2) (_ : Fin 1) => 1 - (i.val : ℚ)) =
    .ok ([1, 0], 0) ∧
    minPermDistPy (K := ℚ) id id (fun (i : Fin 2) (_ : Fin 3) => (i.val : ℚ)) (fun (i : Fin 2) (_ : Fin 2) => 1 - (i.val : ℚ)) =
    .error .valueError := by decide +kernel

/-! ### C123 -/

/-- a structure as a 0/1 matrix -/
def asNumbers {K : Type} [Field K] (B : List (BVec n)) : Fin B.length → Fin n → K := fun i j => if B[i] j then 1 else 0

/-- the number of edges in which the structure `P`, its latents renamed by `σ`, differs from `T` (latent `i` of `P` is called
latent `σ.symm i`; latents that `T` does not have have no edges) -/
def edgeDiff (P T : List (BVec n)) (σ : Equiv.Perm (Fin P.length)) : Nat :=
  ((univ : Finset (Fin P.length × Fin n)).filter fun e =>
    ¬ (P[σ e.1] e.2 = true ↔ ∃ h : e.1.val < T.length, T[e.1.val] e.2 = true)).card

theorem matchDist_asNumbers {K : Type} [Field K] [LinearOrder K] [IsStrictOrderedRing K] (f : K → K) (hf : f = id ∨ f = fun x => |x|)
    (P T : List (BVec n)) (σ : Equiv.Perm (Fin P.length)) :
    matchDist f (asNumbers P) (padded id (asNumbers T)) σ = (edgeDiff P T σ : K) := by
  have h0 : f 0 = 0 := by rcases hf with h | h <;> simp [h]
  have h1 : f 1 = 1 := by rcases hf with h | h <;> simp [h]
  unfold matchDist edgeDiff
  rw [← Fintype.sum_prod_type', card_filter]
  push_cast
  refine sum_congr rfl fun e _ => ?_
  unfold asNumbers padded
  simp only [Fin.getElem_fin]
  by_cases hP : P[(σ e.1).val] e.2 = true <;> by_cases hl : e.1.val < T.length
  · by_cases hT : T[e.1.val] e.2 = true
    · simp [hP, hl, hT, h0, h1]
    · simp [hP, hl, hT, h0, h1]
  · simp [hP, hl, h0, h1]
  · by_cases hT : T[e.1.val] e.2 = true
    · simp [hP, hl, hT, h0, h1]
    · simp [hP, hl, hT, h0, h1]
  · simp [hP, hl, h0, h1]

/-- **C123** on 0/1 matrices `min_perm_squared_l2_dist` and its `_abs` variant return the least number of edges in which the
structures differ, over all renamings of the latents -/
theorem C123_min_perm_edges {K : Type} [Field K] [LinearOrder K] [IsStrictOrderedRing K] (P T : List (BVec n))
    (hl : T.length ≤ P.length) (hP : 0 < P.length) :
    ∃ σ : Equiv.Perm (Fin P.length), minPermSquaredL2Dist (K := K) (asNumbers P) (asNumbers T) = .ok (List.ofFn σ, (edgeDiff P T σ : K)) ∧
      minPermSquaredL2DistAbs (K := K) (asNumbers P) (asNumbers T) = .ok (List.ofFn σ, (edgeDiff P T σ : K)) ∧
      ∀ τ, edgeDiff P T σ ≤ edgeDiff P T τ := by
  obtain ⟨σ, h1, h2, h3⟩ := minPermDist_spec (K := K) id id (asNumbers P) (asNumbers T) hl hP
  obtain ⟨σ', h1', h2', h3'⟩ := minPermDist_spec (K := K) (fun x => |x|) id (asNumbers P) (asNumbers T) hl hP
  simp only [matchDist_asNumbers id (Or.inl rfl), matchDist_asNumbers (fun x => |x|) (Or.inr rfl)] at h1 h2 h3 h1' h2' h3'
  have e : σ = σ' := by
    have he : (edgeDiff P T σ : K) = edgeDiff P T σ' := le_antisymm (h2 σ') (h2' σ)
    rcases h3 σ' he.symm with h | h
    · exact h.symm
    · rcases h3' σ he with h' | h'
      · exact h'
      · exact absurd (List.lt_trans h h') (List.lt_irrefl _)
  subst e
  exact ⟨σ, h1, h1', fun τ => by exact_mod_cast h2 τ⟩

theorem sum_pad {m l : Nat} (h : l ≤ m) (g : Fin l → ℤ) :
    (∑ r : Fin m, if h : r.val < l then g ⟨r, h⟩ else 0) = ∑ r, g r := by
  obtain ⟨k, rfl⟩ := Nat.exists_eq_add_of_le h
  rw [Fin.sum_univ_add]
  simp

theorem wtdUg_sum (B : List (BVec n)) (i j : Fin n) :
    wtdUg B i j = ∑ r : Fin B.length, (if B[r.val] i then 1 else 0) * (if B[r.val] j then 1 else 0) :=
  (Fin.sum_univ_fun_getElem B fun r : BVec n => (if r i then (1 : ℤ) else 0) * (if r j then 1 else 0)).symm

theorem edgeDiff_eq_zero (P T : List (BVec n)) (σ : Equiv.Perm (Fin P.length)) :
    edgeDiff P T σ = 0 ↔ ∀ i j, P[σ i] j = true ↔ ∃ h : i.val < T.length, T[i.val] j = true := by
  unfold edgeDiff
  rw [card_eq_zero, filter_eq_empty_iff]
  constructor
  · intro h i j; exact not_not.mp (h (mem_univ (i, j)))
  · intro h e _; exact not_not.mpr (h e.1 e.2)

/-- **C123** if the renamed structures agree, both scores of `sfd` are 0 -/
theorem C123_scores (P T : List (BVec n)) (hl : T.length ≤ P.length) (hP : 0 < P.length)
    (h : ∃ p, minPermSquaredL2Dist (K := ℝ) (asNumbers P) (asNumbers T) = .ok (p, 0)) : sfd P T = (0, 0) := by
  obtain ⟨p, h⟩ := h
  obtain ⟨σ, h1, -⟩ := C123_min_perm_edges (K := ℝ) P T hl hP
  rw [h] at h1
  have h0 : edgeDiff P T σ = 0 := by
    have := (Prod.mk.inj (Except.ok.inj h1)).2
    exact_mod_cast this.symm
  rw [edgeDiff_eq_zero] at h0
  have hw : ∀ i j, wtdUg P i j = wtdUg T i j := by
    intro i j
    rw [wtdUg_sum, wtdUg_sum, ← Equiv.sum_comp σ, ← sum_pad hl]
    refine sum_congr rfl fun r _ => ?_
    have e1 := h0 r i
    have e2 := h0 r j
    simp only [Fin.getElem_fin] at e1 e2
    simp only [e1, e2]
    by_cases hr : r.val < T.length <;> simp [hr]
  have hz : (sfd P T).1 = 0 := by
    show (∑ i, ∑ j, (wtdUg T i j - wtdUg P i j) ^ 2) = 0
    exact sum_eq_zero fun i _ => sum_eq_zero fun j _ => by rw [hw]; ring
  have h2 := C31_sfd_ge_ushd P T
  rw [hz] at h2
  exact Prod.ext hz (by show (sfd P T).2 = 0; omega)

/-- the converses fail: three pairs and an empty latent against one triple and three singletons have both scores 0 but differ in six
edges; two equal latents against one latent have second score 0 and first score 4 -/
theorem C123_converses :
    (∃ P T : List (BVec 3), P.length = T.length ∧ sfd P T = (0, 0) ∧
      ¬ ∃ p, minPermSquaredL2Dist (K := ℝ) (asNumbers P) (asNumbers T) = .ok (p, 0)) ∧
    ∃ P T : List (BVec 2), (sfd P T).2 = 0 ∧ (sfd P T).1 = 4 := by
  refine ⟨⟨[⟨0b011⟩, ⟨0b101⟩, ⟨0b110⟩, ⟨0⟩], [⟨0b111⟩, ⟨0b001⟩, ⟨0b010⟩, ⟨0b100⟩], rfl, by decide +kernel, ?_⟩,
    [⟨0b11⟩, ⟨0b11⟩], [⟨0b11⟩], by decide +kernel, by decide +kernel⟩
  rintro ⟨p, h⟩
  obtain ⟨σ, h1, -⟩ := C123_min_perm_edges (K := ℝ) [⟨0b011⟩, ⟨0b101⟩, ⟨0b110⟩, ⟨0⟩] [(⟨0b111⟩ : BVec 3), ⟨0b001⟩, ⟨0b010⟩, ⟨0b100⟩]
    (by decide) (by decide)
  rw [h] at h1
  have h0 := (Prod.mk.inj (Except.ok.inj h1)).2
  have h0 : edgeDiff [(⟨0b011⟩ : BVec 3), ⟨0b101⟩, ⟨0b110⟩, ⟨0⟩] [⟨0b111⟩, ⟨0b001⟩, ⟨0b010⟩, ⟨0b100⟩] σ = 0 := by exact_mod_cast h0.symm
  rw [edgeDiff_eq_zero] at h0
  have h3 : ∀ i : Fin 4, ∃ j : Fin 3, [(⟨0b011⟩ : BVec 3), ⟨0b101⟩, ⟨0b110⟩, ⟨0⟩][i] j = false := by decide +kernel
  obtain ⟨j, hj⟩ := h3 (σ ⟨0, by decide⟩)
  have h4 := (h0 ⟨0, by decide⟩ j).mpr ⟨by decide, (by decide +kernel : ∀ j : Fin 3, (⟨0b111⟩ : BVec 3) j = true) j⟩
  rw [h4] at hj
  cases hj

/-- **C123** between one-pure-child structures all three scores are 0 at the same time -/
theorem C123_one_pure_child (P T : List (BVec n)) (hPo : OnePureChild P) (hTo : OnePureChild T) (hl : T.length ≤ P.length)
    (hP : 0 < P.length) :
    ((sfd P T).2 = 0 ↔ ∃ p, minPermSquaredL2Dist (K := ℝ) (asNumbers P) (asNumbers T) = .ok (p, 0)) ∧
    ((sfd P T).1 = 0 ↔ ∃ p, minPermSquaredL2Dist (K := ℝ) (asNumbers P) (asNumbers T) = .ok (p, 0)) := by
  obtain ⟨c1, c2⟩ := C102_identified T P hTo hPo
  have main : SameRows P T → ∃ p, minPermSquaredL2Dist (K := ℝ) (asNumbers P) (asNumbers T) = .ok (p, 0) := by
    intro hs
    obtain ⟨g, hg, hge⟩ := perm_index hs.symm
    have hlen : P.length = T.length := by simpa using hs.length_eq
    let σ : Fin P.length → Fin P.length := fun i => Fin.cast (by simp) (g (Fin.cast (by simp [hlen]) i))
    have hσ : Function.Injective σ := by
      intro a b hab
      have h1 := congrArg Fin.val hab
      have h2 := hg (Fin.ext h1)
      exact Fin.ext (by simpa using congrArg Fin.val h2)
    let π := Equiv.ofBijective σ (Finite.injective_iff_bijective.mp hσ)
    have hz : edgeDiff P T π = 0 := by
      rw [edgeDiff_eq_zero]
      intro i j
      have h1 := hge (Fin.cast (by simp [hlen]) i)
      simp only [Fin.getElem_fin, List.getElem_map] at h1
      have h2 := Finset.ext_iff.mp h1 j
      simp only [mem_children] at h2
      have h3 : P[π i] j = true ↔ (T[i.val]'(by rw [← hlen]; exact i.isLt)) j = true := h2
      rw [h3]
      exact ⟨fun h => ⟨_, h⟩, fun ⟨_, h⟩ => h⟩
    obtain ⟨τ, h1, -, h2⟩ := C123_min_perm_edges (K := ℝ) P T hl hP
    have : edgeDiff P T τ = 0 := Nat.le_zero.mp (hz ▸ h2 π)
    exact ⟨List.ofFn τ, by rw [h1, this, Nat.cast_zero]⟩
  have back := C123_scores P T hl hP
  exact ⟨⟨fun h => main (c1.mp h), fun h => congrArg Prod.snd (back h)⟩, ⟨fun h => main (c2.mp h), fun h => congrArg Prod.fst (back h)⟩⟩

end Medil

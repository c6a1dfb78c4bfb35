import Verif.Proofs.MaxCliques
import Verif.Model.Heuristic
import Mathlib.Data.Fintype.Powerset
import Mathlib.Data.List.Perm.Subperm
namespace Medil
variable {n : Nat}

@[simp] theorem complement_apply (A : BMat n) (i j : Fin n) : (complement A) i j = !A i j := by
  simp [complement]

@[simp] theorem starRow_apply (A : BMat n) (v j : Fin n) :
    (starRow A v) j = (decide (j = v) || A v j) := by simp [starRow]

theorem mem_triuPairs {e : Fin n × Fin n} : e ∈ triuPairs n ↔ e.1 < e.2 := by
  obtain ⟨u, v⟩ := e
  simp [triuPairs]

theorem symm_complement {A : BMat n} (hA : Symm A) : Symm (complement A) := by
  intro i j; simp [hA i j]

theorem isClique_complement {A : BMat n} (S : Finset (Fin n)) :
    IsClique (complement A) S ↔ IsIndep A S := by
  constructor
  · intro h i hi j hj ⟨h1, h2⟩
    have := (h i hi j hj h2).1
    simp [h1] at this
  · intro h i hi j hj hij
    refine ⟨?_, hij⟩
    have := h i hi j hj
    simp only [Adj, not_and] at this
    simp only [complement_apply, Bool.not_eq_true']
    by_contra hc
    exact this (by simpa using hc) hij

theorem firstLongest_spec (s : List (Fin n)) (rest : List (List (Fin n))) :
    firstLongest s rest ∈ s :: rest ∧
      ∀ t ∈ s :: rest, t.length ≤ (firstLongest s rest).length := by
  induction rest generalizing s with
  | nil => simp [firstLongest]
  | cons t rest ih =>
    unfold firstLongest at *
    simp only [List.foldl_cons]
    split
    · rename_i h
      obtain ⟨h1, h2⟩ := ih t
      refine ⟨List.mem_cons_of_mem _ h1, ?_⟩
      intro u hu
      simp only [List.mem_cons] at hu h2
      rcases hu with rfl | rfl | hu
      · have := h2 t (Or.inl rfl); omega
      · exact h2 u (Or.inl rfl)
      · exact h2 u (Or.inr hu)
    · rename_i h
      obtain ⟨h1, h2⟩ := ih s
      refine ⟨?_, ?_⟩
      · simp only [List.mem_cons] at h1 ⊢
        tauto
      · intro u hu
        simp only [List.mem_cons] at hu h2
        rcases hu with rfl | rfl | hu
        · exact h2 u (Or.inl rfl)
        · have := h2 s (Or.inl rfl); omega
        · exact h2 u (Or.inr hu)

theorem IsIndep.exists_maximal {A : BMat n} (hA : Symm A) {T : Finset (Fin n)} (hT : IsIndep A T) :
    ∃ S, T ⊆ S ∧ IsMaximalClique (complement A) S := by
  -- take an independent superset of largest size
  let F := (Finset.univ : Finset (Finset (Fin n))).filter fun S => T ⊆ S ∧ IsIndep A S
  have hne : F.Nonempty := ⟨T, by simp [F, hT]⟩
  obtain ⟨S, hS, hmax⟩ := Finset.exists_max_image F Finset.card hne
  simp only [F, Finset.mem_filter, Finset.mem_univ, true_and] at hS hmax
  refine ⟨S, hS.1, (isClique_complement S).mpr hS.2, fun v hv hc => ?_⟩
  have := hmax (insert v S) ⟨hS.1.trans (Finset.subset_insert _ _), (isClique_complement _).mp hc⟩
  rw [Finset.card_insert_of_notMem hv] at this
  omega

/-- the facts about the chosen independent set, for every schedule -/
theorem heuristic_choice {A : BMat n} (hA : Symm A) (hn : 0 < n) (o : Sched n) :
    ∃ s rest, maxCliques o (complement A) = .ok (s :: rest) ∧
      (firstLongest s rest).Nodup ∧
      IsMaximalClique (complement A) (firstLongest s rest).toFinset ∧
      ∀ T, IsIndep A T → T.card ≤ (firstLongest s rest).length := by
  obtain ⟨ys, h1, h2, h3, h4⟩ := maxCliques_correct (symm_complement hA) hn o
  have hex : ∀ T, IsIndep A T → ∃ y ∈ ys, T.card ≤ y.length := by
    intro T hT
    obtain ⟨S, hTS, hS⟩ := hT.exists_maximal hA
    obtain ⟨y, hy, rfl⟩ := List.mem_map.mp ((h4 S).mpr hS)
    refine ⟨y, hy, ?_⟩
    rw [← List.toFinset_card_of_nodup (h2 y hy)]
    exact Finset.card_le_card hTS
  cases ys with
  | nil =>
    obtain ⟨y, hy, -⟩ := hex ∅ (by intro i hi; simp at hi)
    simp at hy
  | cons s rest =>
    obtain ⟨hm, hl⟩ := firstLongest_spec s rest
    refine ⟨s, rest, h1, h2 _ hm, (h4 _).mp (List.mem_map_of_mem hm), ?_⟩
    intro T hT
    obtain ⟨y, hy, hle⟩ := hex T hT
    exact hle.trans (hl y hy)

theorem uncoveredEdges_isEmpty {A : BMat n} (hA : Symm A) (cover : List (BVec n)) :
    (uncoveredEdges A cover).isEmpty = true ↔ CoversEdges A cover := by
  rw [List.isEmpty_iff, uncoveredEdges, List.filter_eq_nil_iff]
  constructor
  · intro h i j hij
    have key : ∀ i j : Fin n, i < j → A i j = true → ∃ r ∈ cover, r i = true ∧ r j = true := by
      intro i j hlt hA'
      have := h (i, j) (mem_triuPairs.mpr hlt)
      simpa [hA'] using this
    rcases lt_or_gt_of_ne hij.2 with hlt | hlt
    · exact key i j hlt hij.1
    · obtain ⟨r, hr, h1, h2⟩ := key j i hlt (by rw [hA]; exact hij.1)
      exact ⟨r, hr, h2, h1⟩
  · rintro h ⟨i, j⟩ he
    have hlt := mem_triuPairs.mp he
    simp only at hlt
    by_cases hA' : A i j = true
    · obtain ⟨r, hr, h1, h2⟩ := h i j ⟨hA', ne_of_lt hlt⟩
      simp only [hA', Bool.true_and, Bool.not_eq_true', Bool.not_eq_false, List.any_eq_true,
        Bool.and_eq_true]
      exact ⟨r, hr, h1, h2⟩
    · simp [hA']

/-- the whole behaviour of the heuristic on a non-empty symmetric graph -/
theorem heuristic_eq {A : BMat n} (hA : Symm A) (hn : 0 < n) (o : Sched n) :
    ∃ S : List (Fin n), S.Nodup ∧ IsIndep A S.toFinset ∧
      (∀ v, v ∉ S → ∃ s ∈ S, Adj A s v) ∧
      (∀ T, IsIndep A T → T.card ≤ S.length) ∧
      findHeuristic1pc o A =
        (open Classical in if CoversEdges A (S.map (starRow A)) then .ok (S.map (starRow A))
          else .error .typeError) := by
  obtain ⟨s, rest, h1, h2, h3, h4⟩ := heuristic_choice hA hn o
  have hdom : ∀ v, v ∉ firstLongest s rest → ∃ u ∈ firstLongest s rest, Adj A u v := by
    intro v hv
    by_contra hc
    simp only [not_exists, not_and] at hc
    apply h3.2 v (by simpa using hv)
    rw [isClique_complement]
    have hi := (isClique_complement _).mp h3.1
    intro a ha b hb hab
    simp only [Finset.mem_insert, List.mem_toFinset] at ha hb
    rcases ha with rfl | ha <;> rcases hb with rfl | hb
    · exact hab.2 rfl
    · exact hc b hb (hab.symm hA)
    · exact hc a ha hab
    · exact hi a (by simpa using ha) b (by simpa using hb) hab
  refine ⟨firstLongest s rest, h2, (isClique_complement _).mp h3.1, hdom, h4, ?_⟩
  unfold findHeuristic1pc
  rw [h1]
  simp only
  by_cases hc : CoversEdges A ((firstLongest s rest).map (starRow A))
  · rw [if_pos hc]
    have := (uncoveredEdges_isEmpty hA _).mpr hc
    rw [if_neg (by simp [this]), if_neg]
    simp only [List.any_eq_true, List.mem_finRange, true_and, not_exists]
    intro i j
    by_cases hij : i = j
    · subst hij
      have : ∃ u ∈ firstLongest s rest, (starRow A u) i = true := by
        by_cases hi : i ∈ firstLongest s rest
        · exact ⟨i, hi, by simp⟩
        · obtain ⟨u, hu, hadj⟩ := hdom i hi
          exact ⟨u, hu, by simp [hadj.1]⟩
      obtain ⟨u, hu, hs⟩ := this
      intro hcon
      simp only [Bool.and_eq_true, Bool.not_eq_true', List.any_eq_false, List.mem_map,
        forall_exists_index, and_imp, forall_apply_eq_imp_iff₂] at hcon
      have := hcon.2 u hu
      simp [hs] at this
    · intro hcon
      simp only [Bool.and_eq_true, Bool.not_eq_true', List.any_eq_false] at hcon
      obtain ⟨r, hr, h5, h6⟩ := hc i j ⟨hcon.1, hij⟩
      have := hcon.2 r hr
      simp [h5, h6] at this
  · rw [if_neg hc, if_pos]
    have := mt (uncoveredEdges_isEmpty hA _).mp hc
    simp only [Bool.not_eq_true] at this
    simp [this]

theorem IsUDGOf.symm {A : BMat n} {B : List (BVec n)} (h : IsUDGOf A B) : Symm A := by
  intro i j
  by_cases hij : i = j
  · rw [hij]
  · rw [Bool.eq_iff_iff, h i j hij, h j i (Ne.symm hij)]
    constructor <;> rintro ⟨r, hr, h1, h2⟩ <;> exact ⟨r, hr, h2, h1⟩

/-- a maximum independent set of a one-pure-child graph picks one pure child per latent -/
theorem onePure_choice {A : BMat n} {B : List (BVec n)} (hB : OnePureChild B) (hU : IsUDGOf A B)
    {S : List (Fin n)} (hnd : S.Nodup) (hS : IsIndep A S.toFinset)
    (hmax : ∀ T, IsIndep A T → T.card ≤ S.length) :
    ∃ f : Fin n → Nat, (S.map f).Perm (List.range B.length) ∧
      ∀ s ∈ S, PureChild B (f s) s := by
  classical
  obtain ⟨hp, hcov⟩ := hB
  -- parents
  have hpar : ∀ v : Fin n, ∃ i, ∃ h : i < B.length, B[i] v = true := by
    intro v
    obtain ⟨r, hr, hv⟩ := hcov v
    obtain ⟨i, hi, rfl⟩ := List.getElem_of_mem hr
    exact ⟨i, hi, hv⟩
  choose f hf hfv using hpar
  have hadj : ∀ (u v : Fin n) (i : Nat) (hi : i < B.length), u ≠ v → B[i] u = true →
      B[i] v = true → Adj A u v := by
    intro u v i hi huv h1 h2
    exact ⟨(hU u v huv).mpr ⟨B[i], List.getElem_mem hi, h1, h2⟩, huv⟩
  have hinj : ∀ s ∈ S, ∀ t ∈ S, f s = f t → s = t := by
    intro s hs t ht hst
    by_contra hne
    apply hS s (by simpa using hs) t (by simpa using ht)
    apply hadj s t (f s) (hf s) hne (hfv s)
    have := hfv t
    simp only [← hst] at this
    exact this
  have hmapnd : (S.map f).Nodup := by
    rw [List.nodup_map_iff_inj_on hnd]
    exact hinj
  -- pure children form an independent set of size B.length
  have hp' : ∀ i : Fin B.length, ∃ p, PureChild B i p := fun i => hp i i.isLt
  choose p hpp using hp'
  have hpinj : Function.Injective p := by
    intro i j hij
    have h1 := (hpp i i i.isLt).mpr rfl
    rw [hij] at h1
    exact Fin.ext ((hpp j i i.isLt).mp h1)
  have hPI : IsIndep A (Finset.univ.image p) := by
    intro a ha b hb hab
    simp only [Finset.mem_image, Finset.mem_univ, true_and] at ha hb
    obtain ⟨i, rfl⟩ := ha
    obtain ⟨j, rfl⟩ := hb
    obtain ⟨r, hr, h1, h2⟩ := (hU _ _ hab.2).mp hab.1
    obtain ⟨k, hk, rfl⟩ := List.getElem_of_mem hr
    have h3 := (hpp i k hk).mp h1
    have h4 := (hpp j k hk).mp h2
    exact hab.2 (by rw [Fin.ext (h3.symm.trans h4)])
  have hK : B.length ≤ S.length := by
    have := hmax _ hPI
    rwa [Finset.card_image_of_injective _ hpinj, Finset.card_univ, Fintype.card_fin] at this
  have hsub : ∀ x ∈ S.map f, x ∈ List.range B.length := by
    intro x hx
    obtain ⟨s, -, rfl⟩ := List.mem_map.mp hx
    exact List.mem_range.mpr (hf s)
  have hperm : (S.map f).Perm (List.range B.length) :=
    (hmapnd.subperm hsub).perm_of_length_le (by simpa using hK)
  refine ⟨f, hperm, ?_⟩
  intro s hs j hj
  constructor
  · intro hjs
    by_contra hne
    have : j ∈ S.map f := hperm.mem_iff.mpr (List.mem_range.mpr hj)
    obtain ⟨t, ht, rfl⟩ := List.mem_map.mp this
    have hst : s ≠ t := by rintro rfl; exact hne rfl
    exact hS s (by simpa using hs) t (by simpa using ht) (hadj s t _ hj hst hjs (hfv t))
  · rintro rfl; exact hfv s

/-- the star of a pure child is the row of its latent -/
theorem star_pure {A : BMat n} {B : List (BVec n)} (hU : IsUDGOf A B) {i : Nat} (hi : i < B.length)
    {s : Fin n} (hs : PureChild B i s) : children (starRow A s) = children B[i] := by
  ext j
  simp only [mem_children, starRow_apply, Bool.or_eq_true, decide_eq_true_eq]
  by_cases hj : j = s
  · subst hj
    simp [(hs i hi).mpr rfl]
  · rw [hU s j (Ne.symm hj)]
    simp only [hj, false_or]
    constructor
    · rintro ⟨r, hr, h1, h2⟩
      obtain ⟨k, hk, rfl⟩ := List.getElem_of_mem hr
      have := (hs k hk).mp h1
      subst this
      exact h2
    · intro h
      exact ⟨B[i], List.getElem_mem hi, (hs i hi).mpr rfl, h⟩

theorem sameRows_stars {A : BMat n} {B : List (BVec n)} (hU : IsUDGOf A B) {S : List (Fin n)}
    {f : Fin n → Nat} (hperm : (S.map f).Perm (List.range B.length))
    (hpure : ∀ s ∈ S, PureChild B (f s) s) : SameRows (S.map (starRow A)) B := by
  unfold SameRows
  have h1 : (S.map (starRow A)).map children =
      (S.map f).map (fun i => (B.map children)[i]?.getD ∅) := by
    rw [List.map_map, List.map_map]
    apply List.map_congr_left
    intro s hs
    have hlt : f s < B.length :=
      List.mem_range.mp (hperm.mem_iff.mp (List.mem_map_of_mem hs))
    simp only [Function.comp]
    rw [star_pure hU hlt (hpure s hs)]
    simp [hlt]
  have h2 : B.map children = (List.range B.length).map (fun i => (B.map children)[i]?.getD ∅) := by
    apply List.ext_getElem
    · simp
    · intro i h3 h4; simp at h3; simp [h3]
  rw [h1]
  conv_rhs => rw [h2]
  exact hperm.map _

end Medil

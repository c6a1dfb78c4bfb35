import Verif.Props.Recover
import Verif.Props.Session
import Verif.Spec.LeastSquares
/-
  Property theorem C184: the order of the measurements.
-/
namespace Medil
open Finset
variable {M n : Nat}

/-- the same graph with the measurements in another order: position `i` holds measurement `π i` -/
def BMat.relabel (A : BMat n) (π : Equiv.Perm (Fin n)) : BMat n := BMat.of fun i j => A (π i) (π j)

/-- the same latent with the measurements in another order -/
def BVec.relabel (r : BVec n) (π : Equiv.Perm (Fin n)) : BVec n := BVec.of fun j => r (π j)

/-- the same structure with the measurements in another order -/
def relabelRows (B : List (BVec n)) (π : Equiv.Perm (Fin n)) : List (BVec n) := B.map (·.relabel π)

/-- the same data with the columns in another order -/
def Dataset.relabel (d : Dataset M) (π : Equiv.Perm (Fin M)) : Dataset M := { d with val := fun k j => d.val k (π j) }

@[simp] theorem BMat.relabel_apply (A : BMat n) (π : Equiv.Perm (Fin n)) (i j : Fin n) : A.relabel π i j = A (π i) (π j) := by
  simp [BMat.relabel]

@[simp] theorem BVec.relabel_apply (r : BVec n) (π : Equiv.Perm (Fin n)) (j : Fin n) : r.relabel π j = r (π j) := by
  simp [BVec.relabel]

theorem relabel_symm {A : BMat n} (hA : Symm A) (π : Equiv.Perm (Fin n)) : Symm (A.relabel π) := fun i j => by simp [hA (π i)]

theorem relabel_diag {A : BMat n} (hA : UnitDiag A) (π : Equiv.Perm (Fin n)) : UnitDiag (A.relabel π) := fun i => by simp [hA (π i)]

theorem adj_relabel (A : BMat n) (π : Equiv.Perm (Fin n)) (i j : Fin n) : Adj (A.relabel π) i j ↔ Adj A (π i) (π j) := by
  simp [Adj]

theorem indep_relabel {A : BMat n} {π : Equiv.Perm (Fin n)} {T : Finset (Fin n)} (h : IsIndep A T) :
    IsIndep (A.relabel π) (T.map π.symm.toEmbedding) := by
  intro i hi j hj hij
  rw [adj_relabel] at hij
  simp only [mem_map_equiv, Equiv.symm_symm] at hi hj
  exact h _ hi _ hj hij

theorem indep_of_relabel {A : BMat n} {π : Equiv.Perm (Fin n)} {T : Finset (Fin n)} (h : IsIndep (A.relabel π) T) :
    IsIndep A (T.map π.toEmbedding) := by
  intro i hi j hj hij
  simp only [mem_map_equiv] at hi hj
  refine h _ hi _ hj ((adj_relabel A π _ _).mpr ?_)
  simpa using hij

/-- **C184** the number of latents that `find_heuristic_1pc` returns does not depend on the order of the measurements, nor on the set order. -/
theorem C184_heuristic_latents_partial (A : BMat n) (hA : Symm A) (π : Equiv.Perm (Fin n)) (o o' : Sched n) (B C : List (BVec n))
    (hB : findHeuristic1pc o A = .ok B) (hC : findHeuristic1pc o' (A.relabel π) = .ok C) : C.length = B.length := by
  obtain ⟨-, ⟨T, hT, hTc⟩, hmax⟩ := C05_heuristic_pure_children A hA o B hB
  obtain ⟨-, ⟨T', hT', hTc'⟩, hmax'⟩ := C05_heuristic_pure_children _ (relabel_symm hA π) o' C hC
  have h1 := hmax' _ (indep_relabel (π := π) hT)
  have h2 := hmax _ (indep_of_relabel hT')
  rw [card_map] at h1 h2
  omega

theorem relabel_getElem (B : List (BVec n)) (π : Equiv.Perm (Fin n)) (i : Nat) (h : i < (relabelRows B π).length) (j : Fin n) :
    (relabelRows B π)[i] j = (B[i]'(by simpa [relabelRows] using h)) (π j) := by
  simp [relabelRows]

theorem covers_relabel {B : List (BVec n)} (h : CoversVertices B) (π : Equiv.Perm (Fin n)) : CoversVertices (relabelRows B π) := by
  intro j
  obtain ⟨r, hr, h1⟩ := h (π j)
  exact ⟨r.relabel π, List.mem_map_of_mem hr, by simpa using h1⟩

theorem onePureChild_relabel {B : List (BVec n)} (h : OnePureChild B) (π : Equiv.Perm (Fin n)) : OnePureChild (relabelRows B π) := by
  refine ⟨fun i hi => ?_, covers_relabel h.2 π⟩
  obtain ⟨p, hp⟩ := h.1 i (by simpa [relabelRows] using hi)
  refine ⟨π.symm p, fun j hj => ?_⟩
  rw [relabel_getElem B π j hj]
  simpa using hp j (by simpa [relabelRows] using hj)

theorem isUDGOf_relabel {A : BMat n} {B : List (BVec n)} (h : IsUDGOf A B) (π : Equiv.Perm (Fin n)) : IsUDGOf (A.relabel π) (relabelRows B π) := by
  intro i j hij
  rw [BMat.relabel_apply, h (π i) (π j) (by simpa using hij)]
  constructor
  · rintro ⟨r, hr, h1, h2⟩
    exact ⟨r.relabel π, List.mem_map_of_mem hr, by simpa using h1, by simpa using h2⟩
  · rintro ⟨r', hr', h1, h2⟩
    obtain ⟨r, hr, rfl⟩ := List.mem_map.mp hr'
    exact ⟨r, hr, by simpa using h1, by simpa using h2⟩

theorem children_relabel (r : BVec n) (π : Equiv.Perm (Fin n)) : children (r.relabel π) = (children r).map π.symm.toEmbedding := by
  ext j
  simp [mem_map_equiv]

theorem map_children_relabel (B : List (BVec n)) (π : Equiv.Perm (Fin n)) :
    (relabelRows B π).map children = (B.map children).map (fun S => S.map π.symm.toEmbedding) := by
  simp [relabelRows, Function.comp_def, children_relabel]

theorem sameRows_relabel {B C : List (BVec n)} (h : SameRows B C) (π : Equiv.Perm (Fin n)) : SameRows (relabelRows B π) (relabelRows C π) := by
  unfold SameRows
  rw [map_children_relabel, map_children_relabel]
  exact h.map _

theorem private_relabel {A : BMat n} {B : List (BVec n)} (h : PrivatelyWitnessed A B) (π : Equiv.Perm (Fin n)) :
    PrivatelyWitnessed (A.relabel π) (relabelRows B π) := by
  obtain ⟨h1, h2, h3⟩ := h
  refine ⟨?_, ?_, ?_⟩
  · rw [map_children_relabel]
    exact h1.map (map_injective _)
  · intro r' hr'
    obtain ⟨r, hr, rfl⟩ := List.mem_map.mp hr'
    obtain ⟨v, hv⟩ := h2 r hr
    exact ⟨π.symm v, by simpa using hv⟩
  · intro r' hr' v hv
    obtain ⟨r, hr, rfl⟩ := List.mem_map.mp hr'
    rw [BVec.relabel_apply] at hv
    rcases h3 r hr (π v) hv with ⟨u, hu⟩ | h
    · left
      refine ⟨π.symm u, ?_⟩
      refine ⟨fun h => hu.1 ?_, by simpa using hu.2.1, by simpa using hv, fun w h1 h2 => ?_⟩
      · rw [← h]; simp
      · rw [BMat.relabel_apply] at h1 h2
        rw [BVec.relabel_apply]
        exact hu.2.2.2 (π w) (by simpa using h1) h2
    · right
      intro w hw
      rw [BMat.relabel_apply] at hw
      exact π.injective (h _ hw)

/-- **C184** the structure learned from the graph of a one-pure-child structure is the same structure, whatever the order of the measurements, for
`find_heuristic_1pc` and `find_clique_min_cover` and all set orders. -/
theorem C184_one_pure_child_partial (A : BMat n) (B : List (BVec n)) (hn : 0 < n) (hB : OnePureChild B) (hU : IsUDGOf A B) (hD : UnitDiag A)
    (π : Equiv.Perm (Fin n)) (o o' : Sched n) (rt rt' : Runtime n) (fuel : Nat) (hf : numEdgesOf A ≤ fuel)
    (hf' : numEdgesOf (A.relabel π) ≤ fuel) :
    (∃ C C', findHeuristic1pc o A = .ok C ∧ findHeuristic1pc o' (A.relabel π) = .ok C' ∧ SameRows C' (relabelRows C π)) ∧
    ∃ C C', findCliqueMinCover rt fuel A = .ok C ∧ findCliqueMinCover rt' fuel (A.relabel π) = .ok C' ∧ SameRows C' (relabelRows C π) := by
  have hB' := onePureChild_relabel hB π
  have hU' := isUDGOf_relabel hU π
  constructor
  · obtain ⟨C, h1, h2⟩ := C07_heuristic_recovers A B hn hB hU o
    obtain ⟨C', h1', h2'⟩ := C07_heuristic_recovers _ _ hn hB' hU' o'
    exact ⟨C, C', h1, h1', h2'.trans (sameRows_relabel h2 π).symm⟩
  · obtain ⟨⟨C, h1, h2, -⟩, -⟩ := C15_exact_recovers A B hn hB hU hD rt o
    obtain ⟨⟨C', h1', h2', -⟩, -⟩ := C15_exact_recovers _ _ hn hB' hU' (relabel_diag hD π) rt' o'
    exact ⟨C, C', h1 fuel hf, h1' fuel hf', h2'.trans (sameRows_relabel h2 π).symm⟩

/-- **C184** `find_clique_min_cover` returns the same structure, whatever the order of the measurements, on the graph of every structure in which each
child of each latent is in a private pair of it or isolated. -/
theorem C184_private_partial (A : BMat n) (B : List (BVec n)) (hn : 0 < n) (hD : UnitDiag A) (hU : IsUDGOf A B) (hV : CoversVertices B)
    (hW : PrivatelyWitnessed A B) (π : Equiv.Perm (Fin n)) (rt rt' : Runtime n) (fuel : Nat) (hf : numEdgesOf A ≤ fuel)
    (hf' : numEdgesOf (A.relabel π) ≤ fuel) :
    ∃ C C', findCliqueMinCover rt fuel A = .ok C ∧ findCliqueMinCover rt' fuel (A.relabel π) = .ok C' ∧ SameRows C' (relabelRows C π) := by
  obtain ⟨⟨C, h1, h2, -⟩, -⟩ := C96_private_recovers A B hn hD hU hV hW rt
  obtain ⟨⟨C', h1', h2', -⟩, -⟩ := C96_private_recovers _ _ hn (relabel_diag hD π) (isUDGOf_relabel hU π) (covers_relabel hV π)
    (private_relabel hW π) rt'
  exact ⟨C, C', h1 fuel hf, h1' fuel hf', h2'.trans (sameRows_relabel h2 π).symm⟩

theorem relabel_mean (d : Dataset M) (π : Equiv.Perm (Fin M)) (j : Fin M) : (d.relabel π).mean j = d.mean (π j) := rfl

theorem relabel_cov (d : Dataset M) (π : Equiv.Perm (Fin M)) (i j : Fin M) : (d.relabel π).cov i j = d.cov (π i) (π j) := rfl

theorem relabel_corr (d : Dataset M) (π : Equiv.Perm (Fin M)) (i j : Fin M) : (d.relabel π).corr i j = d.corr (π i) (π j) := rfl

/-- the test of one pair, as in `udgTriu` -/
noncomputable def pairTest (d : Dataset M) (i j : Fin M) : Bool :=
  match d.corr i j with
  | .fin r => decide (Real.log (max (1 - d.cov i j * r) (1 / 100000)) < -Real.log d.size / d.size)
  | _ => false

theorem pairTest_symm (d : Dataset M) (i j : Fin M) : pairTest d i j = pairTest d j i := by
  have hc : d.cov i j = d.cov j i := by unfold Dataset.cov; simp only [mul_comm]
  have : d.corr i j = d.corr j i := by
    unfold Dataset.corr
    rw [hc, mul_comm]
  unfold pairTest
  rw [this, hc]

theorem pairTest_relabel (d : Dataset M) (π : Equiv.Perm (Fin M)) (i j : Fin M) : pairTest (d.relabel π) i j = pairTest d (π i) (π j) := rfl

theorem udg_or (d : Dataset M) (i j : Fin M) : (udgTriu d i j || udgTriu d j i) = (decide (i ≠ j) && pairTest d i j) := by
  have hlt : ∀ i j : Fin M, i < j → udgTriu d i j = pairTest d i j := by
    intro i j h
    unfold udgTriu pairTest
    rw [if_neg (not_le.mpr h)]
    cases d.corr i j <;> rfl
  rcases lt_trichotomy i j with h | rfl | h
  · rw [hlt i j h, udgTriu_le d j i h.le, Bool.or_false, decide_eq_true h.ne, Bool.true_and]
  · rw [udgTriu_le d i i le_rfl]; simp
  · rw [hlt j i h, udgTriu_le d i j h.le, Bool.false_or, decide_eq_true h.ne', Bool.true_and, pairTest_symm]

/-- **C184** the graph that `GaussianMCM.fit` estimates does not depend on the order of the columns. -/
theorem C184_udg_partial (d : Dataset M) (π : Equiv.Perm (Fin M)) :
    estimateUdgCov (d.relabel π) = (estimateUdgCov d).map (·.relabel π) := by
  unfold estimateUdgCov
  split_ifs with h
  · rfl
  · refine congrArg Except.ok (congrArg BMat.of ?_)
    funext i j
    rw [udg_or, pairTest_relabel, BMat.get_of, udg_or]
    simp

/-- **C184** the structure that `GaussianMCM.fit` learns does not depend on the order of the columns if the graph used (given, or estimated from the data) is
that of a one-pure-child structure: fitting the reordered data, with the given graph reordered likewise, stores the reordered structure and graph, for
all optimizers and set orders. -/
theorem C184_fit_partial (hM : 2 ≤ M) (opt opt' : Optimizer) (o o' : Sched M) (d : Dataset M) (π : Equiv.Perm (Fin M)) (st st' : GState M)
    (hst : st.biadj = []) (hst' : st'.biadj = []) (hg : st'.udg = st.udg.map (·.relabel π)) (U : BMat M) (hU : GraphUsed d st.udg U)
    (B : List (BVec M)) (hB : OnePureChild B) (hUB : IsUDGOf U B) :
    SameRows (gaussianFit opt' o' (d.relabel π) st').1.biadj (relabelRows (gaussianFit opt o d st).1.biadj π) ∧
    (gaussianFit opt' o' (d.relabel π) st').1.udg = (gaussianFit opt o d st).1.udg.map (·.relabel π) := by
  obtain ⟨-, h1, h2⟩ := C77_fit_recovers hM opt o d st hst U hU B hB hUB
  have hU' : GraphUsed (d.relabel π) st'.udg (U.relabel π) := by
    rcases hU with h | ⟨h, h3⟩
    · exact Or.inl (by rw [hg, h]; rfl)
    · exact Or.inr ⟨by rw [hg, h]; rfl, by rw [C184_udg_partial, h3]; rfl⟩
  obtain ⟨-, h1', h2'⟩ := C77_fit_recovers hM opt' o' (d.relabel π) st' hst' _ hU' _ (onePureChild_relabel hB π) (isUDGOf_relabel hUB π)
  exact ⟨h1'.trans (sameRows_relabel h1 π).symm, by rw [h2, h2']; rfl⟩

theorem sqDist_relabel (S T : Fin M → Fin M → ℝ) (π : Equiv.Perm (Fin M)) :
    sqDist (fun i j => S (π i) (π j)) (fun i j => T (π i) (π j)) = sqDist S T := by
  unfold sqDist
  refine Eq.trans ?_ (Equiv.sum_comp π fun i => ∑ j, (S i j - T i j) ^ 2)
  exact sum_congr rfl fun i _ => Equiv.sum_comp π fun j => (S (π i) j - T (π i) j) ^ 2

theorem modelCov_relabel {k : Nat} (W : Fin k → Fin M → ℝ) (v : Fin M → ℝ) (π : Equiv.Perm (Fin M)) :
    modelCov (fun r j => W r (π j)) (fun j => v (π j)) = fun i j => modelCov W v (π i) (π j) := by
  funext i j
  simp [modelCov]

theorem modelCov_cast {k l : Nat} (h : l = k) (W : Fin k → Fin M → ℝ) (v : Fin M → ℝ) :
    modelCov (fun r : Fin l => W (Fin.cast h r)) v = modelCov W v := by
  subst h; rfl

theorem relabel_length (B : List (BVec M)) (π : Equiv.Perm (Fin M)) : (relabelRows B π).length = B.length := by simp [relabelRows]

/-- **C184** the parameters: weights and variances are a least squares solution for the data iff the reordered weights and variances are one for
the reordered data and structure. -/
theorem C184_parameters_partial (d : Dataset M) (B : List (BVec M)) (W : Fin B.length → Fin M → ℝ) (v : Fin M → ℝ) (π : Equiv.Perm (Fin M)) :
    LeastSquares (fun i j => sampleCov (fun k => (d.relabel π).val k i) fun k => (d.relabel π).val k j) (relabelRows B π) (fun r j => W (Fin.cast (relabel_length B π) r) (π j)) (fun j => v (π j)) ↔
      LeastSquares (fun i j => sampleCov (fun k => d.val k i) fun k => d.val k j) B W v := by
  show LeastSquares (d.relabel π).cov _ _ _ ↔ LeastSquares d.cov B W v
  have hl := relabel_length B π
  have hon : ∀ W : Fin B.length → Fin M → ℝ, OnStructure (relabelRows B π) (fun r j => W (Fin.cast hl r) (π j)) ↔ OnStructure B W := by
    intro W
    constructor
    · intro h r j hr
      have := h (Fin.cast hl.symm r) (π.symm j) (by
        have := relabel_getElem B π r.val (by rw [hl]; exact r.isLt) (π.symm j)
        simp only [Fin.getElem_fin, Fin.val_cast]
        rw [this]
        simpa using hr)
      simpa using this
    · intro h r j hr
      refine h _ _ ?_
      have := relabel_getElem B π r.val r.isLt j
      simp only [Fin.getElem_fin, Fin.val_cast] at hr ⊢
      rw [← this]
      exact hr
  have hdist : ∀ (W : Fin B.length → Fin M → ℝ) (v : Fin M → ℝ),
      sqDist (d.relabel π).cov (modelCov (fun r j => W (Fin.cast hl r) (π j)) (fun j => v (π j))) = sqDist d.cov (modelCov W v) := by
    intro W v
    rw [modelCov_cast hl (fun r j => W r (π j)), modelCov_relabel]
    exact sqDist_relabel d.cov (modelCov W v) π
  unfold LeastSquares
  rw [hon, hdist]
  refine and_congr Iff.rfl ⟨fun h W' v' hW' => ?_, fun h W' v' hW' => ?_⟩
  · have := h (fun r j => W' (Fin.cast hl r) (π j)) (fun j => v' (π j)) ((hon W').mpr hW')
    rwa [hdist] at this
  · obtain ⟨W'', rfl⟩ : ∃ W'' : Fin B.length → Fin M → ℝ, W' = fun r j => W'' (Fin.cast hl r) (π j) :=
      ⟨fun r j => W' (Fin.cast hl.symm r) (π.symm j), by funext r j; simp⟩
    obtain ⟨v'', rfl⟩ : ∃ v'' : Fin M → ℝ, v' = fun j => v'' (π j) := ⟨fun j => v' (π.symm j), by funext j; simp⟩
    rw [hdist]
    exact h _ _ ((hon W'').mp hW')

/-- **C184** (as stated; false) whether a structure is learned, and with how many latents, does not depend on the order of the measurements. -/
def C184_statement : Prop :=
  ∀ (n : Nat) (A : BMat n) (π : Equiv.Perm (Fin n)), 0 < n → Symm A → UnitDiag A →
    (∀ o B, findHeuristic1pc o A = .ok B → ∃ C, findHeuristic1pc o (A.relabel π) = .ok C) ∧
    ∀ rt fuel B, numEdgesOf A ≤ fuel → findCliqueMinCover rt fuel A = .ok B →
      ∃ C, findCliqueMinCover rt fuel (A.relabel π) = .ok C ∧ C.length = B.length

/-- **C184** fails for `find_clique_min_cover`, set order ascending: the graph `missGraph` has a cover of two latents, and of three after exchanging the
first two measurements. -/
theorem C184_exact_order :
    (∃ B, findCliqueMinCover (rt0 6) 12 missGraph = .ok B ∧ B.length = 2) ∧
    ∃ C, findCliqueMinCover (rt0 6) 12 (missGraph.relabel (Equiv.swap 0 1)) = .ok C ∧ C.length = 3 := by
  have h1 : (findCliqueMinCover (rt0 6) 12 missGraph).toOption.map List.length = some 2 := by decide +kernel
  have h2 : (findCliqueMinCover (rt0 6) 12 (missGraph.relabel (Equiv.swap 0 1))).toOption.map List.length = some 3 := by decide +kernel
  exact ⟨toOption_map_eq h1, toOption_map_eq h2⟩

/-- **C184** fails for `find_heuristic_1pc`, set order ascending: on the path 0–1–2–3 it returns, and raises after exchanging the last two
measurements. -/
theorem C184_heuristic_order :
    (∃ B, findHeuristic1pc (fun _ _ => 0) (graphOf 4 [(0,1),(1,2),(2,3)]) = .ok B) ∧
    findHeuristic1pc (fun _ _ => 0) ((graphOf 4 [(0,1),(1,2),(2,3)]).relabel (Equiv.swap 2 3)) = .error .typeError := by
  have h1 : (findHeuristic1pc (fun _ _ => 0) (graphOf 4 [(0,1),(1,2),(2,3)])).toOption.map List.length = some 2 := by decide +kernel
  refine ⟨(toOption_map_eq h1).imp fun B h => h.1, ?_⟩
  have h2 : (match findHeuristic1pc (fun _ _ => 0) ((graphOf 4 [(0,1),(1,2),(2,3)]).relabel (Equiv.swap 2 3)) with
      | .ok _ => none | .error e => some e) = some PyErr.typeError := by decide +kernel
  revert h2
  cases findHeuristic1pc (fun _ _ => 0) ((graphOf 4 [(0,1),(1,2),(2,3)]).relabel (Equiv.swap 2 3)) with
  | ok B => intro h; cases h
  | error e => intro h; exact congrArg Except.error (Option.some.inj h)

theorem C184_false : ¬ C184_statement := by
  intro h
  obtain ⟨⟨B, hB, hlB⟩, C, hC, hlC⟩ := C184_exact_order
  obtain ⟨C', hC', hl⟩ := (h 6 missGraph (Equiv.swap 0 1) (by norm_num) (graphOf_symm _) (graphOf_diag _)).2 (rt0 6) 12 B (by decide +kernel) hB
  rw [hC] at hC'
  rw [← Except.ok.inj hC'] at hl
  omega

/-- the hypotheses of `C184_one_pure_child_partial` and `C184_private_partial` are met by two latents with children 0, 1, 2 and 2, 3 and the reordering
that exchanges 0 and 3 -/
theorem C184_example : let B : List (BVec 4) := [BVec.of ![true, true, true, false], BVec.of ![false, false, true, true]]
    let A := graphOf 4 [(0,1),(0,2),(1,2),(2,3)]
    OnePureChild B ∧ IsUDGOf A B ∧ UnitDiag A ∧ PrivatelyWitnessed A B ∧ A.relabel (Equiv.swap 0 3) ≠ A := by
  refine ⟨⟨?_, by unfold CoversVertices; decide +kernel⟩, by unfold IsUDGOf; decide +kernel, graphOf_diag _, by decide +kernel, by decide +kernel⟩
  intro i hi
  have : i = 0 ∨ i = 1 := by simp at hi; omega
  rcases this with rfl | rfl
  · refine ⟨0, fun j hj => ?_⟩
    have : j = 0 ∨ j = 1 := by simp at hj; omega
    rcases this with rfl | rfl <;> simp
  · refine ⟨3, fun j hj => ?_⟩
    have : j = 0 ∨ j = 1 := by simp at hj; omega
    rcases this with rfl | rfl <;> simp

end Medil

import Verif.Model.HeapGaussian
/-
  C223: what `fit` and `sample` do to the user's arrays, and what later changes of these do to `sample`; C224: to `fit`.
-/
namespace Medil
variable {M : Nat} {G : Type}

/-- the arrays that existed in `m` exist in `m'` with the same contents -/
def Keeps (m m' : GMem M) : Prop := m.next ≤ m'.next ∧ ∀ a < m.next, m'.arr a = m.arr a

theorem Keeps.refl (m : GMem M) : Keeps m m := ⟨le_rfl, fun _ _ => rfl⟩

theorem Keeps.trans {m1 m2 m3 : GMem M} (h1 : Keeps m1 m2) (h2 : Keeps m2 m3) : Keeps m1 m3 :=
  ⟨h1.1.trans h2.1, fun a ha => (h2.2 a (lt_of_lt_of_le ha h1.1)).trans (h1.2 a ha)⟩

theorem keeps_alloc (m : GMem M) (x : GArr M) : Keeps m (m.alloc x) :=
  ⟨Nat.le_succ _, fun a ha => by unfold GMem.alloc; exact Function.update_of_ne (by omega) _ _⟩

theorem keeps_write (m m' : GMem M) (h : Keeps m m') (a : Nat) (ha : m.next ≤ a) (x : GArr M) : Keeps m (m'.write a x) :=
  ⟨h.1, fun b hb => by
    unfold GMem.write; exact (Function.update_of_ne (by omega) _ _).trans (h.2 b hb)⟩

theorem keeps_heapEstimate (d : Dataset M) (h : HGauss) (m : GMem M) : Keeps m (heapEstimate d h m).2.1 := by
  unfold heapEstimate
  split
  · exact Keeps.refl m
  · exact keeps_alloc m _

theorem keeps_heapUdg (d : Dataset M) (h : HGauss) (m : GMem M) : Keeps m (heapUdg d h m).2.1 := by
  unfold heapUdg
  split
  · split
    · exact keeps_heapEstimate d h m
    · exact Keeps.refl m
  · exact keeps_heapEstimate d h m

theorem keeps_heapCompute (o : Sched M) (d : Dataset M) (h : HGauss) (m : GMem M) : Keeps m (heapCompute o d h m).2.1 := by
  have hk := keeps_heapUdg d h m
  unfold heapCompute
  split
  · rename_i h' m' e he; rw [he] at hk; exact hk
  · rename_i h' m' he
    rw [he] at hk
    split
    · exact hk
    · split
      · exact hk
      · exact hk.trans (keeps_alloc _ _)

theorem keeps_heapParams (opt : Optimizer) (d : Dataset M) (h : HGauss) (m : GMem M) : Keeps m (heapParams opt d h m).2.1 := by
  unfold heapParams
  refine keeps_write _ _ (((keeps_alloc m _).trans (keeps_alloc _ _)).trans (keeps_alloc _ _)) _ ?_ _
  simp only [GMem.alloc]; omega

theorem keeps_heapFit (opt : Optimizer) (o : Sched M) (a : Nat) (h : HGauss) (m : GMem M) : Keeps m (heapFit opt o a h m).2.1 := by
  unfold heapFit
  split
  · exact Keeps.refl m
  · rename_i d hd
    dsimp only
    split
    · have hk := keeps_heapCompute o d { h with dataset := some a } m
      split
      · rename_i he; rw [he] at hk; exact hk
      · rename_i he; rw [he] at hk; exact hk.trans (keeps_heapParams _ _ _ _)
    · exact keeps_heapParams _ _ _ _

/-- the values of the attributes `biadj`, `udg` -/
def HGauss.given (h : HGauss) (m : GMem M) : GState M := { biadj := m.structAt h.biadj, udg := m.graphAt h.udg }

theorem graphOf_rowsOf (f : Fin M → Fin M → Bool) : graphOfRows (rowsOf (BMat.of f)) = BMat.of f := by
  unfold graphOfRows
  congr 1
  funext i j
  have : i.1 < (rowsOf (BMat.of f)).length := by simp [rowsOf]
  rw [dif_pos this]
  simp [rowsOf]

theorem estimate_of (d : Dataset M) (U : BMat M) (h : estimateUdgCov d = .ok U) : ∃ f, U = BMat.of f := by
  unfold estimateUdgCov at h
  split at h
  · cases h
  · cases h; exact ⟨_, rfl⟩

theorem graphAt_alloc (m : GMem M) (r : List (BVec M)) : (m.alloc (.bools r)).graphAt (some m.next) = some (graphOfRows r) := by
  simp [GMem.graphAt, GMem.alloc]

/-- what `fit` leaves in the attributes of parameters: references to new arrays with these contents -/
structure NewParams (m m' : GMem M) (h' : HGauss) (p : GParams M) (mu : Fin M → ℝ) : Prop where
  means : ∃ a, h'.means = some a ∧ m.next ≤ a ∧ a < m'.next ∧ m'.arr a = .vec mu
  variances : ∃ a, h'.variances = some a ∧ m.next ≤ a ∧ a < m'.next ∧ m'.arr a = .vec p.variances
  weights : ∃ a, h'.weights = some a ∧ m.next ≤ a ∧ a < m'.next ∧ m'.arr a = .floats (List.ofFn p.weights)

theorem NewParams.mono {m0 m m' : GMem M} {h' : HGauss} {p : GParams M} {mu : Fin M → ℝ} (h : NewParams m m' h' p mu) (hk : m0.next ≤ m.next) :
    NewParams m0 m' h' p mu := by
  obtain ⟨⟨a, ha⟩, ⟨b, hb⟩, ⟨c, hc⟩⟩ := h
  exact ⟨⟨a, ha.1, hk.trans ha.2.1, ha.2.2⟩, ⟨b, hb.1, hk.trans hb.2.1, hb.2.2⟩, ⟨c, hc.1, hk.trans hc.2.1, hc.2.2⟩⟩

theorem heapParams_spec (opt : Optimizer) (d : Dataset M) (h : HGauss) (m : GMem M) (st : GState M) (hB : st.biadj = m.structAt h.biadj) :
    (heapParams opt d h m).2.2 = .ok (fitParams opt d st).2 ∧
      (heapParams opt d h m).1.biadj = h.biadj ∧ (heapParams opt d h m).1.udg = h.udg ∧ (heapParams opt d h m).1.dataset = h.dataset ∧
      ∃ p, (fitParams opt d st).1.params = some p ∧ (fitParams opt d st).1.means = some d.mean ∧
        NewParams m (heapParams opt d h m).2.1 (heapParams opt d h m).1 p d.mean := by
  obtain ⟨b, u, ds, mu, pa⟩ := st
  subst hB
  refine ⟨rfl, rfl, rfl, rfl, _, rfl, rfl, ?_, ?_, ?_⟩
  · refine ⟨m.next, rfl, le_rfl, ?_, ?_⟩
    · simp [heapParams, GMem.alloc, GMem.write]; omega
    · simp [heapParams, GMem.alloc, GMem.write, Function.update_apply]; omega
  · refine ⟨m.next + 1, rfl, by omega, ?_, ?_⟩
    · simp [heapParams, GMem.alloc, GMem.write]
    · simp [heapParams, GMem.alloc, GMem.write]
  · refine ⟨m.next + 2, rfl, by omega, ?_, ?_⟩
    · simp [heapParams, GMem.alloc, GMem.write]
    · simp [heapParams, GMem.alloc, GMem.write]

/-- all attributes refer to existing arrays -/
def HGauss.Wf (h : HGauss) (m : GMem M) : Prop :=
  ∀ r ∈ [h.biadj, h.udg, h.dataset, h.means, h.variances, h.weights], ∀ a, r = some a → a < m.next

theorem structAt_congr {m m' : GMem M} {r : Option Nat} (h : ∀ a, r = some a → m'.arr a = m.arr a) : m'.structAt r = m.structAt r := by
  cases r with
  | none => rfl
  | some a => simp only [GMem.structAt, h a rfl]

theorem graphAt_congr {m m' : GMem M} {r : Option Nat} (h : ∀ a, r = some a → m'.arr a = m.arr a) : m'.graphAt r = m.graphAt r := by
  cases r with
  | none => rfl
  | some a => simp only [GMem.graphAt, h a rfl]

theorem heapEstimate_spec (d : Dataset M) (h : HGauss) (m : GMem M) :
    (∀ e, estimateUdgCov d = .error e → heapEstimate d h m = (h, m, .error e)) ∧
    (∀ U, estimateUdgCov d = .ok U → ∃ a m', heapEstimate d h m = ({ h with udg := some a }, m', .ok ()) ∧ a < m'.next ∧
      m'.graphAt (some a) = some U) := by
  constructor
  · intro e he; unfold heapEstimate; rw [he]
  · intro U he
    obtain ⟨f, rfl⟩ := estimate_of d U he
    refine ⟨m.next, m.alloc (.bools (rowsOf (BMat.of f))), ?_, Nat.lt_succ_self _, ?_⟩
    · unfold heapEstimate; rw [he]
    · rw [graphAt_alloc, graphOf_rowsOf]

theorem heapUdg_spec (d : Dataset M) (h : HGauss) (m : GMem M) (hw : h.Wf m) :
    (∀ e, udgOr d (m.graphAt h.udg) = .error e → heapUdg d h m = (h, m, .error e)) ∧
    (∀ U, udgOr d (m.graphAt h.udg) = .ok U → ∃ r m', heapUdg d h m = ({ h with udg := r }, m', .ok ()) ∧ (∀ a, r = some a → a < m'.next) ∧
      m'.graphAt r = some U) := by
  have hs := heapEstimate_spec d h m
  have est : (∀ e, estimateUdgCov d = .error e → heapEstimate d h m = (h, m, .error e)) ∧
    (∀ U, estimateUdgCov d = .ok U → ∃ r m', heapEstimate d h m = ({ h with udg := r }, m', .ok ()) ∧ (∀ a, r = some a → a < m'.next) ∧
      m'.graphAt r = some U) := by
    refine ⟨hs.1, fun U hU => ?_⟩
    obtain ⟨a, m', h1, h2, h3⟩ := hs.2 U hU
    exact ⟨some a, m', h1, fun b hb => by cases hb; exact h2, h3⟩
  unfold heapUdg udgOr
  cases hg : m.graphAt h.udg with
  | none => exact est
  | some U =>
    by_cases hM : M * M = 0
    · simpa only [if_pos hM] using est
    · simp only [if_neg hM]
      refine ⟨fun e he => (by cases he), fun V hV => ?_⟩
      cases hV
      exact ⟨h.udg, m, rfl, hw h.udg (by simp), hg⟩

theorem heapCompute_spec (o : Sched M) (d : Dataset M) (h : HGauss) (m : GMem M) (hw : h.Wf m) (st : GState M)
    (hu : st.udg = m.graphAt h.udg) (hb : st.biadj = m.structAt h.biadj) :
    (heapCompute o d h m).2.2 = (computeBiadj o d st).2 ∧
      (heapCompute o d h m).1 = { h with biadj := (heapCompute o d h m).1.biadj, udg := (heapCompute o d h m).1.udg } ∧
      (∀ a, (heapCompute o d h m).1.biadj = some a → a < (heapCompute o d h m).2.1.next) ∧
      (∀ a, (heapCompute o d h m).1.udg = some a → a < (heapCompute o d h m).2.1.next) ∧
      (heapCompute o d h m).2.1.structAt (heapCompute o d h m).1.biadj = (computeBiadj o d st).1.biadj ∧
      (heapCompute o d h m).2.1.graphAt (heapCompute o d h m).1.udg = (computeBiadj o d st).1.udg := by
  have hs := heapUdg_spec d h m hw
  have hk := keeps_heapUdg d h m
  unfold heapCompute computeBiadj
  rw [hu]
  cases hU : udgOr d (m.graphAt h.udg) with
  | error e =>
    rw [hs.1 e hU]
    exact ⟨rfl, rfl, hw _ (by simp), hw _ (by simp), hb.symm, hu.symm⟩
  | ok U =>
    obtain ⟨r, m', h1, h2, h3⟩ := hs.2 U hU
    rw [h1] at hk
    rw [h1]
    simp only [h3]
    cases hf : findHeuristic1pc o U with
    | error e =>
      have hbb : ∀ a, h.biadj = some a → a < m.next := hw _ (by simp)
      refine ⟨rfl, rfl, fun a ha => lt_of_lt_of_le (hbb a ha) hk.1, h2, ?_, h3⟩
      exact (structAt_congr fun a ha => hk.2 a (hbb a ha)).trans hb.symm
    | ok B =>
      refine ⟨rfl, rfl, fun a ha => ?_, fun a ha => (h2 a ha).trans (Nat.lt_succ_self _), ?_, ?_⟩
      · cases ha; exact Nat.lt_succ_self _
      · simp [GMem.structAt, GMem.alloc]
      · exact (graphAt_congr fun a ha => (keeps_alloc m' _).2 a (h2 a ha)).trans h3

/-- `fit` computes what it computes on values (`gaussianFit`), from what the arrays contain when it is called -/
theorem heapFit_spec (opt : Optimizer) (o : Sched M) (a : Nat) (h : HGauss) (m : GMem M) (hw : h.Wf m) (ha : a < m.next) (d : Dataset M)
    (hd : m.dataAt a = some d) :
    (heapFit opt o a h m).2.2 = (gaussianFit opt o d (h.given m)).2 ∧
      (heapFit opt o a h m).1.Wf (heapFit opt o a h m).2.1 ∧
      (heapFit opt o a h m).1.dataset = some a ∧
      (heapFit opt o a h m).2.1.structAt (heapFit opt o a h m).1.biadj = (gaussianFit opt o d (h.given m)).1.biadj ∧
      (heapFit opt o a h m).2.1.graphAt (heapFit opt o a h m).1.udg = (gaussianFit opt o d (h.given m)).1.udg ∧
      ((∃ e, (heapFit opt o a h m).2.2 = .error e) → (heapFit opt o a h m).1.means = h.means ∧
        (heapFit opt o a h m).1.variances = h.variances ∧ (heapFit opt o a h m).1.weights = h.weights) ∧
      ((∃ w, (heapFit opt o a h m).2.2 = .ok w) → ∃ p mu, (gaussianFit opt o d (h.given m)).1.params = some p ∧
        (gaussianFit opt o d (h.given m)).1.means = some mu ∧
        NewParams m (heapFit opt o a h m).2.1 (heapFit opt o a h m).1 p mu) := by
  have key : ∀ (h0 : HGauss) (m0 : GMem M) (st : GState M), Keeps m m0 → h0.Wf m0 → h0.dataset = some a → st.biadj = m0.structAt h0.biadj →
      st.udg = m0.graphAt h0.udg →
      (heapParams opt d h0 m0).2.2 = .ok (fitParams opt d st).2 ∧
      (heapParams opt d h0 m0).1.Wf (heapParams opt d h0 m0).2.1 ∧
      (heapParams opt d h0 m0).1.dataset = some a ∧
      (heapParams opt d h0 m0).2.1.structAt (heapParams opt d h0 m0).1.biadj = (fitParams opt d st).1.biadj ∧
      (heapParams opt d h0 m0).2.1.graphAt (heapParams opt d h0 m0).1.udg = (fitParams opt d st).1.udg ∧
      ∃ p mu, (fitParams opt d st).1.params = some p ∧ (fitParams opt d st).1.means = some mu ∧
        NewParams m (heapParams opt d h0 m0).2.1 (heapParams opt d h0 m0).1 p mu := by
    intro h0 m0 st hk hw0 hd0 hb0 hu0
    obtain ⟨e1, e2, e3, e4, p, e5, e6, e7⟩ := heapParams_spec opt d h0 m0 st hb0
    have hk' := keeps_heapParams opt d h0 m0
    have e8 := e7.mono hk.1
    refine ⟨e1, ?_, e4.trans hd0, ?_, ?_, p, d.mean, e5, e6, e8⟩
    · obtain ⟨⟨x, hx⟩, ⟨y, hy⟩, ⟨z, hz⟩⟩ := e7
      intro r hr b hb
      simp only [List.mem_cons, List.not_mem_nil, or_false] at hr
      rcases hr with rfl | rfl | rfl | rfl | rfl | rfl
      · rw [e2] at hb; exact lt_of_lt_of_le (hw0 h0.biadj (by simp) b hb) hk'.1
      · rw [e3] at hb; exact lt_of_lt_of_le (hw0 h0.udg (by simp) b hb) hk'.1
      · rw [e4] at hb; exact lt_of_lt_of_le (hw0 h0.dataset (by simp) b hb) hk'.1
      · rw [hx.1] at hb; cases hb; exact hx.2.2.1
      · rw [hy.1] at hb; cases hb; exact hy.2.2.1
      · rw [hz.1] at hb; cases hb; exact hz.2.2.1
    · rw [e2]
      exact (structAt_congr fun b hb => hk'.2 b (hw0 h0.biadj (by simp) b hb)).trans hb0.symm
    · rw [e3]
      exact (graphAt_congr fun b hb => hk'.2 b (hw0 h0.udg (by simp) b hb)).trans hu0.symm
  have hw1 : ({ h with dataset := some a } : HGauss).Wf m := by
    intro r hr b hb
    simp only [List.mem_cons, List.not_mem_nil, or_false] at hr
    rcases hr with rfl | rfl | rfl | rfl | rfl | rfl
    · exact hw h.biadj (by simp) b hb
    · exact hw h.udg (by simp) b hb
    · cases hb; exact ha
    · exact hw h.means (by simp) b hb
    · exact hw h.variances (by simp) b hb
    · exact hw h.weights (by simp) b hb
  unfold heapFit gaussianFit
  rw [hd]
  dsimp only
  by_cases hB : (m.structAt h.biadj).length * M = 0
  · have hc := heapCompute_spec o d { h with dataset := some a } m hw1 { h.given m with dataset := some d } rfl rfl
    have hkc := keeps_heapCompute o d { h with dataset := some a } m
    have hB' : ({ h.given m with dataset := some d } : GState M).biadj.length * M = 0 := hB
    rw [if_pos hB, if_pos hB']
    generalize hx : heapCompute o d { h with dataset := some a } m = x at hc hkc
    generalize hy : computeBiadj o d { h.given m with dataset := some d } = y at hc
    obtain ⟨h', m', out⟩ := x
    obtain ⟨st', out'⟩ := y
    obtain ⟨c1, c2, c3, c4, c5, c6⟩ := hc
    dsimp only at c1 c2 c3 c4 c5 c6 hkc
    subst c1
    have hwf : h'.Wf m' := by
      rw [c2]
      intro r hr b hb
      simp only [List.mem_cons, List.not_mem_nil, or_false] at hr
      rcases hr with rfl | rfl | rfl | rfl | rfl | rfl
      · exact c3 b hb
      · exact c4 b hb
      · cases hb; exact lt_of_lt_of_le ha hkc.1
      · exact lt_of_lt_of_le (hw h.means (by simp) b hb) hkc.1
      · exact lt_of_lt_of_le (hw h.variances (by simp) b hb) hkc.1
      · exact lt_of_lt_of_le (hw h.weights (by simp) b hb) hkc.1
    cases out with
    | error e =>
      refine ⟨rfl, hwf, by rw [c2], c5, c6, fun _ => ?_, fun hh => ?_⟩
      · refine ⟨?_, ?_, ?_⟩ <;> rw [c2]
      · obtain ⟨w, hw'⟩ := hh; cases hw'
    | ok _ =>
      obtain ⟨k1, k2, k3, k4, k5, k6⟩ := key h' m' st' hkc hwf (by rw [c2]) c5.symm c6.symm
      exact ⟨k1, k2, k3, k4, k5, fun ⟨e, he⟩ => (by dsimp only at he; rw [k1] at he; cases he), fun _ => k6⟩
  · have hB' : ¬ ({ h.given m with dataset := some d } : GState M).biadj.length * M = 0 := hB
    rw [if_neg hB, if_neg hB']
    obtain ⟨k1, k2, k3, k4, k5, k6⟩ := key { h with dataset := some a } m { h.given m with dataset := some d } (Keeps.refl m) hw1 rfl rfl rfl
    exact ⟨k1, k2, k3, k4, k5, fun ⟨e, he⟩ => (by rw [k1] at he; cases he), fun _ => k6⟩

/-! ### sessions -/

/-- a session before the first step -/
def HSession.new : HSession M := { mem := ⟨fun _ => .vec 0, 0⟩ }

/-- the step calls `fit` on object `i` -/
def HStep.fits (i : Nat) : HStep M G → Prop
  | .fit j _ _ => j = i
  | _ => False

/-- the step writes to the array at this reference -/
def HStep.writes (r : Option Nat) : HStep M G → Prop
  | .write a _ => r = some a
  | _ => False

theorem HGauss.Wf.keeps {h : HGauss} {m m' : GMem M} (hw : h.Wf m) (hk : m.next ≤ m'.next) : h.Wf m' :=
  fun r hr a ha => lt_of_lt_of_le (hw r hr a ha) hk

theorem step_next (gen : MvnGen G) (opt : Optimizer) (s : HSession M) (c : HStep M G) : s.mem.next ≤ (s.step gen opt c).mem.next := by
  cases c with
  | array x => exact Nat.le_succ _
  | write a x => unfold HSession.step; dsimp only; split <;> exact le_rfl
  | create b u => unfold HSession.step; dsimp only; split <;> exact le_rfl
  | fit i o a =>
    unfold HSession.step; dsimp only
    split
    · split
      · exact (keeps_heapFit _ _ _ _ _).1
      · exact le_rfl
    · exact le_rfl
  | sample i size g =>
    unfold HSession.step; dsimp only
    split
    · split
      · exact Nat.le_succ _
      · exact le_rfl
    · exact le_rfl

theorem heapFit_wf (opt : Optimizer) (o : Sched M) (a : Nat) (h : HGauss) (m : GMem M) (hw : h.Wf m) (ha : a < m.next) :
    (heapFit opt o a h m).1.Wf (heapFit opt o a h m).2.1 := by
  cases hd : m.dataAt a with
  | some d => exact (heapFit_spec opt o a h m hw ha d hd).2.1
  | none => unfold heapFit; rw [hd]; exact hw

theorem step_wf (gen : MvnGen G) (opt : Optimizer) (s : HSession M) (hs : ∀ h ∈ s.objs, h.Wf s.mem) (c : HStep M G) :
    ∀ h ∈ (s.step gen opt c).objs, h.Wf (s.step gen opt c).mem := by
  have hn := step_next gen opt s c
  have old : ∀ h ∈ s.objs, h.Wf (s.step gen opt c).mem := fun h hh => (hs h hh).keeps hn
  cases c with
  | array x => exact old
  | write a x =>
    have : (s.step gen opt (.write a x : HStep M G)).objs = s.objs := by unfold HSession.step; dsimp only; split <;> rfl
    rw [this]; exact old
  | create b u =>
    unfold HSession.step at old ⊢
    dsimp only at old ⊢
    split
    · rename_i hp
      rw [if_pos hp] at old
      intro h hh
      rcases List.mem_append.mp hh with hh | hh
      · exact old h hh
      · rw [List.mem_singleton] at hh
        subst hh
        simp only [Bool.and_eq_true] at hp
        intro r hr a ha
        simp only [List.mem_cons, List.not_mem_nil, or_false] at hr
        rcases hr with rfl | rfl | rfl | rfl | rfl | rfl
        · subst ha; have := hp.1; simp only [GMem.passable, Bool.and_eq_true, decide_eq_true_eq] at this; exact this.1
        · subst ha; have := hp.2; simp only [GMem.passable, Bool.and_eq_true, decide_eq_true_eq] at this; exact this.1
        all_goals cases ha
    · rename_i hp
      rw [if_neg hp] at old
      exact old
  | fit i o a =>
    unfold HSession.step at old ⊢
    dsimp only at old ⊢
    cases hi : s.objs[i]? with
    | none => rw [hi] at old; exact old
    | some h0 =>
      rw [hi] at old
      dsimp only at old ⊢
      by_cases ha : a < s.mem.next
      · rw [if_pos ha] at old ⊢
        intro h hh
        rcases List.mem_or_eq_of_mem_set hh with hh | hh
        · exact old h hh
        · subst hh
          exact heapFit_wf opt o a h0 s.mem (hs h0 (List.mem_of_getElem? hi)) ha
      · rw [if_neg ha] at old ⊢; exact old
  | sample i size g =>
    have : (s.step gen opt (.sample i size g : HStep M G)).objs = s.objs := by
      unfold HSession.step; dsimp only
      split
      · split <;> rfl
      · rfl
    rw [this]; exact old

theorem run_wf (gen : MvnGen G) (opt : Optimizer) (steps : List (HStep M G)) (s : HSession M) (hs : ∀ h ∈ s.objs, h.Wf s.mem) :
    ∀ h ∈ (s.run gen opt steps).objs, h.Wf (s.run gen opt steps).mem := by
  induction steps generalizing s with
  | nil => exact hs
  | cons c cs ih => exact ih _ (step_wf gen opt s hs c)

theorem new_wf : ∀ h ∈ (HSession.new : HSession M).objs, h.Wf (HSession.new : HSession M).mem := by
  intro h hh; cases hh

/-- what a step that neither fits object `i` nor writes to the array `r` leaves alone: object `i`, the array `r`, the shapes of arrays -/
theorem step_frame (gen : MvnGen G) (opt : Optimizer) (s : HSession M) (c : HStep M G) (i : Nat) (h : HGauss) (hi : s.objs[i]? = some h)
    (hc : ¬ c.fits i) :
    (s.step gen opt c).objs[i]? = some h ∧
      (∀ a < s.mem.next, ((s.step gen opt c).mem.arr a).shape = (s.mem.arr a).shape) ∧
      ∀ a < s.mem.next, ¬ c.writes (some a) → (s.step gen opt c).mem.arr a = s.mem.arr a := by
  have frame : ∀ m : GMem M, Keeps s.mem m → (∀ a < s.mem.next, (m.arr a).shape = (s.mem.arr a).shape) ∧
      ∀ a < s.mem.next, ¬ c.writes (some a) → m.arr a = s.mem.arr a :=
    fun m hk => ⟨fun a ha => by rw [hk.2 a ha], fun a ha _ => hk.2 a ha⟩
  cases c with
  | array x => exact ⟨hi, frame _ (keeps_alloc _ _)⟩
  | write b x =>
    unfold HSession.step; dsimp only
    split
    · rename_i hp
      refine ⟨hi, fun a _ => ?_, fun a _ hw => ?_⟩
      · simp only [GMem.write, Function.update_apply]
        split
        · rename_i e; subst e; exact hp.2
        · rfl
      · refine Function.update_of_ne (fun e => hw ?_) _ _
        show some a = some b
        rw [e]
    · exact ⟨hi, frame _ (Keeps.refl _)⟩
  | create b u =>
    unfold HSession.step; dsimp only
    split
    · refine ⟨?_, frame _ (Keeps.refl _)⟩
      obtain ⟨hlt, _⟩ := List.getElem?_eq_some_iff.mp hi
      rw [List.getElem?_append_left hlt]; exact hi
    · exact ⟨hi, frame _ (Keeps.refl _)⟩
  | fit j o a =>
    have hji : j ≠ i := hc
    unfold HSession.step; dsimp only
    split
    · split
      · refine ⟨?_, frame _ (keeps_heapFit _ _ _ _ _)⟩
        rw [List.getElem?_set_ne hji]; exact hi
      · exact ⟨hi, frame _ (Keeps.refl _)⟩
    · exact ⟨hi, frame _ (Keeps.refl _)⟩
  | sample j size g =>
    unfold HSession.step; dsimp only
    split
    · split
      · exact ⟨hi, frame _ (keeps_alloc _ _)⟩
      · exact ⟨hi, frame _ (Keeps.refl _)⟩
    · exact ⟨hi, frame _ (Keeps.refl _)⟩

theorem run_frame (gen : MvnGen G) (opt : Optimizer) (steps : List (HStep M G)) (s : HSession M) (i : Nat) (h : HGauss)
    (hi : s.objs[i]? = some h) (hc : ∀ c ∈ steps, ¬ c.fits i) :
    (s.run gen opt steps).objs[i]? = some h ∧ s.mem.next ≤ (s.run gen opt steps).mem.next ∧
      (∀ a < s.mem.next, ((s.run gen opt steps).mem.arr a).shape = (s.mem.arr a).shape) ∧
      ∀ a < s.mem.next, (∀ c ∈ steps, ¬ c.writes (some a)) → (s.run gen opt steps).mem.arr a = s.mem.arr a := by
  induction steps generalizing s with
  | nil => exact ⟨hi, le_rfl, fun _ _ => rfl, fun _ _ _ => rfl⟩
  | cons c cs ih =>
    obtain ⟨f1, f2, f3⟩ := step_frame gen opt s c i h hi (hc c (by simp))
    have hn := step_next gen opt s c
    obtain ⟨i1, i0, i2, i3⟩ := ih (s.step gen opt c) f1 (fun c hm => hc c (by simp [hm]))
    exact ⟨i1, hn.trans i0, fun a ha => (i2 a (lt_of_lt_of_le ha hn)).trans (f2 a ha),
      fun a ha hw => (i3 a (lt_of_lt_of_le ha hn) fun c hm => hw c (by simp [hm])).trans (f3 a ha (hw c (by simp)))⟩

theorem structAt_length (m : GMem M) (a : Nat) :
    (m.structAt (some a)).length = if (m.arr a).shape.1 = 0 then (m.arr a).shape.2 else 0 := by
  unfold GMem.structAt GArr.shape
  cases e : m.arr a <;> simp [e]

/-- **C223** `fit` and `sample` change the contents of no array that existed when they were called, and `sample` and calls on other
objects change no attribute of an object. -/
theorem C223_arrays_unchanged (gen : MvnGen G) (opt : Optimizer) (s : HSession M) (i : Nat) (o : Sched M) (a size : Nat) (g : G) :
    Keeps s.mem (s.step gen opt (.fit i o a)).mem ∧ Keeps s.mem (s.step gen opt (.sample i size g)).mem ∧
      (s.step gen opt (.sample i size g)).objs = s.objs ∧ ∀ j ≠ i, (s.step gen opt (.fit i o a)).objs[j]? = s.objs[j]? := by
  unfold HSession.step
  dsimp only
  refine ⟨?_, ?_, ?_, ?_⟩
  · split
    · split
      · exact keeps_heapFit _ _ _ _ _
      · exact Keeps.refl _
    · exact Keeps.refl _
  · split
    · split
      · exact keeps_alloc _ _
      · exact Keeps.refl _
    · exact Keeps.refl _
  · split
    · split <;> rfl
    · rfl
  · intro j hj
    split
    · split
      · exact List.getElem?_set_ne (Ne.symm hj)
      · rfl
    · rfl

/-- **C223** After any history of steps, `fit` of object `i` to the array `a` does what `gaussianFit` does on the dataset, structure and
graph that the arrays hold at that moment: the outcome, the structure and the graph are the same; if it returns, the parameters are in
arrays that did not exist before; if it raises, the parameters are the arrays they were. -/
theorem C223_fit (gen : MvnGen G) (opt : Optimizer) (steps : List (HStep M G)) (i : Nat) (o : Sched M) (a : Nat) (h : HGauss) (d : Dataset M)
    (hi : ((HSession.new : HSession M).run gen opt steps).objs[i]? = some h)
    (ha : a < ((HSession.new : HSession M).run gen opt steps).mem.next)
    (hd : ((HSession.new : HSession M).run gen opt steps).mem.dataAt a = some d) :
    let s := (HSession.new : HSession M).run gen opt steps
    let r := gaussianFit opt o d { biadj := s.mem.structAt h.biadj, udg := s.mem.graphAt h.udg }
    (heapFit opt o a h s.mem).2.2 = r.2 ∧
    ∃ h', (s.step gen opt (.fit i o a)).objs[i]? = some h' ∧ h'.dataset = some a ∧
      (s.step gen opt (.fit i o a)).mem.structAt h'.biadj = r.1.biadj ∧
      (s.step gen opt (.fit i o a)).mem.graphAt h'.udg = r.1.udg ∧
      ((∃ e, r.2 = .error e) → h'.means = h.means ∧ h'.variances = h.variances ∧ h'.weights = h.weights) ∧
      ((∃ w, r.2 = .ok w) → ∃ p mu, r.1.params = some p ∧ r.1.means = some mu ∧
        NewParams s.mem (s.step gen opt (.fit i o a)).mem h' p mu) := by
  intro s r
  have hw : h.Wf s.mem := run_wf gen opt steps _ new_wf h (List.mem_of_getElem? hi)
  obtain ⟨e1, e2, e3, e4, e5, e6, e7⟩ := heapFit_spec opt o a h s.mem hw ha d hd
  have hst : s.step gen opt (.fit i o a : HStep M G) = ⟨(heapFit opt o a h s.mem).2.1, s.objs.set i (heapFit opt o a h s.mem).1⟩ := by
    unfold HSession.step
    dsimp only
    rw [show s.objs[i]? = some h from hi]
    dsimp only
    rw [if_pos ha]
  rw [hst]
  refine ⟨e1, _, List.getElem?_set_self (List.getElem?_eq_some_iff.mp hi).1, e3, e4, e5, fun he => e6 ?_, fun hok => e7 ?_⟩
  · obtain ⟨e, he⟩ := he; exact ⟨e, e1.trans he⟩
  · obtain ⟨w, hok⟩ := hok; exact ⟨w, e1.trans hok⟩

/-- **C223** What `sample` returns depends only on the parameters: it stays the same through any steps - writing in place to the dataset,
to the arrays passed as `biadj` and `udg`, to anything but the three arrays of parameters, making other objects from the same arrays,
fitting these, sampling - that do not fit this object again. -/
theorem C223_sample_stable (gen : MvnGen G) (opt : Optimizer) (before after : List (HStep M G)) (i : Nat) (h : HGauss)
    (hi : ((HSession.new : HSession M).run gen opt before).objs[i]? = some h)
    (hfit : ∀ c ∈ after, ¬ c.fits i)
    (hwr : ∀ c ∈ after, ¬ c.writes h.means ∧ ¬ c.writes h.variances ∧ ¬ c.writes h.weights) (size : Nat) (g : G) :
    (((HSession.new : HSession M).run gen opt before).run gen opt after).objs[i]? = some h ∧
      heapSample gen h (((HSession.new : HSession M).run gen opt before).run gen opt after).mem size g =
        heapSample gen h ((HSession.new : HSession M).run gen opt before).mem size g := by
  generalize hs : (HSession.new : HSession M).run gen opt before = s at hi
  have hw : h.Wf s.mem := hs ▸ run_wf gen opt before _ new_wf h (hs ▸ List.mem_of_getElem? hi)
  obtain ⟨f1, f0, f2, f3⟩ := run_frame gen opt after s i h hi hfit
  refine ⟨f1, ?_⟩
  have hlen : ((s.run gen opt after).mem.structAt h.biadj).length = (s.mem.structAt h.biadj).length := by
    cases hb : h.biadj with
    | none => rfl
    | some a => rw [structAt_length, structAt_length, f2 a (hw h.biadj (by simp) a hb)]
  have hm : (s.run gen opt after).mem.vecAt h.means = s.mem.vecAt h.means := by
    cases hb : h.means with
    | none => rfl
    | some a =>
      simp only [GMem.vecAt, f3 a (hw h.means (by simp) a hb) fun c hc => hb ▸ (hwr c hc).1]
  have hv : (s.run gen opt after).mem.vecAt h.variances = s.mem.vecAt h.variances := by
    cases hb : h.variances with
    | none => rfl
    | some a =>
      simp only [GMem.vecAt, f3 a (hw h.variances (by simp) a hb) fun c hc => hb ▸ (hwr c hc).2.1]
  have hwt : (s.run gen opt after).mem.rowsAt h.weights = s.mem.rowsAt h.weights := by
    cases hb : h.weights with
    | none => rfl
    | some a =>
      simp only [GMem.rowsAt, f3 a (hw h.weights (by simp) a hb) fun c hc => hb ▸ (hwr c hc).2.2]
  unfold heapSample
  rw [hm, hv, hwt, hlen]

theorem ofFn_sum {n k : Nat} (f : Fin n → Fin M → ℝ) (z : Fin k → ℝ) (h1 : (List.ofFn f).length = k) (h2 : n = k) (j : Fin M) :
    (∑ r : Fin (List.ofFn f).length, z (Fin.cast h1 r) * (List.ofFn f)[r] j) = ∑ r, z (Fin.cast h2 r) * f r j := by
  subst h2
  refine Fintype.sum_equiv (finCongr h1) _ _ fun r => ?_
  simp
  exact Or.inl rfl

/-- **C223** After a `fit` that returned, `sample` returns what it returns on values. -/
theorem C223_sample (gen : MvnGen G) (opt : Optimizer) (steps : List (HStep M G)) (i : Nat) (o : Sched M) (a : Nat) (h : HGauss) (d : Dataset M)
    (hi : ((HSession.new : HSession M).run gen opt steps).objs[i]? = some h)
    (ha : a < ((HSession.new : HSession M).run gen opt steps).mem.next)
    (hd : ((HSession.new : HSession M).run gen opt steps).mem.dataAt a = some d) (size : Nat) (g : G) :
    let s := (HSession.new : HSession M).run gen opt steps
    let r := gaussianFit opt o d { biadj := s.mem.structAt h.biadj, udg := s.mem.graphAt h.udg }
    (∃ w, r.2 = .ok w) → ∀ h', (s.step gen opt (.fit i o a)).objs[i]? = some h' →
      heapSample gen h' (s.step gen opt (.fit i o a)).mem size g = r.1.sample gen size g := by
  intro s r hok h' hh'
  obtain ⟨e1, h'', f1, f2, f3, f4, f5, f6⟩ := C223_fit gen opt steps i o a h d hi ha hd
  obtain rfl : h' = h'' := Option.some.inj (hh'.symm.trans f1)
  obtain ⟨p, mu, p1, p2, p3⟩ := f6 hok
  obtain ⟨⟨x, hx1, _, _, hx⟩, ⟨y, hy1, _, _, hy⟩, ⟨z, hz1, _, _, hz⟩⟩ := p3
  change (s.step gen opt (.fit i o a)).mem.structAt h'.biadj = r.1.biadj at f3
  change (s.step gen opt (.fit i o a)).mem.arr x = _ at hx
  change (s.step gen opt (.fit i o a)).mem.arr y = _ at hy
  change (s.step gen opt (.fit i o a)).mem.arr z = _ at hz
  change r.1.params = some p at p1
  change r.1.means = some mu at p2
  unfold heapSample GState.sample
  rw [f3, p1, p2]
  have hm : (s.step gen opt (.fit i o a)).mem.vecAt h'.means = some mu := by rw [hx1]; simp only [GMem.vecAt, hx]
  have hv : (s.step gen opt (.fit i o a)).mem.vecAt h'.variances = some p.variances := by rw [hy1]; simp only [GMem.vecAt, hy]
  have hwt : (s.step gen opt (.fit i o a)).mem.rowsAt h'.weights = some (List.ofFn p.weights) := by rw [hz1]; simp only [GMem.rowsAt, hz]
  rw [hm, hv, hwt]
  unfold sampleFrom
  dsimp only
  split
  · rfl
  · split
    · rfl
    · by_cases hl : p.weightsOn.length = r.1.biadj.length
      · have hl' : (List.ofFn p.weights).length = r.1.biadj.length := by rw [List.length_ofFn]; exact hl
        rw [dif_pos hl, dif_pos hl']
        refine Prod.ext (congrArg Except.ok ?_) rfl
        funext k j
        rw [ofFn_sum p.weights _ hl' hl j]
      · have hl' : ¬ (List.ofFn p.weights).length = r.1.biadj.length := by rw [List.length_ofFn]; exact hl
        rw [dif_neg hl, dif_neg hl']

/-- **C223** In particular, after a `fit` that returned, nothing that is done to the arrays that existed before - dataset, structure, graph -
and no call on other objects changes what `sample` returns. -/
theorem C223_old_arrays (gen : MvnGen G) (opt : Optimizer) (before after : List (HStep M G)) (i : Nat) (o : Sched M) (a : Nat) (h h' : HGauss)
    (d : Dataset M)
    (hi : ((HSession.new : HSession M).run gen opt before).objs[i]? = some h)
    (ha : a < ((HSession.new : HSession M).run gen opt before).mem.next)
    (hd : ((HSession.new : HSession M).run gen opt before).mem.dataAt a = some d)
    (hok : ∃ w, (heapFit opt o a h ((HSession.new : HSession M).run gen opt before).mem).2.2 = .ok w)
    (hi' : ((HSession.new : HSession M).run gen opt (before ++ [.fit i o a])).objs[i]? = some h')
    (hfit : ∀ c ∈ after, ¬ c.fits i)
    (hold : ∀ c ∈ after, ∀ b x, c = .write b x → b < ((HSession.new : HSession M).run gen opt before).mem.next) (size : Nat) (g : G) :
    heapSample gen h' ((HSession.new : HSession M).run gen opt (before ++ [.fit i o a] ++ after)).mem size g =
      heapSample gen h' ((HSession.new : HSession M).run gen opt (before ++ [.fit i o a])).mem size g := by
  obtain ⟨e1, h'', f1, _, _, _, _, f6⟩ := C223_fit gen opt before i o a h d hi ha hd
  have hrun : (HSession.new : HSession M).run gen opt (before ++ [.fit i o a]) =
      ((HSession.new : HSession M).run gen opt before).step gen opt (.fit i o a) := by
    unfold HSession.run; rw [List.foldl_append]; rfl
  obtain rfl : h' = h'' := Option.some.inj (hi'.symm.trans (hrun ▸ f1))
  obtain ⟨w, hok⟩ := hok
  obtain ⟨p, mu, _, _, ⟨x, hx1, hx, _, _⟩, ⟨y, hy1, hy, _, _⟩, ⟨z, hz1, hz, _, _⟩⟩ := f6 ⟨w, e1.symm.trans hok⟩
  have hrun2 : (HSession.new : HSession M).run gen opt (before ++ [.fit i o a] ++ after) =
      ((HSession.new : HSession M).run gen opt (before ++ [.fit i o a])).run gen opt after := by
    unfold HSession.run; rw [List.foldl_append]
  rw [hrun2]
  refine (C223_sample_stable gen opt (before ++ [.fit i o a]) after i h' hi' hfit (fun c hc => ?_) size g).2
  have key : ∀ q, ((HSession.new : HSession M).run gen opt before).mem.next ≤ q → ¬ c.writes (some q) := by
    intro q hq hcw
    cases c with
    | write b v =>
      have hb := hold _ hc b v rfl
      have : q = b := Option.some.inj hcw
      omega
    | _ => exact hcw
  rw [hx1, hy1, hz1]
  exact ⟨key x hx, key y hy, key z hz⟩

/-- **C224** (as stated; false): `fit` of an object that was given a structure `B` keeps it, whatever is done with arrays between the
constructor and `fit`: afterwards the attribute `biadj` is `B`. -/
def C224_statement : Prop :=
  ∀ (M : Nat) (gen : MvnGen Unit) (opt : Optimizer) (before between : List (HStep M Unit)) (b i a : Nat) (B : List (BVec M)) (o : Sched M)
    (d : Dataset M) (h : HGauss), B.length * M ≠ 0 →
    let s0 := (HSession.new : HSession M).run gen opt before
    let s1 := s0.run gen opt (.create (some b) none :: between)
    b < s0.mem.next → s0.mem.arr b = .bools B → s0.objs.length = i → s1.objs[i]? = some h → a < s1.mem.next → s1.mem.dataAt a = some d →
    (heapFit opt o a h s1.mem).2.1.structAt (heapFit opt o a h s1.mem).1.biadj = B

/-- **C224** What is true: a `fit` is not affected by any steps that neither write in place to the three arrays it was given - `biadj`,
`udg` and the dataset - nor fit this object: same outcome, structure, graph and parameters.

Missing from the full claim: in-place changes of the array passed as `biadj` (`C224_false`). -/
theorem C224_fit_stable_partial (gen : MvnGen G) (opt : Optimizer) (before between : List (HStep M G)) (i : Nat) (o : Sched M) (a : Nat)
    (h : HGauss) (d : Dataset M)
    (hi : ((HSession.new : HSession M).run gen opt before).objs[i]? = some h)
    (ha : a < ((HSession.new : HSession M).run gen opt before).mem.next)
    (hd : ((HSession.new : HSession M).run gen opt before).mem.dataAt a = some d)
    (hfit : ∀ c ∈ between, ¬ c.fits i)
    (hwr : ∀ c ∈ between, ¬ c.writes h.biadj ∧ ¬ c.writes h.udg ∧ ¬ c.writes (some a)) :
    let m1 := ((HSession.new : HSession M).run gen opt before).mem
    let m2 := (((HSession.new : HSession M).run gen opt before).run gen opt between).mem
    let r1 := heapFit opt o a h m1
    let r2 := heapFit opt o a h m2
    r2.2.2 = r1.2.2 ∧ r2.2.1.structAt r2.1.biadj = r1.2.1.structAt r1.1.biadj ∧ r2.2.1.graphAt r2.1.udg = r1.2.1.graphAt r1.1.udg ∧
      ((∃ w, r1.2.2 = .ok w) → r2.2.1.vecAt r2.1.means = r1.2.1.vecAt r1.1.means ∧
        r2.2.1.vecAt r2.1.variances = r1.2.1.vecAt r1.1.variances ∧ r2.2.1.rowsAt r2.1.weights = r1.2.1.rowsAt r1.1.weights) := by
  intro m1 m2 r1 r2
  generalize hs : (HSession.new : HSession M).run gen opt before = s at hi
  have hw1 : h.Wf m1 := run_wf gen opt before _ new_wf h (hs ▸ List.mem_of_getElem? hi)
  rw [← hs] at hi
  obtain ⟨f1, f0, f2, f3⟩ := run_frame gen opt between _ i h hi hfit
  have hw2 : h.Wf m2 := hw1.keeps f0
  have hB : m2.structAt h.biadj = m1.structAt h.biadj :=
    structAt_congr fun b hb => f3 b (hw1 h.biadj (by simp) b hb) fun c hc => hb ▸ (hwr c hc).1
  have hU : m2.graphAt h.udg = m1.graphAt h.udg :=
    graphAt_congr fun b hb => f3 b (hw1 h.udg (by simp) b hb) fun c hc => hb ▸ (hwr c hc).2.1
  have hA : m2.arr a = m1.arr a := f3 a ha fun c hc => (hwr c hc).2.2
  have hd2 : m2.dataAt a = some d := by
    have : m2.dataAt a = m1.dataAt a := by simp only [GMem.dataAt, hA]
    rw [this]; exact hd
  have s1 := heapFit_spec opt o a h m1 hw1 ha d hd
  have s2 := heapFit_spec opt o a h m2 hw2 (lt_of_lt_of_le ha f0) d hd2
  have hg : h.given m2 = h.given m1 := by unfold HGauss.given; rw [hB, hU]
  rw [hg] at s2
  obtain ⟨a1, _, _, a4, a5, _, a7⟩ := s1
  obtain ⟨b1, _, _, b4, b5, _, b7⟩ := s2
  refine ⟨b1.trans a1.symm, b4.trans a4.symm, b5.trans a5.symm, fun hok => ?_⟩
  obtain ⟨p, mu, p1, p2, ⟨x, hx1, _, _, hx⟩, ⟨y, hy1, _, _, hy⟩, ⟨z, hz1, _, _, hz⟩⟩ := a7 hok
  obtain ⟨w, hok⟩ := hok
  obtain ⟨q, nu, q1, q2, ⟨x', hx1', _, _, hx'⟩, ⟨y', hy1', _, _, hy'⟩, ⟨z', hz1', _, _, hz'⟩⟩ := b7 ⟨w, (b1.trans a1.symm).trans hok⟩
  obtain rfl := Option.some.inj (p1.symm.trans q1)
  obtain rfl := Option.some.inj (p2.symm.trans q2)
  refine ⟨?_, ?_, ?_⟩
  · show (heapFit opt o a h m2).2.1.vecAt (heapFit opt o a h m2).1.means = (heapFit opt o a h m1).2.1.vecAt (heapFit opt o a h m1).1.means
    rw [hx1, hx1']; simp only [GMem.vecAt, hx, hx']
  · show (heapFit opt o a h m2).2.1.vecAt (heapFit opt o a h m2).1.variances =
      (heapFit opt o a h m1).2.1.vecAt (heapFit opt o a h m1).1.variances
    rw [hy1, hy1']; simp only [GMem.vecAt, hy, hy']
  · show (heapFit opt o a h m2).2.1.rowsAt (heapFit opt o a h m2).1.weights = (heapFit opt o a h m1).2.1.rowsAt (heapFit opt o a h m1).1.weights
    rw [hz1, hz1']; simp only [GMem.rowsAt, hz, hz']

/-! a session: two structures for one measurement and a dataset, an object with the first structure -/

/-- a structure array `b`, a dataset, an object made from `b` -/
def demoSteps : List (HStep 1 Unit) := [.array (.bools [BVec.full]), .array (.floats [fun _ => 0, fun _ => 1]), .create (some 0) none]

/-- a generator that returns zeros -/
def zeroGen : MvnGen Unit := ⟨fun _ _ _ g => (fun _ _ => 0, g)⟩

/-- an optimizer that returns its starting point (models.py:101) -/
def startOpt : Optimizer := fun _ _ => (fun _ => 1, true)

theorem demo_run : ((HSession.new : HSession 1).run zeroGen startOpt demoSteps).objs[0]? = some { biadj := some 0 } ∧
    ((HSession.new : HSession 1).run zeroGen startOpt demoSteps).mem.next = 2 ∧
    ((HSession.new : HSession 1).run zeroGen startOpt demoSteps).mem.arr 0 = .bools [BVec.full] ∧
    ((HSession.new : HSession 1).run zeroGen startOpt demoSteps).mem.arr 1 = .floats [fun _ => 0, fun _ => 1] := by
  refine ⟨?_, ?_, ?_, ?_⟩ <;>
    simp [demoSteps, HSession.run, HSession.step, HSession.new, GMem.alloc, GMem.passable]

theorem demo_data : ∃ d, ((HSession.new : HSession 1).run zeroGen startOpt demoSteps).mem.dataAt 1 = some d := by
  simp only [GMem.dataAt, demo_run.2.2.2]
  exact ⟨_, rfl⟩

/-- the hypotheses of `C223_fit`, `C223_sample` are met, and the fit returns -/
example : ∃ d, ((HSession.new : HSession 1).run zeroGen startOpt demoSteps).mem.dataAt 1 = some d ∧
    ∃ w, (gaussianFit startOpt (fun _ _ => 0) d
      (({ biadj := some 0 } : HGauss).given ((HSession.new : HSession 1).run zeroGen startOpt demoSteps).mem)).2 = .ok w := by
  obtain ⟨d, hd⟩ := demo_data
  refine ⟨d, hd, ?_⟩
  have : ((HSession.new : HSession 1).run zeroGen startOpt demoSteps).mem.structAt (some 0) = [BVec.full] := by
    simp only [GMem.structAt, demo_run.2.2.1]
  unfold HGauss.given
  dsimp only
  rw [this]
  exact ⟨_, rfl⟩

/-- the hypotheses of `C223_sample_stable` are met by a write to the structure array -/
example : ∀ c ∈ [(.write 0 (.bools [BVec.of fun _ => false]) : HStep 1 Unit)],
    ¬ c.fits 0 ∧ ¬ c.writes (some 2) ∧ ¬ c.writes (some 3) ∧ ¬ c.writes (some 4) := by
  simp [HStep.fits, HStep.writes]

/-- the user clears the array that was passed as `biadj` before `fit`: the object has lost its edge -/
theorem C224_false : ¬ C224_statement := by
  intro hst
  have h := hst 1 zeroGen startOpt [.array (.bools [BVec.full]), .array (.floats [fun _ => 0, fun _ => 1])]
    [.write 0 (.bools [BVec.of fun _ => false])] 0 0 1 [BVec.full] (fun _ _ => 0) ⟨2, le_rfl, fun k => [fun _ => 0, fun _ => 1][k]⟩
    { biadj := some 0 } (by decide)
  dsimp only at h
  have e1 : (((HSession.new : HSession 1).run zeroGen startOpt [.array (.bools [BVec.full]), .array (.floats [fun _ => 0, fun _ => 1])]).run
      zeroGen startOpt [.create (some 0) none, .write 0 (.bools [BVec.of fun _ => false])]).mem.arr 0 = .bools [BVec.of fun _ => false] := by
    simp [HSession.run, HSession.step, HSession.new, GMem.alloc, GMem.write, GMem.passable, Function.update_apply, GArr.shape]
  have e2 : (((HSession.new : HSession 1).run zeroGen startOpt [.array (.bools [BVec.full]), .array (.floats [fun _ => 0, fun _ => 1])]).run
      zeroGen startOpt [.create (some 0) none, .write 0 (.bools [BVec.of fun _ => false])]).mem.arr 1 = .floats [fun _ => 0, fun _ => 1] := by
    simp [HSession.run, HSession.step, HSession.new, GMem.alloc, GMem.write, GMem.passable, Function.update_apply, GArr.shape]
  have e3 : (((HSession.new : HSession 1).run zeroGen startOpt [.array (.bools [BVec.full]), .array (.floats [fun _ => 0, fun _ => 1])]).run
      zeroGen startOpt [.create (some 0) none, .write 0 (.bools [BVec.of fun _ => false])]).mem.next = 2 := by
    simp [HSession.run, HSession.step, HSession.new, GMem.alloc, GMem.write, GMem.passable, Function.update_apply, GArr.shape]
  have e4 : (((HSession.new : HSession 1).run zeroGen startOpt [.array (.bools [BVec.full]), .array (.floats [fun _ => 0, fun _ => 1])]).run
      zeroGen startOpt [.create (some 0) none, .write 0 (.bools [BVec.of fun _ => false])]).objs[0]? = some { biadj := some 0 } := by
    simp [HSession.run, HSession.step, HSession.new, GMem.alloc, GMem.write, GMem.passable, Function.update_apply, GArr.shape]
  have h2 := h (by simp [HSession.run, HSession.step, HSession.new, GMem.alloc]) (by
    simp [HSession.run, HSession.step, HSession.new, GMem.alloc, Function.update_apply]) (by
    simp [HSession.run, HSession.step, HSession.new, GMem.alloc]) e4 (by rw [e3]; decide) (by simp only [GMem.dataAt, e2]; rfl)
  have hw := run_wf zeroGen startOpt [.create (some 0) none, .write 0 (.bools [BVec.of fun _ => false])]
    ((HSession.new : HSession 1).run zeroGen startOpt [.array (.bools [BVec.full]), .array (.floats [fun _ => 0, fun _ => 1])])
    (run_wf _ _ _ _ new_wf) _ (List.mem_of_getElem? e4)
  have hsp := (heapFit_spec startOpt (fun _ _ => 0) 1 { biadj := some 0 } _ hw (by rw [e3]; decide)
    ⟨2, le_rfl, fun k => [fun _ => 0, fun _ => 1][k]⟩ (by simp only [GMem.dataAt, e2]; rfl)).2.2.2.1
  rw [hsp] at h2
  simp only [HGauss.given, GMem.structAt, e1] at h2
  have h3 : ∀ u : Option (BMat 1), (gaussianFit startOpt (fun _ _ => 0) (⟨2, le_rfl, fun k => [fun _ => 0, fun _ => 1][k]⟩ : Dataset 1)
    { biadj := [BVec.of fun _ => false], udg := u }).1.biadj = [BVec.of fun _ => false] := fun _ => rfl
  rw [h3] at h2
  exact absurd (congrArg (fun l => l.map fun v => v.get (0 : Fin 1)) h2) (by decide)

end Medil

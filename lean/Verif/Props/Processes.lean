import Verif.Model.Processes
import Verif.Props.Interrupt
/-
  Property theorem C236: several processes fit `NeuroCausalFactorAnalysis` models at the same time.
-/
namespace Medil
variable {M : Nat} {G O : Type}

/-- what the call of a process gives when the process is alone: object, world, outcome -/
noncomputable def NJob.alone (env : NcfaEnv G O) (wd : NWorld G) (j : NJob M G) : NState M × NCrash M × Except PyErr Unit :=
  let r := ncfaFit env j.data j.split j.obj { wd with torch := j.torch }
  (r.1, r.2.1.toCrash r.1, r.2.2.2)

/-- **C236** (as stated; false): when all processes have returned, result files in one directory that can all be read come from one fit -/
def C236_statement : Prop :=
  ∀ (G O : Type) (env : NcfaEnv G O) (M : Nat) (wd : NWorld G) (jobs : Nat → NJob M G) (path : String) (sched : List Nat),
    (∀ i, (jobs i).alone env wd |>.2.2 = .ok ()) → (∀ i, (jobs i).obj.path = path) →
    let p := (NProcs.start env wd jobs).run sched
    (∀ i < 2, p.todo i = []) → (∀ i, 2 ≤ i → i ∉ sched) →
    (∀ n ∈ fileNames, ∃ c, p.files (pathJoin path n) = .whole c) →
    ∃ i < 2, ∀ n ∈ fileNames, p.files (pathJoin path n) = ((jobs i).alone env wd).2.1.files (pathJoin path n)

/-! ### lists of effects -/

/-- the lines an effect list adds to log `f` -/
noncomputable def logsOf (f : String) (L : List (NEffect M)) : List LogEntry :=
  L.filterMap fun e => match e with
    | .log f' x => if f' = f then some x else none
    | _ => none

/-- the effect opens or closes file `f` -/
def NEffect.Touches (f : String) : NEffect M → Prop
  | .truncate g => g = f
  | .written g _ => g = f
  | _ => False

/-- every file that is opened is closed next -/
def Paired : List (NEffect M) → Prop
  | [] => True
  | .truncate f :: .written g _ :: l => f = g ∧ Paired l
  | .truncate _ :: _ => False
  | .written _ _ :: _ => False
  | .setDataset _ :: l => Paired l
  | .log _ _ :: l => Paired l
  | .setWeights _ :: l => Paired l
  | .setVae _ :: l => Paired l
  | .setLoss _ :: l => Paired l

/-- the effects that remain for a process that may be writing -/
def Ready (L : List (NEffect M)) : Prop := Paired L ∨ ∃ f c l, L = .written f c :: l ∧ Paired l

theorem paired_logs (f : String) (es : List LogEntry) (l : List (NEffect M)) (h : Paired l) : Paired (es.map (.log f) ++ l) := by
  induction es with
  | nil => exact h
  | cons e es ih => exact ih

theorem effects_paired (env : NcfaEnv G O) (j : NJob M G) (wd : NWorld G) : Paired (ncfaEffects env j.data j.split j.obj j.torch) := by
  rcases ncfaEffects_cases env j.data j.split j.obj { wd with torch := j.torch } with ⟨_, es, _, _, _, _, _, _, h⟩ | ⟨es, m, hh, _, _, _, _, _, _, h⟩
  · rw [show ncfaEffects env j.data j.split j.obj j.torch = _ from h]
    have := paired_logs (M := M) (j.obj.path ++ "training.log") es [] trivial
    rwa [List.append_nil] at this
  · rw [show ncfaEffects env j.data j.split j.obj j.torch = _ from h]
    exact paired_logs (j.obj.path ++ "training.log") es _ (by simp [saveEffects, Paired])

theorem fold_logs (f : String) (L : List (NEffect M)) (s : NCrash M) : (L.foldl NEffect.apply s).logs f = s.logs f ++ logsOf f L := by
  induction L generalizing s with
  | nil => simp [logsOf]
  | cons e L ih =>
    rw [List.foldl_cons, ih]
    cases e with
    | log g x =>
      by_cases h : f = g
      · subst h; simp [NEffect.apply, logsOf]
      · have h' : ¬ g = f := fun e => h e.symm
        simp [NEffect.apply, logsOf, h, h']
    | _ => rfl

/-- which files the effects of a call touch and what they write -/
theorem effects_files (env : NcfaEnv G O) (wd : NWorld G) (j : NJob M G) (f : String) :
    (∀ e ∈ ncfaEffects env j.data j.split j.obj j.torch, e.Touches f → ∃ n ∈ fileNames, f = pathJoin j.obj.path n) ∧
    (∀ c, NEffect.written f c ∈ ncfaEffects env j.data j.split j.obj j.torch →
      (j.alone env wd).2.2 = .ok () ∧ (j.alone env wd).2.1.files f = .whole c) ∧
    ∀ g x, NEffect.log g x ∈ ncfaEffects env j.data j.split j.obj j.torch → g = j.obj.path ++ "training.log" := by
  obtain ⟨n1, n2, n3⟩ := recon_names j.obj.path
  rcases ncfaEffects_cases env j.data j.split j.obj { wd with torch := j.torch } with ⟨_, es, _, _, _, _, _, _, h⟩ | ⟨es, m, hh, _, _, _, h1, h2, h3, h⟩
  · rw [show ncfaEffects env j.data j.split j.obj j.torch = _ from h]
    refine ⟨fun e he ht => ?_, fun c hc => ?_, fun g x hx => ?_⟩
    · simp only [List.mem_cons, List.mem_map] at he
      rcases he with rfl | ⟨x, _, rfl⟩ <;> exact ht.elim
    · simp at hc
    · simp only [List.mem_cons, List.mem_map, reduceCtorEq, false_or] at hx
      obtain ⟨y, _, hy⟩ := hx
      injection hy with a b; exact a.symm
  · rw [show ncfaEffects env j.data j.split j.obj j.torch = _ from h]
    refine ⟨fun e he ht => ?_, fun c hc => ⟨h3, ?_⟩, fun g x hx => ?_⟩
    · simp only [saveEffects, List.mem_cons, List.mem_append, List.mem_map, List.not_mem_nil, or_false] at he
      rcases he with rfl | ⟨x, _, rfl⟩ | rfl | rfl | rfl | rfl | rfl | rfl | rfl | rfl | rfl <;> simp only [NEffect.Touches] at ht <;>
        first | exact ht.elim | exact ⟨_, by simp [fileNames], ht.symm⟩
    · show (((ncfaFit env j.data j.split j.obj { wd with torch := j.torch }).2.1.files f).elim FileState.absent .whole) = _
      rw [h2]
      simp only [saveEffects, List.mem_cons, List.mem_append, List.mem_map, reduceCtorEq, NEffect.written.injEq, false_or, and_false,
        exists_false, List.not_mem_nil, or_false] at hc
      rcases hc with ⟨rfl, rfl⟩ | ⟨rfl, rfl⟩ | ⟨rfl, rfl⟩ <;> simp [NWorld.save, n1, n2, n3]
    · simp only [saveEffects, List.mem_cons, List.mem_append, List.mem_map, reduceCtorEq, List.not_mem_nil, or_false, false_or] at hx
      obtain ⟨y, _, hy⟩ := hx
      injection hy with a b; exact a.symm

/-! ### the invariant -/

/-- `dn i` are the effects process `i` has made, `C f` says that two processes had `f` open at the same time -/
structure ProcInv (env : NcfaEnv G O) (wd : NWorld G) (jobs : Nat → NJob M G) (p : NProcs M) (dn : Nat → List (NEffect M)) (C : String → Prop) : Prop where
  split : ∀ i, ncfaEffects env (jobs i).data (jobs i).split (jobs i).obj (jobs i).torch = dn i ++ p.todo i
  ready : ∀ i, Ready (p.todo i)
  obj : ∀ i, p.obj i = ((dn i).foldl NEffect.apply (wd.toCrash (jobs i).obj)).obj
  opened : ∀ f i, i ∈ p.openBy f ↔ ∃ c l, p.todo i = .written f c :: l
  files : ∀ f, p.files f = (wd.files f).elim .absent .whole ∨ p.files f = .incomplete ∨ ∃ i c, p.files f = .whole c ∧ NEffect.written f c ∈ dn i
  logs : ∀ f, ∃ l, p.logs f = wd.logs f ++ l ∧ ∀ i, (logsOf f (dn i)).Sublist l
  clash1 : ∀ f, p.files f = .incomplete → (p.openBy f ≠ ∅ ∧ p.alone f = true) ∨ C f
  clash2 : ∀ f, p.openBy f ≠ ∅ → p.alone f = false → C f

theorem Ready.cons {e : NEffect M} {l : List (NEffect M)} (h : Ready (e :: l)) : Ready l := by
  rcases h with h | ⟨f, c, l', h, h'⟩
  · cases e with
    | truncate f =>
      cases l with
      | nil => exact h.elim
      | cons e' l =>
        cases e' with
        | written g c => exact Or.inr ⟨g, c, l, rfl, h.2⟩
        | _ => exact h.elim
    | written => exact h.elim
    | setDataset => exact Or.inl h
    | log => exact Or.inl h
    | setWeights => exact Or.inl h
    | setVae => exact Or.inl h
    | setLoss => exact Or.inl h
  · simp only [List.cons.injEq] at h
    rw [h.2]; exact Or.inl h'

theorem Paired.not_written {l : List (NEffect M)} (h : Paired l) (f : String) (c : Saved) (l' : List (NEffect M)) : l ≠ .written f c :: l' := by
  rintro rfl; exact h

/-- after an effect that is not `truncate`, the next effect is not `written` -/
theorem Ready.next {e : NEffect M} {l : List (NEffect M)} (h : Ready (e :: l)) (he : ∀ f, e ≠ .truncate f) (f : String) (c : Saved) (l' : List (NEffect M)) :
    l ≠ .written f c :: l' := by
  rcases h with h | ⟨g, c', l'', h, h'⟩
  · cases e with
    | truncate f => exact absurd rfl (he f)
    | written => exact h.elim
    | setDataset => exact Paired.not_written (l := l) h f c l'
    | log => exact Paired.not_written (l := l) h f c l'
    | setWeights => exact Paired.not_written (l := l) h f c l'
    | setVae => exact Paired.not_written (l := l) h f c l'
    | setLoss => exact Paired.not_written (l := l) h f c l'
  · simp only [List.cons.injEq] at h
    rw [h.2]; exact Paired.not_written h' f c l'

theorem Ready.truncate {f : String} {l : List (NEffect M)} (h : Ready (.truncate f :: l)) : ∃ c l', l = .written f c :: l' := by
  rcases h with h | ⟨g, c', l'', h, h'⟩
  · cases l with
    | nil => exact h.elim
    | cons e' l =>
      cases e' with
      | written g c => obtain ⟨rfl, _⟩ := h; exact ⟨c, l, rfl⟩
      | _ => exact h.elim
  · cases h

theorem apply_todo (s : NProcs M) (i : Nat) (e : NEffect M) : (s.apply i e).todo = s.todo := by cases e <;> rfl

theorem apply_obj (s : NProcs M) (i j : Nat) (e : NEffect M) (t : NCrash M) (h : t.obj = s.obj i) :
    (s.apply i e).obj j = if j = i then (e.apply t).obj else s.obj j := by
  by_cases hj : j = i
  · subst hj
    cases e <;> simp [NProcs.apply, NEffect.apply, NCrash.setFile, h]
  · cases e <;> simp [NProcs.apply, hj]

theorem ProcInv.step {env : NcfaEnv G O} {wd : NWorld G} {jobs : Nat → NJob M G} {p : NProcs M} {dn : Nat → List (NEffect M)} {C C' : String → Prop}
    (h : ProcInv env wd jobs p dn C) (i : Nat) (hC : ∀ f, C f → C' f)
    (hC' : ∀ f a b, a ≠ b → a ∈ (p.step i).openBy f → b ∈ (p.step i).openBy f → C' f) :
    ∃ dn', ProcInv env wd jobs (p.step i) dn' C' := by
  unfold NProcs.step at hC' ⊢
  rcases ht : p.todo i with _ | ⟨e, es⟩
  · exact ⟨dn, h.split, h.ready, h.obj, h.opened, h.files, h.logs, fun f hf => (h.clash1 f hf).imp id (hC f), fun f a b => hC f (h.clash2 f a b)⟩
  rw [ht] at hC'
  dsimp only at hC' ⊢
  have hr := h.ready i
  rw [ht] at hr
  set q : NProcs M := { p with todo := Function.update p.todo i es } with hq
  have hfold : ((dn i).foldl NEffect.apply (wd.toCrash (jobs i).obj)).obj = q.obj i := (h.obj i).symm
  refine ⟨Function.update dn i (dn i ++ [e]), fun j => ?_, fun j => ?_, fun j => ?_, fun f j => ?_, fun f => ?_, fun f => ?_, fun f => ?_, fun f => ?_⟩
  · rw [apply_todo]
    by_cases hj : j = i
    · subst hj
      rw [h.split, ht]; simp [hq]
    · rw [h.split]; simp [hq, hj]
  · rw [apply_todo]
    by_cases hj : j = i
    · subst hj; simpa [hq] using hr.cons
    · simpa [hq, hj] using h.ready j
  · rw [apply_obj q i j e _ hfold]
    by_cases hj : j = i
    · subst hj; simp
    · simp [hj, hq, h.obj j]
  · rw [apply_todo]
    have ho := h.opened f j
    by_cases hj : j = i
    · subst hj
      rw [ht] at ho
      simp only [hq, Function.update_self]
      cases e with
      | truncate g =>
        obtain ⟨c, l, rfl⟩ := hr.truncate
        by_cases hg : f = g
        · subst hg; simp [NProcs.apply]
        · have hg' : ¬ g = f := fun e => hg e.symm
          simp only [reduceCtorEq, List.cons.injEq, false_and, exists_false, iff_false] at ho
          simp [NProcs.apply, hg, hg', ho]
      | written g c =>
        have hn : ¬ ∃ c l, es = .written f c :: l := by rintro ⟨c, l, e⟩; exact hr.next (by simp) f c l e
        by_cases hg : f = g
        · subst hg; simp [NProcs.apply, hn]
        · have hg' : ¬ g = f := fun e => hg e.symm
          simp only [List.cons.injEq, NEffect.written.injEq, hg', false_and, exists_false, iff_false] at ho
          simp only [NProcs.apply, Function.update_of_ne hg, ho, hn]
      | _ =>
        have hn : ¬ ∃ c l, es = .written f c :: l := by rintro ⟨c, l, e⟩; exact hr.next (by simp) f c l e
        simp only [reduceCtorEq, List.cons.injEq, false_and, exists_false, iff_false] at ho
        simp only [NProcs.apply, ho, hn]
    · simp only [hq, Function.update_of_ne hj]
      rw [← ho]
      cases e with
      | truncate g => by_cases hg : f = g <;> simp [NProcs.apply, hg, hj]
      | written g c => by_cases hg : f = g <;> simp [NProcs.apply, hg, hj]
      | _ => rfl
  · have hold := h.files f
    have hmem : ∀ j x, x ∈ dn j → x ∈ (Function.update dn i (dn i ++ [e])) j := by
      intro j x hx
      by_cases hj : j = i
      · subst hj; simp [hx]
      · simpa [hj] using hx
    have hold' : q.files f = (wd.files f).elim .absent .whole ∨ q.files f = .incomplete ∨
        ∃ j c, q.files f = .whole c ∧ NEffect.written f c ∈ (Function.update dn i (dn i ++ [e])) j :=
      hold.imp id (Or.imp id fun ⟨j, c, a, b⟩ => ⟨j, c, a, hmem j _ b⟩)
    cases e with
    | truncate g =>
      by_cases hg : f = g
      · subst hg; right; left; simp [NProcs.apply]
      · simpa [NProcs.apply, hg] using hold'
    | written g c =>
      by_cases hg : f = g
      · subst hg
        right
        by_cases ha : p.alone f = true
        · right; exact ⟨i, c, by simp [NProcs.apply, hq, ha], by simp⟩
        · left; simp [NProcs.apply, hq, ha]
      · simpa [NProcs.apply, hg] using hold'
    | _ => exact hold'
  · obtain ⟨l, hl, hs⟩ := h.logs f
    have hsame : ∀ (a : logsOf f [e] = []) (b : (q.apply i e).logs f = p.logs f),
        ∃ l, (q.apply i e).logs f = wd.logs f ++ l ∧ ∀ j, (logsOf f ((Function.update dn i (dn i ++ [e])) j)).Sublist l := by
      intro a b
      refine ⟨l, by rw [b, hl], fun j => ?_⟩
      by_cases hj : j = i
      · subst hj
        simp only [Function.update_self]
        unfold logsOf at a hs ⊢
        rw [List.filterMap_append, a, List.append_nil]; exact hs j
      · simp only [Function.update_of_ne hj]; exact hs j
    cases e with
    | log g x =>
      by_cases hg : f = g
      · subst hg
        refine ⟨l ++ [x], by simp [NProcs.apply, hq, hl], fun j => ?_⟩
        by_cases hj : j = i
        · subst hj
          simp only [Function.update_self]
          unfold logsOf at hs ⊢
          rw [List.filterMap_append]
          exact (hs j).append (by simp)
        · simp only [Function.update_of_ne hj]
          exact (hs j).trans (List.sublist_append_left l [x])
      · have hg' : ¬ g = f := fun e => hg e.symm
        exact hsame (by simp [logsOf, hg']) (by simp [NProcs.apply, hq, hg])
    | _ => exact hsame rfl rfl
  · intro hf
    cases e with
    | truncate g =>
      by_cases hg : f = g
      · subst hg
        by_cases hoe : p.openBy f = ∅
        · left; simp [NProcs.apply, hq, hoe]
        · right
          obtain ⟨b, hb⟩ := Finset.nonempty_iff_ne_empty.mpr hoe
          have hbi : i ≠ b := by
            rintro rfl
            obtain ⟨c, l, hc⟩ := (h.opened f i).mp hb
            rw [ht] at hc; cases hc
          exact hC' f i b hbi (by simp [NProcs.apply]) (by simp [NProcs.apply, hq, hb])
      · have := h.clash1 f (by simpa [NProcs.apply, hq, hg] using hf)
        simpa [NProcs.apply, hq, hg] using this.imp id (hC f)
    | written g c =>
      by_cases hg : f = g
      · subst hg
        right
        have hi : i ∈ p.openBy f := (h.opened f i).mpr ⟨c, es, ht⟩
        by_cases ha : p.alone f = true
        · simp [NProcs.apply, hq, ha] at hf
        · exact hC f (h.clash2 f (Finset.ne_empty_of_mem hi) (by simpa using ha))
      · have := h.clash1 f (by simpa [NProcs.apply, hq, hg] using hf)
        simpa [NProcs.apply, hq, hg] using this.imp id (hC f)
    | _ => exact (h.clash1 f hf).imp id (hC f)
  · intro h1 h2
    cases e with
    | truncate g =>
      by_cases hg : f = g
      · subst hg
        have hoe : p.openBy f ≠ ∅ := by simpa [NProcs.apply, hq] using h2
        obtain ⟨b, hb⟩ := Finset.nonempty_iff_ne_empty.mpr hoe
        have hbi : i ≠ b := by
          rintro rfl
          obtain ⟨c, l, hc⟩ := (h.opened f i).mp hb
          rw [ht] at hc; cases hc
        exact hC' f i b hbi (by simp [NProcs.apply]) (by simp [NProcs.apply, hq, hb])
      · exact hC f (h.clash2 f (by simpa [NProcs.apply, hq, hg] using h1) (by simpa [NProcs.apply, hq, hg] using h2))
    | written g c =>
      by_cases hg : f = g
      · subst hg
        have hi : i ∈ p.openBy f := (h.opened f i).mpr ⟨c, es, ht⟩
        exact hC f (h.clash2 f (Finset.ne_empty_of_mem hi) (by simpa [NProcs.apply, hq] using h2))
      · exact hC f (h.clash2 f (by simpa [NProcs.apply, hq, hg] using h1) (by simpa [NProcs.apply, hq, hg] using h2))
    | _ => exact hC f (h.clash2 f h1 h2)

/-! ### runs -/

theorem NProcs.run_append (s : NProcs M) (l : List Nat) (i : Nat) : s.run (l ++ [i]) = (s.run l).step i := by
  simp [NProcs.run, List.foldl_append]

/-- two processes have `f` open at the same time after some first part of the schedule -/
def Clash (env : NcfaEnv G O) (wd : NWorld G) (jobs : Nat → NJob M G) (sched : List Nat) (f : String) : Prop :=
  ∃ pre, pre <+: sched ∧ ∃ a b, a ≠ b ∧ a ∈ ((NProcs.start env wd jobs).run pre).openBy f ∧ b ∈ ((NProcs.start env wd jobs).run pre).openBy f

theorem procInv_start (env : NcfaEnv G O) (wd : NWorld G) (jobs : Nat → NJob M G) (C : String → Prop) :
    ProcInv env wd jobs (NProcs.start env wd jobs) (fun _ => []) C := by
  refine ⟨fun i => rfl, fun i => Or.inl (effects_paired env (jobs i) wd), fun i => rfl, fun f i => ?_, fun f => Or.inl rfl,
    fun f => ⟨[], by simp [NProcs.start], fun i => by simp [logsOf]⟩, fun f hf => ?_, fun f hf => absurd rfl hf⟩
  · simp only [NProcs.start, Finset.notMem_empty, false_iff]
    rintro ⟨c, l, e⟩
    exact Paired.not_written (effects_paired env (jobs i) wd) f c l e
  · exfalso
    have : (wd.files f).elim FileState.absent .whole = .incomplete := hf
    cases h : wd.files f <;> rw [h] at this <;> cases this

theorem procInv_run (env : NcfaEnv G O) (wd : NWorld G) (jobs : Nat → NJob M G) (sched : List Nat) :
    ∃ dn, ProcInv env wd jobs ((NProcs.start env wd jobs).run sched) dn (Clash env wd jobs sched) := by
  induction sched using List.reverseRecOn with
  | nil => exact ⟨_, procInv_start env wd jobs _⟩
  | append_singleton l i ih =>
    obtain ⟨dn, h⟩ := ih
    rw [NProcs.run_append]
    refine h.step i (fun f ⟨pre, a, b⟩ => ⟨pre, a.trans (List.prefix_append l [i]), b⟩) fun f a b hab ha hb => ?_
    exact ⟨l ++ [i], List.prefix_rfl, a, b, hab, by rwa [NProcs.run_append], by rwa [NProcs.run_append]⟩

/-- all effects of a process that is alone -/
theorem alone_effects (env : NcfaEnv G O) (wd : NWorld G) (j : NJob M G) :
    (ncfaEffects env j.data j.split j.obj j.torch).foldl NEffect.apply (wd.toCrash j.obj) = (j.alone env wd).2.1 := by
  have := C156_all_effects env j.data j.split j.obj { wd with torch := j.torch }
  unfold interrupted at this
  rw [show (NWorld.toCrash { wd with torch := j.torch } j.obj).obj = j.obj from rfl, List.take_length] at this
  exact this

/-- what a process still has to do -/
theorem run_todo (s : NProcs M) (sched : List Nat) (i : Nat) : (s.run sched).todo i = (s.todo i).drop (sched.count i) := by
  induction sched using List.reverseRecOn with
  | nil => simp [NProcs.run]
  | append_singleton l k ih =>
    rw [NProcs.run_append]
    generalize s.run l = p at ih
    unfold NProcs.step
    rw [List.count_append]
    rcases ht : p.todo k with _ | ⟨e, es⟩
    · by_cases hk : k = i
      · subst hk
        rw [ht] at ih
        rw [ht, ← List.drop_drop, ← ih, List.drop_nil]
      · simpa [List.count_singleton, hk] using ih
    · dsimp only
      rw [apply_todo]
      by_cases hk : k = i
      · subst hk
        rw [← List.drop_drop, ← ih, ht]; simp
      · simp [Function.update_of_ne (Ne.symm hk), hk, ih]

/-- **C236**, what is true.  Any processes, each with its own object, data and generator, fit at the same time on one file system; for every
schedule of their effects: a process that has returned has the object of a fit alone; every file is as before, incomplete, or the file of one
successful fit of its path; if all that have begun have returned, an incomplete file was open in two processes at once; every log file keeps its old lines,
followed by lines that contain those of each process that has returned, in their order.

Missing from the full claim: the three files of one directory may be of different fits, `C236_false`. -/
theorem C236_partial (env : NcfaEnv G O) (wd : NWorld G) (jobs : Nat → NJob M G) (sched : List Nat) :
    let p := (NProcs.start env wd jobs).run sched
    (∀ i, p.todo i = [] → p.obj i = ((jobs i).alone env wd).1) ∧
    (∀ f, p.files f = (wd.files f).elim .absent .whole ∨ p.files f = .incomplete ∨
      ∃ i, (∃ n ∈ fileNames, f = pathJoin (jobs i).obj.path n) ∧ ((jobs i).alone env wd).2.2 = .ok () ∧
        ∃ c, p.files f = .whole c ∧ ((jobs i).alone env wd).2.1.files f = .whole c) ∧
    (∀ f, (∀ i ∈ sched, p.todo i = []) → p.files f = .incomplete → ∃ pre, pre <+: sched ∧ ∃ a b, a ≠ b ∧
      a ∈ ((NProcs.start env wd jobs).run pre).openBy f ∧ b ∈ ((NProcs.start env wd jobs).run pre).openBy f) ∧
    ∀ f, ∃ l, p.logs f = wd.logs f ++ l ∧ ∀ i, p.todo i = [] →
      ∃ own, ((jobs i).alone env wd).2.1.logs f = wd.logs f ++ own ∧ own.Sublist l := by
  intro p
  obtain ⟨dn, h⟩ := procInv_run env wd jobs sched
  have hall : ∀ i, p.todo i = [] → dn i = ncfaEffects env (jobs i).data (jobs i).split (jobs i).obj (jobs i).torch := fun i hi => by
    have := h.split i; rw [show ((NProcs.start env wd jobs).run sched).todo i = [] from hi, List.append_nil] at this; exact this.symm
  refine ⟨fun i hi => ?_, fun f => ?_, fun f hf hfi => ?_, fun f => ?_⟩
  · have := h.obj i
    rw [hall i hi, alone_effects] at this
    exact this
  · refine (h.files f).imp id (Or.imp id ?_)
    rintro ⟨i, c, h1, h2⟩
    have hm : NEffect.written f c ∈ ncfaEffects env (jobs i).data (jobs i).split (jobs i).obj (jobs i).torch := by
      rw [h.split i]; exact List.mem_append_left _ h2
    obtain ⟨e1, e2, -⟩ := effects_files env wd (jobs i) f
    exact ⟨i, e1 _ hm rfl, (e2 c hm).1, c, h1, (e2 c hm).2⟩
  · rcases h.clash1 f hfi with ⟨a, -⟩ | a
    · obtain ⟨b, hb⟩ := Finset.nonempty_iff_ne_empty.mpr a
      obtain ⟨c, l, e⟩ := (h.opened f b).mp hb
      by_cases hb' : b ∈ sched
      · rw [show ((NProcs.start env wd jobs).run sched).todo b = [] from hf b hb'] at e
        cases e
      · rw [run_todo, List.count_eq_zero_of_not_mem hb'] at e
        exact absurd e (Paired.not_written (effects_paired env (jobs b) wd) f c l)
    · exact a
  · obtain ⟨l, h1, h2⟩ := h.logs f
    refine ⟨l, h1, fun i hi => ⟨logsOf f (dn i), ?_, h2 i⟩⟩
    rw [hall i hi, ← alone_effects, fold_logs]
    rfl

/-! ### a directory of its own -/

/-- what effects do to one file -/
noncomputable def fileAfter (f : String) (L : List (NEffect M)) (x : FileState) : FileState :=
  L.foldl (fun x e => match e with
    | .truncate g => if f = g then .incomplete else x
    | .written g c => if f = g then .whole c else x
    | _ => x) x

theorem fold_files (f : String) (L : List (NEffect M)) (s : NCrash M) : (L.foldl NEffect.apply s).files f = fileAfter f L (s.files f) := by
  induction L generalizing s with
  | nil => rfl
  | cons e L ih =>
    rw [List.foldl_cons, ih]
    cases e <;> rfl

/-- a file that only process `i` touches -/
structure SoloFile (i : Nat) (f : String) (p : NProcs M) (final : FileState) : Prop where
  after : fileAfter f (p.todo i) (p.files f) = final
  others : ∀ j, j ≠ i → ∀ e ∈ p.todo j, ¬ e.Touches f
  mine : ∀ j ∈ p.openBy f, j = i
  sole : i ∈ p.openBy f → p.alone f = true

theorem SoloFile.step {env : NcfaEnv G O} {wd : NWorld G} {jobs : Nat → NJob M G} {p : NProcs M} {dn : Nat → List (NEffect M)} {C : String → Prop}
    (h : ProcInv env wd jobs p dn C) {i : Nat} {f : String} {x : FileState} (s : SoloFile i f p x) (k : Nat) : SoloFile i f (p.step k) x := by
  unfold NProcs.step
  rcases ht : p.todo k with _ | ⟨e, es⟩
  · exact s
  dsimp only
  set q : NProcs M := { p with todo := Function.update p.todo k es } with hq
  have hoth : ∀ j, j ≠ i → ∀ e' ∈ (q.apply k e).todo j, ¬ e'.Touches f := by
    intro j hj e' he'
    rw [apply_todo] at he'
    by_cases hjk : j = k
    · subst hjk
      simp only [hq, Function.update_self] at he'
      exact s.others j hj e' (by rw [ht]; exact List.mem_cons_of_mem _ he')
    · simp only [hq, Function.update_of_ne hjk] at he'
      exact s.others j hj e' he'
  by_cases hk : k = i
  · subst hk
    have hnb : (∀ g, e = .truncate g → k ∉ p.openBy f) := by
      rintro g rfl hb
      obtain ⟨c, l, hc⟩ := (h.opened f k).mp hb
      rw [ht] at hc; cases hc
    have hemp : ∀ g, e = .truncate g → p.openBy f = ∅ := by
      intro g hg
      rw [Finset.eq_empty_iff_forall_notMem]
      intro b hb
      have := s.mine b hb
      subst this
      exact hnb g hg hb
    have haf := s.after
    rw [ht] at haf
    unfold fileAfter at haf
    rw [List.foldl_cons] at haf
    refine ⟨?_, hoth, ?_, ?_⟩
    · rw [apply_todo]
      simp only [hq, Function.update_self]
      unfold fileAfter
      cases e with
      | truncate g =>
        by_cases hg : f = g
        · subst hg; simpa [NProcs.apply] using haf
        · simpa [NProcs.apply, hg] using haf
      | written g c =>
        by_cases hg : f = g
        · subst hg
          have := s.sole ((h.opened f k).mpr ⟨c, es, ht⟩)
          simpa [NProcs.apply, this] using haf
        · simpa [NProcs.apply, hg] using haf
      | _ => exact haf
    · intro b hb
      cases e with
      | truncate g =>
        by_cases hg : f = g
        · subst hg
          simp only [NProcs.apply, Function.update_self, Finset.mem_insert] at hb
          exact hb.elim id (s.mine b)
        · simp only [NProcs.apply, Function.update_of_ne hg] at hb
          exact s.mine b hb
      | written g c =>
        by_cases hg : f = g
        · subst hg
          simp only [NProcs.apply, Function.update_self, Finset.mem_erase] at hb
          exact s.mine b hb.2
        · simp only [NProcs.apply, Function.update_of_ne hg] at hb
          exact s.mine b hb
      | _ => exact s.mine b hb
    · intro hb
      cases e with
      | truncate g =>
        by_cases hg : f = g
        · subst hg
          simp [NProcs.apply, hq, hemp f rfl]
        · simp only [NProcs.apply, Function.update_of_ne hg] at hb ⊢
          exact s.sole hb
      | written g c =>
        by_cases hg : f = g
        · subst hg
          simp [NProcs.apply] at hb
        · simp only [NProcs.apply, Function.update_of_ne hg] at hb ⊢
          exact s.sole hb
      | _ => exact s.sole hb
  · have hte : ¬ e.Touches f := s.others k hk e (by rw [ht]; exact List.mem_cons_self)
    have hf : (q.apply k e).files f = p.files f ∧ (q.apply k e).openBy f = p.openBy f ∧ (q.apply k e).alone f = p.alone f := by
      cases e with
      | truncate g =>
        have hg : ¬ f = g := fun e => hte e.symm
        simp [NProcs.apply, hg, hq]
      | written g c =>
        have hg : ¬ f = g := fun e => hte e.symm
        simp [NProcs.apply, hg, hq]
      | _ => exact ⟨rfl, rfl, rfl⟩
    refine ⟨?_, hoth, ?_, ?_⟩
    · rw [apply_todo, hf.1]
      simp only [hq, Function.update_of_ne (Ne.symm hk)]
      exact s.after
    · rw [hf.2.1]; exact s.mine
    · rw [hf.2.1, hf.2.2]; exact s.sole

/-- a log file that only process `i` writes -/
theorem solo_log {env : NcfaEnv G O} {wd : NWorld G} {jobs : Nat → NJob M G} {i : Nat} {f : String} (ho : ∀ j, j ≠ i → f ≠ (jobs j).obj.path ++ "training.log")
    (sched : List Nat) : ((NProcs.start env wd jobs).run sched).logs f ++ logsOf f (((NProcs.start env wd jobs).run sched).todo i) =
      ((jobs i).alone env wd).2.1.logs f := by
  induction sched using List.reverseRecOn with
  | nil =>
    rw [← alone_effects, fold_logs]; rfl
  | append_singleton l k ih =>
    rw [NProcs.run_append, ← ih]
    obtain ⟨dn, h⟩ := procInv_run env wd jobs l
    generalize (NProcs.start env wd jobs).run l = p at h ⊢
    unfold NProcs.step
    rcases ht : p.todo k with _ | ⟨e, es⟩
    · rfl
    dsimp only
    rw [apply_todo]
    by_cases hk : k = i
    · subst hk
      simp only [Function.update_self]
      rw [ht]
      cases e with
      | log g x =>
        by_cases hg : f = g
        · subst hg; simp [NProcs.apply, logsOf]
        · have hg' : ¬ g = f := fun e => hg e.symm
          simp [NProcs.apply, logsOf, hg, hg']
      | _ => rfl
    · simp only [Function.update_of_ne (Ne.symm hk)]
      congr 1
      cases e with
      | log g x =>
        have hm : NEffect.log g x ∈ ncfaEffects env (jobs k).data (jobs k).split (jobs k).obj (jobs k).torch := by
          rw [h.split k, ht]; simp
        have hg : f ≠ g := by
          rw [(effects_files env wd (jobs k) f).2.2 g x hm]
          exact ho k hk
        simp [NProcs.apply, hg]
      | _ => rfl

/-- **C236**, directories apart: a process whose result files are those of no other process has, when it has returned, the files of a fit alone;
so does its log file if no other process writes to it. -/
theorem C236_paths (env : NcfaEnv G O) (wd : NWorld G) (jobs : Nat → NJob M G) (sched : List Nat) (i : Nat)
    (hi : ((NProcs.start env wd jobs).run sched).todo i = []) :
    (∀ f, (∀ j, j ≠ i → ∀ n ∈ fileNames, f ≠ pathJoin (jobs j).obj.path n) →
      ((NProcs.start env wd jobs).run sched).files f = ((jobs i).alone env wd).2.1.files f) ∧
    ∀ f, (∀ j, j ≠ i → f ≠ (jobs j).obj.path ++ "training.log") →
      ((NProcs.start env wd jobs).run sched).logs f = ((jobs i).alone env wd).2.1.logs f := by
  refine ⟨fun f hf => ?_, fun f hf => ?_⟩
  · have key : ∀ sched, SoloFile i f ((NProcs.start env wd jobs).run sched) (((jobs i).alone env wd).2.1.files f) := by
      intro sched
      induction sched using List.reverseRecOn with
      | nil =>
        refine ⟨?_, fun j hj e he ht => ?_, fun j hj => ?_, fun hj => ?_⟩
        · rw [← alone_effects, fold_files]; rfl
        · obtain ⟨n, hn, hfn⟩ := (effects_files env wd (jobs j) f).1 e he ht
          exact hf j hj n hn hfn
        · exact absurd hj (Finset.notMem_empty j)
        · exact absurd hj (Finset.notMem_empty i)
      | append_singleton l k ih =>
        rw [NProcs.run_append]
        obtain ⟨dn, h⟩ := procInv_run env wd jobs l
        exact ih.step h k
    have := (key sched).after
    rwa [hi] at this
  · have := solo_log (env := env) (wd := wd) hf sched
    rw [hi] at this
    simpa [logsOf] using this

/-! ### the counterexample -/

theorem fileAfter_append (f : String) (a b : List (NEffect M)) (x : FileState) : fileAfter f (a ++ b) x = fileAfter f b (fileAfter f a x) := by
  simp [fileAfter, List.foldl_append]

theorem fileAfter_logs (f g : String) (es : List LogEntry) (x : FileState) : fileAfter (M := M) f (es.map (.log g)) x = x := by
  induction es with
  | nil => rfl
  | cons e es ih => exact ih

/-- a process that is the only one to run for a while, from files that are all closed to files that are all closed -/
theorem run_block (i : Nat) (a : List (NEffect M)) (ha : Paired a) : ∀ (p : NProcs M) (b : List (NEffect M)), p.todo i = a ++ b → (∀ f, p.openBy f = ∅) →
    (p.run (List.replicate a.length i)).todo = Function.update p.todo i b ∧ (∀ f, (p.run (List.replicate a.length i)).openBy f = ∅) ∧
    ∀ f, (p.run (List.replicate a.length i)).files f = fileAfter f a (p.files f) := by
  have one : ∀ (e : NEffect M) (l : List (NEffect M)), (∀ g, ¬ e.Touches g) →
      (∀ (p : NProcs M) (b : List (NEffect M)), p.todo i = l ++ b → (∀ f, p.openBy f = ∅) →
        (p.run (List.replicate l.length i)).todo = Function.update p.todo i b ∧ (∀ f, (p.run (List.replicate l.length i)).openBy f = ∅) ∧
        ∀ f, (p.run (List.replicate l.length i)).files f = fileAfter f l (p.files f)) →
      ∀ (p : NProcs M) (b : List (NEffect M)), p.todo i = (e :: l) ++ b → (∀ f, p.openBy f = ∅) →
        (p.run (List.replicate (e :: l).length i)).todo = Function.update p.todo i b ∧ (∀ f, (p.run (List.replicate (e :: l).length i)).openBy f = ∅) ∧
        ∀ f, (p.run (List.replicate (e :: l).length i)).files f = fileAfter f (e :: l) (p.files f) := by
    intro e l he ih p b hp ho
    have hs : p.run (List.replicate (e :: l).length i) = ({ p with todo := Function.update p.todo i (l ++ b) }.apply i e).run (List.replicate l.length i) := by
      rw [List.length_cons, List.replicate_succ]
      show (p.step i).run _ = _
      unfold NProcs.step
      rw [hp]; rfl
    rw [hs]
    have hq := ih ({ p with todo := Function.update p.todo i (l ++ b) }.apply i e) b (by rw [apply_todo]; simp)
      (by cases e <;> first | exact ho | exact absurd rfl (he _))
    rw [apply_todo] at hq
    refine ⟨by rw [hq.1]; simp, hq.2.1, fun f => ?_⟩
    rw [hq.2.2 f]
    cases e <;> first | rfl | exact absurd rfl (he _)
  induction a using Paired.induct with
  | case1 =>
    intro p b hp ho
    exact ⟨by simp only [List.nil_append] at hp; rw [← hp]; simp [NProcs.run], ho, fun f => rfl⟩
  | case2 f g c l ih =>
    intro p b hp ho
    obtain ⟨rfl, hl⟩ := ha
    have hs : p.run (List.replicate (NEffect.truncate f :: NEffect.written f c :: l).length i) =
        (({ ({ p with todo := Function.update p.todo i (.written f c :: (l ++ b)) }.apply i (.truncate f)) with
          todo := Function.update p.todo i (l ++ b) } : NProcs M).apply i (.written f c)).run (List.replicate l.length i) := by
      rw [List.length_cons, List.length_cons, List.replicate_succ, List.replicate_succ]
      show ((p.step i).step i).run _ = _
      have h1 : p.step i = { p with todo := Function.update p.todo i (.written f c :: (l ++ b)) }.apply i (.truncate f) := by
        unfold NProcs.step; rw [hp]; rfl
      rw [h1]
      congr 1
      conv_lhs => unfold NProcs.step
      rw [apply_todo]
      simp
    rw [hs]
    have hq := ih hl (({ ({ p with todo := Function.update p.todo i (.written f c :: (l ++ b)) }.apply i (.truncate f)) with
          todo := Function.update p.todo i (l ++ b) } : NProcs M).apply i (.written f c)) b (by rw [apply_todo]; simp)
      (by
        intro g
        by_cases hg : g = f
        · subst hg; simp [NProcs.apply, ho]
        · simp [NProcs.apply, ho, hg])
    rw [apply_todo] at hq
    refine ⟨by rw [hq.1]; simp, hq.2.1, fun g => ?_⟩
    rw [hq.2.2 g]
    by_cases hg : g = f
    · subst hg; simp [NProcs.apply, ho, fileAfter]
    · simp [NProcs.apply, hg, fileAfter]
  | case3 f l hne =>
    cases l with
    | nil => exact ha.elim
    | cons e l =>
      cases e with
      | written g c => exact absurd rfl (hne g c l)
      | _ => exact ha.elim
  | case4 => exact ha.elim
  | case5 d l ih => exact one _ l (fun g h => h) (ih ha)
  | case6 f x l ih => exact one _ l (fun g h => h) (ih ha)
  | case7 W l ih => exact one _ l (fun g h => h) (ih ha)
  | case8 m l ih => exact one _ l (fun g h => h) (ih ha)
  | case9 h l ih => exact one _ l (fun g h => h) (ih ha)

/-- process 1 fits without any epoch, all others fit `demoNcfa`, in the same directory -/
noncomputable def demoJobs : Nat → NJob 1 Nat := fun i =>
  { obj := if i = 1 then { demoNcfa with hp := { demoNcfa.hp with numEpochs := 0 } } else demoNcfa
    data := demoData, split := none, torch := demoWorld.torch }

/-- the claim is false: process 0 saves its network, process 1 fits, process 0 saves its histories; all files can be read, the network is that of
process 1, the histories are those of process 0 -/
theorem C236_false : ¬ C236_statement := by
  intro hc
  obtain ⟨n1, n2, n3⟩ := recon_names demoNcfa.path
  have hok0 : (ncfaFit demoEnv demoData none { demoNcfa with hp := { demoNcfa.hp with numEpochs := 0 } } demoWorld).2.2.2 = .ok () := by
    rw [C67_outcome]; simp [demoNcfa]
  have hok1 : (ncfaFit demoEnv demoData none demoNcfa demoWorld).2.2.2 = .ok () := by
    rw [C67_outcome]; simp [demoNcfa]
  obtain ⟨W0, a0, -⟩ := C80_training _ _ _ _ _ hok0
  obtain ⟨W1, a1, -⟩ := C80_training _ _ _ _ _ hok1
  rcases ncfaEffects_cases demoEnv demoData none { demoNcfa with hp := { demoNcfa.hp with numEpochs := 0 } } demoWorld with
    ⟨e, es, torch, np, out, h1, h2, h3, h4⟩ | ⟨es0, m0, l0, torch0, np0, out0, g1, g2, g3, g4⟩
  · rw [hok0] at h3; cases h3
  rcases ncfaEffects_cases demoEnv demoData none demoNcfa demoWorld with
    ⟨e, es, torch, np, out, h1, h2, h3, h4⟩ | ⟨es, m, h, torch, np, out, h1, h2, h3, h4⟩
  · rw [hok1] at h3; cases h3
  rw [g1] at a0
  rw [h1] at a1
  have t0 : m0.training = true := by rw [Option.some.inj a0]; simp
  have t1 : m.training = false := by rw [Option.some.inj a1]; simp [demoNcfa]
  have l0e : l0.trainElbo.length = 0 := by
    obtain ⟨hist, ps, b1, -, b2, -⟩ := C67_histories _ _ _ _ _ hok0
    rw [g1] at b1; rw [Option.some.inj b1, b2]
  have l1e : h.trainElbo.length = 2 := by
    obtain ⟨hist, ps, b1, -, b2, -⟩ := C67_histories _ _ _ _ _ hok1
    rw [h1] at b1; rw [Option.some.inj b1, b2]; rfl
  -- the effects of process 0 in two parts
  let A : List (NEffect 1) := .setDataset demoData :: (es.map (.log (demoNcfa.path ++ "training.log")) ++ (saveEffects demoNcfa m h).take 2)
  let B : List (NEffect 1) := (saveEffects demoNcfa m h).drop 2
  let E1 : List (NEffect 1) := .setDataset demoData :: (es0.map (.log (demoNcfa.path ++ "training.log")) ++ saveEffects demoNcfa m0 l0)
  have hE0 : ncfaEffects demoEnv (demoJobs 0).data (demoJobs 0).split (demoJobs 0).obj (demoJobs 0).torch = A ++ B := by
    show ncfaEffects demoEnv demoData none demoNcfa demoWorld.torch = A ++ B
    rw [h4]
    show _ = NEffect.setDataset demoData :: ((es.map _ ++ List.take 2 _) ++ List.drop 2 _)
    rw [List.append_assoc, List.take_append_drop]
  have hE1 : ncfaEffects demoEnv (demoJobs 1).data (demoJobs 1).split (demoJobs 1).obj (demoJobs 1).torch = E1 := g4
  have pA : Paired A := paired_logs _ es _ (by simp [saveEffects, Paired])
  have pB : Paired B := by simp [B, saveEffects, Paired]
  have pE : Paired E1 := paired_logs _ es0 _ (by simp [saveEffects, Paired])
  set p0 := NProcs.start demoEnv demoWorld demoJobs with hp0
  obtain ⟨q1, q2, q3⟩ := run_block 0 A pA p0 B hE0 (fun f => rfl)
  set p1 := p0.run (List.replicate A.length 0) with hp1
  obtain ⟨r1, r2, r3⟩ := run_block 1 E1 pE p1 [] (by rw [q1, Function.update_of_ne (by decide), List.append_nil]; exact hE1) q2
  set p2 := p1.run (List.replicate E1.length 1) with hp2
  obtain ⟨s1, s2, s3⟩ := run_block 0 B pB p2 [] (by rw [r1, q1]; simp) r2
  have hrun : p0.run (List.replicate A.length 0 ++ (List.replicate E1.length 1 ++ List.replicate B.length 0)) = p2.run (List.replicate B.length 0) := by
    simp only [hp2, hp1, NProcs.run, List.foldl_append]
  set p3 := p2.run (List.replicate B.length 0) with hp3
  have hfile : ∀ f, p3.files f = fileAfter f B (fileAfter f E1 (fileAfter f A (p0.files f))) := fun f => by rw [s3, r3, q3]
  have hA0 : ∀ f, ((demoJobs 0).alone demoEnv demoWorld).2.1.files f = fileAfter f (A ++ B) (p0.files f) := fun f => by
    rw [← alone_effects, fold_files, hE0]; rfl
  have hA1 : ∀ f, ((demoJobs 1).alone demoEnv demoWorld).2.1.files f = fileAfter f E1 (p0.files f) := fun f => by
    rw [← alone_effects, fold_files, hE1]; rfl
  have fE : ∀ f x, fileAfter f E1 x = fileAfter f (saveEffects demoNcfa m0 l0) x := fun f x => by
    show fileAfter f (List.map _ _ ++ _) x = _
    rw [fileAfter_append, fileAfter_logs]
  have fAB : ∀ f x, fileAfter f (A ++ B) x = fileAfter f (saveEffects demoNcfa m h) x := fun f x => by
    rw [fileAfter_append]
    show fileAfter f B (fileAfter f (List.map _ _ ++ _) x) = _
    rw [fileAfter_append, fileAfter_logs, ← fileAfter_append]
    show fileAfter f (List.take 2 _ ++ List.drop 2 _) x = _
    rw [List.take_append_drop]
  have sm : p3.files (pathJoin demoNcfa.path "model_recon.pt") = .whole (.network m0) := by
    rw [hfile, fE]; simp [B, fileAfter, saveEffects, n1, n2]
  have sl : p3.files (pathJoin demoNcfa.path "loss_recon.pkl") = .whole (.arrays h.trainElbo h.validElbo) := by
    rw [hfile, fE]; simp [B, fileAfter, saveEffects, n3]
  have se : p3.files (pathJoin demoNcfa.path "error_recon.pkl") = .whole (.arrays h.trainError h.validError) := by
    rw [hfile, fE]; simp [B, fileAfter, saveEffects]
  have key := hc _ _ demoEnv 1 demoWorld demoJobs demoNcfa.path (List.replicate A.length 0 ++ (List.replicate E1.length 1 ++ List.replicate B.length 0))
    (by
      intro i
      by_cases hi : i = 1
      · subst hi; exact hok0
      · have hj : demoJobs i = demoJobs 0 := by simp [demoJobs, hi]
        rw [hj]; exact hok1)
    (by intro i; unfold demoJobs; dsimp only; split <;> rfl)
  dsimp only at key
  rw [← hp0, hrun] at key
  obtain ⟨i, hi, hall⟩ := key
    (by
      intro i hi
      rw [s1, r1, q1]
      interval_cases i <;> simp)
    (by
      intro i hi hm
      simp only [List.mem_append, List.mem_replicate] at hm
      omega)
    (by
      intro n hn
      simp only [fileNames, List.mem_cons, List.not_mem_nil, or_false] at hn
      rcases hn with rfl | rfl | rfl
      · exact ⟨_, sm⟩
      · exact ⟨_, sl⟩
      · exact ⟨_, se⟩)
  interval_cases i
  · have h5 := hall "model_recon.pt" (by simp [fileNames])
    rw [sm, hA0, fAB] at h5
    simp only [fileAfter, saveEffects, List.foldl_cons, List.foldl_nil, if_true, n1, n2, if_false, FileState.whole.injEq, Saved.network.injEq] at h5
    have := congrArg VaeModel.training (eq_of_heq h5.2)
    rw [t0, t1] at this
    cases this
  · have h5 := hall "loss_recon.pkl" (by simp [fileNames])
    rw [sl, hA1, fE] at h5
    simp only [fileAfter, saveEffects, List.foldl_cons, List.foldl_nil, if_true, n3, if_false, FileState.whole.injEq, Saved.arrays.injEq] at h5
    have := congrArg List.length h5.1
    rw [l1e, l0e] at this
    cases this

/-- a process returns when it has had as many turns as its call has effects; so two processes can return -/
theorem C236_returns (env : NcfaEnv G O) (wd : NWorld G) (jobs : Nat → NJob M G) (sched : List Nat) (i : Nat) :
    ((NProcs.start env wd jobs).run sched).todo i = [] ↔
      (ncfaEffects env (jobs i).data (jobs i).split (jobs i).obj (jobs i).torch).length ≤ sched.count i := by
  rw [run_todo, List.drop_eq_nil_iff]; rfl

/-- processes with the paths `a/`, `b/`, and `c/` for all others -/
noncomputable def twoDirs : Nat → NJob 1 Nat := fun i =>
  { obj := { demoNcfa with path := if i = 0 then "a/" else if i = 1 then "b/" else "c/" }, data := demoData, split := none, torch := demoWorld.torch }

/-- processes 0 and 1 alternate: when all turns are over, both have the object and the files of a fit alone -/
theorem C236_example : ∃ sched : List Nat, ∀ i < 2,
    ((NProcs.start demoEnv demoWorld twoDirs).run sched).todo i = [] ∧
    ((NProcs.start demoEnv demoWorld twoDirs).run sched).obj i = ((twoDirs i).alone demoEnv demoWorld).1 ∧
    ∀ n ∈ fileNames, ((NProcs.start demoEnv demoWorld twoDirs).run sched).files (pathJoin (twoDirs i).obj.path n) =
      ((twoDirs i).alone demoEnv demoWorld).2.1.files (pathJoin (twoDirs i).obj.path n) := by
  obtain ⟨N, h0, h1⟩ : ∃ N, (ncfaEffects demoEnv (twoDirs 0).data (twoDirs 0).split (twoDirs 0).obj (twoDirs 0).torch).length ≤ N ∧
    (ncfaEffects demoEnv (twoDirs 1).data (twoDirs 1).split (twoDirs 1).obj (twoDirs 1).torch).length ≤ N := ⟨_, le_max_left _ _, le_max_right _ _⟩
  refine ⟨(List.replicate N [0, 1]).flatten, fun i hi => ?_⟩
  have hcount : ∀ n, ∀ i < 2, ((List.replicate n [0, 1]).flatten).count i = n := by
    intro n i hi
    induction n with
    | zero => simp
    | succ n ih => rw [List.replicate_succ, List.flatten_cons, List.count_append, ih]; interval_cases i <;> simp <;> omega
  have hd : ((NProcs.start demoEnv demoWorld twoDirs).run (List.replicate N [0, 1]).flatten).todo i = [] := by
    rw [C236_returns, hcount N i hi]
    interval_cases i
    · exact h0
    · exact h1
  refine ⟨hd, (C236_partial demoEnv demoWorld twoDirs _).1 i hd, fun n hn => ?_⟩
  refine (C236_paths demoEnv demoWorld twoDirs _ i hd).1 _ fun j hj n' hn' => ?_
  have hp : ∀ k, (twoDirs k).obj.path = if k = 0 then "a/" else if k = 1 then "b/" else "c/" := fun k => rfl
  rw [hp, hp]
  simp only [fileNames, List.mem_cons, List.not_mem_nil, or_false] at hn hn'
  have hval : ∀ k, (if k = 0 then "a/" else if k = 1 then "b/" else "c/" : String) = "a/" ∧ k = 0 ∨
      (if k = 0 then "a/" else if k = 1 then "b/" else "c/" : String) = "b/" ∧ k = 1 ∨ (if k = 0 then "a/" else if k = 1 then "b/" else "c/" : String) = "c/" ∧ 2 ≤ k := by
    intro k
    rcases k with _ | _ | k
    · exact Or.inl ⟨rfl, rfl⟩
    · exact Or.inr (Or.inl ⟨rfl, rfl⟩)
    · exact Or.inr (Or.inr ⟨rfl, by omega⟩)
  rcases hval i with ⟨a, b⟩ | ⟨a, b⟩ | ⟨a, b⟩ <;> rcases hval j with ⟨a', b'⟩ | ⟨a', b'⟩ | ⟨a', b'⟩ <;> first | omega | skip
  all_goals
    rw [a, a']
    rcases hn with rfl | rfl | rfl <;> rcases hn' with rfl | rfl | rfl <;> unfold pathJoin <;> split <;> split <;> decide
end Medil

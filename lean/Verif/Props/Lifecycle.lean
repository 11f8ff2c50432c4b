import Verif.Spec.Lifecycle
import Mathlib.Data.List.Induction

/-! C27, C28: the lifecycle of an `ergoExo` object and the solver dispatch. -/
namespace Verif.Lifecycle

theorem deref_last {C : Type} (h : List C) (a d : C) : deref (h ++ [a]) h.length d = a := by
  simp [deref]

theorem set_last {C : Type} (h : List C) (a b : C) : (h ++ [a]).set h.length b = h ++ [b] := by
  simp

/-- Everything a successful `setup` does. -/
theorem setup_ok {C : Type} (s : St C) (m : Mod C) (c : Nat) (v c3 c4 c7 : C) (hv : s.heap[c]? = some v)
    (h3 : after m [.ctor, .writeUnits, .derived] v = some c3) (h4 : m.hook .solver c3 = some c4)
    (h7 : after m [.initState, .initDiffeq, .initModules] c4 = some c7) :
    ∃ u, after m [.ctor, .writeUnits] v = some u ∧
    setup s m c =
      (⟨s.heap ++ [c7], if s.runId.isNone then s.nextRun + 1 else s.nextRun,
        s.log ++ (if s.runId.isNone then [Rec.started (s.runId.getD s.nextRun)] else []) ++
          [.params (s.runId.getD s.nextRun) c3] ++
          [.artifact (s.runId.getD s.nextRun) .config v, .artifact (s.runId.getD s.nextRun) .units u,
           .artifact (s.runId.getD s.nextRun) .derivedConfig c3,
           .artifact (s.runId.getD s.nextRun) .arrayConfig c4],
        some (s.runId.getD s.nextRun), true, some ⟨s.heap.length, m, hookOrder⟩, some s.heap.length⟩, true) := by
  simp only [after, Option.bind_eq_some_iff, Option.some.injEq] at h3 h7
  obtain ⟨c1, e1, c2, e2, c3', e3, rfl⟩ := h3
  obtain ⟨c5, e5, c6, e6, c7', e7, rfl⟩ := h7
  refine ⟨c2, by simp [after, e1, e2], ?_⟩
  simp only [setup, hv, setupSteps, steps, step, deref_last, set_last, e1, e2, e3, h4, e5, e6, e7]
  simp [hookOrder]

/-- Everything that is common to all outcomes of `setup`. -/
theorem setup_frame {C : Type} (s : St C) (m : Mod C) (c : Nat) :
    (∀ i, i < s.heap.length → (setup s m c).1.heap[i]? = s.heap[i]?) ∧
    s.heap.length ≤ (setup s m c).1.heap.length ∧
    ((setup s m c).2 = true ↔ ∃ v, s.heap[c]? = some v ∧ (after m hookOrder v).isSome) ∧
    ((setup s m c).2 = false → (setup s m c).1.runId = s.runId ∧ (setup s m c).1.ranSetup = s.ranSetup ∧
      (setup s m c).1.cfg = s.cfg ∧ (s.inst.isSome → (setup s m c).1.inst.isSome)) ∧
    ((setup s m c).2 = true → (setup s m c).1.runId = some (s.runId.getD s.nextRun) ∧ (setup s m c).1.ranSetup = true ∧
      (setup s m c).1.inst = some ⟨s.heap.length, m, hookOrder⟩ ∧
      (setup s m c).1.cfg = some s.heap.length) ∧
    ((∀ v, s.heap[c]? = some v → m.hook .ctor v = none) → (setup s m c).1.inst = s.inst ∧ (setup s m c).2 = false) ∧
    (∀ r hk x, .ran r hk x ∈ (setup s m c).1.log ↔ .ran r hk x ∈ s.log) := by
  cases hv : s.heap[c]? with
  | none => simp [setup, hv]
  | some v =>
    cases e1 : m.hook .ctor v with
    | none =>
      simp only [setup, hv, setupSteps, steps, step, deref_last, set_last, e1]
      refine ⟨?_, by simp, by simp [after, hookOrder, e1], by simp, by simp, by simp, ?_⟩
      · intro i hi; simp [List.getElem?_append, hi]
      · intro r hk x; split <;> simp
    | some c1 =>
    cases e2 : m.hook .writeUnits c1 with
    | none =>
      simp only [setup, hv, setupSteps, steps, step, deref_last, set_last, e1, e2]
      refine ⟨?_, by simp, by simp [after, hookOrder, e1, e2], by simp, by simp, by simp [e1], ?_⟩
      · intro i hi; simp [List.getElem?_append, hi]
      · intro r hk x; split <;> simp
    | some c2 =>
    cases e3 : m.hook .derived c2 with
    | none =>
      simp only [setup, hv, setupSteps, steps, step, deref_last, set_last, e1, e2, e3]
      refine ⟨?_, by simp, by simp [after, hookOrder, e1, e2, e3], by simp, by simp, by simp [e1], ?_⟩
      · intro i hi; simp [List.getElem?_append, hi]
      · intro r hk x; split <;> simp
    | some c3 =>
    cases e4 : m.hook .solver c3 with
    | none =>
      simp only [setup, hv, setupSteps, steps, step, deref_last, set_last, e1, e2, e3, e4]
      refine ⟨?_, by simp, by simp [after, hookOrder, e1, e2, e3, e4], by simp, by simp, by simp [e1], ?_⟩
      · intro i hi; simp [List.getElem?_append, hi]
      · intro r hk x; split <;> simp
    | some c4 =>
    cases e5 : m.hook .initState c4 with
    | none =>
      simp only [setup, hv, setupSteps, steps, step, deref_last, set_last, e1, e2, e3, e4, e5]
      refine ⟨?_, by simp, by simp [after, hookOrder, e1, e2, e3, e4, e5], by simp, by simp, by simp [e1], ?_⟩
      · intro i hi; simp [List.getElem?_append, hi]
      · intro r hk x; split <;> simp
    | some c5 =>
    cases e6 : m.hook .initDiffeq c5 with
    | none =>
      simp only [setup, hv, setupSteps, steps, step, deref_last, set_last, e1, e2, e3, e4, e5, e6]
      refine ⟨?_, by simp, by simp [after, hookOrder, e1, e2, e3, e4, e5, e6], by simp, by simp, by simp [e1], ?_⟩
      · intro i hi; simp [List.getElem?_append, hi]
      · intro r hk x; split <;> simp
    | some c6 =>
    cases e7 : m.hook .initModules c6 with
    | none =>
      simp only [setup, hv, setupSteps, steps, step, deref_last, set_last, e1, e2, e3, e4, e5, e6, e7]
      refine ⟨?_, by simp, by simp [after, hookOrder, e1, e2, e3, e4, e5, e6, e7], by simp, by simp, by simp [e1], ?_⟩
      · intro i hi; simp [List.getElem?_append, hi]
      · intro r hk x; split <;> simp
    | some c7 =>
      obtain ⟨u, hu, h⟩ := setup_ok s m c v c3 c4 c7 hv (by simp [after, e1, e2, e3]) e4 (by simp [after, e5, e6, e7])
      rw [h]
      refine ⟨?_, by simp, by simp [after, hookOrder, e1, e2, e3, e4, e5, e6, e7], by simp, by simp, by simp [e1], ?_⟩
      · intro i hi; simp [List.getElem?_append, hi]
      · intro r hk x
        split <;> simp

theorem run_frame {C : Type} (s : St C) (ok : Bool) (d : C) :
    (run s ok d).1.heap = s.heap ∧ (run s ok d).1.runId = s.runId ∧ (run s ok d).1.ranSetup = s.ranSetup ∧
    (run s ok d).1.inst = s.inst ∧ (run s ok d).1.cfg = s.cfg ∧ (run s ok d).1.nextRun = s.nextRun := by
  unfold run
  split
  · split
    · split <;> simp
    · simp
  · simp

/-! ## C27 lifecycle -/

/-- C27: running before a successful setup raises and does nothing. -/
theorem run_needs_setup {C : Type} (s : St C) (ok : Bool) (d : C) (h : s.ranSetup = false) :
    run s ok d = (s, none) := by
  simp [run, h]

/-- The history contains a `setup` call that returned. -/
def SetUp {C : Type} (d : C) (s : St C) (ops : List (Op C)) : Prop :=
  ∃ pre m c post, ops = pre ++ .setup m c :: post ∧ (setup (exec d s pre) m c).2 = true

/-- C27: over every history of a fresh object, runs are possible exactly after some
`setup` has returned; then the object has a module and a run id. -/
theorem ran_setup_iff {C : Type} (d : C) (heap : List C) (rid : Option Nat) (n : Nat) (ops : List (Op C)) :
    ((exec d (init heap rid n) ops).ranSetup = true ↔ SetUp d (init heap rid n) ops) ∧
    ((exec d (init heap rid n) ops).ranSetup = true →
      (exec d (init heap rid n) ops).inst.isSome ∧ (exec d (init heap rid n) ops).runId.isSome) := by
  -- induction from the end
  induction ops using List.reverseRecOn with
  | nil =>
    refine ⟨⟨fun h => by simp [exec, init] at h, ?_⟩, fun h => by simp [exec, init] at h⟩
    rintro ⟨pre, m, c, post, h, _⟩
    simp at h
  | append_singleton ops o ih =>
    obtain ⟨ih1, ih2⟩ := ih
    have hx : exec d (init heap rid n) (ops ++ [o]) = exec1 d (exec d (init heap rid n) ops) o := by
      simp [exec]
    rw [hx]
    generalize hs : exec d (init heap rid n) ops = s at *
    have hmono : SetUp d (init heap rid n) ops → SetUp d (init heap rid n) (ops ++ [o]) := by
      rintro ⟨pre, m, c, post, h1, h2⟩
      exact ⟨pre, m, c, post ++ [o], by simp [h1], h2⟩
    have hback : SetUp d (init heap rid n) (ops ++ [o]) → SetUp d (init heap rid n) ops ∨
        ∃ m c, o = .setup m c ∧ (setup s m c).2 = true := by
      rintro ⟨pre, m, c, post, h1, h2⟩
      rcases List.eq_nil_or_concat post with rfl | ⟨post', x, rfl⟩
      · have := List.append_inj' h1 rfl
        simp only [List.cons.injEq, and_true] at this
        obtain ⟨rfl, rfl⟩ := this
        right; exact ⟨m, c, rfl, by rw [← hs]; exact h2⟩
      · left
        rw [List.concat_eq_append, ← List.cons_append, ← List.append_assoc] at h1
        have := (List.append_inj' h1 rfl).1
        exact ⟨pre, m, c, post', this, h2⟩
    cases o with
    | run ok =>
      obtain ⟨h1, h2, h3, h4, h5, h6⟩ := run_frame s ok d
      simp only [exec1, h2, h3, h4]
      refine ⟨?_, ih2⟩
      rw [ih1]
      refine ⟨hmono, fun h => ?_⟩
      rcases hback h with h | ⟨m, c, h, _⟩
      · exact h
      · cases h
    | setup m c =>
      obtain ⟨f1, f2, f3, f4, f5, f6, f7⟩ := setup_frame s m c
      simp only [exec1]
      cases hb : (setup s m c).2
      · obtain ⟨g1, g2, g3, g4⟩ := f4 hb
        rw [g1, g2]
        refine ⟨?_, fun h => ⟨g4 (ih2 h).1, (ih2 h).2⟩⟩
        rw [ih1]
        refine ⟨hmono, fun h => ?_⟩
        rcases hback h with h | ⟨m', c', h, h'⟩
        · exact h
        · cases h; rw [hb] at h'; cases h'
      · obtain ⟨g1, g2, g3, g4⟩ := f5 hb
        rw [g1, g2, g3]
        refine ⟨⟨fun _ => ⟨ops, m, c, [], rfl, by rw [hs]; exact hb⟩, fun _ => rfl⟩, by simp⟩

/-- C27: no history of calls modifies a configuration object the caller holds. -/
theorem caller_config_untouched {C : Type} (d : C) (heap : List C) (rid : Option Nat) (n : Nat) (ops : List (Op C)) :
    ∀ i, i < heap.length → (exec d (init heap rid n) ops).heap[i]? = heap[i]? := by
  suffices h : ∀ (s : St C), heap.length ≤ s.heap.length → (∀ i, i < heap.length → s.heap[i]? = heap[i]?) →
      ∀ i, i < heap.length → (exec d s ops).heap[i]? = heap[i]? from
    h (init heap rid n) (Nat.le_refl _) (fun _ _ => rfl)
  induction ops with
  | nil => intro s _ h; exact h
  | cons o ops ih =>
    intro s hl hs
    have hx : exec d s (o :: ops) = exec d (exec1 d s o) ops := rfl
    rw [hx]
    cases o with
    | run ok =>
      apply ih
      · simp only [exec1]; rw [(run_frame s ok d).1]; exact hl
      · simp only [exec1]; rw [(run_frame s ok d).1]; exact hs
    | setup m c =>
      obtain ⟨f1, f2, _⟩ := setup_frame s m c
      apply ih
      · exact Nat.le_trans hl f2
      · intro i hi
        rw [show (exec1 d s (.setup m c)) = (setup s m c).1 from rfl, f1 i (by omega)]
        exact hs i hi

/-- C27: a successful setup logs, under its run, the configuration exactly as the
user supplied it, the derived configuration (parameters and file) as it is after
construction, units and derived quantities, and the array configuration as it is
after the solver quantities; nothing else is logged. -/
theorem setup_logs {C : Type} (s : St C) (m : Mod C) (c : Nat) (v c3 c4 c7 : C) (hv : s.heap[c]? = some v)
    (h3 : after m [.ctor, .writeUnits, .derived] v = some c3)
    (h4 : after m [.ctor, .writeUnits, .derived, .solver] v = some c4) (h7 : after m hookOrder v = some c7) :
    (setup s m c).2 = true ∧ ∃ r u, (setup s m c).1.runId = some r ∧
      (setup s m c).1.log = s.log ++ (if s.runId = none then [Rec.started r] else []) ++
        [.params r c3, .artifact r .config v, .artifact r .units u, .artifact r .derivedConfig c3,
         .artifact r .arrayConfig c4] := by
  have h4' : m.hook .solver c3 = some c4 := by
    simp only [after, Option.bind_eq_some_iff, Option.some.injEq] at h3 h4
    obtain ⟨a1, e1, a2, e2, a3, e3, rfl⟩ := h3
    obtain ⟨b1, d1, b2, d2, b3, d3, b4, d4, rfl⟩ := h4
    rw [d1] at e1; cases e1
    rw [d2] at e2; cases e2
    rw [d3] at e3; cases e3
    exact d4
  have h7' : after m [.initState, .initDiffeq, .initModules] c4 = some c7 := by
    simp only [after, hookOrder, Option.bind_eq_some_iff, Option.some.injEq] at h4 h7 ⊢
    obtain ⟨a1, e1, a2, e2, a3, e3, a4, e4, rfl⟩ := h4
    obtain ⟨b1, d1, b2, d2, b3, d3, b4, d4, rest⟩ := h7
    rw [d1] at e1; cases e1
    rw [d2] at e2; cases e2
    rw [d3] at e3; cases e3
    rw [d4] at e4; cases e4
    exact rest
  obtain ⟨u, _, h⟩ := setup_ok s m c v c3 c4 c7 hv h3 h4' h7'
  rw [h]
  refine ⟨rfl, _, u, rfl, ?_⟩
  cases s.runId <;> simp

/-- C27: `setup` returns exactly when no hook raises on the configuration left by
the previous ones, in the documented order. -/
theorem setup_returns_iff {C : Type} (s : St C) (m : Mod C) (c : Nat) :
    (setup s m c).2 = true ↔ ∃ v, s.heap[c]? = some v ∧ (after m hookOrder v).isSome :=
  (setup_frame s m c).2.2.1

/-- `ops` contains no `setup` whose module gets past construction. -/
def NoNewModule {C : Type} (ops : List (Op C)) : Prop :=
  ∀ m c, Op.setup m c ∈ ops → ∀ v, m.hook .ctor v = none

theorem exec_noNew {C : Type} (d : C) (ops : List (Op C)) (hno : NoNewModule ops) (s : St C) :
    (exec d s ops).inst = s.inst ∧ (exec d s ops).runId = s.runId ∧ (exec d s ops).ranSetup = s.ranSetup ∧
    s.heap.length ≤ (exec d s ops).heap.length ∧
    (∀ i, i < s.heap.length → (exec d s ops).heap[i]? = s.heap[i]?) := by
  induction ops generalizing s with
  | nil => exact ⟨rfl, rfl, rfl, Nat.le_refl _, fun _ _ => rfl⟩
  | cons o ops ih =>
    have hx : exec d s (o :: ops) = exec d (exec1 d s o) ops := rfl
    rw [hx]
    obtain ⟨i1, i2, i3, i4, i5⟩ := ih (fun m c h => hno m c (by simp [h])) (exec1 d s o)
    rw [i1, i2, i3]
    cases o with
    | run ok =>
      obtain ⟨h1, h2, h3, h4, h5, h6⟩ := run_frame s ok d
      rw [show exec1 d s (.run ok) = (run s ok d).1 from rfl] at *
      rw [h1] at i4 i5
      exact ⟨h4, h2, h3, i4, i5⟩
    | setup m c =>
      obtain ⟨f1, f2, f3, f4, f5, f6, f7⟩ := setup_frame s m c
      rw [show exec1 d s (.setup m c) = (setup s m c).1 from rfl] at *
      obtain ⟨g1, g2⟩ := f6 fun v _ => hno m c (by simp) v
      obtain ⟨k1, k2, k3, k4⟩ := f4 g2
      exact ⟨g1, k1, k2, Nat.le_trans f2 i4, fun i hi => by rw [i5 i (by omega), f1 i hi]⟩

/-- C27 (partial): after any history, a setup that returns, and then any calls that
do not replace the module, a run executes the module of that setup, on which every
hook was called exactly once in the documented order, with the configuration they
produced, under that setup's run id, which it returns. -/
theorem run_after_setup_partial {C : Type} (d : C) (s : St C) (pre post : List (Op C)) (m : Mod C) (c : Nat) (v w : C)
    (hv : (exec d s pre).heap[c]? = some v) (hw : after m hookOrder v = some w) (hpost : NoNewModule post) :
    ∃ r, (setup (exec d s pre) m c).1.runId = some r ∧
      ∃ t, exec d s (pre ++ .setup m c :: post) = t ∧
        run t true d = ({ t with log := t.log ++ [.ran r hookOrder w, .metrics r] }, some r) := by
  generalize hs : exec d s pre = s0 at *
  have hx : exec d s (pre ++ .setup m c :: post) = exec d (setup s0 m c).1 post := by
    rw [← hs]; simp [exec, exec1]
  rw [hx]
  have hw' := hw
  simp only [after, hookOrder, Option.bind_eq_some_iff, Option.some.injEq] at hw'
  obtain ⟨c1, e1, c2, e2, c3, e3, c4, e4, c5, e5, c6, e6, c7, e7, rfl⟩ := hw'
  obtain ⟨u, hu, h⟩ := setup_ok s0 m c v c3 c4 c7 hv (by simp [after, e1, e2, e3]) e4 (by simp [after, e5, e6, e7])
  obtain ⟨i1, i2, i3, i4, i5⟩ := exec_noNew d post hpost (setup s0 m c).1
  rw [h] at i1 i2 i3 i4 i5 ⊢
  refine ⟨_, rfl, _, rfl, ?_⟩
  simp only [run, i1, i2, i3]
  unfold deref
  rw [List.getD_eq_getElem?_getD, i5 s0.heap.length (by simp)]
  simp

/-- C27 in full: whatever the history, a run only ever executes a module whose
hooks have all been called, in order. -/
def RunsInitialised : Prop :=
  ∀ (heap : List Nat) (ops : List (Op Nat)) r hk x,
    Rec.ran r hk x ∈ (exec 0 (init heap none 0) ops).log → hk = hookOrder

/-- A module that never raises, and one that raises in `get_derived_quantities`. -/
def goodMod : Mod Nat := ⟨fun _ c => some (c + 1)⟩
def badMod : Mod Nat := ⟨fun h c => if h = .derived then none else some (c + 1)⟩

/-- C27 in full is FALSE: if a second `setup` fails half-way, the flag of the first
one is still set and a run executes the half-initialised module. -/
theorem resetup_runs_half_initialised : ¬ RunsInitialised := by
  intro h
  have := h [0] [.setup goodMod 0, .setup badMod 0, .run true] 0 [.ctor, .writeUnits] 2
    (by simp [exec, exec1, setup, steps, step, setupSteps, run, init, goodMod, badMod, deref])
  exact absurd this (by decide)

/-- C27: once a setup has returned, the run id never changes, whatever is called
later, and every run that returns, returns it. -/
theorem run_id_stable {C : Type} (d : C) (s : St C) (ops : List (Op C)) (r : Nat) (h : s.runId = some r) :
    (exec d s ops).runId = some r ∧
    ∀ ok r', (run (exec d s ops) ok d).2 = some r' → r' = r := by
  have key : (exec d s ops).runId = some r := by
    induction ops generalizing s with
    | nil => exact h
    | cons o ops ih =>
      have hx : exec d s (o :: ops) = exec d (exec1 d s o) ops := rfl
      rw [hx]
      apply ih
      cases o with
      | run ok => rw [show exec1 d s (.run ok) = (run s ok d).1 from rfl, (run_frame s ok d).2.1, h]
      | setup m c =>
        obtain ⟨f1, f2, f3, f4, f5, f6, f7⟩ := setup_frame s m c
        rw [show exec1 d s (.setup m c) = (setup s m c).1 from rfl]
        cases hb : (setup s m c).2
        · rw [(f4 hb).1, h]
        · rw [(f5 hb).1, h]; rfl
  refine ⟨key, fun ok r' hr => ?_⟩
  unfold run at hr
  rw [key] at hr
  split at hr
  · split at hr
    · rename_i h2
      simp only [Option.some.injEq] at h2
      split at hr
      · simp at hr; omega
      · simp at hr
    · simp at hr
  · simp at hr

/-- A concrete history: a failed setup, a successful one, two runs. -/
example : (exec 0 (init [5] none 7) [.run true, .setup badMod 0, .setup goodMod 0, .run true]).heap = [5, 7, 12] ∧
    (exec 0 (init [5] none 7) [.run true, .setup badMod 0, .setup goodMod 0, .run true]).runId = some 8 ∧
    Rec.ran 8 hookOrder 12 ∈ (exec 0 (init [5] none 7) [.run true, .setup badMod 0, .setup goodMod 0, .run true]).log := by
  simp [exec, exec1, setup, steps, step, setupSteps, run, init, goodMod, badMod, deref, hookOrder]
example : NoNewModule ([.run true, .setup ⟨fun _ _ => none⟩ 0] : List (Op Nat)) := by
  intro m c h v; simp at h; rw [h.1]
example : after goodMod hookOrder 5 = some 12 := by rfl

/-! ## C28 dispatch -/

/-- C28: with 64-bit mode, unknown keys raise `NotImplementedError`. -/
theorem dispatch_unknown (valid : Bool) (s : String) :
    dispatch true valid s = .error .notImplemented ↔ s ∉ documented.map Prod.fst := by
  constructor
  · intro h hm
    simp only [documented, List.map_cons, List.map_nil, List.mem_cons, List.not_mem_nil, or_false] at hm
    rcases hm with rfl | rfl | rfl | rfl | rfl | rfl | rfl | rfl | rfl | rfl | rfl | rfl | rfl | rfl <;>
      first
        | (simp [dispatch] at h; done)
        | (cases valid <;> simp [dispatch] at h)
  · intro h
    simp only [documented, List.map_cons, List.map_nil, List.mem_cons, List.not_mem_nil, or_false, not_or] at h
    simp [dispatch, h]

/-- C28: with 64-bit mode and a valid configuration, exactly the documented keys
select a module, each its own. -/
theorem dispatch_iff (s : String) (k : Cls) : dispatch true true s = .ok k ↔ (s, k) ∈ documented := by
  constructor
  · intro h
    by_cases hm : s ∈ documented.map Prod.fst
    · simp only [documented, List.map_cons, List.map_nil, List.mem_cons, List.not_mem_nil, or_false] at hm
      rcases hm with rfl | rfl | rfl | rfl | rfl | rfl | rfl | rfl | rfl | rfl | rfl | rfl | rfl | rfl <;>
        simp [dispatch] at h <;> subst h <;> simp [documented]
    · rw [(dispatch_unknown true s).2 hm] at h; cases h
  · intro h
    simp only [documented, List.mem_cons, Prod.mk.injEq, List.not_mem_nil, or_false] at h
    rcases h with ⟨rfl, rfl⟩ | ⟨rfl, rfl⟩ | ⟨rfl, rfl⟩ | ⟨rfl, rfl⟩ | ⟨rfl, rfl⟩ | ⟨rfl, rfl⟩ | ⟨rfl, rfl⟩ | ⟨rfl, rfl⟩ |
      ⟨rfl, rfl⟩ | ⟨rfl, rfl⟩ | ⟨rfl, rfl⟩ | ⟨rfl, rfl⟩ | ⟨rfl, rfl⟩ | ⟨rfl, rfl⟩ <;> simp [dispatch]

/-- C28: documented keys and modules correspond one to one. -/
theorem documented_injective : (documented.map Prod.fst).Nodup ∧ (documented.map Prod.snd).Nodup := by decide

/-- C28: without 64-bit mode every key but `envelope-2d` is refused, before
anything else is looked at. -/
theorem dispatch_x64 (valid : Bool) (s : String) : dispatch false valid s = .error .runtimeX64 ↔ s ≠ "envelope-2d" := by
  constructor
  · rintro h rfl
    simp [dispatch] at h
  · intro h; simp [dispatch, h]

example : dispatch false true "envelope-2d" = .ok .lpse2D := by rfl

end Verif.Lifecycle

import Verif.Props.VlasovSymmetry
import Verif.Props.CollisionMirror

/-!
Symmetries of complete Vlasov-1D runs (C226): a run of the moved or mirrored plasma is the moved or
mirrored run, with every field solver, drivers, collisions, filter and division over devices; and a
run that starts and is driven periodically or symmetrically stays so.
-/
namespace Verif.VlasovShard
open Verif.Spectral Finset

variable {nx : ℕ} [NeZero nx]

/-! ### Specification -/

/-- What drives the moved plasma: the same drivers, moved. -/
def MovedDrive (dx : ℝ) (c : ZMod nx) (d d' : Drive nx) : Prop :=
  ponderomotive dx d'.a = moveP c (ponderomotive dx d.a) ∧ (∀ i, d'.dex i = moveP c (d.dex i)) ∧
    d'.nuFp = d.nuFp.map (moveP c) ∧ d'.nuK = d.nuK.map (moveP c)

/-- What drives the mirror image: fields change sign, frequencies do not. -/
def MirrorDrive (dx : ℝ) (d d' : Drive nx) : Prop :=
  ponderomotive dx d'.a = (mirrorE (ponderomotive dx d.a) : ZMod nx → ℝ) ∧ (∀ i, d'.dex i = mirrorE (d.dex i)) ∧
    d'.nuFp = d.nuFp.map mirrorP ∧ d'.nuK = d.nuK.map mirrorP

/-- The state of the plasma moved by `c` cells. -/
def moveState (c : ZMod nx) (y : (ZMod nx → ℝ) × List (Species nx)) : (ZMod nx → ℝ) × List (Species nx) :=
  (moveP c y.1, y.2.map (moveSp c))

/-- The mirror image of the state. -/
def mirrorState (y : (ZMod nx → ℝ) × List (Species nx)) : (ZMod nx → ℝ) × List (Species nx) := (mirrorE y.1, y.2.map mirrorSp)

/-! ### The filter -/

theorem filtered_move (h : Option (ℝ × ℕ)) (c : ZMod nx) (ss : List (Species nx)) :
    filtered h (ss.map (moveSp c)) = (filtered h ss).map (moveSp c) := by
  cases h with
  | none => rfl
  | some h =>
    simp only [filtered, List.map_map]
    refine List.map_congr_left fun s _ => ?_
    unfold moveSp houLiFilter
    simp only [Function.comp_apply, Species.mk.injEq, true_and, heq_eq_eq]
    funext x j
    exact filterRow_moveP _ c (fun y => s.f y j) x

theorem filtered_mirror (h : Option (ℝ × ℕ)) (ss : List (Species nx)) :
    filtered h (ss.map mirrorSp) = (filtered h ss).map mirrorSp := by
  cases h with
  | none => rfl
  | some h =>
    simp only [filtered, List.map_map]
    refine List.map_congr_left fun s _ => ?_
    unfold mirrorSp houLiFilter
    simp only [Function.comp_apply, Species.mk.injEq, true_and, heq_eq_eq]
    funext x j
    refine (filterRow_mirror _ (fun y => s.f y (-1 - j)) x).trans ?_
    congr 2
    funext k
    exact Complex.conj_ofReal _

/-! ### Collisions of the mirror image -/

omit [NeZero nx] in
theorem symmetric_grid {s : Species nx} (h : Symmetric s) : SymGrid s.nv (row s.v) := by
  intro i hi
  have := h i
  unfold row
  rw [← this]
  congr 1
  rw [Nat.sub_sub, Nat.cast_sub (by omega)]
  push_cast
  have : (s.nv : ZMod s.nv) = 0 := ZMod.natCast_self _
  rw [this]
  ring

theorem flip_of_mirror {n : ℕ} (f : ZMod n → ℝ) : Flip n (row f) (row fun j => f (-1 - j)) := by
  intro i hi
  unfold row
  congr 1
  rw [Nat.sub_sub, Nat.cast_sub (by omega)]
  push_cast
  have : (n : ZMod n) = 0 := ZMod.natCast_self _
  rw [this]
  ring

omit [NeZero nx] in
theorem collide_mirror {c : CollCfg} {nuFp nuK : Option (ZMod nx → ℝ)} {dt : ℝ} {s : Species nx} (hn : 2 ≤ s.nv) (hs : Symmetric s)
    {g : ZMod nx → ZMod s.nv → ℝ} (h : Collide c (nuFp.getD 0) (nuK.getD 0) dt s g) :
    Collide c ((nuFp.map mirrorP).getD 0) ((nuK.map mirrorP).getD 0) dt (mirrorSp s) (fun x (j : ZMod s.nv) => g (-x) (-1 - j)) := by
  have e : ∀ nu : Option (ZMod nx → ℝ), (nu.map mirrorP).getD 0 = mirrorP (nu.getD 0) := by
    intro nu
    cases nu <;> rfl
  intro x
  rw [e, e]
  exact flip_row hn (symmetric_grid hs) (flip_of_mirror _) (flip_of_mirror _) (h (-x))

/-! ### Steps and runs -/

section generic
variable {T : Species nx → Species nx} {E : (ZMod nx → ℝ) → ZMod nx → ℝ} {ok : Species nx → Prop}

/-- A step of the transformed plasma. -/
theorem step_sym {c : Cfg nx} (hp : c.parallel = none) {field' : FieldKind nx} (h : IsSym c.dx c.push c.field field' T E ok)
    (hf : ∀ ss, filtered c.houLi (ss.map T) = (filtered c.houLi ss).map T) {d d' : Drive nx}
    (ha : ponderomotive c.dx d'.a = E (ponderomotive c.dx d.a)) (hd : ∀ i, d'.dex i = E (d.dex i))
    {y z : (ZMod nx → ℝ) × List (Species nx)} (hy : ∀ s ∈ y.2, ok s)
    (hok : ∀ e ss, integratorP c.time c.push none 1 c.dx c.dt c.field d.a d.dex y.1 y.2 = .ok (e, ss) → ∀ s ∈ ss, ok s)
    (hT : ∀ s, ok s → ∀ g, Collide c.coll (d.nuFp.getD 0) (d.nuK.getD 0) c.dt s g →
      ∃ g', Collide c.coll (d'.nuFp.getD 0) (d'.nuK.getD 0) c.dt (T s) g' ∧
        T ⟨s.nv, s.pos, s.charge, s.mass, s.dv, s.v, g⟩ = ⟨(T s).nv, (T s).pos, (T s).charge, (T s).mass, (T s).dv, (T s).v, g'⟩)
    (hs : Step c 1 d y (some z)) : Step { c with field := field' } 1 d' (E y.1, y.2.map T) (some (E z.1, z.2.map T)) := by
  unfold Step at hs ⊢
  dsimp only at hs ⊢
  rw [hp] at hs ⊢
  rw [integrator_sym h c.time c.dt ha hd y.1 hy]
  cases hi : integratorP c.time c.push none 1 c.dx c.dt c.field d.a d.dex y.1 y.2 with
  | error e =>
    rw [hi] at hs
    exact absurd hs (by simp)
  | ok r =>
    obtain ⟨e, ss⟩ := r
    rw [hi] at hs
    obtain ⟨cs, h1, h2⟩ := hs
    cases cs with
    | none => exact absurd h2 (by simp)
    | some ts =>
      simp only [Option.map_some, Option.some.injEq] at h2
      subst h2
      refine ⟨some (ts.map T), collided_sym (fun s m => hT s (hok e ss hi s m)) h1, ?_⟩
      simp only [Option.map_some, hf]

end generic

theorem run_mapped {c c' : Cfg nx} {F : (ZMod nx → ℝ) × List (Species nx) → (ZMod nx → ℝ) × List (Species nx)}
    {R : Drive nx → Drive nx → Prop} {ok : (ZMod nx → ℝ) × List (Species nx) → Prop}
    (hstep : ∀ d d' y z, R d d' → ok y → Step c 1 d y (some z) → Step c' 1 d' (F y) (some (F z)) ∧ ok z)
    {ds ds' : List (Drive nx)} (hd : List.Forall₂ R ds ds') {y z : (ZMod nx → ℝ) × List (Species nx)} (hy : ok y)
    (h : Run c 1 ds y (some z)) : Run c' 1 ds' (F y) (some (F z)) := by
  induction hd generalizing y with
  | nil =>
    simp only [Run, Option.some.injEq] at h ⊢
    rw [h]
  | cons hr _ ih =>
    obtain ⟨mid, h1, h2⟩ := h
    cases mid with
    | none => exact absurd h2 (by simp)
    | some w =>
      obtain ⟨h3, h4⟩ := hstep _ _ _ _ hr hy h1
      exact ⟨some (F w), h3, ih h4 h2⟩

omit [NeZero nx] in
theorem sizes_map {T : Species nx → Species nx} (hT : ∀ s, (T s).nv = s.nv) (ss : List (Species nx)) : sizes (ss.map T) = sizes ss := by
  unfold sizes
  rw [List.map_map]
  exact List.map_congr_left fun s _ => hT s

/-- From serial runs to runs on any number of devices. -/
theorem run_lift {c : Cfg nx} {field' : FieldKind nx} {devices : ℕ} {ds ds' : List (Drive nx)} {y y' z z' : (ZMod nx → ℝ) × List (Species nx)}
    (hl : ds.length = ds'.length) (hsz : sizes y'.2 = sizes y.2) (h0 : ds = [] → y' = z')
    (hr : Run { c with parallel := none } 1 ds y (some z) → Run { c with field := field', parallel := none } 1 ds' y' (some z'))
    (h : Run c devices ds y (some z)) : Run { c with field := field' } devices ds' y' (some z') := by
  by_cases hd : Divisible c.parallel devices nx (sizes y.2)
  · exact (run_parallel { c with field := field' } ds' y' (by rw [hsz]; exact hd) _).2 (hr ((run_parallel c ds y hd _).1 h))
  · cases ds with
    | nil =>
      cases ds' with
      | nil => simp [Run, h0 rfl]
      | cons => simp at hl
    | cons d ds =>
      rw [run_refused c d ds y hd] at h
      exact absurd h (by simp)

/-- **C226.** A run of the plasma moved by any number of cells, with its drivers moved along, is the
moved run: both integrators, both velocity pushes, every field solver, collisions, filter, devices. -/
theorem run_translation {c : Cfg nx} (s : ZMod nx) {devices : ℕ} {ds ds' : List (Drive nx)} (hd : List.Forall₂ (MovedDrive c.dx s) ds ds')
    {y z : (ZMod nx → ℝ) × List (Species nx)} (h : Run c devices ds y (some z)) :
    Run { c with field := moveField s c.field } devices ds' (moveState s y) (some (moveState s z)) := by
  refine run_lift hd.length_eq (sizes_map (T := moveSp s) (fun _ => rfl) _) (fun e => ?_) (fun h => ?_) h
  · subst e
    simp only [Run, Option.some.injEq] at h
    rw [h]
  · refine run_mapped (F := moveState s) (ok := fun _ => True) (fun d d' y z hr _ hs => ⟨?_, trivial⟩) hd trivial h
    obtain ⟨h1, h2, h3, h4⟩ := hr
    refine step_sym (c := { c with parallel := none }) rfl (isSym_move c.dx c.push c.field s) (filtered_move c.houLi s) h1 h2
      (fun _ _ => trivial) (fun _ _ _ _ _ => trivial) (fun sp _ g hg => ?_) hs
    rw [h3, h4]
    exact ⟨_, collide_move s sp hg, rfl⟩

/-- What the mirror image asks of a species. -/
def MirrorOk (s : Species nx) : Prop := 2 ≤ s.nv ∧ Symmetric s

omit [NeZero nx] in
theorem mirrorOk_of_parameters {ss ts : List (Species nx)} (h : ts.map parameters = ss.map parameters) (hs : ∀ s ∈ ss, MirrorOk s) :
    ∀ t ∈ ts, MirrorOk t := by
  intro t ht
  have : parameters t ∈ ss.map parameters := h ▸ List.mem_map_of_mem ht
  obtain ⟨s, hs', he⟩ := List.mem_map.1 this
  have h1 := congrArg (fun p => p.2.2.2) he
  simp only [parameters] at h1
  have h2 := hs s hs'
  obtain ⟨n, pos, q, m, dv, v, f⟩ := s
  obtain ⟨n', pos', q', m', dv', v', f'⟩ := t
  simp only [Sigma.mk.injEq] at h1
  obtain ⟨rfl, h3⟩ := h1
  rw [heq_eq_eq] at h3
  subst h3
  exact h2

/-- **C226.** On velocity grids symmetric about zero a run of the mirror image, with mirrored drivers,
is the mirror image of the run: both integrators, exponential push, every field solver, every type
of collisions, filter, devices. -/
theorem run_reflection {c : Cfg nx} (hk : c.push = .exponential) {devices : ℕ} {ds ds' : List (Drive nx)}
    (hd : List.Forall₂ (MirrorDrive c.dx) ds ds') {y z : (ZMod nx → ℝ) × List (Species nx)} (hy : ∀ s ∈ y.2, MirrorOk s) (hg : Good y.2)
    (h : Run c devices ds y (some z)) :
    Run { c with field := mirrorField c.field } devices ds' (mirrorState y) (some (mirrorState z)) := by
  refine run_lift hd.length_eq (sizes_map (T := mirrorSp) (fun _ => rfl) _) (fun e => ?_) (fun h => ?_) h
  · subst e
    simp only [Run, Option.some.injEq] at h
    rw [h]
  · refine run_mapped (F := mirrorState) (ok := fun y => (∀ s ∈ y.2, MirrorOk s) ∧ Good y.2) (fun d d' y z hr hy hs => ?_) hd ⟨hy, hg⟩ h
    obtain ⟨h1, h2, h3, h4⟩ := hr
    have hpar : z.2.map parameters = y.2.map parameters := by
      obtain ⟨ts, e1, -, -, e2, -⟩ := step_all (c := c) hk hy.2 hs
      rw [e1, filtered_parameters, e2]
    refine ⟨?_, mirrorOk_of_parameters hpar hy.1, good_of_parameters hpar hy.2⟩
    have hsym := isSym_mirror c.dx c.field
    rw [← hk] at hsym
    have hok : ∀ e ss, integratorP c.time c.push none 1 c.dx c.dt c.field d.a d.dex y.1 y.2 = .ok (e, ss) → ∀ s ∈ ss, MirrorOk s := by
      intro e ss hi
      rw [hk, integrator_serial, Except.ok.injEq] at hi
      have hp : (vlasovStep c.time c.dx c.dt c.field d.a d.dex y).2.map parameters = y.2.map parameters :=
        run_parameters c.time c.dx c.dt c.field y [(d.a, d.dex)]
      rw [hi] at hp
      exact mirrorOk_of_parameters hp hy.1
    have hsym' : IsSym c.dx c.push c.field (mirrorField c.field) mirrorSp mirrorE MirrorOk :=
      ⟨hsym.add, hsym.zero, fun dt s h => hsym.stream dt s h.2, fun dt s h => ⟨h.1, hsym.okX dt s h.2⟩,
        fun e pond dt ss h => hsym.push e pond dt ss fun s m => (h s m).2,
        fun e pond dt ss ts h1 h2 => by
          refine mirrorOk_of_parameters (ss := ss) ?_ h1
          rw [hk] at h2
          simp only [velocityPush, isParallel, Except.ok.injEq] at h2
          subst h2
          rw [List.map_map]
          exact List.map_congr_left fun s _ => rfl,
        fun ss prev dt h => hsym.solve ss prev dt fun s m => (h s m).2, hsym.kind⟩
    refine step_sym (c := { c with parallel := none }) rfl hsym' (filtered_mirror c.houLi) h1 h2 hy.1 hok (fun sp hsp g hg => ?_) hs
    rw [h3, h4]
    exact ⟨_, collide_mirror hsp.1 hsp.2 hg, rfl⟩

/-! ### Runs with one result -/

/-- Collision settings with one result: Chang-Cooper types without the iteration for `beta`, Krook,
or nothing. -/
def Determined (c : CollCfg) : Prop := c.fpOn = true → isChangCooper c.kind = true ∧ c.steps = 0

omit [NeZero nx] in
theorem collide_unique {c : CollCfg} (hc : Determined c) {nuFp nuK : ZMod nx → ℝ} {dt : ℝ} (hdt : 0 ≤ dt) (h1 : ∀ x, 0 ≤ nuFp x)
    {s : Species nx} (hdv : 0 < s.dv) {g g' : ZMod nx → ZMod s.nv → ℝ} (h : Collide c nuFp nuK dt s g) (h' : Collide c nuFp nuK dt s g') :
    g = g' := by
  funext x j
  obtain ⟨k, a1, a2⟩ := h x
  obtain ⟨l, b1, b2⟩ := h' x
  have key : ∀ i < s.nv, k i = l i := by
    cases hf : c.fpOn with
    | false =>
      rw [hf] at a1 b1
      intro i hi
      rw [a1 i hi, b1 i hi]
    | true =>
      rw [hf] at a1 b1
      simp only [if_true] at a1 b1
      obtain ⟨beta, c1, c2⟩ := a1
      obtain ⟨beta', d1, d2⟩ := b1
      have hb : beta = beta' := by
        have hs := (hc hf).2
        unfold BetaOf at c1 d1
        rw [hs] at c1 d1
        cases hk : c.kind <;> rw [hk] at c1 d1 <;> simp only [Beta.Find, Beta.ComputeBeta, if_true] at c1 d1 <;> rw [c1, d1]
      subst hb
      have hcc := (hc hf).1
      dsimp only at c2 d2
      cases hk : c.kind <;> rw [hk] at c2 d2 hcc <;> simp only [isChangCooper, Bool.false_eq_true] at hcc <;> dsimp only at c2 d2 <;>
        exact (FP.chang_cooper_unique _ _ _ _ _ _ hdv hdt (fun _ _ => h1 x) _).2 _ _ c2 d2
  have e : ∀ f : ZMod nx → ZMod s.nv → ℝ, f x j = row (f x) j.val := by
    intro f
    unfold row
    rw [ZMod.natCast_zmod_val]
  rw [e g, e g', a2 _ (ZMod.val_lt j), b2 _ (ZMod.val_lt j)]
  split_ifs with hK
  · unfold FP.krook
    dsimp only
    rw [key _ (ZMod.val_lt j), sum_congr rfl fun i hi => key i (mem_range.1 hi)]
  · exact key _ (ZMod.val_lt j)

/-- A run with determined collisions has at most one result. -/
theorem run_unique {c : Cfg nx} (hk : c.push = .exponential) (hc : Determined c.coll) (hdt : 0 ≤ c.dt) {devices : ℕ} {ds : List (Drive nx)}
    (hnu : ∀ d ∈ ds, ∀ x, 0 ≤ (d.nuFp.getD 0) x) {y z w : (ZMod nx → ℝ) × List (Species nx)} (hg : Good y.2)
    (h1 : Run c devices ds y (some z)) (h2 : Run c devices ds y (some w)) : z = w := by
  replace h1 := run_serial h1
  replace h2 := run_serial h2
  induction ds generalizing y with
  | nil =>
    simp only [Run, Option.some.injEq] at h1 h2
    rw [h1, h2]
  | cons d ds ih =>
    obtain ⟨m1, a1, b1⟩ := h1
    obtain ⟨m2, a2, b2⟩ := h2
    cases m1 with
    | none => exact absurd b1 (by simp)
    | some u =>
    cases m2 with
    | none => exact absurd b2 (by simp)
    | some v =>
    have hpar : u.2.map parameters = y.2.map parameters := by
      obtain ⟨ts, e1, -, -, e2, -⟩ := step_all hk hg a1
      rw [e1, filtered_parameters, e2]
    have hp : (vlasovStep c.time c.dx c.dt c.field d.a d.dex y).2.map parameters = y.2.map parameters :=
      run_parameters c.time c.dx c.dt c.field y [(d.a, d.dex)]
    have huv : u = v := by
      unfold Step at a1 a2
      simp only [hk, integrator_serial] at a1 a2
      obtain ⟨cs, c1, c2⟩ := a1
      obtain ⟨cs', d1, d2⟩ := a2
      have hcs : cs = cs' := by
        unfold Collided at c1 d1
        cases hr : (vlasovStep c.time c.dx c.dt c.field d.a d.dex y).2[c.ref]? with
        | none =>
          rw [hr] at c1 d1
          exact c1.trans d1.symm
        | some s =>
          rw [hr] at c1 d1
          obtain ⟨g, e1, e2⟩ := c1
          obtain ⟨g', e3, e4⟩ := d1
          simp only [Applied, isParallel, Bool.false_eq_true, if_false] at e1 e3
          obtain ⟨k, f1, rfl⟩ := e1
          obtain ⟨l, f2, rfl⟩ := e3
          have hdv : 0 < s.dv := ((good_of_parameters hp hg) s (List.mem_of_getElem? hr)).2
          rw [e2, e4, collide_unique hc hdt (hnu d (by simp)) hdv f1 f2]
      rw [hcs, ← d2] at c2
      exact Option.some.inj c2
    subst huv
    exact ih (fun d' m => hnu d' (by simp [m])) (good_of_parameters hpar hg) b1 b2

/-! ### Symmetric states -/

/-- The plasma and the field repeat after `p` cells. -/
def Periodic (p : ZMod nx) (y : (ZMod nx → ℝ) × List (Species nx)) : Prop := moveState p y = y

/-- The plasma is its own mirror image. -/
def MirrorSymmetric (y : (ZMod nx → ℝ) × List (Species nx)) : Prop := mirrorState y = y

/-- **C226.** A plasma that starts with a period, driven with that period, keeps it: no step can
break it. With the period one cell: a uniform plasma stays uniform. -/
theorem run_period {c : Cfg nx} (hk : c.push = .exponential) (hc : Determined c.coll) (hdt : 0 ≤ c.dt) (p : ZMod nx)
    (hfield : moveField p c.field = c.field) {devices : ℕ} {ds : List (Drive nx)} (hnu : ∀ d ∈ ds, ∀ x, 0 ≤ (d.nuFp.getD 0) x)
    (hd : ∀ d ∈ ds, MovedDrive c.dx p d d) {y z : (ZMod nx → ℝ) × List (Species nx)} (hg : Good y.2) (hy : Periodic p y)
    (h : Run c devices ds y (some z)) : Periodic p z := by
  have h2 := run_translation p (List.forall₂_same.2 hd) h
  rw [hfield, hy] at h2
  exact (run_unique hk hc hdt hnu hg h h2).symm

/-- **C226.** A plasma that starts mirror-symmetric, driven symmetrically, stays mirror-symmetric. -/
theorem run_symmetric {c : Cfg nx} (hk : c.push = .exponential) (hc : Determined c.coll) (hdt : 0 ≤ c.dt)
    (hfield : mirrorField c.field = c.field) {devices : ℕ} {ds : List (Drive nx)} (hnu : ∀ d ∈ ds, ∀ x, 0 ≤ (d.nuFp.getD 0) x)
    (hd : ∀ d ∈ ds, MirrorDrive c.dx d d) {y z : (ZMod nx → ℝ) × List (Species nx)} (hg : Good y.2) (hs : ∀ s ∈ y.2, Symmetric s)
    (hy : MirrorSymmetric y) (h : Run c devices ds y (some z)) : MirrorSymmetric z := by
  have h2 := run_reflection hk (List.forall₂_same.2 hd) (fun s m => ⟨(hg s m).1, hs s m⟩) hg h
  rw [hfield, hy] at h2
  exact (run_unique hk hc hdt hnu hg h h2).symm

omit [NeZero nx] in
/-- What a period means: the field and every distribution repeat. -/
theorem periodic_iff (p : ZMod nx) (y : (ZMod nx → ℝ) × List (Species nx)) :
    Periodic p y ↔ (∀ x, y.1 (x - p) = y.1 x) ∧ ∀ s ∈ y.2, ∀ x j, s.f (x - p) j = s.f x j := by
  obtain ⟨e, ss⟩ := y
  unfold Periodic moveState
  rw [Prod.mk.injEq]
  refine and_congr funext_iff ?_
  have hmap : ∀ l : List (Species nx), l.map (moveSp p) = l ↔ ∀ s ∈ l, moveSp p s = s := by
    intro l
    induction l with
    | nil => simp
    | cons s l ih => simp [ih]
  rw [hmap]
  refine forall₂_congr fun s _ => ?_
  obtain ⟨n, pos, q, m, dv, v, f⟩ := s
  simp only [moveSp, Species.mk.injEq, true_and, heq_eq_eq, funext_iff]

omit [NeZero nx] in
/-- What mirror symmetry means: an odd field, distributions that are even in place and velocity. -/
theorem mirror_iff (y : (ZMod nx → ℝ) × List (Species nx)) :
    MirrorSymmetric y ↔ (∀ x, y.1 (-x) = -y.1 x) ∧ ∀ s ∈ y.2, ∀ x j, s.f (-x) (-1 - j) = s.f x j := by
  obtain ⟨e, ss⟩ := y
  unfold MirrorSymmetric mirrorState
  rw [Prod.mk.injEq]
  refine and_congr ?_ ?_
  · rw [funext_iff]
    refine forall_congr' fun x => ?_
    unfold mirrorE
    constructor
    · intro h; linarith
    · intro h; linarith
  have hmap : ∀ l : List (Species nx), l.map mirrorSp = l ↔ ∀ s ∈ l, mirrorSp s = s := by
    intro l
    induction l with
    | nil => simp
    | cons s l ih => simp [ih]
  rw [hmap]
  refine forall₂_congr fun s _ => ?_
  obtain ⟨n, pos, q, m, dv, v, f⟩ := s
  simp only [mirrorSp, Species.mk.injEq, true_and, heq_eq_eq, funext_iff]

/-- The momentum density of a species, per unit mass. -/
noncomputable def momentum (s : Species nx) (x : ZMod nx) : ℝ := (∑ j, s.f x j * s.v j) * s.dv

/-- In a mirror-symmetric state the total momentum of every species vanishes, and so does the mean
field. -/
theorem mirror_momentum {y : (ZMod nx → ℝ) × List (Species nx)} (h : MirrorSymmetric y) (hs : ∀ s ∈ y.2, Symmetric s) :
    (∀ s ∈ y.2, ∑ x, momentum s x = 0) ∧ ∑ x, y.1 x = 0 := by
  obtain ⟨h1, h2⟩ := (mirror_iff y).1 h
  refine ⟨fun s m => ?_, ?_⟩
  · have e : ∑ x, momentum s x = -∑ x, momentum s x := by
      conv_lhs => rw [← Equiv.sum_comp (Equiv.neg (ZMod nx))]
      rw [← Finset.sum_neg_distrib]
      refine sum_congr rfl fun x _ => ?_
      show momentum s (-x) = _
      unfold momentum
      rw [← neg_mul, ← Finset.sum_neg_distrib]
      congr 1
      rw [← Equiv.sum_comp (Equiv.subLeft (-1 : ZMod s.nv))]
      refine sum_congr rfl fun j _ => ?_
      simp only [Equiv.subLeft_apply]
      rw [h2 s m, hs s m]
      ring
    linarith
  · have e : ∑ x, y.1 x = -∑ x, y.1 x := by
      conv_lhs => rw [← Equiv.sum_comp (Equiv.neg (ZMod nx))]
      rw [← Finset.sum_neg_distrib]
      exact sum_congr rfl fun x _ => h1 x
    linarith

/-! ### Non-vacuity -/

/-- Four cells with the density profile 1, 2, 1, 2 and the velocities -1, 1. -/
noncomputable def twoByTwo : Species 4 :=
  ⟨2, ⟨by decide⟩, -1, 1, 2, fun j => if j = 0 then -1 else 1, fun x _ => if x.val % 2 = 0 then 1 else 2⟩

theorem two_period : Periodic (2 : ZMod 4) ((0 : ZMod 4 → ℝ), [twoByTwo]) ∧ ¬ Periodic (1 : ZMod 4) ((0 : ZMod 4 → ℝ), [twoByTwo]) := by
  rw [periodic_iff, periodic_iff]
  constructor
  · refine ⟨fun _ => rfl, fun s m x j => ?_⟩
    simp only [List.mem_singleton] at m
    subst m
    have : ∀ x : ZMod 4, (x - 2).val % 2 = x.val % 2 := by decide
    simp only [twoByTwo, this]
  · rintro ⟨-, h⟩
    have := h twoByTwo (by simp) 0 (0 : ZMod 2)
    have e : (if ((0 : ZMod 4) - 1).val % 2 = 0 then (1 : ℝ) else 2) = if (0 : ZMod 4).val % 2 = 0 then 1 else 2 := this
    rw [if_neg (by decide), if_pos (by decide)] at e
    norm_num at e

theorem two_mirror : MirrorSymmetric ((0 : ZMod 4 → ℝ), [twoByTwo]) ∧ Symmetric twoByTwo := by
  rw [mirror_iff]
  refine ⟨⟨fun _ => by simp, fun s m x j => ?_⟩, fun j => ?_⟩
  · simp only [List.mem_singleton] at m
    subst m
    have : ∀ x : ZMod 4, (-x).val % 2 = x.val % 2 := by decide
    simp only [twoByTwo, this]
  · change ZMod 2 at j
    have h : ∀ j : ZMod 2, (-1 - j = 0 ↔ j ≠ 0) := by decide
    show (if -1 - j = (0 : ZMod 2) then (-1 : ℝ) else 1) = -(if j = (0 : ZMod 2) then (-1 : ℝ) else 1)
    by_cases hj : j = 0
    · rw [if_neg (by rw [h]; simpa using hj), if_pos hj]
      norm_num
    · rw [if_pos ((h j).2 hj), if_neg hj]

/-- For the examples: no drivers and constant frequencies are drivers with every period, and symmetric. -/
theorem free_drive (nu : ℝ) (p : ZMod 4) : MovedDrive 1 p (⟨fun _ => 0, fun _ _ => 0, some fun _ => nu, none⟩ : Drive 4)
    ⟨fun _ => 0, fun _ _ => 0, some fun _ => nu, none⟩ ∧ MirrorDrive 1 (⟨fun _ => 0, fun _ _ => 0, some fun _ => nu, none⟩ : Drive 4)
    ⟨fun _ => 0, fun _ _ => 0, some fun _ => nu, none⟩ := by
  refine ⟨⟨?_, fun _ => rfl, rfl, rfl⟩, ?_, fun i => ?_, rfl, rfl⟩
  · funext x; simp [ponderomotive, moveP]
  · funext x; simp [ponderomotive, mirrorE]
  · funext x; simp [mirrorE]

/-- A collisional run of that plasma on two devices exists, keeps its period of two cells and its
symmetry. -/
example (nu : ℝ) (hnu : 0 ≤ nu) : ∃ z, Run ⟨.leapfrog, .exponential, some ["x"], 1, 1, .poisson 0, ⟨true, true, .doughertyCC, 2, 0, 1⟩, 0, some (36, 36)⟩ 2
      [⟨fun _ => 0, fun _ _ => 0, some fun _ => nu, none⟩, ⟨fun _ => 0, fun _ _ => 0, some fun _ => nu, none⟩]
      ((0 : ZMod 4 → ℝ), [twoByTwo]) (some z) ∧ Periodic 2 z ∧ MirrorSymmetric z := by
  have hgood : Good [twoByTwo] := by
    intro t ht
    simp only [List.mem_singleton] at ht
    subst ht
    exact ⟨le_refl _, by norm_num [twoByTwo]⟩
  obtain ⟨z, hz⟩ := run_exists (nx := 4)
    ⟨.leapfrog, .exponential, some ["x"], 1, 1, .poisson 0, ⟨true, true, .doughertyCC, 2, 0, 1⟩, 0, some (36, 36)⟩
    rfl zero_le_one (fun _ => rfl) (devices := 2)
    [⟨fun _ => 0, fun _ _ => 0, some fun _ => nu, none⟩, ⟨fun _ => 0, fun _ _ => 0, some fun _ => nu, none⟩]
    (by simpa using hnu) ((0 : ZMod 4 → ℝ), [twoByTwo]) hgood
    ⟨fun _ => ⟨2, rfl⟩, fun h => absurd h (by decide)⟩
  have hd : ∀ d ∈ [(⟨fun _ => 0, fun _ _ => 0, some fun _ => nu, none⟩ : Drive 4), ⟨fun _ => 0, fun _ _ => 0, some fun _ => nu, none⟩],
      d = ⟨fun _ => 0, fun _ _ => 0, some fun _ => nu, none⟩ := by simp
  refine ⟨z, hz, ?_, ?_⟩
  · refine run_period rfl (fun _ => ⟨rfl, rfl⟩) zero_le_one 2 rfl (by simpa using hnu) (fun d m => ?_) hgood two_period.1 hz
    rw [hd d m]
    exact (free_drive nu 2).1
  · refine run_symmetric rfl (fun _ => ⟨rfl, rfl⟩) zero_le_one rfl (by simpa using hnu) (fun d m => ?_) hgood (fun s m => ?_) two_mirror.1 hz
    · rw [hd d m]
      exact (free_drive nu 2).2
    · simp only [List.mem_singleton] at m
      subst m
      exact two_mirror.2

end Verif.VlasovShard

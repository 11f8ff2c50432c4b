import Verif.Props.Vlasov2dRun
import Verif.Props.VlasovSymmetryRun

/-!
Symmetries of Vlasov-2D runs (C228): translations of the periodic box and the mirror image across `y`,
and what they keep: periods, uniformity along a direction, mirror symmetry; a problem that
depends on one direction only stays one-dimensional and electrostatic.
-/
namespace Verif.Vlasov2d
open Finset Complex Verif.Spectral
open Verif.Vfp2d (Deriv Scal ddx ddy)
open Verif.VlasovShard (moveP mirrorP Flip SymGrid)

variable {nx ny : ℕ}

/-! ### Specification -/

/-- A profile moved by `cx`, `cy` cells of the periodic box. -/
def moveA (cx : ZMod nx) (cy : ZMod ny) (a : Scal nx ny) : Scal nx ny := fun x y => a (x - cx) (y - cy)

/-- A species moved along. -/
def moveSp (cx : ZMod nx) (cy : ZMod ny) (s : Sp nx ny) : Sp nx ny := { s with f := fun x y => s.f (x - cx) (y - cy) }

/-- A state moved along. -/
def moveState (cx : ZMod nx) (cy : ZMod ny) (y : State nx ny) : State nx ny :=
  ⟨y.species.map (moveSp cx cy), ⟨moveA cx cy y.em.ex, moveA cx cy y.em.ey, moveA cx cy y.em.bz⟩, moveA cx cy y.jxDriver, moveA cx cy y.jyDriver⟩

/-- The image in a mirror across `y` of a scalar, and of what changes sign in that mirror. -/
def mirY (a : Scal nx ny) : Scal nx ny := fun x y => a x (-y)
def antiY (a : Scal nx ny) : Scal nx ny := fun x y => -a x (-y)

/-- The mirror image of a species: `y` and `vy` change sign. -/
def mirYSp (s : Sp nx ny) : Sp nx ny := { s with f := fun x y i j => s.f x (-y) i (-1 - j) }

/-- The mirror image of a state: `ey` and the axial vector `bz` change sign. -/
def mirYState (y : State nx ny) : State nx ny :=
  ⟨y.species.map mirYSp, ⟨mirY y.em.ex, antiY y.em.ey, antiY y.em.bz⟩, mirY y.jxDriver, antiY y.jyDriver⟩

/-- A grid symmetric about zero in `vy`. -/
def Sp.SymY (s : Sp nx ny) : Prop := ∀ j, s.vy (-1 - j) = -s.vy j

/-- The setup of the moved problem: drivers and collision frequencies moved along, all else equal. -/
structure MovedSetup [NeZero nx] [NeZero ny] (cx : ZMod nx) (cy : ZMod ny) (p q : Setup nx ny) : Prop where
  same : q = { p with xs := q.xs, ys := q.ys, exDrivers := q.exDrivers, eyDrivers := q.eyDrivers, nuFP := q.nuFP, nuK := q.nuK }
  jx : ∀ t, driverJ q.xs q.ys q.exDrivers t = moveA cx cy (driverJ p.xs p.ys p.exDrivers t)
  jy : ∀ t, driverJ q.xs q.ys q.eyDrivers t = moveA cx cy (driverJ p.xs p.ys p.eyDrivers t)
  nuFP : q.nuFP = p.nuFP.map fun g t => moveA cx cy (g t)
  nuK : q.nuK = p.nuK.map fun g t => moveA cx cy (g t)

/-- The setup of the mirror image. -/
structure MirroredSetup [NeZero nx] [NeZero ny] (p q : Setup nx ny) : Prop where
  same : q = { p with xs := q.xs, ys := q.ys, exDrivers := q.exDrivers, eyDrivers := q.eyDrivers, nuFP := q.nuFP, nuK := q.nuK }
  jx : ∀ t, driverJ q.xs q.ys q.exDrivers t = mirY (driverJ p.xs p.ys p.exDrivers t)
  jy : ∀ t, driverJ q.xs q.ys q.eyDrivers t = antiY (driverJ p.xs p.ys p.eyDrivers t)
  nuFP : q.nuFP = p.nuFP.map fun g t => mirY (g t)
  nuK : q.nuK = p.nuK.map fun g t => mirY (g t)

/-- The interpolation has no preferred direction in `vy`. -/
def EvenInterp (ip : Interp) : Prop := ∀ (nvx nvy : ℕ) (vx : ZMod nvx → ℝ) (vy : ZMod nvy → ℝ) (g : ZMod nvx → ZMod nvy → ℝ) (a b : ℝ),
  (∀ j, vy (-1 - j) = -vy j) → ip nvx nvy vx vy (fun i j => g i (-1 - j)) a b = ip nvx nvy vx vy g a (-b)

/-- The solver of tridiagonal systems has no preferred direction and does not read outside the system. -/
def EvenSolve (solve : Solve) : Prop := ∀ (n : ℕ) (A B : FP.Tri) (a b : ℕ → ℝ), VlasovShard.FlipTri n A B → Flip n a b →
  Flip n (solve n A a) (solve n B b)

/-! ### A transformation of the plasma -/

variable [NeZero nx] [NeZero ny]

/-- What the steps need of a transformation of species (`T`), scalars (`S`) and the components of
the fields (`X`, `Y`, `Z`). -/
structure Covariant (p : Setup nx ny) (T : Sp nx ny → Sp nx ny) (S X Y Z : Scal nx ny → Scal nx ny) (ok : Sp nx ny → Prop) : Prop where
  grid : ∀ s t, s.grid_eq t → ok s → ok t
  kinetic : ∀ ex ey bz s, ok s → kinetic p.kind p.ip p.dx p.dy p.dt (X ex) (Y ey) (Z bz) (T s) = T (kinetic p.kind p.ip p.dx p.dy p.dt ex ey bz s)
  jx : ∀ s, ok s → (T s).jx = X s.jx
  jy : ∀ s, ok s → (T s).jy = Y s.jy
  addX : ∀ a b, X (fun x y => a x y + b x y) = fun x y => X a x y + X b x y
  addY : ∀ a b, Y (fun x y => a x y + b x y) = fun x y => Y a x y + Y b x y
  zeroX : X (fun _ _ => 0) = fun _ _ => 0
  zeroY : Y (fun _ _ => 0) = fun _ _ => 0
  maxwell : ∀ jx jy a, maxwell p.dx p.dy p.c2 p.dt (X jx) (Y jy) ⟨X a.ex, Y a.ey, Z a.bz⟩ =
    ⟨X (maxwell p.dx p.dy p.c2 p.dt jx jy a).ex, Y (maxwell p.dx p.dy p.c2 p.dt jx jy a).ey, Z (maxwell p.dx p.dy p.c2 p.dt jx jy a).bz⟩
  collide : ∀ nuFP nuK s, ok s → collide p.solve (nuFP.map S) (nuK.map S) p.dt (T s) = T (collide p.solve nuFP nuK p.dt s)
  filter : ∀ h s, p.filter = some h → h.apply (T s) = T (h.apply s)

/-- A state transformed. -/
def transState (T : Sp nx ny → Sp nx ny) (X Y Z : Scal nx ny → Scal nx ny) (y : State nx ny) : State nx ny :=
  ⟨y.species.map T, ⟨X y.em.ex, Y y.em.ey, Z y.em.bz⟩, X y.jxDriver, Y y.jyDriver⟩

section generic
variable {p q : Setup nx ny} {T : Sp nx ny → Sp nx ny} {S X Y Z : Scal nx ny → Scal nx ny} {ok : Sp nx ny → Prop}

theorem currentX_cov (h : Covariant p T S X Y Z ok) {ss : List (Sp nx ny)} (hs : ∀ s ∈ ss, ok s) : currentX (ss.map T) = X (currentX ss) := by
  induction ss with
  | nil => exact h.zeroX.symm
  | cons s ss ih =>
    have e1 : currentX (s :: ss) = fun x y => s.jx x y + currentX ss x y := rfl
    have e2 : currentX ((s :: ss).map T) = fun x y => (T s).jx x y + currentX (ss.map T) x y := rfl
    rw [e1, e2, h.addX, ih fun s m => hs s (List.mem_cons_of_mem _ m), h.jx s (hs s List.mem_cons_self)]

theorem currentY_cov (h : Covariant p T S X Y Z ok) {ss : List (Sp nx ny)} (hs : ∀ s ∈ ss, ok s) : currentY (ss.map T) = Y (currentY ss) := by
  induction ss with
  | nil => exact h.zeroY.symm
  | cons s ss ih =>
    have e1 : currentY (s :: ss) = fun x y => s.jy x y + currentY ss x y := rfl
    have e2 : currentY ((s :: ss).map T) = fun x y => (T s).jy x y + currentY (ss.map T) x y := rfl
    rw [e1, e2, h.addY, ih fun s m => hs s (List.mem_cons_of_mem _ m), h.jy s (hs s List.mem_cons_self)]

theorem step_cov (h : Covariant p T S X Y Z ok)
    (same : q = { p with xs := q.xs, ys := q.ys, exDrivers := q.exDrivers, eyDrivers := q.eyDrivers, nuFP := q.nuFP, nuK := q.nuK })
    (jx : ∀ t, driverJ q.xs q.ys q.exDrivers t = X (driverJ p.xs p.ys p.exDrivers t))
    (jy : ∀ t, driverJ q.xs q.ys q.eyDrivers t = Y (driverJ p.xs p.ys p.eyDrivers t))
    (nuFP : q.nuFP = p.nuFP.map fun g t => S (g t)) (nuK : q.nuK = p.nuK.map fun g t => S (g t)) (t : ℝ) {y : State nx ny}
    (hs : ∀ s ∈ y.species, ok s) : step q t (transState T X Y Z y) = transState T X Y Z (step p t y) := by
  have e1 : (q.nuFP.map fun g => g t) = (p.nuFP.map fun g => g t).map S := by rw [nuFP]; cases p.nuFP <;> rfl
  have e2 : (q.nuK.map fun g => g t) = (p.nuK.map fun g => g t).map S := by rw [nuK]; cases p.nuK <;> rfl
  have k1 : q.kind = p.kind := by rw [same]
  have k2 : q.ip = p.ip := by rw [same]
  have k3 : q.solve = p.solve := by rw [same]
  have k4 : q.dx = p.dx := by rw [same]
  have k5 : q.dy = p.dy := by rw [same]
  have k6 : q.dt = p.dt := by rw [same]
  have k7 : q.c2 = p.c2 := by rw [same]
  have k8 : q.filter = p.filter := by rw [same]
  have k9 : q.skipMaxwell = p.skipMaxwell := by rw [same]
  unfold step
  dsimp only
  rw [e1, e2, k1, k2, k3, k4, k5, k6, k7, k8, k9, jx, jy]
  have kin : (transState T X Y Z y).species.map (kinetic p.kind p.ip p.dx p.dy p.dt (transState T X Y Z y).em.ex (transState T X Y Z y).em.ey (transState T X Y Z y).em.bz) =
      (y.species.map (kinetic p.kind p.ip p.dx p.dy p.dt y.em.ex y.em.ey y.em.bz)).map T := by
    unfold transState
    dsimp only
    rw [List.map_map, List.map_map]
    exact List.map_congr_left fun s m => h.kinetic _ _ _ s (hs s m)
  rw [kin]
  have ok1 : ∀ s ∈ y.species.map (kinetic p.kind p.ip p.dx p.dy p.dt y.em.ex y.em.ey y.em.bz), ok s := by
    intro s m
    obtain ⟨r, m', rfl⟩ := List.mem_map.1 m
    exact h.grid _ _ (kinetic_grid _ _ _ _ _ _ _ _ _) (hs r m')
  generalize y.species.map (kinetic p.kind p.ip p.dx p.dy p.dt y.em.ex y.em.ey y.em.bz) = ss at ok1 ⊢
  rw [currentX_cov h ok1, currentY_cov h ok1]
  have col : (ss.map T).map (Vlasov2d.collide p.solve ((p.nuFP.map fun g => g t).map S) ((p.nuK.map fun g => g t).map S) p.dt) =
      (ss.map (Vlasov2d.collide p.solve (p.nuFP.map fun g => g t) (p.nuK.map fun g => g t) p.dt)).map T := by
    rw [List.map_map, List.map_map]
    exact List.map_congr_left fun s m => h.collide _ _ s (ok1 s m)
  rw [col]
  have em : (if p.skipMaxwell = true then (transState T X Y Z y).em else
      Vlasov2d.maxwell p.dx p.dy p.c2 p.dt (fun a b => X (currentX ss) a b + X (driverJ p.xs p.ys p.exDrivers (t + 0.5 * p.dt)) a b)
        (fun a b => Y (currentY ss) a b + Y (driverJ p.xs p.ys p.eyDrivers (t + 0.5 * p.dt)) a b) (transState T X Y Z y).em) =
      (fun a : Fields nx ny => (⟨X a.ex, Y a.ey, Z a.bz⟩ : Fields nx ny)) (if p.skipMaxwell = true then y.em else
      Vlasov2d.maxwell p.dx p.dy p.c2 p.dt (fun a b => currentX ss a b + driverJ p.xs p.ys p.exDrivers (t + 0.5 * p.dt) a b)
        (fun a b => currentY ss a b + driverJ p.xs p.ys p.eyDrivers (t + 0.5 * p.dt) a b) y.em) := by
    split
    · rfl
    · rw [← h.addX, ← h.addY]
      exact h.maxwell _ _ y.em
  rw [em]
  generalize ss.map (Vlasov2d.collide p.solve (p.nuFP.map fun g => g t) (p.nuK.map fun g => g t) p.dt) = us
  unfold transState
  dsimp only
  cases hf : p.filter with
  | none => rfl
  | some f =>
    dsimp only
    congr 1
    rw [List.map_map, List.map_map]
    exact List.map_congr_left fun s _ => h.filter f s hf

theorem step_ok (h : Covariant p T S X Y Z ok) (t : ℝ) {y : State nx ny} (hs : ∀ s ∈ y.species, ok s) : ∀ s ∈ (step p t y).species, ok s := by
  rw [step_species]
  intro s m
  obtain ⟨r, m', rfl⟩ := List.mem_map.1 m
  exact h.grid _ _ (stepSp_grid p t y.em r) (hs r m')

theorem run_cov (h : Covariant p T S X Y Z ok)
    (same : q = { p with xs := q.xs, ys := q.ys, exDrivers := q.exDrivers, eyDrivers := q.eyDrivers, nuFP := q.nuFP, nuK := q.nuK })
    (jx : ∀ t, driverJ q.xs q.ys q.exDrivers t = X (driverJ p.xs p.ys p.exDrivers t))
    (jy : ∀ t, driverJ q.xs q.ys q.eyDrivers t = Y (driverJ p.xs p.ys p.eyDrivers t))
    (nuFP : q.nuFP = p.nuFP.map fun g t => S (g t)) (nuK : q.nuK = p.nuK.map fun g t => S (g t)) (t0 : ℝ) {y : State nx ny}
    (hs : ∀ s ∈ y.species, ok s) (n : ℕ) : run q t0 (transState T X Y Z y) n = transState T X Y Z (run p t0 y n) ∧ ∀ s ∈ (run p t0 y n).species, ok s := by
  induction n with
  | zero => exact ⟨rfl, hs⟩
  | succ n ih =>
    have hdt : q.dt = p.dt := by rw [same]
    constructor
    · change step q (t0 + n * q.dt) (run q t0 _ n) = transState T X Y Z (step p (t0 + n * p.dt) (run p t0 y n))
      rw [ih.1, hdt]
      exact step_cov h same jx jy nuFP nuK _ ih.2
    · exact step_ok h _ ih.2

end generic

/-! ### Translations -/

theorem ddx_move (d : ℝ) (cx : ZMod nx) (cy : ZMod ny) (a : Scal nx ny) : ddx (.spectral d) (moveA cx cy a) = moveA cx cy (ddx (.spectral d) a) := by
  funext x y
  exact congrArg Complex.re (VlasovShard.op_move (fun k => I * (kfull d k : ℂ)) cx (fun x' => a x' (y - cy)) x)

theorem ddy_move (d : ℝ) (cx : ZMod nx) (cy : ZMod ny) (a : Scal nx ny) : ddy (.spectral d) (moveA cx cy a) = moveA cx cy (ddy (.spectral d) a) := by
  funext x y
  exact congrArg Complex.re (VlasovShard.op_move (fun k => I * (kfull d k : ℂ)) cy (fun y' => a (x - cx) y') y)

theorem move_streamX (d dt : ℝ) (cx : ZMod nx) (cy : ZMod ny) (s : Sp nx ny) : streamX d dt (moveSp cx cy s) = moveSp cx cy (streamX d dt s) :=
  congrArg (fun g => ({ s with f := g } : Sp nx ny)) (by
    funext x y i j
    exact VlasovShard.shift_moveP _ _ cx (fun x' => s.f x' (y - cy) i j) x)

theorem move_streamY (d dt : ℝ) (cx : ZMod nx) (cy : ZMod ny) (s : Sp nx ny) : streamY d dt (moveSp cx cy s) = moveSp cx cy (streamY d dt s) :=
  congrArg (fun g => ({ s with f := g } : Sp nx ny)) (by
    funext x y i j
    exact VlasovShard.shift_moveP _ _ cy (fun y' => s.f (x - cx) y' i j) y)

omit [NeZero nx] [NeZero ny] in
theorem move_pushVx (kind : EPush) (ip : Interp) (e : Scal nx ny) (dt : ℝ) (cx : ZMod nx) (cy : ZMod ny) (s : Sp nx ny) :
    pushVx kind ip (moveA cx cy e) dt (moveSp cx cy s) = moveSp cx cy (pushVx kind ip e dt s) := by cases kind <;> rfl

omit [NeZero nx] [NeZero ny] in
theorem move_pushVy (kind : EPush) (ip : Interp) (e : Scal nx ny) (dt : ℝ) (cx : ZMod nx) (cy : ZMod ny) (s : Sp nx ny) :
    pushVy kind ip (moveA cx cy e) dt (moveSp cx cy s) = moveSp cx cy (pushVy kind ip e dt s) := by cases kind <;> rfl

theorem filter_cov {T : Sp nx ny → Sp nx ny} (h : Filter) (hx : ∀ s, filterX h (T s) = T (filterX h s)) (hy : ∀ s, filterY h (T s) = T (filterY h s))
    (s : Sp nx ny) : h.apply (T s) = T (h.apply s) := by
  rw [filter_apply, filter_apply]
  cases h.x <;> cases h.y <;> simp [hx, hy]

theorem covariant_move (p : Setup nx ny) (cx : ZMod nx) (cy : ZMod ny) :
    Covariant p (moveSp cx cy) (moveA cx cy) (moveA cx cy) (moveA cx cy) (moveA cx cy) (fun _ => True) where
  grid _ _ _ _ := trivial
  kinetic ex ey bz s _ := by
    unfold kinetic
    dsimp only
    have hb : ∀ s : Sp nx ny, rotateB p.ip (moveA cx cy bz) p.dt (moveSp cx cy s) = moveSp cx cy (rotateB p.ip bz p.dt s) := fun _ => rfl
    rw [move_streamX, move_streamY, move_pushVx, move_pushVy, hb, move_pushVy, move_pushVx, move_streamY, move_streamX]
  jx _ _ := rfl
  jy _ _ := rfl
  addX _ _ := rfl
  addY _ _ := rfl
  zeroX := rfl
  zeroY := rfl
  maxwell jx jy a := by
    have hB : ∀ a : Fields nx ny, bHalf p.dx p.dy p.dt ⟨moveA cx cy a.ex, moveA cx cy a.ey, moveA cx cy a.bz⟩ =
        ⟨moveA cx cy (bHalf p.dx p.dy p.dt a).ex, moveA cx cy (bHalf p.dx p.dy p.dt a).ey, moveA cx cy (bHalf p.dx p.dy p.dt a).bz⟩ := by
      intro a
      unfold bHalf
      dsimp only
      rw [ddx_move, ddy_move]
      rfl
    have hE : ∀ a : Fields nx ny, eFull p.dx p.dy p.c2 p.dt (moveA cx cy jx) (moveA cx cy jy) ⟨moveA cx cy a.ex, moveA cx cy a.ey, moveA cx cy a.bz⟩ =
        ⟨moveA cx cy (eFull p.dx p.dy p.c2 p.dt jx jy a).ex, moveA cx cy (eFull p.dx p.dy p.c2 p.dt jx jy a).ey, moveA cx cy (eFull p.dx p.dy p.c2 p.dt jx jy a).bz⟩ := by
      intro a
      unfold eFull
      dsimp only
      rw [ddx_move, ddy_move]
      rfl
    unfold Vlasov2d.maxwell
    rw [hB, hE, hB]
  collide nuFP nuK s _ := by cases nuFP <;> cases nuK <;> rfl
  filter h s _ := filter_cov (T := moveSp cx cy) h (fun s => congrArg (fun g => ({ s with f := g } : Sp nx ny)) (by
      funext x y i j
      exact VlasovShard.filterRow_moveP _ cx (fun x' => s.f x' (y - cy) i j) x)) (fun s => congrArg (fun g => ({ s with f := g } : Sp nx ny)) (by
      funext x y i j
      exact VlasovShard.filterRow_moveP _ cy (fun y' => s.f (x - cx) y' i j) y)) s

/-- **C228.** The run of the moved plasma, with moved drivers and collision frequencies, is the moved
run: after any number of steps, with any push, filter and collisions. -/
theorem run_translation {cx : ZMod nx} {cy : ZMod ny} {p q : Setup nx ny} (h : MovedSetup cx cy p q) (t0 : ℝ) (y : State nx ny) (n : ℕ) :
    run q t0 (moveState cx cy y) n = moveState cx cy (run p t0 y n) :=
  (run_cov (covariant_move p cx cy) h.same h.jx h.jy h.nuFP h.nuK t0 (fun _ _ => trivial) n).1

/-- **C228.** A period of the plasma and of the setup is a period of every later state. -/
theorem run_period {cx : ZMod nx} {cy : ZMod ny} {p : Setup nx ny} (h : MovedSetup cx cy p p) (t0 : ℝ) {y : State nx ny} (hy : moveState cx cy y = y)
    (n : ℕ) : moveState cx cy (run p t0 y n) = run p t0 y n := by
  rw [← run_translation h, hy]

/-! ### Mirror images -/

theorem applyR_mirror {N : ℕ} [NeZero N] (d : ℝ) (a : ZMod N → ℝ) (x : ZMod N) :
    (Deriv.spectral d).applyR (mirrorP a) x = -(Deriv.spectral d).applyR a (-x) := by
  refine (VlasovShard.op_mirror (fun k => I * (kfull d k : ℂ)) a x).trans ?_
  have e : (fun k => (starRingEnd ℂ) (I * (kfull d k : ℂ)) * fft (fun j => (a j : ℂ)) k) =
      fun k => (-1 : ℂ) * (I * (kfull d k : ℂ) * fft (fun j => (a j : ℂ)) k) := by
    funext k
    rw [map_mul, conj_I, conj_ofReal]
    ring
  rw [e, ifft_smul]
  simp [Deriv.applyR, Deriv.apply]

theorem applyR_neg {N : ℕ} [NeZero N] (d : ℝ) (a : ZMod N → ℝ) (x : ZMod N) :
    (Deriv.spectral d).applyR (fun i => -a i) x = -(Deriv.spectral d).applyR a x := by
  have h := Vfp2d.applyR_smul (Deriv.spectral d) (-1) a x
  simpa using h

theorem ddx_mirY (d : ℝ) (a : Scal nx ny) : ddx (.spectral d) (mirY a) = mirY (ddx (.spectral d) a) := rfl

theorem ddx_antiY (d : ℝ) (a : Scal nx ny) : ddx (.spectral d) (antiY a) = antiY (ddx (.spectral d) a) := by
  funext x y
  exact applyR_neg d (fun x' => a x' (-y)) x

theorem ddy_mirY (d : ℝ) (a : Scal nx ny) : ddy (.spectral d) (mirY a) = antiY (ddy (.spectral d) a) := by
  funext x y
  exact applyR_mirror d (fun y' => a x y') y

theorem ddy_antiY (d : ℝ) (a : Scal nx ny) : ddy (.spectral d) (antiY a) = mirY (ddy (.spectral d) a) := by
  funext x y
  refine (applyR_neg d (fun y' => a x (-y')) y).trans ?_
  rw [show (fun y' => a x (-y')) = mirrorP (fun y' => a x y') from rfl, applyR_mirror, neg_neg]
  rfl

theorem mirY_streamX (d dt : ℝ) (s : Sp nx ny) : streamX d dt (mirYSp s) = mirYSp (streamX d dt s) := rfl

theorem mirY_streamY (d dt : ℝ) (s : Sp nx ny) (h : s.SymY) : streamY d dt (mirYSp s) = mirYSp (streamY d dt s) :=
  congrArg (fun g => ({ s with f := g } : Sp nx ny)) (by
    refine funext fun x => funext fun y => funext fun (i : ZMod s.nvx) => funext fun (j : ZMod s.nvy) => ?_
    refine (VlasovShard.shift_mirror d (s.vy j * dt) (fun y' => s.f x y' i (-1 - j)) y).trans ?_
    show shift d (-(s.vy j * dt)) _ (-y) = shift d (s.vy (-1 - j) * dt) _ (-y)
    rw [h j, neg_mul]
    rfl)

omit [NeZero nx] [NeZero ny] in
theorem mirY_pushVx (kind : EPush) {ip : Interp} (hi : EvenInterp ip) (e : Scal nx ny) (dt : ℝ) (s : Sp nx ny) (h : s.SymY) :
    pushVx kind ip (mirY e) dt (mirYSp s) = mirYSp (pushVx kind ip e dt s) := by
  cases kind with
  | exponential => rfl
  | sl =>
    refine congrArg (fun g => ({ s with f := g } : Sp nx ny)) ?_
    refine funext fun x => funext fun y => funext fun (i : ZMod s.nvx) => funext fun (j : ZMod s.nvy) => ?_
    refine (hi s.nvx s.nvy s.vx s.vy (s.f x (-y)) _ _ h).trans ?_
    show ip _ _ _ _ _ _ (-s.vy j) = ip _ _ _ _ _ _ (s.vy (-1 - j))
    rw [h j]
    rfl

omit [NeZero nx] [NeZero ny] in
theorem mirY_pushVy (kind : EPush) {ip : Interp} (hi : EvenInterp ip) (e : Scal nx ny) (dt : ℝ) (s : Sp nx ny) (h : s.SymY) :
    pushVy kind ip (antiY e) dt (mirYSp s) = mirYSp (pushVy kind ip e dt s) := by
  cases kind with
  | exponential =>
    refine congrArg (fun g => ({ s with f := g } : Sp nx ny)) ?_
    refine funext fun x => funext fun y => funext fun (i : ZMod s.nvx) => funext fun (j : ZMod s.nvy) => ?_
    refine (VlasovShard.shift_flip s.dvy (s.charge / s.mass * antiY e x y * dt) (fun j' => s.f x (-y) i j') j).trans ?_
    congr 1
    unfold antiY
    ring
  | sl =>
    refine congrArg (fun g => ({ s with f := g } : Sp nx ny)) ?_
    refine funext fun x => funext fun y => funext fun (i : ZMod s.nvx) => funext fun (j : ZMod s.nvy) => ?_
    refine (hi s.nvx s.nvy s.vx s.vy (s.f x (-y)) _ _ h).trans ?_
    show ip _ _ _ _ _ _ (-(s.vy j - s.charge / s.mass * antiY e x y * dt)) = ip _ _ _ _ _ _ (s.vy (-1 - j) - s.charge / s.mass * e x (-y) * dt)
    rw [h j]
    congr 1
    unfold antiY
    ring

omit [NeZero nx] [NeZero ny] in
theorem mirY_rotateB {ip : Interp} (hi : EvenInterp ip) (b : Scal nx ny) (dt : ℝ) (s : Sp nx ny) (h : s.SymY) :
    rotateB ip (antiY b) dt (mirYSp s) = mirYSp (rotateB ip b dt s) := by
  refine congrArg (fun g => ({ s with f := g } : Sp nx ny)) ?_
  refine funext fun x => funext fun y => funext fun (i : ZMod s.nvx) => funext fun (j : ZMod s.nvy) => ?_
  refine (hi s.nvx s.nvy s.vx s.vy (s.f x (-y)) _ _ h).trans ?_
  show ip _ _ _ _ _ (queryX (theta s.charge s.mass (antiY b x y) dt) (s.vx i) (s.vy j)) (-queryY (theta s.charge s.mass (antiY b x y) dt) (s.vx i) (s.vy j)) =
    ip _ _ _ _ _ (queryX (theta s.charge s.mass (b x (-y)) dt) (s.vx i) (s.vy (-1 - j))) (queryY (theta s.charge s.mass (b x (-y)) dt) (s.vx i) (s.vy (-1 - j)))
  have e : theta s.charge s.mass (antiY b x y) dt = -theta s.charge s.mass (b x (-y)) dt := by
    unfold theta antiY
    ring
  rw [e, h j]
  unfold queryX queryY
  rw [Real.cos_neg, Real.sin_neg]
  congr 1 <;> ring

omit [NeZero nx] [NeZero ny] in
theorem symY_grid {s t : Sp nx ny} (h : s.grid_eq t) (hs : s.SymY) : t.SymY := by
  obtain ⟨f, rfl⟩ := h
  exact hs

theorem mirY_kinetic (kind : EPush) {ip : Interp} (hi : EvenInterp ip) (dx dy dt : ℝ) (ex ey bz : Scal nx ny) (s : Sp nx ny) (h : s.SymY) :
    kinetic kind ip dx dy dt (mirY ex) (antiY ey) (antiY bz) (mirYSp s) = mirYSp (kinetic kind ip dx dy dt ex ey bz s) := by
  unfold kinetic
  dsimp only
  have h1 : (streamX dx (0.5 * dt) s).SymY := symY_grid ⟨_, rfl⟩ h
  rw [mirY_streamX]
  generalize streamX dx (0.5 * dt) s = s1 at h1 ⊢
  have h2 : (streamY dy (0.5 * dt) s1).SymY := symY_grid ⟨_, rfl⟩ h1
  rw [mirY_streamY _ _ _ h1]
  generalize streamY dy (0.5 * dt) s1 = s2 at h2 ⊢
  have h3 : (pushVx kind ip ex (0.5 * dt) s2).SymY := symY_grid (pushVx_grid ..) h2
  rw [mirY_pushVx kind hi _ _ _ h2]
  generalize pushVx kind ip ex (0.5 * dt) s2 = s3 at h3 ⊢
  have h4 : (pushVy kind ip ey (0.5 * dt) s3).SymY := symY_grid (pushVy_grid ..) h3
  rw [mirY_pushVy kind hi _ _ _ h3]
  generalize pushVy kind ip ey (0.5 * dt) s3 = s4 at h4 ⊢
  have h5 : (rotateB ip bz dt s4).SymY := symY_grid ⟨_, rfl⟩ h4
  rw [mirY_rotateB hi _ _ _ h4]
  generalize rotateB ip bz dt s4 = s5 at h5 ⊢
  have h6 : (pushVy kind ip ey (0.5 * dt) s5).SymY := symY_grid (pushVy_grid ..) h5
  rw [mirY_pushVy kind hi _ _ _ h5]
  generalize pushVy kind ip ey (0.5 * dt) s5 = s6 at h6 ⊢
  have h7 : (pushVx kind ip ex (0.5 * dt) s6).SymY := symY_grid (pushVx_grid ..) h6
  rw [mirY_pushVx kind hi _ _ _ h6]
  generalize pushVx kind ip ex (0.5 * dt) s6 = s7 at h7 ⊢
  rw [mirY_streamY _ _ _ h7, mirY_streamX]

theorem flat_flip {n : ℕ} (f : ZMod n → ℝ) : Flip n (flat f) (flat fun j => f (-1 - j)) := VlasovShard.flip_of_mirror f

theorem flat_grid {n : ℕ} {v : ZMod n → ℝ} (h : ∀ j, v (-1 - j) = -v j) : SymGrid n (flat v) := by
  intro i hi
  have e := flat_flip v i hi
  unfold flat at e ⊢
  beta_reduce at e
  rw [h] at e
  exact e.symm

theorem val_mirror {n : ℕ} [NeZero n] (j : ZMod n) : (-1 - j).val = n - 1 - j.val := by
  have hlt := ZMod.val_lt j
  have e : (-1 - j : ZMod n) = ((n - 1 - j.val : ℕ) : ZMod n) := by
    rw [Nat.cast_sub (by omega), Nat.cast_sub (by omega)]
    simp
  rw [e, ZMod.val_natCast, Nat.mod_eq_of_lt (by omega)]

theorem flip_colN {n : ℕ} {dv : ℝ} {a b : ℕ → ℝ} (h : Flip n a b) : colN n dv b = colN n dv a := by
  unfold colN
  rw [VlasovShard.flip_sum h]

theorem flip_colV {n : ℕ} {v : ℕ → ℝ} {dv : ℝ} (hv : SymGrid n v) {a b : ℕ → ℝ} (h : Flip n a b) : colV n v dv b = -colV n v dv a := by
  unfold colV
  rw [flip_colN h, ← neg_div, ← neg_mul, ← Finset.sum_neg_distrib]
  congr 2
  have : Flip n (fun i => -(a i * v i)) (fun i => b i * v i) := by
    intro i hi
    show b i * v i = -(a (n - 1 - i) * v (n - 1 - i))
    rw [h i hi, hv i hi]
    ring
  exact VlasovShard.flip_sum this

theorem flip_colT {n : ℕ} {v : ℕ → ℝ} {dv : ℝ} (hv : SymGrid n v) {a b : ℕ → ℝ} (h : Flip n a b) : colT n v dv b = colT n v dv a := by
  unfold colT
  rw [flip_colN h, flip_colV hv h]
  congr 3
  have : Flip n (fun i => a i * (v i - colV n v dv a) ^ 2) (fun i => b i * (v i - -colV n v dv a) ^ 2) := by
    intro i hi
    show b i * (v i - -colV n v dv a) ^ 2 = a (n - 1 - i) * (v (n - 1 - i) - colV n v dv a) ^ 2
    rw [h i hi, hv i hi]
    ring
  exact VlasovShard.flip_sum this

theorem flip_col {solve : Solve} (hs : EvenSolve solve) {n : ℕ} {v : ℕ → ℝ} {dv nu dt : ℝ} (hv : SymGrid n v) {a b : ℕ → ℝ} (h : Flip n a b) :
    Flip n (doughertyCol solve n v dv nu dt a) (doughertyCol solve n v dv nu dt b) := by
  unfold doughertyCol
  refine hs n _ _ a b ?_ h
  rw [colOp_central, colOp_central, flip_colT hv h]
  refine VlasovShard.flip_central fun e he => ?_
  show 0.5 * (v (e + 1) + v e) - colV n v dv b = -(0.5 * (v (n - 2 - e + 1) + v (n - 2 - e)) - colV n v dv a)
  have h1 := hv (e + 1) he
  have h2 := hv e (by omega)
  rw [show n - 1 - (e + 1) = n - 2 - e by omega] at h1
  rw [show n - 1 - e = n - 2 - e + 1 by omega] at h2
  rw [flip_colV hv h, h1, h2]
  ring

theorem mirY_doughertyX (solve : Solve) (nu : Scal nx ny) (dt : ℝ) (s : Sp nx ny) :
    doughertyX solve (mirY nu) dt (mirYSp s) = mirYSp (doughertyX solve nu dt s) := rfl

theorem mirY_doughertyY {solve : Solve} (hs : EvenSolve solve) (nu : Scal nx ny) (dt : ℝ) (s : Sp nx ny) (h : s.SymY) :
    doughertyY solve (mirY nu) dt (mirYSp s) = mirYSp (doughertyY solve nu dt s) := by
  refine congrArg (fun g => ({ s with f := g } : Sp nx ny)) ?_
  refine funext fun x => funext fun y => funext fun (i : ZMod s.nvx) => funext fun (j : ZMod s.nvy) => ?_
  have e := flip_col hs (n := s.nvy) (dv := s.dvy) (nu := nu x (-y)) (dt := dt) (flat_grid h) (flat_flip fun j' => s.f x (-y) i j') j.val (ZMod.val_lt j)
  rw [← val_mirror] at e
  exact e

theorem mirY_density (s : Sp nx ny) (x : ZMod nx) (y : ZMod ny) : (mirYSp s).density x y = s.density x (-y) := by
  refine congrArg (· * (s.dvx * s.dvy)) ?_
  exact sum_congr rfl fun i _ => Equiv.sum_comp (Equiv.subLeft (-1 : ZMod s.nvy)) fun j => s.f x (-y) i j

theorem mirY_jx (s : Sp nx ny) : (mirYSp s).jx = mirY s.jx := by
  funext x y
  refine congrArg (fun a => s.charge * a * (s.dvx * s.dvy)) ?_
  exact sum_congr rfl fun i _ => Equiv.sum_comp (Equiv.subLeft (-1 : ZMod s.nvy)) fun j => s.vx i * s.f x (-y) i j

theorem mirY_jy (s : Sp nx ny) (h : s.SymY) : (mirYSp s).jy = antiY s.jy := by
  funext x y
  have e : (∑ i, ∑ j, s.vy j * s.f x (-y) i (-1 - j)) = -∑ i, ∑ j, s.vy j * s.f x (-y) i j := by
    rw [← Finset.sum_neg_distrib]
    refine sum_congr rfl fun i _ => ?_
    rw [← Finset.sum_neg_distrib, ← Equiv.sum_comp (Equiv.subLeft (-1 : ZMod s.nvy)) fun j => -(s.vy j * s.f x (-y) i j)]
    refine sum_congr rfl fun j _ => ?_
    rw [Equiv.subLeft_apply, h j]
    ring
  show s.charge * (∑ i, ∑ j, s.vy j * s.f x (-y) i (-1 - j)) * (s.dvx * s.dvy) = -(s.charge * (∑ i, ∑ j, s.vy j * s.f x (-y) i j) * (s.dvx * s.dvy))
  rw [e]
  ring

theorem maxwellian_even {n : ℕ} [NeZero n] {v : ZMod n → ℝ} (h : ∀ j, v (-1 - j) = -v j) (dv : ℝ) (j : ZMod n) :
    unitMaxwellian v dv (-1 - j) = unitMaxwellian v dv j := by
  unfold unitMaxwellian
  rw [h j, neg_sq]

theorem mirY_krook (nu : Scal nx ny) (dt : ℝ) (s : Sp nx ny) (h : s.SymY) : krook (mirY nu) dt (mirYSp s) = mirYSp (krook nu dt s) := by
  refine congrArg (fun g => ({ s with f := g } : Sp nx ny)) ?_
  refine funext fun x => funext fun y => funext fun (i : ZMod s.nvx) => funext fun (j : ZMod s.nvy) => ?_
  show s.f x (-y) i (-1 - j) * Real.exp (-(nu x (-y) * dt)) + (mirYSp s).density x y * (unitMaxwellian s.vx s.dvx i * unitMaxwellian s.vy s.dvy j) * (1 - Real.exp (-(nu x (-y) * dt))) =
    s.f x (-y) i (-1 - j) * Real.exp (-(nu x (-y) * dt)) + s.density x (-y) * (unitMaxwellian s.vx s.dvx i * unitMaxwellian s.vy s.dvy (-1 - j)) * (1 - Real.exp (-(nu x (-y) * dt)))
  rw [mirY_density, maxwellian_even h]

theorem real_mirror {N : ℕ} [NeZero N] (m : ℕ → ℝ) (a : ZMod N → ℝ) (x : ZMod N) :
    filterRow (fun k => (m k : ℂ)) (mirrorP a) x = filterRow (fun k => (m k : ℂ)) a (-x) := by
  rw [VlasovShard.filterRow_mirror]
  congr 2
  funext k
  exact conj_ofReal _

theorem covariant_mirY (p : Setup nx ny) (hi : EvenInterp p.ip) (hs : EvenSolve p.solve) : Covariant p mirYSp mirY mirY antiY antiY Sp.SymY where
  grid _ _ h hs := symY_grid h hs
  kinetic ex ey bz s h := mirY_kinetic p.kind hi _ _ _ ex ey bz s h
  jx s _ := mirY_jx s
  jy s h := mirY_jy s h
  addX _ _ := rfl
  addY a b := by
    funext x y
    unfold antiY
    ring
  zeroX := rfl
  zeroY := by
    funext x y
    exact neg_zero
  maxwell jx jy a := by
    have hB : ∀ a : Fields nx ny, bHalf p.dx p.dy p.dt ⟨mirY a.ex, antiY a.ey, antiY a.bz⟩ =
        ⟨mirY (bHalf p.dx p.dy p.dt a).ex, antiY (bHalf p.dx p.dy p.dt a).ey, antiY (bHalf p.dx p.dy p.dt a).bz⟩ := by
      intro a
      unfold bHalf
      dsimp only
      rw [ddx_antiY, ddy_mirY]
      congr 1
      funext x y
      unfold antiY
      ring
    have hE : ∀ a : Fields nx ny, eFull p.dx p.dy p.c2 p.dt (mirY jx) (antiY jy) ⟨mirY a.ex, antiY a.ey, antiY a.bz⟩ =
        ⟨mirY (eFull p.dx p.dy p.c2 p.dt jx jy a).ex, antiY (eFull p.dx p.dy p.c2 p.dt jx jy a).ey, antiY (eFull p.dx p.dy p.c2 p.dt jx jy a).bz⟩ := by
      intro a
      unfold eFull
      dsimp only
      rw [ddx_antiY, ddy_antiY]
      congr 1
      funext x y
      unfold antiY
      ring
    unfold Vlasov2d.maxwell
    rw [hB, hE, hB]
  collide nuFP nuK s h := by
    have d : ∀ nu, dougherty p.solve (mirY nu) p.dt (mirYSp s) = mirYSp (dougherty p.solve nu p.dt s) := by
      intro nu
      unfold dougherty
      have h1 : (doughertyX p.solve nu p.dt s).SymY := symY_grid ⟨_, rfl⟩ h
      rw [mirY_doughertyX, mirY_doughertyY hs _ _ _ h1]
    have hd : ∀ nu, (dougherty p.solve nu p.dt s).SymY := fun nu => symY_grid ⟨_, rfl⟩ h
    cases nuFP with
    | none =>
      cases nuK with
      | none => rfl
      | some nk => exact mirY_krook nk p.dt s h
    | some nf =>
      cases nuK with
      | none => exact d nf
      | some nk =>
        show krook (mirY nk) p.dt (dougherty p.solve (mirY nf) p.dt (mirYSp s)) = mirYSp (krook nk p.dt (dougherty p.solve nf p.dt s))
        rw [d, mirY_krook nk p.dt _ (hd nf)]
  filter f s _ := filter_cov (T := mirYSp) f (fun _ => rfl) (fun s => congrArg (fun g => ({ s with f := g } : Sp nx ny)) (by
      refine funext fun x => funext fun y => funext fun (i : ZMod s.nvx) => funext fun (j : ZMod s.nvy) => ?_
      exact real_mirror (houLi ny f.alpha f.order) (fun y' => s.f x y' i (-1 - j)) y)) s

/-- **C228.** The run of the mirror image is the mirror image of the run. -/
theorem run_reflection {p q : Setup nx ny} (hi : EvenInterp p.ip) (hs : EvenSolve p.solve) (h : MirroredSetup p q) (t0 : ℝ) {y : State nx ny}
    (hy : ∀ s ∈ y.species, s.SymY) (n : ℕ) : run q t0 (mirYState y) n = mirYState (run p t0 y n) :=
  (run_cov (covariant_mirY p hi hs) h.same h.jx h.jy h.nuFP h.nuK t0 hy n).1

/-- **C228.** A mirror-symmetric plasma stays so. -/
theorem run_symmetric {p : Setup nx ny} (hi : EvenInterp p.ip) (hs : EvenSolve p.solve) (h : MirroredSetup p p) (t0 : ℝ) {y : State nx ny}
    (hy : ∀ s ∈ y.species, s.SymY) (he : mirYState y = y) (n : ℕ) : mirYState (run p t0 y n) = run p t0 y n := by
  rw [← run_reflection hi hs h t0 hy, he]

/-! ### What a kept symmetry means -/

omit [NeZero nx] [NeZero ny] in
theorem map_fixed {T : Sp nx ny → Sp nx ny} (l : List (Sp nx ny)) : l.map T = l ↔ ∀ s ∈ l, T s = s := by
  induction l with
  | nil => simp
  | cons s l ih => simp [ih]

omit [NeZero nx] [NeZero ny] in
/-- Period: every field and distribution repeats. -/
theorem periodic_iff (cx : ZMod nx) (cy : ZMod ny) (st : State nx ny) : moveState cx cy st = st ↔
    (∀ x y, st.em.ex (x - cx) (y - cy) = st.em.ex x y ∧ st.em.ey (x - cx) (y - cy) = st.em.ey x y ∧ st.em.bz (x - cx) (y - cy) = st.em.bz x y ∧
      st.jxDriver (x - cx) (y - cy) = st.jxDriver x y ∧ st.jyDriver (x - cx) (y - cy) = st.jyDriver x y) ∧
    ∀ s ∈ st.species, ∀ x y i j, s.f (x - cx) (y - cy) i j = s.f x y i j := by
  obtain ⟨ss, ⟨ex, ey, bz⟩, a, b⟩ := st
  have hmap : ss.map (moveSp cx cy) = ss ↔ ∀ s ∈ ss, ∀ x y i j, s.f (x - cx) (y - cy) i j = s.f x y i j := by
    rw [map_fixed]
    refine forall₂_congr fun s _ => ?_
    obtain ⟨nvx, nvy, px, py, q, m, dvx, dvy, vx, vy, f⟩ := s
    simp only [moveSp, Sp.mk.injEq, true_and, heq_eq_eq, funext_iff]
  simp only [moveState, State.mk.injEq, Fields.mk.injEq, hmap, funext_iff, moveA]
  constructor
  · rintro ⟨h, ⟨h1, h2, h3⟩, h4, h5⟩
    exact ⟨fun x y => ⟨h1 x y, h2 x y, h3 x y, h4 x y, h5 x y⟩, h⟩
  · rintro ⟨h, hs⟩
    exact ⟨hs, ⟨fun x y => (h x y).1, fun x y => (h x y).2.1, fun x y => (h x y).2.2.1⟩, fun x y => (h x y).2.2.2.1, fun x y => (h x y).2.2.2.2⟩

omit [NeZero nx] [NeZero ny] in
/-- Mirror symmetry: `ex` and the distributions are even, `ey` and `bz` odd. -/
theorem mirror_iff (st : State nx ny) : mirYState st = st ↔
    (∀ x y, st.em.ex x (-y) = st.em.ex x y ∧ st.em.ey x (-y) = -st.em.ey x y ∧ st.em.bz x (-y) = -st.em.bz x y ∧
      st.jxDriver x (-y) = st.jxDriver x y ∧ st.jyDriver x (-y) = -st.jyDriver x y) ∧
    ∀ s ∈ st.species, ∀ x y i j, s.f x (-y) i (-1 - j) = s.f x y i j := by
  obtain ⟨ss, ⟨ex, ey, bz⟩, a, b⟩ := st
  have hmap : ss.map mirYSp = ss ↔ ∀ s ∈ ss, ∀ x y i j, s.f x (-y) i (-1 - j) = s.f x y i j := by
    rw [map_fixed]
    refine forall₂_congr fun s _ => ?_
    obtain ⟨nvx, nvy, px, py, q, m, dvx, dvy, vx, vy, f⟩ := s
    simp only [mirYSp, Sp.mk.injEq, true_and, heq_eq_eq, funext_iff]
  simp only [mirYState, State.mk.injEq, Fields.mk.injEq, hmap, funext_iff, mirY, antiY, neg_eq_iff_eq_neg]
  constructor
  · rintro ⟨h, ⟨h1, h2, h3⟩, h4, h5⟩
    exact ⟨fun x y => ⟨h1 x y, h2 x y, h3 x y, h4 x y, h5 x y⟩, h⟩
  · rintro ⟨h, hs⟩
    exact ⟨hs, ⟨fun x y => (h x y).1, fun x y => (h x y).2.1, fun x y => (h x y).2.2.1⟩, fun x y => (h x y).2.2.2.1, fun x y => (h x y).2.2.2.2⟩

theorem all_shifts {N : ℕ} [NeZero N] {α : Type} {a : ZMod N → α} (h : ∀ y, a (y - 1) = a y) (y : ZMod N) : a y = a 0 := by
  have : ∀ n : ℕ, a (n : ZMod N) = a 0 := by
    intro n
    induction n with
    | zero => simp
    | succ n ih =>
      rw [← h, ← ih]
      congr 1
      push_cast
      ring
  rw [← ZMod.natCast_zmod_val y]
  exact this _

/-! ### One-dimensional problems -/

/-- Nothing in the setup depends on `y` and no current is driven along `y`. -/
structure Planar (p : Setup nx ny) : Prop where
  ey : p.eyDrivers = []
  k : ∀ d ∈ p.exDrivers, d.k0y = 0
  env : ∀ d ∈ p.exDrivers, ∀ x y y' t, d.env x y t = d.env x y' t
  nuFP : ∀ g, p.nuFP = some g → ∀ t x y y', g t x y = g t x y'
  nuK : ∀ g, p.nuK = some g → ∀ t x y y', g t x y = g t x y'

/-- A state that depends on `x` only, with distributions even in `vy`, without transverse fields. -/
structure Longitudinal (st : State nx ny) : Prop where
  ex : ∀ x y y', st.em.ex x y = st.em.ex x y'
  ey : ∀ x y, st.em.ey x y = 0
  bz : ∀ x y, st.em.bz x y = 0
  jx : ∀ x y y', st.jxDriver x y = st.jxDriver x y'
  jy : ∀ x y, st.jyDriver x y = 0
  uniform : ∀ s ∈ st.species, ∀ x y y' i j, s.f x y i j = s.f x y' i j
  even : ∀ s ∈ st.species, ∀ x y i j, s.f x y i (-1 - j) = s.f x y i j

theorem driver_planar {p : Setup nx ny} (h : Planar p) (t : ℝ) (x : ZMod nx) (y y' : ZMod ny) :
    driverJ p.xs p.ys p.exDrivers t x y = driverJ p.xs p.ys p.exDrivers t x y' := by
  have hk := h.k
  have he := h.env
  unfold driverJ
  generalize p.exDrivers = ds at hk he
  generalize (0 : ℝ) = z
  induction ds generalizing z with
  | nil => rfl
  | cons d ds ih =>
    rw [List.foldl_cons, List.foldl_cons, hk d List.mem_cons_self, he d List.mem_cons_self x y y' t]
    rw [zero_mul, zero_mul]
    exact ih (fun d m => hk d (List.mem_cons_of_mem _ m)) (fun d m => he d (List.mem_cons_of_mem _ m)) _

theorem planar_setups {p : Setup nx ny} (h : Planar p) : MovedSetup (0 : ZMod nx) (1 : ZMod ny) p p ∧ MirroredSetup p p := by
  have hjy : ∀ t, driverJ p.xs p.ys p.eyDrivers t = fun _ _ => 0 := fun t => by rw [h.ey]; rfl
  have opt : ∀ (o : Option (ℝ → Scal nx ny)), (∀ g, o = some g → ∀ t x y y', g t x y = g t x y') →
      o = o.map (fun g t => moveA (0 : ZMod nx) (1 : ZMod ny) (g t)) ∧ o = o.map fun g t => mirY (g t) := by
    intro o ho
    cases o with
    | none => exact ⟨rfl, rfl⟩
    | some g =>
      refine ⟨congrArg some (funext fun t => funext fun x => funext fun y => ?_), congrArg some (funext fun t => funext fun x => funext fun y => ?_)⟩
      · show g t x y = g t (x - 0) (y - 1)
        rw [sub_zero]
        exact ho g rfl t x _ _
      · exact ho g rfl t x _ _
  refine ⟨⟨rfl, fun t => ?_, fun t => ?_, (opt _ h.nuFP).1, (opt _ h.nuK).1⟩, ⟨rfl, fun t => ?_, fun t => ?_, (opt _ h.nuFP).2, (opt _ h.nuK).2⟩⟩
  · funext x y
    show _ = driverJ p.xs p.ys p.exDrivers t (x - 0) (y - 1)
    rw [sub_zero]
    exact driver_planar h t x _ _
  · rw [hjy]
    rfl
  · funext x y
    exact driver_planar h t x _ _
  · rw [hjy]
    funext x y
    exact neg_zero.symm

theorem longitudinal_iff (st : State nx ny) : Longitudinal st ↔ moveState (0 : ZMod nx) (1 : ZMod ny) st = st ∧ mirYState st = st := by
  rw [periodic_iff, mirror_iff]
  constructor
  · intro h
    refine ⟨⟨fun x y => ?_, fun s m x y i j => ?_⟩, fun x y => ?_, fun s m x y i j => ?_⟩
    · rw [sub_zero]
      exact ⟨h.ex x _ _, by rw [h.ey, h.ey], by rw [h.bz, h.bz], h.jx x _ _, by rw [h.jy, h.jy]⟩
    · rw [sub_zero]
      exact h.uniform s m x _ _ i j
    · exact ⟨h.ex x _ _, by rw [h.ey, h.ey, neg_zero], by rw [h.bz, h.bz, neg_zero], h.jx x _ _, by rw [h.jy, h.jy, neg_zero]⟩
    · rw [h.even s m]
      exact h.uniform s m x _ _ i j
  · rintro ⟨⟨h1, h2⟩, h3, h4⟩
    simp only [sub_zero] at h1 h2
    have odd : ∀ a : Scal nx ny, (∀ x y, a x (y - 1) = a x y) → (∀ x y, a x (-y) = -a x y) → ∀ x y, a x y = 0 := by
      intro a u v x y
      have e0 := v x 0
      rw [neg_zero] at e0
      rw [all_shifts (u x) y]
      linarith
    have same : ∀ a : Scal nx ny, (∀ x y, a x (y - 1) = a x y) → ∀ x y y', a x y = a x y' := fun a u x y y' => by
      rw [all_shifts (u x) y, all_shifts (u x) y']
    have hu : ∀ s ∈ st.species, ∀ x y y' i j, s.f x y i j = s.f x y' i j := fun s m x y y' i j => by
      have u : ∀ y, s.f x (y - 1) i j = s.f x y i j := fun y => h2 s m x y i j
      rw [all_shifts (a := fun y => s.f x y i j) u y, all_shifts (a := fun y => s.f x y i j) u y']
    exact ⟨same _ fun x y => (h1 x y).1, odd _ (fun x y => (h1 x y).2.1) fun x y => (h3 x y).2.1,
      odd _ (fun x y => (h1 x y).2.2.1) fun x y => (h3 x y).2.2.1, same _ fun x y => (h1 x y).2.2.2.1,
      odd _ (fun x y => (h1 x y).2.2.2.2) fun x y => (h3 x y).2.2.2.2, hu, fun s m x y i j => by
        rw [hu s m x y (- -y) i (-1 - j), h4 s m x (-y) i j]
        exact hu s m x _ _ i j⟩

/-- **C228.** A one-dimensional problem stays one-dimensional: if nothing depends on `y`, the
distributions are even in `vy` and there is no transverse field, then after any number of steps
nothing depends on `y`, and neither `ey` nor `bz` has appeared. -/
theorem run_planar {p : Setup nx ny} (hi : EvenInterp p.ip) (hs : EvenSolve p.solve) (hp : Planar p) (t0 : ℝ) {st : State nx ny}
    (hy : ∀ s ∈ st.species, s.SymY) (h : Longitudinal st) (n : ℕ) : Longitudinal (run p t0 st n) := by
  obtain ⟨h1, h2⟩ := (longitudinal_iff st).1 h
  obtain ⟨s1, s2⟩ := planar_setups hp
  exact (longitudinal_iff _).2 ⟨run_period s1 t0 h1 n, run_symmetric hi hs s2 t0 hy h2 n⟩

/-- **C228.** Without the mirror symmetry, uniformity along `y` is kept by itself: the magnetic field
and the current along `y` may appear but depend on `x` only. -/
theorem run_uniform {p : Setup nx ny} (h : MovedSetup (0 : ZMod nx) (1 : ZMod ny) p p) (t0 : ℝ) {st : State nx ny}
    (hu : moveState (0 : ZMod nx) (1 : ZMod ny) st = st) (n : ℕ) :
    (∀ x y y', (run p t0 st n).em.ex x y = (run p t0 st n).em.ex x y' ∧ (run p t0 st n).em.ey x y = (run p t0 st n).em.ey x y' ∧
      (run p t0 st n).em.bz x y = (run p t0 st n).em.bz x y') ∧ ∀ s ∈ (run p t0 st n).species, ∀ x y y' i j, s.f x y i j = s.f x y' i j := by
  have k := run_period h t0 hu n
  obtain ⟨h1, h2⟩ := (periodic_iff _ _ _).1 k
  simp only [sub_zero] at h1 h2
  have same : ∀ a : Scal nx ny, (∀ x y, a x (y - 1) = a x y) → ∀ x y y', a x y = a x y' := fun a u x y y' => by
    rw [all_shifts (u x) y, all_shifts (u x) y']
  refine ⟨fun x y y' => ⟨same _ (fun x y => (h1 x y).1) x y y', same _ (fun x y => (h1 x y).2.1) x y y', same _ (fun x y => (h1 x y).2.2.1) x y y'⟩,
    fun s m x y y' i j => ?_⟩
  have u : ∀ y, s.f x (y - 1) i j = s.f x y i j := fun y => h2 s m x y i j
  rw [all_shifts (a := fun y => s.f x y i j) u y, all_shifts (a := fun y => s.f x y i j) u y']

/-! ### Non-vacuity -/

/-- Interpolation without preferred direction exists. -/
theorem even_interp_exists : ∃ ip : Interp, EvenInterp ip ∧ Nodal ip := by
  classical
  refine ⟨fun nvx nvy vx vy g a b => if h : (∃! i, vx i = a) ∧ ∃! j, vy j = b then g h.1.choose h.2.choose else 0, ?_, ?_⟩
  · intro nvx nvy vx vy g a b hv
    have flip : ∀ b, (∃! j, vy j = b) → ∃! j, vy j = -b := by
      rintro b ⟨j, h1, h2⟩
      refine ⟨-1 - j, ?_, fun k hk => ?_⟩
      · dsimp only at h1 ⊢
        rw [hv, h1]
      · have := h2 (-1 - k) (by dsimp only at hk ⊢; rw [hv, hk, neg_neg])
        rw [← this]
        ring
    by_cases h : (∃! i, vx i = a) ∧ ∃! j, vy j = b
    · have h' : (∃! i, vx i = a) ∧ ∃! j, vy j = -b := ⟨h.1, flip b h.2⟩
      dsimp only
      rw [dif_pos h, dif_pos h']
      congr 1
      have e := h'.2.choose_spec.2 (-1 - h.2.choose) (by dsimp only; rw [hv, h.2.choose_spec.1])
      exact e
    · have h' : ¬ ((∃! i, vx i = a) ∧ ∃! j, vy j = -b) := fun k => h ⟨k.1, by simpa using flip _ k.2⟩
      dsimp only
      rw [dif_neg h, dif_neg h']
  · intro nvx nvy vx vy g i j hx hy
    have h : (∃! i', vx i' = vx i) ∧ ∃! j', vy j' = vy j := ⟨⟨i, rfl, fun k hk => hx hk⟩, ⟨j, rfl, fun k hk => hy hk⟩⟩
    dsimp only
    rw [dif_pos h, ← h.1.choose_spec.2 i rfl, ← h.2.choose_spec.2 j rfl]

/-- A solver without preferred direction that solves every regular system exists. -/
theorem even_solve_exists : ∃ solve : Solve, EvenSolve solve ∧ ∀ (n : ℕ) (A : FP.Tri) (a : ℕ → ℝ),
    (∃ g : ℕ → ℝ, (∀ i < n, A.mv n g i = a i) ∧ ∀ g' : ℕ → ℝ, (∀ i < n, A.mv n g' i = a i) → ∀ i < n, g' i = g i) →
      ∀ i < n, A.mv n (solve n A a) i = a i := by
  classical
  refine ⟨fun n A a => if h : ∃ g : ℕ → ℝ, (∀ i < n, A.mv n g i = a i) ∧ ∀ g' : ℕ → ℝ, (∀ i < n, A.mv n g' i = a i) → ∀ i < n, g' i = g i
    then h.choose else fun _ => 0, ?_, ?_⟩
  · have back : ∀ {n : ℕ} {A B : FP.Tri}, VlasovShard.FlipTri n A B → VlasovShard.FlipTri n B A := fun {n A B} h =>
      ⟨fun i hi => by rw [h.diag _ (by omega)]; congr 1; omega, fun e he => by rw [h.lower _ (by omega)]; congr 1; omega,
        fun e he => by rw [h.upper _ (by omega)]; congr 1; omega⟩
    have sol : ∀ {n : ℕ} {A B : FP.Tri} {a b g : ℕ → ℝ}, VlasovShard.FlipTri n A B → Flip n a b → (∀ i < n, A.mv n g i = a i) →
        ∀ i < n, B.mv n (fun i => g (n - 1 - i)) i = b i := by
      intro n A B a b g h1 h2 h3 i hi
      rw [VlasovShard.flip_mv h1 (a := g) (fun i _ => rfl) hi, h3 _ (by omega), h2 i hi]
    have fb : ∀ {n : ℕ} {a b : ℕ → ℝ}, Flip n a b → Flip n b a := fun {n a b} h i hi => by rw [h _ (by omega)]; congr 1; omega
    have tr : ∀ {n : ℕ} {A B : FP.Tri} {a b : ℕ → ℝ}, VlasovShard.FlipTri n A B → Flip n a b →
        (∃ g : ℕ → ℝ, (∀ i < n, A.mv n g i = a i) ∧ ∀ g' : ℕ → ℝ, (∀ i < n, A.mv n g' i = a i) → ∀ i < n, g' i = g i) →
        ∃ g : ℕ → ℝ, (∀ i < n, B.mv n g i = b i) ∧ ∀ g' : ℕ → ℝ, (∀ i < n, B.mv n g' i = b i) → ∀ i < n, g' i = g i := by
      rintro n A B a b h1 h2 ⟨g, h3, h4⟩
      refine ⟨fun i => g (n - 1 - i), sol h1 h2 h3, fun g' h5 i hi => ?_⟩
      have := h4 _ (sol (back h1) (fb h2) h5) (n - 1 - i) (by omega)
      dsimp only at this ⊢
      rw [← this]
      congr 1
      omega
    intro n A B a b h1 h2 i hi
    by_cases hA : ∃ g : ℕ → ℝ, (∀ i < n, A.mv n g i = a i) ∧ ∀ g' : ℕ → ℝ, (∀ i < n, A.mv n g' i = a i) → ∀ i < n, g' i = g i
    · have hB := tr h1 h2 hA
      dsimp only
      rw [dif_pos hA, dif_pos hB]
      exact (hB.choose_spec.2 _ (sol h1 h2 hA.choose_spec.1) i hi).symm
    · have hB : ¬ ∃ g : ℕ → ℝ, (∀ i < n, B.mv n g i = b i) ∧ ∀ g' : ℕ → ℝ, (∀ i < n, B.mv n g' i = b i) → ∀ i < n, g' i = g i :=
        fun h => hA (tr (back h1) (fb h2) h)
      dsimp only
      rw [dif_neg hA, dif_neg hB]
  · intro n A a h i hi
    dsimp only
    rw [dif_pos h]
    exact h.choose_spec.1 i hi

/-- A plasma wave in `x` on eight by four cells, Maxwellian in both velocities, is longitudinal and its
setup planar. -/
example (ip : Interp) (solve : Solve) : Planar (plain 8 4 ip solve 1 1 (1 / 10) 100) ∧
    Longitudinal (⟨[initialised 4 4 (-1) 1 6 [⟨fun x _ => 1 + Real.cos (2 * Real.pi * x.val / 8) / 10, 0, 0, 1, 2⟩]],
      ⟨fun x _ => Real.sin (2 * Real.pi * x.val / 8), fun _ _ => 0, fun _ _ => 0⟩, fun _ _ => 0, fun _ _ => 0⟩ : State 8 4) := by
  have even : ∀ j : ZMod 4, normalised 6 (fun j => superGaussian 0 1 2 (axis 6 4 j)) (-1 - j) = normalised 6 (fun j => superGaussian 0 1 2 (axis 6 4 j)) j := by
    intro j
    unfold normalised
    congr 1
    dsimp only
    rw [axis_mirror]
    unfold superGaussian
    rw [sub_zero, sub_zero, neg_div, abs_neg]
  refine ⟨⟨rfl, fun _ h => absurd h (by simp [plain]), fun _ h => absurd h (by simp [plain]), fun _ h => absurd h (by simp [plain]), fun _ h => absurd h (by simp [plain])⟩, ?_⟩
  refine ⟨fun _ _ _ => rfl, fun _ _ => rfl, fun _ _ => rfl, fun _ _ _ => rfl, fun _ _ => rfl, fun s m => ?_, fun s m => ?_⟩
  · rw [List.mem_singleton.1 m]
    exact fun _ _ _ _ _ => rfl
  · rw [List.mem_singleton.1 m]
    intro x y i j
    show initialF _ _ _ _ _ _ = initialF _ _ _ _ _ _
    unfold initialF
    simp only [List.map_cons, List.map_nil, List.sum_cons, List.sum_nil, add_zero, Component.f]
    exact congrArg₂ _ rfl (congrArg₂ _ rfl (even j))

end Verif.Vlasov2d

import Verif.Props.VlasovShard
import Verif.Props.TwoFluidLinear
import Verif.Props.Integrator
import Mathlib.Algebra.BigOperators.Group.List.Basic
import Mathlib.Algebra.BigOperators.Group.List.Lemmas

/-!
What a collisionless Vlasov-1D run depends on (C230): a plasma written as more or fewer species, in
another order, with neutral or empty species, or in other units of charge and mass.
-/
namespace Verif.VlasovParts
open Verif.Spectral Verif.VlasovShard Finset

variable {nx : ℕ}

/-- One step without collisions: integrator, then the Hou-Li filter if it is on
(vector_field.py:232-241). -/
noncomputable def step [NeZero nx] (time : TimeKind) (dx dt : ℝ) (field : FieldKind nx) (h : Option (ℝ × ℕ))
    (d : (ℕ → ℝ) × (ℕ → ZMod nx → ℝ)) (y : (ZMod nx → ℝ) × List (Species nx)) : (ZMod nx → ℝ) × List (Species nx) :=
  let z := vlasovStep time dx dt field d.1 d.2 y
  (z.1, filtered h z.2)

/-- Any number of such steps; every entry of the list is what one step sees from outside
(vector_field.py:308-365). -/
noncomputable def run [NeZero nx] (time : TimeKind) (dx dt : ℝ) (field : FieldKind nx) (h : Option (ℝ × ℕ))
    (ds : List ((ℕ → ℝ) × (ℕ → ZMod nx → ℝ))) (y : (ZMod nx → ℝ) × List (Species nx)) :
    (ZMod nx → ℝ) × List (Species nx) :=
  ds.foldl (fun y d => step time dx dt field h d y) y

/-- Without the filter this is the run of the other theorems. -/
theorem run_plain [NeZero nx] (time : TimeKind) (dx dt : ℝ) (field : FieldKind nx) (ds : List ((ℕ → ℝ) × (ℕ → ZMod nx → ℝ)))
    (y : (ZMod nx → ℝ) × List (Species nx)) : run time dx dt field none ds y = vlasovRun time dx dt field y ds := rfl

/-! ### What has to be kept for two ways to write a plasma to stay the same -/

/-- The solvers that see the plasma through its charge and current alone. -/
def Local (field : FieldKind nx) : Prop := match field with
  | .hampere => False
  | _ => True

/-- The Hou-Li filter of one species. -/
noncomputable def smooth [NeZero nx] (h : ℝ × ℕ) (s : Species nx) : Species nx :=
  ⟨s.nv, s.pos, s.charge, s.mass, s.dv, s.v, houLiFilter h.1 h.2 s.f⟩

/-- A relation between two plasmas that fixes charge and current and that no operation breaks. -/
structure Kept [NeZero nx] (R : List (Species nx) → List (Species nx) → Prop) : Prop where
  charge : ∀ ss tt, R ss tt → ∀ x, (ss.map fun s => s.charge * s.density x).sum = (tt.map fun s => s.charge * s.density x).sum
  current : ∀ ss tt, R ss tt → ∀ x, currentDensity ss x = currentDensity tt x
  kick : ∀ e pond c ss tt, R ss tt → R (ss.map (pushV e pond c)) (tt.map (pushV e pond c))
  drift : ∀ dx c ss tt, R ss tt → R (ss.map (pushX dx c)) (tt.map (pushX dx c))
  smooth : ∀ h ss tt, R ss tt → R (ss.map (smooth h)) (tt.map (smooth h))

theorem field_same [NeZero nx] {R : List (Species nx) → List (Species nx) → Prop} (K : Kept R) (dx : ℝ) {field : FieldKind nx}
    (hl : Local field) {ss tt : List (Species nx)} (h : R ss tt) (prev : ZMod nx → ℝ) (dt : ℝ) :
    solveField dx field ss prev dt = solveField dx field tt prev dt := by
  have hc : ∀ st, chargeDensity ss st = chargeDensity tt st := fun st => by
    funext x; unfold chargeDensity; rw [K.charge ss tt h x]
  have hj : currentDensity ss = currentDensity tt := funext fun x => K.current ss tt h x
  cases field with
  | poisson st => simp only [solveField, hc]
  | boltzmann Te l => simp only [solveField, hc]
  | ampere => simp only [solveField, hj]
  | hampere => exact hl.elim

theorem kick_keeps [NeZero nx] {R : List (Species nx) → List (Species nx) → Prop} (K : Kept R) (dx : ℝ) {field : FieldKind nx}
    (hl : Local field) (pond drv : ZMod nx → ℝ) (c : ℝ) {ss tt : List (Species nx)} (h : R ss tt) :
    R (kick dx field pond drv c ss) (kick dx field pond drv c tt) := by
  unfold kick
  rw [field_same K dx hl h]
  exact K.kick _ _ _ _ _ h

theorem step_keeps [NeZero nx] {R : List (Species nx) → List (Species nx) → Prop} (K : Kept R) (time : TimeKind) (dx dt : ℝ)
    {field : FieldKind nx} (hl : Local field) (f : Option (ℝ × ℕ)) (d : (ℕ → ℝ) × (ℕ → ZMod nx → ℝ)) (e : ZMod nx → ℝ)
    {ss tt : List (Species nx)} (h : R ss tt) :
    (step time dx dt field f d (e, ss)).1 = (step time dx dt field f d (e, tt)).1 ∧
      R (step time dx dt field f d (e, ss)).2 (step time dx dt field f d (e, tt)).2 := by
  have hf : ∀ {us vs}, R us vs → R (filtered f us) (filtered f vs) := by
    intro us vs huv
    cases f with
    | none => exact huv
    | some p => exact K.smooth p _ _ huv
  have hk : ∀ (pond drv : ZMod nx → ℝ) (c : ℝ) {us vs}, R us vs → R (kick dx field pond drv c us) (kick dx field pond drv c vs) :=
    fun pond drv c {us vs} huv => kick_keeps K dx hl pond drv c huv
  have hd := fun (c : ℝ) (us vs : List (Species nx)) (huv : R us vs) => K.drift dx c us vs huv
  cases time with
  | leapfrog =>
    have h1 := hd dt _ _ h
    have h2 : (leapfrog dx dt field d.1 d.2 e ss).1 = (leapfrog dx dt field d.1 d.2 e tt).1 := by
      cases field <;> first | exact hl.elim | exact field_same K dx hl h1 e dt
    refine ⟨h2, hf ?_⟩
    have h3 : ∀ us : List (Species nx), (leapfrog dx dt field d.1 d.2 e us).2 =
        (us.map (pushX dx dt)).map (pushV (fun x => (leapfrog dx dt field d.1 d.2 e us).1 x + d.2 0 x) (ponderomotive dx d.1) dt) :=
      fun us => rfl
    show R (leapfrog dx dt field d.1 d.2 e ss).2 (leapfrog dx dt field d.1 d.2 e tt).2
    rw [h3 ss, h3 tt, h2]
    exact K.kick _ _ _ _ _ h1
  | sixth =>
    have h9 := hd (a1 * dt) _ _ (hk (ponderomotive dx d.1) (d.2 4) (D2 dt * dt) (hd (a2 * dt) _ _
      (hk (ponderomotive dx d.1) (d.2 3) (D3 dt * dt) (hd (a3 * dt) _ _ (hk (ponderomotive dx d.1) (d.2 2) (D3 dt * dt)
      (hd (a2 * dt) _ _ (hk (ponderomotive dx d.1) (d.2 1) (D2 dt * dt) (hd (a1 * dt) _ _
      (hk (ponderomotive dx d.1) (d.2 0) (D1 dt * dt) h)))))))))
    exact ⟨field_same K dx hl h9 0 0, hf (hk _ _ _ h9)⟩

/-- Two plasmas so related stay so related, and have the same field, for ever. -/
theorem run_keeps [NeZero nx] {R : List (Species nx) → List (Species nx) → Prop} (K : Kept R) (time : TimeKind) (dx dt : ℝ)
    {field : FieldKind nx} (hl : Local field) (f : Option (ℝ × ℕ)) (ds : List ((ℕ → ℝ) × (ℕ → ZMod nx → ℝ))) (e : ZMod nx → ℝ)
    {ss tt : List (Species nx)} (h : R ss tt) :
    (run time dx dt field f ds (e, ss)).1 = (run time dx dt field f ds (e, tt)).1 ∧
      R (run time dx dt field f ds (e, ss)).2 (run time dx dt field f ds (e, tt)).2 := by
  induction ds generalizing e ss tt with
  | nil => exact ⟨rfl, h⟩
  | cons d ds ih =>
    obtain ⟨h1, h2⟩ := step_keeps K time dx dt hl f d e h
    have := ih (step time dx dt field f d (e, ss)).1 h2
    unfold run at this ⊢
    rw [List.foldl_cons, List.foldl_cons]
    refine ⟨?_, ?_⟩
    · rw [show step time dx dt field f d (e, tt) = ((step time dx dt field f d (e, ss)).1, (step time dx dt field f d (e, tt)).2) from
        Prod.ext h1.symm rfl]
      exact this.1
    · rw [show step time dx dt field f d (e, tt) = ((step time dx dt field f d (e, ss)).1, (step time dx dt field f d (e, tt)).2) from
        Prod.ext h1.symm rfl]
      exact this.2

/-! ### The order of the species -/

theorem perm_kept [NeZero nx] : Kept (nx := nx) List.Perm where
  charge _ _ h x := (h.map _).sum_eq
  current _ _ h x := (h.map _).sum_eq
  kick _ _ _ _ _ h := h.map _
  drift _ _ _ _ h := h.map _
  smooth _ _ _ h := h.map _

/-- The order in which the species are listed changes neither the field nor any species. -/
theorem order_irrelevant [NeZero nx] (time : TimeKind) (dx dt : ℝ) {field : FieldKind nx} (hl : Local field) (f : Option (ℝ × ℕ))
    (ds : List ((ℕ → ℝ) × (ℕ → ZMod nx → ℝ))) (e : ZMod nx → ℝ) {ss tt : List (Species nx)} (h : ss.Perm tt) :
    (run time dx dt field f ds (e, ss)).1 = (run time dx dt field f ds (e, tt)).1 ∧
      (run time dx dt field f ds (e, ss)).2.Perm (run time dx dt field f ds (e, tt)).2 :=
  run_keeps perm_kept time dx dt hl f ds e h

/-! ### A species written as several -/

/-- A species with the parameters of `k` and the distribution `g`. -/
def part (k : Species nx) (g : ZMod nx → ZMod k.nv → ℝ) : Species nx := ⟨k.nv, k.pos, k.charge, k.mass, k.dv, k.v, g⟩

/-- Distributions of particles of one kind; the distribution of `kind` itself is not used. -/
structure Population (nx : ℕ) where
  kind : Species nx
  parts : List (ZMod nx → ZMod kind.nv → ℝ)

/-- One species for every population. -/
def whole (ps : List (Population nx)) : List (Species nx) := ps.map fun p => part p.kind p.parts.sum

/-- One species for every part of every population. -/
def divided (ps : List (Population nx)) : List (Species nx) := ps.flatMap fun p => p.parts.map (part p.kind)

/-- The kinds and the numbers of parts. -/
def shape (ps : List (Population nx)) : List (Species nx × ℕ) := ps.map fun p => (p.kind, p.parts.length)

/-- `ss` is `tt` with the parts of every population of the given shape put together. -/
def Divides (sh : List (Species nx × ℕ)) (ss tt : List (Species nx)) : Prop :=
  ∃ ps : List (Population nx), shape ps = sh ∧ ss = whole ps ∧ tt = divided ps

/-- An operation on one species that is linear in the distribution. -/
def PartWise (op : Species nx → Species nx) : Prop :=
  ∃ L : ∀ k : Species nx, (ZMod nx → ZMod k.nv → ℝ) →+ (ZMod nx → ZMod k.nv → ℝ), ∀ k g, op (part k g) = part k (L k g)

theorem partWise_divides {op : Species nx → Species nx} (h : PartWise op) {sh : List (Species nx × ℕ)} {ss tt : List (Species nx)}
    (hd : Divides sh ss tt) : Divides sh (ss.map op) (tt.map op) := by
  obtain ⟨L, hL⟩ := h
  obtain ⟨ps, h1, rfl, rfl⟩ := hd
  refine ⟨ps.map fun p => ⟨p.kind, p.parts.map (L p.kind)⟩, ?_, ?_, ?_⟩
  · rw [← h1]
    unfold shape
    rw [List.map_map]
    exact List.map_congr_left fun p _ => by simp
  · unfold whole
    rw [List.map_map, List.map_map]
    refine List.map_congr_left fun p _ => ?_
    simp only [Function.comp]
    rw [hL, map_list_sum]
  · unfold divided
    rw [List.map_flatMap, List.flatMap_map]
    refine congrArg (fun g => List.flatMap g ps) (funext fun p => ?_)
    rw [List.map_map, List.map_map]
    exact List.map_congr_left fun g _ => hL p.kind g

theorem shift_add {N : ℕ} [NeZero N] (d s : ℝ) (a b : ZMod N → ℝ) (x : ZMod N) : shift d s (a + b) x = shift d s a x + shift d s b x :=
  TwoFluid.filterRow_add _ a b x

theorem shift_none {N : ℕ} [NeZero N] (m : ℕ → ℂ) (x : ZMod N) : filterRow m (0 : ZMod N → ℝ) x = 0 := by
  have := TwoFluid.filterRow_add m (0 : ZMod N → ℝ) 0 x
  have e : (fun j => (0 : ZMod N → ℝ) j + (0 : ZMod N → ℝ) j) = 0 := by funext j; simp
  rw [e] at this
  linarith

theorem pushV_partWise (e pond : ZMod nx → ℝ) (c : ℝ) : PartWise (pushV (nx := nx) e pond c) := by
  refine ⟨fun k => ⟨⟨edfdv k.dv k.charge k.mass e pond c, ?_⟩, ?_⟩, fun k g => rfl⟩
  · funext x j; exact shift_none _ _
  · intro a b; funext x j; exact shift_add _ _ _ _ _

theorem pushX_partWise [NeZero nx] (dx c : ℝ) : PartWise (pushX (nx := nx) dx c) := by
  refine ⟨fun k => ⟨⟨vdfdx dx k.v c, ?_⟩, ?_⟩, fun k g => rfl⟩
  · funext x j; exact shift_none _ _
  · intro a b; funext x j; exact shift_add _ _ _ _ _

theorem smooth_partWise [NeZero nx] (h : ℝ × ℕ) : PartWise (smooth (nx := nx) h) := by
  refine ⟨fun k => ⟨⟨houLiFilter h.1 h.2, ?_⟩, ?_⟩, fun k g => rfl⟩
  · funext x j; exact shift_none _ _
  · intro a b; funext x j; exact TwoFluid.filterRow_add _ _ _ _

/-- A sum over the species of a quantity additive in the distribution does not see the division. -/
theorem sum_divided (q : ∀ k : Species nx, (ZMod nx → ZMod k.nv → ℝ) →+ ℝ) (Q : Species nx → ℝ) (h : ∀ k g, Q (part k g) = q k g)
    (ps : List (Population nx)) : ((whole ps).map Q).sum = ((divided ps).map Q).sum := by
  induction ps with
  | nil => rfl
  | cons p ps ih =>
    have e1 : whole (p :: ps) = part p.kind p.parts.sum :: whole ps := rfl
    have e2 : divided (p :: ps) = p.parts.map (part p.kind) ++ divided ps := by simp [divided]
    rw [e1, e2, List.map_cons, List.sum_cons, List.map_append, List.sum_append, ih, h, map_list_sum, List.map_map]
    congr 2
    exact List.map_congr_left fun g _ => (h p.kind g).symm

theorem divides_kept [NeZero nx] (sh : List (Species nx × ℕ)) : Kept (Divides sh) where
  charge ss tt h x := by
    obtain ⟨ps, -, rfl, rfl⟩ := h
    refine sum_divided (fun k => ⟨⟨fun g => k.charge * ((∑ j, g x j) * k.dv), by simp⟩, fun a b => ?_⟩) _ (fun k g => rfl) ps
    show k.charge * ((∑ j, (a x j + b x j)) * k.dv) = k.charge * ((∑ j, a x j) * k.dv) + k.charge * ((∑ j, b x j) * k.dv)
    rw [sum_add_distrib]; ring
  current ss tt h x := by
    obtain ⟨ps, -, rfl, rfl⟩ := h
    refine sum_divided (fun k => ⟨⟨fun g => k.charge * ((∑ j, k.v j * g x j) * k.dv), by simp⟩, fun a b => ?_⟩) _ (fun k g => rfl) ps
    show k.charge * ((∑ j, k.v j * (a x j + b x j)) * k.dv) = k.charge * ((∑ j, k.v j * a x j) * k.dv) + k.charge * ((∑ j, k.v j * b x j) * k.dv)
    simp only [mul_add]
    rw [sum_add_distrib]; ring
  kick _ _ _ _ _ h := partWise_divides (pushV_partWise _ _ _) h
  drift _ _ _ _ h := partWise_divides (pushX_partWise _ _) h
  smooth _ _ _ h := partWise_divides (smooth_partWise _) h

/-- A plasma written as fewer or more species of the same kinds: the fields are the same and at
every time the species are the sums of their parts. -/
theorem parts_irrelevant [NeZero nx] (time : TimeKind) (dx dt : ℝ) {field : FieldKind nx} (hl : Local field) (f : Option (ℝ × ℕ))
    (ds : List ((ℕ → ℝ) × (ℕ → ZMod nx → ℝ))) (e : ZMod nx → ℝ) (ps : List (Population nx)) :
    (run time dx dt field f ds (e, whole ps)).1 = (run time dx dt field f ds (e, divided ps)).1 ∧
      ∃ qs : List (Population nx), (qs.map fun q => (q.kind, q.parts.length)) = (ps.map fun p => (p.kind, p.parts.length)) ∧
        (run time dx dt field f ds (e, whole ps)).2 = whole qs ∧ (run time dx dt field f ds (e, divided ps)).2 = divided qs :=
  run_keeps (divides_kept (shape ps)) time dx dt hl f ds e ⟨ps, rfl, rfl, rfl⟩

/-! ### Neutral and empty species -/

/-- No charge, or no particles. -/
def Silent (s : Species nx) : Prop := s.charge = 0 ∨ s.f = 0

/-- The one plasma is the other with silent species put in anywhere. -/
inductive Among : List (Species nx) → List (Species nx) → Prop
  | nil : Among [] []
  | keep (s : Species nx) {ss tt : List (Species nx)} : Among ss tt → Among (s :: ss) (s :: tt)
  | add (s : Species nx) {ss tt : List (Species nx)} : Silent s → Among ss tt → Among ss (s :: tt)

theorem among_map {op : Species nx → Species nx} (hop : ∀ s, Silent s → Silent (op s)) {ss tt : List (Species nx)} (h : Among ss tt) :
    Among (ss.map op) (tt.map op) := by
  induction h with
  | nil => exact .nil
  | keep s _ ih => exact .keep _ ih
  | add s hs _ ih => exact .add _ (hop s hs) ih

theorem among_sum {Q : Species nx → ℝ} (hQ : ∀ s, Silent s → Q s = 0) {ss tt : List (Species nx)} (h : Among ss tt) :
    (ss.map Q).sum = (tt.map Q).sum := by
  induction h with
  | nil => rfl
  | keep s _ ih => simp [ih]
  | add s hs _ ih => simp [ih, hQ s hs]

theorem among_kept [NeZero nx] : Kept (nx := nx) Among where
  charge ss tt h x := among_sum (fun s hs => by
    rcases hs with hs | hs
    · rw [hs, zero_mul]
    · unfold Species.density; rw [hs]; simp) h
  current ss tt h x := among_sum (fun s hs => by
    rcases hs with hs | hs
    · rw [hs, zero_mul]
    · rw [hs]; simp) h
  kick e pond c ss tt h := among_map (op := pushV e pond c) (fun s hs => hs.imp id fun hf => by
    funext x j; show shift s.dv _ (s.f x) j = 0; rw [hf]; exact shift_none _ _) h
  drift dx c ss tt h := among_map (op := pushX dx c) (fun s hs => hs.imp id fun hf => by
    funext x j; show shift dx _ (fun y => s.f y j) x = 0; rw [hf]; exact shift_none _ _) h
  smooth p ss tt h := among_map (op := smooth p) (fun s hs => hs.imp id fun hf => by
    funext x j; show filterRow _ (fun y => s.f y j) x = 0; rw [hf]; exact shift_none _ _) h

/-- Species without charge or without particles change neither the field nor any other species. -/
theorem silent_irrelevant [NeZero nx] (time : TimeKind) (dx dt : ℝ) {field : FieldKind nx} (hl : Local field) (f : Option (ℝ × ℕ))
    (ds : List ((ℕ → ℝ) × (ℕ → ZMod nx → ℝ))) (e : ZMod nx → ℝ) {ss tt : List (Species nx)} (h : Among ss tt) :
    (run time dx dt field f ds (e, ss)).1 = (run time dx dt field f ds (e, tt)).1 ∧
      Among (run time dx dt field f ds (e, ss)).2 (run time dx dt field f ds (e, tt)).2 :=
  run_keeps among_kept time dx dt hl f ds e h

/-! ### Units of charge and mass -/

/-- `t` is `s` with charge and mass larger, and particles fewer, by the factor `l`. -/
def Lumped (l : ℝ) (s t : Species nx) : Prop :=
  t = ⟨s.nv, s.pos, l * s.charge, l * s.mass, s.dv, s.v, fun x j => s.f x j / l⟩

theorem accel_lumped {l : ℝ} (hl : l ≠ 0) (q m e pond : ℝ) : accel (l * q) (l * m) e pond = accel q m e pond := by
  unfold accel
  rcases eq_or_ne m 0 with hm | hm
  · rw [hm]; simp
  · field_simp

theorem lumped_filter {N : ℕ} [NeZero N] (m : ℕ → ℂ) (l : ℝ) (a : ZMod N → ℝ) (x : ZMod N) :
    filterRow m (fun j => a j / l) x = filterRow m a x / l := by
  have := TwoFluid.filterRow_smul m l⁻¹ a x
  rw [div_eq_inv_mul, ← this]
  exact congrArg (fun g => filterRow m g x) (funext fun j => by rw [div_eq_inv_mul])

theorem lumped_map {l : ℝ} {op : Species nx → Species nx} (hop : ∀ s t, Lumped l s t → Lumped l (op s) (op t))
    {ss tt : List (Species nx)} (h : List.Forall₂ (Lumped l) ss tt) : List.Forall₂ (Lumped l) (ss.map op) (tt.map op) := by
  induction h with
  | nil => exact .nil
  | cons h _ ih => exact .cons (hop _ _ h) ih

theorem lumped_sum {l : ℝ} {Q : Species nx → ℝ} (hQ : ∀ s t, Lumped l s t → Q s = Q t) {ss tt : List (Species nx)}
    (h : List.Forall₂ (Lumped l) ss tt) : (ss.map Q).sum = (tt.map Q).sum := by
  induction h with
  | nil => rfl
  | cons h _ ih => rw [List.map_cons, List.map_cons, List.sum_cons, List.sum_cons, ih, hQ _ _ h]

theorem lumped_kept [NeZero nx] {l : ℝ} (hl : l ≠ 0) : Kept (nx := nx) (List.Forall₂ (Lumped l)) where
  charge ss tt h x := lumped_sum (fun s t h => by
    subst h
    show s.charge * ((∑ j, s.f x j) * s.dv) = l * s.charge * ((∑ j, s.f x j / l) * s.dv)
    rw [← sum_div]; field_simp) h
  current ss tt h x := lumped_sum (fun s t h => by
    subst h
    show s.charge * ((∑ j, s.v j * s.f x j) * s.dv) = l * s.charge * ((∑ j, s.v j * (s.f x j / l)) * s.dv)
    simp only [← mul_div_assoc]
    rw [← sum_div]; field_simp) h
  kick e pond c ss tt h := lumped_map (fun s t h => by
    subst h
    show (⟨_, _, _, _, _, _, _⟩ : Species nx) = ⟨_, _, _, _, _, _, _⟩
    congr 1
    funext x j
    show shift s.dv (c * accel (l * s.charge) (l * s.mass) (e x) (pond x)) (fun j => s.f x j / l) j = shift s.dv _ (s.f x) j / l
    rw [accel_lumped hl]
    exact lumped_filter _ l (s.f x) j) h
  drift dx c ss tt h := lumped_map (fun s t h => by
    subst h
    show (⟨_, _, _, _, _, _, _⟩ : Species nx) = ⟨_, _, _, _, _, _, _⟩
    congr 1
    funext x j
    exact lumped_filter _ l (fun y => s.f y j) x) h
  smooth p ss tt h := lumped_map (fun s t h => by
    subst h
    show (⟨_, _, _, _, _, _, _⟩ : Species nx) = ⟨_, _, _, _, _, _, _⟩
    congr 1
    funext x j
    exact lumped_filter _ l (fun y => s.f y j) x) h

/-- Charge and mass enter through their ratio and the charge of the plasma only: particles `l` times
heavier and more highly charged, and `l` times fewer, make the same field and move the same way. -/
theorem lumps_irrelevant [NeZero nx] (time : TimeKind) (dx dt : ℝ) {field : FieldKind nx} (hl : Local field) (f : Option (ℝ × ℕ))
    (ds : List ((ℕ → ℝ) × (ℕ → ZMod nx → ℝ))) (e : ZMod nx → ℝ) {l : ℝ} (h0 : l ≠ 0) {ss tt : List (Species nx)}
    (h : List.Forall₂ (Lumped l) ss tt) :
    (run time dx dt field f ds (e, ss)).1 = (run time dx dt field f ds (e, tt)).1 ∧
      List.Forall₂ (Lumped l) (run time dx dt field f ds (e, ss)).2 (run time dx dt field f ds (e, tt)).2 :=
  run_keeps (lumped_kept h0) time dx dt hl f ds e h

/-! ### The cubic-spline push is not of this kind -/

/-- The cubic-spline push gives every species `1e-30` where the characteristic comes from outside
the velocity grid, so a plasma written as two species ends with twice as much there. -/
theorem spline_parts_fail : ∃ (a b : ℤ → ℝ) (j : ℕ),
    CubicSpline.shiftRow 2 (a + b) 10 1 j ≠ CubicSpline.shiftRow 2 a 10 1 j + CubicSpline.shiftRow 2 b 10 1 j := by
  refine ⟨0, 0, 0, ?_⟩
  have h : ∀ f, CubicSpline.shiftRow 2 f 10 1 0 = 1 / 10 ^ 30 := fun f => by
    unfold CubicSpline.shiftRow
    dsimp only
    rw [if_pos (by left; norm_num)]
  rw [h, h]
  norm_num

/-! ### Non-vacuity -/

/-- Protons and electrons, two electron beams of `1/4` and `3/4` of the particles. -/
noncomputable def beams : List (Population 8) :=
  [⟨someSpecies, [fun x j => someSpecies.f x j / 4, fun x j => 3 / 4 * someSpecies.f x j]⟩,
    ⟨part ⟨4, ⟨by decide⟩, 1, 1836, 1, fun j => j.val, 0⟩ 0, [fun _ _ => 1 / 4]⟩]

example : (divided beams).length = 3 ∧ (whole beams).length = 2 ∧ (whole beams)[0]? = some someSpecies := by
  refine ⟨rfl, rfl, ?_⟩
  show some (part someSpecies _) = some someSpecies
  congr 1
  show part someSpecies _ = part someSpecies someSpecies.f
  congr 1
  funext x j
  show ([fun x j => someSpecies.f x j / 4, fun x j => 3 / 4 * someSpecies.f x j] : List (ZMod 8 → ZMod 4 → ℝ)).sum x j = _
  show someSpecies.f x j / 4 + (3 / 4 * someSpecies.f x j + 0) = someSpecies.f x j
  ring

example (d : (ℕ → ℝ) × (ℕ → ZMod 8 → ℝ)) : (run .leapfrog 1 (1 / 10) .ampere (some (36, 18)) [d, d] (0, whole beams)).1 =
    (run .leapfrog 1 (1 / 10) .ampere (some (36, 18)) [d, d] (0, divided beams)).1 :=
  (parts_irrelevant .leapfrog 1 (1 / 10) (field := .ampere) trivial (some (36, 18)) [d, d] 0 beams).1

/-- Neutral tracers: silent, and nothing stops them from being there. -/
example : Among [someSpecies] [someSpecies, part ⟨4, ⟨by decide⟩, 0, 1, 1, fun j => j.val, 0⟩ fun _ _ => 1] :=
  .keep _ (.add _ (Or.inl rfl) .nil)

example : Lumped 2 someSpecies ⟨someSpecies.nv, someSpecies.pos, 2 * someSpecies.charge, 2 * someSpecies.mass, someSpecies.dv, someSpecies.v,
    fun x j => someSpecies.f x j / 2⟩ := rfl

end Verif.VlasovParts

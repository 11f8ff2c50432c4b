import Verif.Props.Wave
import Verif.Props.Vlasov2dSymmetry

/-!
What a particle run depends on, and its symmetries (C229): runs with the same charge in phase space
give the same fields and paths, however the charge is divided into markers and species; a problem
moved by whole cells or reflected about the middle of the box gives the moved or reflected run.
-/
namespace Verif.PicSymmetry
open Finset Verif.Spectral Verif.Wave
open Verif.Pic (PSpecies Particle Box Scheme Shape share deposit chargeOf gather wrap selfField push)

variable {nx : ℕ} [NeZero nx]

/-! ### Specification -/

/-- The charge of all markers, each counted with a function of its charge-to-mass ratio, place and velocity. -/
noncomputable def chargeWith (ss : List PSpecies) (φ : ℝ → ℝ → ℝ → ℝ) : ℝ :=
  (ss.map fun s => s.charge * (s.ps.map fun p => p.w * φ (s.charge / s.mass) p.x p.v).sum).sum

/-- The same charge everywhere in phase space for every charge-to-mass ratio. -/
def SamePlasma (ss ss' : List PSpecies) : Prop := ∀ φ, chargeWith ss φ = chargeWith ss' φ

/-- The species called `electron`, which the light wave sees. -/
def electrons (named : List (String × PSpecies)) : List PSpecies := (named.lookup "electron").toList

/-- The same plasma and the same fields; the vector potential has `nx + 2` points. -/
structure SameState (y y' : PState nx) : Prop where
  plasma : SamePlasma (y.named.map Prod.snd) (y'.named.map Prod.snd)
  light : SamePlasma (electrons y.named) (electrons y'.named)
  e : y'.e = y.e
  de : y'.de = y.de
  a : ∀ i ≤ nx + 1, y'.a i = y.a i
  prevA : ∀ i ≤ nx + 1, y'.prevA i = y.prevA i

/-- The markers of a species follow the paths `Φ` of their charge-to-mass ratio. -/
noncomputable def follow (Φ : ℝ → ℝ × ℝ → ℝ × ℝ) (s : PSpecies) : PSpecies :=
  { s with ps := s.ps.map fun p => ⟨(Φ (s.charge / s.mass) (p.x, p.v)).1, (Φ (s.charge / s.mass) (p.x, p.v)).2, p.w⟩ }

/-- A box whose cells fill it. -/
structure Filled (b : Box nx) : Prop where
  pos : 0 < b.dx
  len : b.xmax - b.xmin = nx * b.dx

/-- The box with background and driver moved by `m` cells. -/
noncomputable def movedBox (m : ℤ) (b : Box nx) : Box nx :=
  { b with static := fun g => b.static (g - m), driver := fun t g => b.driver t (g - m) }

/-- A species moved by `m` cells and put back into the box. -/
noncomputable def movedSp (b : Box nx) (m : ℤ) (s : PSpecies) : PSpecies :=
  { s with ps := s.ps.map fun p => ⟨wrap b.xmin b.xmax (p.x + m * b.dx), p.v, p.w⟩ }

/-- A state moved by `m` cells. -/
noncomputable def movedState (b : Box nx) (m : ℤ) (y : PState nx) : PState nx :=
  ⟨y.named.map fun s => (s.1, movedSp b m s.2), fun g => y.e (g - m), fun g => y.de (g - m), y.a, y.prevA⟩

/-- The box reflected about its middle. -/
noncomputable def mirrorBox (b : Box nx) : Box nx :=
  { b with static := fun g => b.static (-1 - g), driver := fun t g => -b.driver t (-1 - g) }

/-- A species reflected about the middle of the box. -/
noncomputable def mirrorSp (b : Box nx) (s : PSpecies) : PSpecies :=
  { s with ps := s.ps.map fun p => ⟨wrap b.xmin b.xmax (b.xmin + b.xmax - p.x), -p.v, p.w⟩ }

/-- A profile on `nx + 2` points reflected. -/
def mirrorA (nx : ℕ) (a : ℕ → ℝ) : ℕ → ℝ := fun i => a (nx + 1 - i)

/-- A state reflected about the middle of the box. -/
noncomputable def mirrorState (b : Box nx) (y : PState nx) : PState nx :=
  ⟨y.named.map fun s => (s.1, mirrorSp b s.2), fun g => -y.e (-1 - g), fun g => -y.de (-1 - g), mirrorA nx y.a, mirrorA nx y.prevA⟩

/-! ### The same plasma -/

theorem same_refl (ss : List PSpecies) : SamePlasma ss ss := fun _ => rfl
theorem same_symm {ss ss' : List PSpecies} (h : SamePlasma ss ss') : SamePlasma ss' ss := fun φ => (h φ).symm
theorem same_trans {s1 s2 s3 : List PSpecies} (h : SamePlasma s1 s2) (k : SamePlasma s2 s3) : SamePlasma s1 s3 := fun φ => (h φ).trans (k φ)

theorem chargeWith_append (l l' : List PSpecies) (φ : ℝ → ℝ → ℝ → ℝ) : chargeWith (l ++ l') φ = chargeWith l φ + chargeWith l' φ := by
  unfold chargeWith
  rw [List.map_append, List.sum_append]

theorem same_append {l1 l1' l2 l2' : List PSpecies} (h : SamePlasma l1 l1') (k : SamePlasma l2 l2') : SamePlasma (l1 ++ l2) (l1' ++ l2') := fun φ => by
  rw [chargeWith_append, chargeWith_append, h, k]

/-- **C229.** The order of the species does not matter. -/
theorem same_species_order {ss ss' : List PSpecies} (h : ss.Perm ss') : SamePlasma ss ss' := fun _ => (h.map _).sum_eq

/-- **C229.** The order of the markers does not matter. -/
theorem same_marker_order {ss ss' : List PSpecies}
    (h : List.Forall₂ (fun s s' : PSpecies => s.charge = s'.charge ∧ s.mass = s'.mass ∧ s.ps.Perm s'.ps) ss ss') : SamePlasma ss ss' := by
  intro φ
  induction h with
  | nil => rfl
  | cons h _ ih =>
    unfold chargeWith at ih ⊢
    rw [List.map_cons, List.map_cons, List.sum_cons, List.sum_cons, ih, h.1, h.2.1, (h.2.2.map _).sum_eq]

/-- **C229.** A marker can be divided into several at the same place, together with its weight. -/
theorem same_divided (q m : ℝ) (p : Particle) (ws : List ℝ) (hw : ws.sum = p.w) (ps : List Particle) :
    SamePlasma [⟨q, m, p :: ps⟩] [⟨q, m, ws.map (fun w => { p with w := w }) ++ ps⟩] := by
  intro φ
  unfold chargeWith
  simp only [List.map_cons, List.map_nil, List.sum_cons, List.sum_nil, add_zero, List.map_append, List.sum_append, List.map_map]
  congr 2
  rw [← hw, show (ws.map ((fun p : Particle => p.w * φ (q / m) p.x p.v) ∘ fun w => { p with w := w })) =
    ws.map fun w => w * φ (q / m) p.x p.v from rfl, List.sum_map_mul_right, List.map_id']

/-- **C229.** Two species of equal charge and mass are one species. -/
theorem same_joined (q m : ℝ) (ps ps' : List Particle) : SamePlasma [⟨q, m, ps⟩, ⟨q, m, ps'⟩] [⟨q, m, ps ++ ps'⟩] := by
  intro φ
  unfold chargeWith
  simp only [List.map_cons, List.map_nil, List.sum_cons, List.sum_nil, add_zero, List.map_append, List.sum_append]
  ring

/-- **C229.** Species may be made of heavier and more strongly charged but fewer particles. -/
theorem same_scaled (c q m : ℝ) (hc : c ≠ 0) (ps : List Particle) :
    SamePlasma [⟨q, m, ps⟩] [⟨c * q, c * m, ps.map fun p => { p with w := p.w / c }⟩] := by
  intro φ
  unfold chargeWith
  simp only [List.map_cons, List.map_nil, List.sum_cons, List.sum_nil, add_zero, List.map_map, mul_div_mul_left _ _ hc]
  rw [mul_comm c q, mul_assoc, ← List.sum_map_mul_left (r := c)]
  congr 2
  refine List.map_congr_left fun p _ => ?_
  show p.w * φ (q / m) p.x p.v = c * (p.w / c * φ (q / m) p.x p.v)
  field_simp

/-- **C229.** Markers of weight zero are test particles. -/
theorem same_test (q m : ℝ) (ps tests : List Particle) (h : ∀ p ∈ tests, p.w = 0) : SamePlasma [⟨q, m, ps⟩] [⟨q, m, ps ++ tests⟩] := by
  intro φ
  unfold chargeWith
  simp only [List.map_cons, List.map_nil, List.sum_cons, List.sum_nil, add_zero, List.map_append, List.sum_append]
  have e : (tests.map fun p => p.w * φ (q / m) p.x p.v).sum = 0 := List.sum_eq_zero fun x hx => by
    obtain ⟨p, hp, rfl⟩ := List.mem_map.1 hx
    rw [h p hp, zero_mul]
  rw [e, add_zero]

/-! ### Paths -/

theorem follow_follow (Φ Ψ : ℝ → ℝ × ℝ → ℝ × ℝ) (ss : List PSpecies) :
    (ss.map (follow Φ)).map (follow Ψ) = ss.map (follow fun q z => Ψ q (Φ q z)) := by
  rw [List.map_map]
  refine List.map_congr_left fun s _ => ?_
  simp only [follow, Function.comp_apply, List.map_map]
  rfl

theorem same_follow (Φ : ℝ → ℝ × ℝ → ℝ × ℝ) {ss ss' : List PSpecies} (h : SamePlasma ss ss') :
    SamePlasma (ss.map (follow Φ)) (ss'.map (follow Φ)) := by
  have e : ∀ l : List PSpecies, ∀ φ, chargeWith (l.map (follow Φ)) φ = chargeWith l fun q x v => φ q (Φ q (x, v)).1 (Φ q (x, v)).2 := by
    intro l φ
    unfold chargeWith
    rw [List.map_map]
    congr 1
    refine List.map_congr_left fun s _ => ?_
    simp only [follow, Function.comp_apply, List.map_map]
    rfl
  intro φ
  rw [e, e, h]

theorem chargeOf_with (shape : Shape) (dx xmin : ℝ) (ss : List PSpecies) (g : ZMod nx) :
    chargeOf shape dx xmin ss g = chargeWith ss (fun _ x _ => share shape dx xmin x g) / dx := by
  unfold chargeOf chargeWith
  rw [div_eq_mul_inv, ← List.sum_map_mul_right]
  congr 1
  refine List.map_congr_left fun s _ => ?_
  rw [Pic.deposit_eq]
  ring

/-- A part of the step that moves all markers along common paths, decided by the plasma alone. -/
def Alike {X : Type} (F : List PSpecies → List PSpecies × X) : Prop := ∀ ss ss', SamePlasma ss ss' →
  ∃ Φ r, F ss = (ss.map (follow Φ), r) ∧ F ss' = (ss'.map (follow Φ), r)

theorem alike_comp {X Y : Type} {F : List PSpecies → List PSpecies × X} {G : List PSpecies → List PSpecies × Y} (hF : Alike F) (hG : Alike G) :
    Alike fun ss => G (F ss).1 := by
  intro ss ss' h
  obtain ⟨Φ, r, e1, e2⟩ := hF ss ss' h
  obtain ⟨Ψ, r', e3, e4⟩ := hG _ _ (same_follow Φ h)
  refine ⟨fun q z => Ψ q (Φ q z), r', ?_, ?_⟩
  · show G (F ss).1 = _
    rw [e1]
    exact e3.trans (by rw [follow_follow])
  · show G (F ss').1 = _
    rw [e2]
    exact e4.trans (by rw [follow_follow])

theorem selfField_same (b : Box nx) {ss ss' : List PSpecies} (h : SamePlasma ss ss') : selfField b ss' = selfField b ss := by
  unfold selfField
  congr 1
  funext g
  rw [chargeOf_with, chargeOf_with, h]

theorem alike_kick (b : Box nx) (dt t : ℝ) (a : Option (ℕ → ℝ)) : Alike (Pic.kick b dt t a) := by
  intro ss ss' h
  refine ⟨fun q z => (z.1, z.2 + dt * (match a with
    | some a => q * gather b.shape b.dx b.xmin (fun g => selfField b ss g + b.driver t g) z.1 +
        q * q * gather b.shape b.dx b.xmin (ponderomotive (nx := nx) b.dx a) z.1
    | none => q * gather b.shape b.dx b.xmin (fun g => selfField b ss g + b.driver t g) z.1)), (selfField b ss, b.driver t), ?_, ?_⟩
  · unfold Pic.kick follow
    cases a <;> rfl
  · unfold Pic.kick follow
    rw [selfField_same b h]
    cases a <;> rfl

theorem alike_drift (dt xmin xmax : ℝ) : Alike fun ss => (Pic.drift dt xmin xmax ss, ()) := fun _ _ _ =>
  ⟨fun _ z => (wrap xmin xmax (z.1 + dt * z.2), z.2), (), rfl, rfl⟩

theorem alike_kdk (b : Box nx) (dt t : ℝ) (a : Option (ℕ → ℝ)) : Alike (Pic.kdk b dt t a) :=
  alike_comp (alike_comp (alike_kick b (0.5 * dt) t a) (alike_drift dt b.xmin b.xmax)) (alike_kick b (0.5 * dt) (t + dt) a)

theorem alike_push (b : Box nx) (sch : Scheme) (dt t : ℝ) (a : Option (ℕ → ℝ)) : Alike (push b sch dt t a) := by
  cases sch
  · exact alike_kdk b dt t a
  · exact alike_comp (alike_comp (alike_kdk b _ _ a) (alike_kdk b _ _ a)) (alike_kdk b _ _ a)

/-- Named species follow paths. -/
noncomputable def followN (Φ : ℝ → ℝ × ℝ → ℝ × ℝ) (named : List (String × PSpecies)) : List (String × PSpecies) :=
  named.map fun s => (s.1, follow Φ s.2)

theorem rename_map (F : PSpecies → PSpecies) (named : List (String × PSpecies)) :
    rename named ((named.map Prod.snd).map F) = named.map fun s => (s.1, F s.2) := by
  unfold rename
  induction named with
  | nil => rfl
  | cons s l ih =>
    simp only [List.map_cons, List.zip_cons_cons]
    exact congrArg _ ih

theorem electrons_map (F : PSpecies → PSpecies) (named : List (String × PSpecies)) :
    electrons (named.map fun s => (s.1, F s.2)) = (electrons named).map F := by
  unfold electrons
  induction named with
  | nil => rfl
  | cons s l ih =>
    obtain ⟨n, s⟩ := s
    simp only [List.map_cons, List.lookup_cons]
    by_cases h : ("electron" == n) = true
    · rw [h]
      rfl
    · rw [Bool.not_eq_true] at h
      rw [h]
      exact ih

theorem electronCharge_eq (shape : Shape) (dx xmin : ℝ) (named : List (String × PSpecies)) (g : ZMod nx) :
    electronCharge shape dx xmin named g = chargeOf shape dx xmin (electrons named) g := by
  unfold electronCharge electrons chargeOf
  cases named.lookup "electron" with
  | none => rfl
  | some s => simp

theorem electronCharge_same (shape : Shape) (dx xmin : ℝ) {n n' : List (String × PSpecies)} (h : SamePlasma (electrons n) (electrons n')) (g : ZMod nx) :
    electronCharge shape dx xmin n' g = electronCharge shape dx xmin n g := by
  rw [electronCharge_eq, electronCharge_eq, chargeOf_with, chargeOf_with, h]

/-! ### The light wave sees the `nx + 2` points only -/

theorem pond_congr (dx : ℝ) {a a' : ℕ → ℝ} (h : ∀ i ≤ nx + 1, a' i = a i) : ponderomotive (nx := nx) dx a' = ponderomotive dx a := by
  funext x
  unfold ponderomotive
  have := ZMod.val_lt x
  rw [h _ (by omega), h _ (by omega)]

theorem push_congr (b : Box nx) (sch : Scheme) (dt t : ℝ) {a a' : ℕ → ℝ} (h : ∀ i ≤ nx + 1, a' i = a i) (ss : List PSpecies) :
    push b sch dt t (some a') ss = push b sch dt t (some a) ss := by
  have k : ∀ dt t ss, Pic.kick b dt t (some a') ss = Pic.kick b dt t (some a) ss := fun dt t ss => by
    unfold Pic.kick
    dsimp only
    rw [pond_congr b.dx h]
  cases sch <;> simp only [push, Pic.yoshida, Pic.kdk, k]

theorem step_congr (w : Solver) (hnx : 2 ≤ nx) {a a' o o' s s' d d' : ℕ → ℝ} (ha : ∀ i ≤ nx + 1, a' i = a i) (ho : ∀ i ≤ nx + 1, o' i = o i)
    (hs : ∀ i ≤ nx + 1, s' i = s i) (hd : ∀ i < nx, d' i = d i) :
    (∀ i ≤ nx + 1, (w.step nx a' o' s' d').1 i = (w.step nx a o s d).1 i) ∧ ∀ i ≤ nx + 1, (w.step nx a' o' s' d').2 i = (w.step nx a o s d).2 i := by
  unfold Solver.step
  split
  case isFalse => exact ⟨ha, ho⟩
  refine ⟨fun i hi => ?_, ha⟩
  have k : ∀ i, 1 ≤ i → i ≤ nx → w.interior a' o' s' d' i = w.interior a o s d i := fun i h1 h2 => by
    unfold Solver.interior
    rw [ha _ (by omega), ha _ (by omega), ha _ (by omega), ho _ (by omega), hs _ (by omega), hd _ (by omega)]
  dsimp only
  split
  · rw [k 1 (by omega) (by omega), k 2 (by omega) (by omega), ha _ (by omega), ha _ (by omega), ha _ (by omega), ho _ (by omega), ho _ (by omega), ho _ (by omega)]
  · split
    · rw [k nx (by omega) (by omega), k (nx - 1) (by omega) (by omega), ha _ (by omega), ha _ (by omega), ha _ (by omega), ho _ (by omega), ho _ (by omega), ho _ (by omega)]
    · exact k i (by omega) (by omega)

/-- **C229.** A run is determined by the charge in phase space: two initial states with the same
plasma and fields have the same fields at every step, and all markers of one charge-to-mass ratio
follow the same paths in both. -/
theorem run_same (b : Box nx) (hnx : 2 ≤ nx) (sch : Scheme) (w : Solver) (ey : Option (ℝ → ℕ → ℝ)) (t : ℝ) {y y' : PState nx} (h : SameState y y') (n : ℕ) :
    SameState (picRun b sch w ey t y n) (picRun b sch w ey t y' n) ∧
    ∃ Φ : ℝ → ℝ × ℝ → ℝ × ℝ, (picRun b sch w ey t y n).named = followN Φ y.named ∧ (picRun b sch w ey t y' n).named = followN Φ y'.named := by
  induction n with
  | zero =>
    refine ⟨h, fun _ z => z, ?_, ?_⟩ <;>
    · show _ = _
      unfold followN follow
      simp [picRun]
  | succ n ih =>
    obtain ⟨ih, Φ, f1, f2⟩ := ih
    simp only [picRun]
    revert f1 f2 ih
    generalize picRun b sch w ey t y n = z
    generalize picRun b sch w ey t y' n = z'
    intro ih f1 f2
    have hp : ∃ Ψ r, push b sch w.dt (t + n * w.dt) (ey.map fun _ => z.a) (z.named.map Prod.snd) = ((z.named.map Prod.snd).map (follow Ψ), r) ∧
        push b sch w.dt (t + n * w.dt) (ey.map fun _ => z'.a) (z'.named.map Prod.snd) = ((z'.named.map Prod.snd).map (follow Ψ), r) := by
      obtain ⟨Ψ, r, e1, e2⟩ := alike_push b sch w.dt (t + n * w.dt) (ey.map fun _ => z.a) _ _ ih.plasma
      refine ⟨Ψ, r, e1, ?_⟩
      rw [← e2]
      cases ey with
      | none => rfl
      | some src => exact push_congr b sch _ _ ih.a _
    obtain ⟨Ψ, r, e1, e2⟩ := hp
    have m1 := (picStep_named b sch w ey (t + n * w.dt) z).trans (by rw [e1, rename_map])
    have m2 := (picStep_named b sch w ey (t + n * w.dt) z').trans (by rw [e2, rename_map])
    have p1 : SamePlasma ((z.named.map fun s => (s.1, follow Ψ s.2)).map Prod.snd) ((z'.named.map fun s => (s.1, follow Ψ s.2)).map Prod.snd) := by
      have := same_follow Ψ ih.plasma
      rwa [List.map_map, List.map_map] at this ⊢
      
    have p2 : SamePlasma (electrons (z.named.map fun s => (s.1, follow Ψ s.2))) (electrons (z'.named.map fun s => (s.1, follow Ψ s.2))) := by
      rw [electrons_map, electrons_map]
      exact same_follow Ψ ih.light
    have comp : ∀ l : List (String × PSpecies), (followN Φ l).map (fun s => (s.1, follow Ψ s.2)) = followN (fun q z => Ψ q (Φ q z)) l := fun l => by
      unfold followN
      rw [List.map_map]
      refine List.map_congr_left fun s _ => ?_
      simp only [follow, Function.comp_apply, List.map_map]
      rfl
    refine ⟨?_, fun q z => Ψ q (Φ q z), by rw [m1, f1, comp], by rw [m2, f2, comp]⟩
    refine ⟨by rw [m1, m2]; exact p1, by rw [m1, m2]; exact p2, ?_, ?_, ?_, ?_⟩
    · cases ey <;> · simp only [picStep, Option.map] at e1 e2 ⊢; rw [e1, e2]
    · cases ey <;> rfl
    all_goals
      cases ey with
      | none => first | exact ih.a | exact ih.prevA
      | some src =>
        simp only [picStep, Option.map] at e1 e2 ⊢
        rw [e1, e2, rename_map, rename_map]
        have k := step_congr w hnx (s := src (t + n * w.dt + w.dt)) (s' := src (t + n * w.dt + w.dt))
          (d := fun i => -0.5 * (electronCharge (nx := nx) b.shape b.dx b.xmin z.named (i : ZMod nx) +
            electronCharge b.shape b.dx b.xmin (z.named.map fun s => (s.1, follow Ψ s.2)) (i : ZMod nx)))
          (d' := fun i => -0.5 * (electronCharge (nx := nx) b.shape b.dx b.xmin z'.named (i : ZMod nx) +
            electronCharge b.shape b.dx b.xmin (z'.named.map fun s => (s.1, follow Ψ s.2)) (i : ZMod nx))) ih.a ih.prevA (fun _ _ => rfl)
          fun i _ => by rw [electronCharge_same b.shape b.dx b.xmin ih.light, electronCharge_same b.shape b.dx b.xmin p2]
        first | exact k.1 | exact k.2

/-! ### Covariance -/

/-- A species carried over by `x ↦ τ x`, `v ↦ σ v`. -/
noncomputable def carry (τ : ℝ → ℝ) (σ : ℝ) (s : PSpecies) : PSpecies := { s with ps := s.ps.map fun p => ⟨τ p.x, σ * p.v, p.w⟩ }

/-- `b'` is the box `b` carried over, the cell `g` of `b'` being the cell `π g` of `b`. -/
structure Sym (b b' : Box nx) (τ : ℝ → ℝ) (σ : ℝ) (π : ZMod nx → ZMod nx) : Prop where
  shape : b'.shape = b.shape
  dx : b'.dx = b.dx
  xmin : b'.xmin = b.xmin
  xmax : b'.xmax = b.xmax
  inj : Function.Injective π
  gather : ∀ (F : ZMod nx → ℝ) x, gather b.shape b.dx b.xmin (fun g => F (π g)) (τ x) = gather b.shape b.dx b.xmin F x
  static : b'.static = fun g => b.static (π g)
  driver : ∀ t, b'.driver t = fun g => σ * b.driver t (π g)
  poisson : ∀ rho : ZMod nx → ℝ, poisson b.dx (fun g => rho (π g)) = fun g => σ * poisson b.dx rho (π g)
  wrap : ∀ x d, wrap b.xmin b.xmax (τ x + σ * d) = τ (wrap b.xmin b.xmax (x + d))

theorem gather_smul (shape : Shape) (dx xmin c : ℝ) (F : ZMod nx → ℝ) (x : ℝ) : gather shape dx xmin (fun g => c * F g) x = c * gather shape dx xmin F x := by
  unfold gather
  rw [← List.sum_map_mul_left]
  congr 1
  refine List.map_congr_left fun p _ => ?_
  ring

theorem share_gather (shape : Shape) (dx xmin x : ℝ) (g : ZMod nx) :
    share shape dx xmin x g = gather shape dx xmin (fun h => if h = g then 1 else 0) x := by
  rw [Pic.share_eq, Pic.gather_eq]

variable {b b' : Box nx} {τ : ℝ → ℝ} {σ : ℝ} {π : ZMod nx → ZMod nx}

theorem chargeOf_cov (h : Sym b b' τ σ π) (ss : List PSpecies) (g : ZMod nx) :
    chargeOf b.shape b.dx b.xmin (ss.map (carry τ σ)) g = chargeOf b.shape b.dx b.xmin ss (π g) := by
  unfold chargeOf
  rw [List.map_map]
  congr 1
  refine List.map_congr_left fun s _ => ?_
  show s.charge * deposit b.shape b.dx b.xmin (s.ps.map fun p => ⟨τ p.x, σ * p.v, p.w⟩) g = _
  rw [Pic.deposit_eq, Pic.deposit_eq, List.map_map]
  congr 3
  refine List.map_congr_left fun p _ => ?_
  show p.w * share b.shape b.dx b.xmin (τ p.x) g = p.w * share b.shape b.dx b.xmin p.x (π g)
  rw [share_gather, share_gather, ← h.gather _ p.x]
  congr 2
  funext k
  simp only [h.inj.eq_iff]

theorem selfField_cov (h : Sym b b' τ σ π) (ss : List PSpecies) : selfField b' (ss.map (carry τ σ)) = fun g => σ * selfField b ss (π g) := by
  unfold selfField
  rw [h.dx, ← h.poisson]
  congr 1
  funext g
  rw [h.shape, h.xmin, chargeOf_cov h, h.static]

/-- The two light waves push alike. -/
def LightRel (dx σ : ℝ) (π : ZMod nx → ZMod nx) (a a' : Option (ℕ → ℝ)) : Prop :=
  (a = none ∧ a' = none) ∨ ∃ c c', a = some c ∧ a' = some c' ∧ ponderomotive (nx := nx) dx c' = fun g => σ * ponderomotive dx c (π g)

/-- Particles and fields carried over. -/
noncomputable def carry3 (τ : ℝ → ℝ) (σ : ℝ) (π : ZMod nx → ZMod nx) (r : List PSpecies × (ZMod nx → ℝ) × (ZMod nx → ℝ)) :
    List PSpecies × (ZMod nx → ℝ) × (ZMod nx → ℝ) := (r.1.map (carry τ σ), (fun g => σ * r.2.1 (π g)), fun g => σ * r.2.2 (π g))

theorem kick_cov (h : Sym b b' τ σ π) (dt t : ℝ) {a a' : Option (ℕ → ℝ)} (ha : LightRel b.dx σ π a a') (ss : List PSpecies) :
    Pic.kick b' dt t a' (ss.map (carry τ σ)) = carry3 τ σ π (Pic.kick b dt t a ss) := by
  have e : ∀ x, gather b.shape b.dx b.xmin (fun g => σ * selfField b ss (π g) + σ * b.driver t (π g)) (τ x) =
      σ * gather b.shape b.dx b.xmin (fun g => selfField b ss g + b.driver t g) x := by
    intro x
    rw [← gather_smul, ← h.gather (fun g => σ * (selfField b ss g + b.driver t g))]
    congr 1
    funext g
    ring
  unfold Pic.kick carry3
  dsimp only
  rw [selfField_cov h, h.driver, h.shape, h.dx, h.xmin]
  refine Prod.ext ?_ rfl
  dsimp only
  rw [List.map_map, List.map_map]
  refine List.map_congr_left fun s _ => ?_
  simp only [carry, Function.comp_apply, List.map_map]
  congr 1
  refine List.map_congr_left fun p _ => ?_
  simp only [Function.comp_apply]
  congr 1
  rcases ha with ⟨rfl, rfl⟩ | ⟨c, c', rfl, rfl, hc⟩
  · dsimp only
    rw [e]
    ring
  · dsimp only
    rw [e, hc, h.gather (fun g => σ * ponderomotive b.dx c g), gather_smul]
    ring

theorem drift_cov (h : Sym b b' τ σ π) (dt : ℝ) (ss : List PSpecies) :
    Pic.drift dt b'.xmin b'.xmax (ss.map (carry τ σ)) = (Pic.drift dt b.xmin b.xmax ss).map (carry τ σ) := by
  unfold Pic.drift
  rw [List.map_map, List.map_map]
  refine List.map_congr_left fun s _ => ?_
  simp only [carry, Function.comp_apply, List.map_map]
  congr 1
  refine List.map_congr_left fun p _ => ?_
  simp only [Function.comp_apply]
  congr 1
  rw [h.xmin, h.xmax, ← h.wrap]
  congr 1
  ring

theorem kdk_cov (h : Sym b b' τ σ π) (dt t : ℝ) {a a' : Option (ℕ → ℝ)} (ha : LightRel b.dx σ π a a') (ss : List PSpecies) :
    Pic.kdk b' dt t a' (ss.map (carry τ σ)) = carry3 τ σ π (Pic.kdk b dt t a ss) := by
  unfold Pic.kdk
  rw [kick_cov h _ _ ha]
  show Pic.kick b' _ _ a' (Pic.drift dt b'.xmin b'.xmax ((Pic.kick b (0.5 * dt) t a ss).1.map (carry τ σ))) = _
  rw [drift_cov h, kick_cov h _ _ ha]

theorem push_cov (h : Sym b b' τ σ π) (sch : Scheme) (dt t : ℝ) {a a' : Option (ℕ → ℝ)} (ha : LightRel b.dx σ π a a') (ss : List PSpecies) :
    push b' sch dt t a' (ss.map (carry τ σ)) = carry3 τ σ π (push b sch dt t a ss) := by
  cases sch
  · exact kdk_cov h dt t ha ss
  · unfold push Pic.yoshida
    dsimp only
    rw [kdk_cov h _ _ ha]
    show Pic.kdk b' _ _ a' (Pic.kdk b' _ _ a' ((Pic.kdk b _ _ a ss).1.map (carry τ σ))).1 = _
    rw [kdk_cov h _ _ ha]
    show Pic.kdk b' _ _ a' ((Pic.kdk b _ _ a _).1.map (carry τ σ)) = _
    rw [kdk_cov h _ _ ha]

/-! ### The periodic box -/

theorem wrap_add {xmin xmax : ℝ} (h : xmin < xmax) (x : ℝ) (k : ℤ) : wrap xmin xmax (x + k * (xmax - xmin)) = wrap xmin xmax x := by
  obtain ⟨h1, h2, m, h3⟩ := Pic.wrap_range xmin xmax x h
  have e : x + k * (xmax - xmin) = wrap xmin xmax x + ((k + m : ℤ) : ℝ) * (xmax - xmin) := by
    rw [h3]
    push_cast
    ring
  rw [e]
  exact Pic.wrap_id xmin xmax _ h1 h2 _

theorem wrap_wrap {xmin xmax : ℝ} (h : xmin < xmax) (x d : ℝ) : wrap xmin xmax (wrap xmin xmax x + d) = wrap xmin xmax (x + d) := by
  obtain ⟨_, _, m, h3⟩ := Pic.wrap_range xmin xmax x h
  rw [h3, show x - m * (xmax - xmin) + d = x + d + ((-m : ℤ) : ℝ) * (xmax - xmin) by push_cast; ring]
  exact wrap_add h _ _

theorem Filled.lt (h : Filled b) : b.xmin < b.xmax := by
  have h1 := h.len
  have h2 : (0 : ℝ) < nx * b.dx := mul_pos (by exact_mod_cast Nat.pos_of_ne_zero (NeZero.ne nx)) h.pos
  linarith

theorem gather_wrap (h : Filled b) (F : ZMod nx → ℝ) (x : ℝ) :
    gather b.shape b.dx b.xmin F (wrap b.xmin b.xmax x) = gather b.shape b.dx b.xmin F x := by
  obtain ⟨_, _, m, h3⟩ := Pic.wrap_range b.xmin b.xmax x h.lt
  rw [h3, h.len, show x - m * (nx * b.dx) = x + ((-m : ℤ) : ℝ) * (nx * b.dx) by push_cast; ring]
  exact Pic.gather_periodic _ _ _ h.pos.ne' _ _ _

theorem gather_moved (h : Filled b) (F : ZMod nx → ℝ) (m : ℤ) (x : ℝ) :
    gather b.shape b.dx b.xmin (fun g => F (g - (m : ZMod nx))) (x + m * b.dx) = gather b.shape b.dx b.xmin F x := by
  have h0 := h.pos.ne'
  rw [Pic.gather_eq, Pic.gather_eq]
  have : Pic.gridPos b.dx b.xmin (x + m * b.dx) = Pic.gridPos b.dx b.xmin x + m := by unfold Pic.gridPos; field_simp; ring
  rw [this, Pic.over_shift]
  congr 1
  funext i
  push_cast
  rw [add_sub_cancel_right]

theorem gather_mirrored (h : Filled b) (F : ZMod nx → ℝ) (x : ℝ) :
    gather b.shape b.dx b.xmin (fun g => F (-1 - g)) (b.xmin + b.xmax - x) = gather b.shape b.dx b.xmin F x := by
  have h0 := h.pos.ne'
  have hl : b.xmax = b.xmin + nx * b.dx := by linarith [h.len]
  rw [Pic.gather_eq, Pic.gather_eq]
  have : Pic.gridPos b.dx b.xmin (b.xmin + b.xmax - x) = -Pic.gridPos b.dx b.xmin x + ((nx - 1 : ℤ) : ℝ) := by
    rw [hl]
    unfold Pic.gridPos
    push_cast
    field_simp
    ring
  rw [this, Pic.over_shift, Pic.over_mirror]
  congr 1
  funext i
  push_cast
  rw [ZMod.natCast_self]
  congr 1
  ring

theorem sym_moved (h : Filled b) (m : ℤ) : Sym b (movedBox m b) (fun x => wrap b.xmin b.xmax (x + m * b.dx)) 1 (fun g => g - (m : ZMod nx)) where
  shape := rfl
  dx := rfl
  xmin := rfl
  xmax := rfl
  inj := fun x y e => sub_left_injective e
  gather F x := by
    rw [gather_wrap h]
    exact gather_moved h F m x
  static := rfl
  driver t := by simp [movedBox]
  poisson rho := by
    simp only [one_mul]
    exact VlasovShard.poisson_move b.dx (m : ZMod nx) rho
  wrap x d := by
    rw [wrap_wrap h.lt, wrap_wrap h.lt]
    congr 1
    ring

theorem sym_mirror (h : Filled b) : Sym b (mirrorBox b) (fun x => wrap b.xmin b.xmax (b.xmin + b.xmax - x)) (-1) (fun g => -1 - g) where
  shape := rfl
  dx := rfl
  xmin := rfl
  xmax := rfl
  inj := fun x y e => sub_right_injective e
  gather F x := by
    rw [gather_wrap h]
    exact gather_mirrored h F x
  static := rfl
  driver t := by
    funext g
    simp [mirrorBox]
  poisson rho := by
    have h1 := VlasovShard.poisson_move b.dx (-1 : ZMod nx) (VlasovShard.mirrorP rho)
    rw [VlasovShard.poisson_mirror] at h1
    have e : VlasovShard.moveP (-1 : ZMod nx) (VlasovShard.mirrorP rho) = fun g => rho (-1 - g) := by
      funext g
      show rho (-(g - -1)) = _
      congr 1
      ring
    rw [e] at h1
    rw [h1]
    funext g
    show -poisson b.dx rho (-(g - -1)) = -1 * poisson b.dx rho (-1 - g)
    rw [show -(g - -1) = -1 - g by ring]
    ring
  wrap x d := by
    rw [wrap_wrap h.lt]
    obtain ⟨_, _, m, h3⟩ := Pic.wrap_range b.xmin b.xmax (x + d) h.lt
    rw [h3, show b.xmin + b.xmax - (x + d - m * (b.xmax - b.xmin)) = b.xmin + b.xmax - x + -1 * d + m * (b.xmax - b.xmin) by ring]
    exact (wrap_add h.lt _ _).symm

theorem movedSp_eq (b : Box nx) (m : ℤ) : movedSp b m = carry (fun x => wrap b.xmin b.xmax (x + m * b.dx)) 1 := by
  funext s
  simp [movedSp, carry]

theorem mirrorSp_eq (b : Box nx) : mirrorSp b = carry (fun x => wrap b.xmin b.xmax (b.xmin + b.xmax - x)) (-1) := by
  funext s
  simp [mirrorSp, carry]

theorem snd_map (F : PSpecies → PSpecies) (named : List (String × PSpecies)) :
    (named.map fun s => (s.1, F s.2)).map Prod.snd = (named.map Prod.snd).map F := by
  rw [List.map_map, List.map_map]
  rfl

theorem rename_carried (F : PSpecies → PSpecies) (named : List (String × PSpecies)) (ss : List PSpecies) :
    rename (named.map fun s => (s.1, F s.2)) (ss.map F) = (rename named ss).map fun s => (s.1, F s.2) := by
  unfold rename
  rw [List.map_map]
  induction named generalizing ss with
  | nil => rfl
  | cons s l ih =>
    cases ss with
    | nil => rfl
    | cons u v =>
      simp only [List.map_cons, List.zip_cons_cons]
      exact congrArg _ (ih v)

/-- **C229.** The run of a moved electrostatic problem is the moved run. -/
theorem run_translation (h : Filled b) (m : ℤ) (sch : Scheme) (w : Solver) (t : ℝ) (y : PState nx) (n : ℕ) :
    picRun (movedBox m b) sch w none t (movedState b m y) n = movedState b m (picRun b sch w none t y n) := by
  induction n with
  | zero => rfl
  | succ n ih =>
    simp only [picRun]
    rw [ih]
    generalize picRun b sch w none t y n = z
    have key := push_cov (sym_moved h m) sch w.dt (t + n * w.dt) (a := none) (a' := none) (.inl ⟨rfl, rfl⟩) (z.named.map Prod.snd)
    rw [← movedSp_eq, ← snd_map] at key
    unfold picStep
    simp only [movedState, Option.map_none]
    rw [key]
    unfold carry3
    simp only [one_mul]
    rw [← movedSp_eq, rename_carried]
    rfl

/-- **C229.** A plasma that repeats itself every `m` cells in a box that does keeps doing so. -/
theorem run_period (h : Filled b) (hnx : 2 ≤ nx) (m : ℤ) (hb : movedBox m b = b) (sch : Scheme) (w : Solver) (t : ℝ) {y : PState nx}
    (hy : SameState y (movedState b m y)) (n : ℕ) : SameState (picRun b sch w none t y n) (movedState b m (picRun b sch w none t y n)) := by
  rw [← run_translation h, hb]
  exact (run_same b hnx sch w none t hy n).1

/-- `y'` is the mirror image of `y`; the vector potential has `nx + 2` points. -/
structure Mirrored (b : Box nx) (y y' : PState nx) : Prop where
  named : y'.named = (mirrorState b y).named
  e : y'.e = (mirrorState b y).e
  de : y'.de = (mirrorState b y).de
  a : ∀ i ≤ nx + 1, y'.a i = (mirrorState b y).a i
  prevA : ∀ i ≤ nx + 1, y'.prevA i = (mirrorState b y).prevA i

theorem pond_mirror (dx : ℝ) {a a' : ℕ → ℝ} (h : ∀ i ≤ nx + 1, a' i = mirrorA nx a i) :
    ponderomotive (nx := nx) dx a' = fun g => -1 * ponderomotive dx a (-1 - g) := by
  funext g
  have hg := ZMod.val_lt g
  unfold ponderomotive mirrorA at *
  rw [h _ (by omega), h _ (by omega), Vlasov2d.val_mirror, show nx + 1 - (g.val + 2) = nx - 1 - g.val by omega,
    show nx + 1 - g.val = nx - 1 - g.val + 2 by omega]
  ring

theorem electronCharge_mirror (h : Filled b) (named : List (String × PSpecies)) (g : ZMod nx) :
    electronCharge b.shape b.dx b.xmin (named.map fun s => (s.1, mirrorSp b s.2)) g = electronCharge b.shape b.dx b.xmin named (-1 - g) := by
  rw [electronCharge_eq, electronCharge_eq, electrons_map, mirrorSp_eq]
  exact chargeOf_cov (sym_mirror h) _ g

theorem wave_mirror (w : Solver) (hnx : 2 ≤ nx) {a a' o o' s s' d d' : ℕ → ℝ} (ha : ∀ i ≤ nx + 1, a' i = mirrorA nx a i)
    (ho : ∀ i ≤ nx + 1, o' i = mirrorA nx o i) (hs : ∀ i ≤ nx + 1, s' i = mirrorA nx s i) (hd : ∀ i < nx, d' i = d (nx - 1 - i)) :
    (∀ i ≤ nx + 1, (w.step nx a' o' s' d').1 i = mirrorA nx (w.step nx a o s d).1 i) ∧
      ∀ i ≤ nx + 1, (w.step nx a' o' s' d').2 i = mirrorA nx (w.step nx a o s d).2 i := by
  have k := step_congr w hnx ha ho hs (d := fun j => d (nx - 1 - j)) hd
  refine ⟨fun i hi => (k.1 i hi).trans (step_mirror w nx hnx a o s d i hi), fun i hi => (k.2 i hi).trans ?_⟩
  unfold Solver.step mirrorA
  split <;> rfl

/-- **C229.** The run of the mirror image, light waves included, is the mirror image of the run. -/
theorem run_reflection (h : Filled b) (hnx : 2 ≤ nx) (sch : Scheme) (w : Solver) (ey : Option (ℝ → ℕ → ℝ)) (t : ℝ) {y y' : PState nx}
    (hy : Mirrored b y y') (n : ℕ) :
    Mirrored b (picRun b sch w ey t y n) (picRun (mirrorBox b) sch w (ey.map fun src t => mirrorA nx (src t)) t y' n) := by
  induction n with
  | zero => exact hy
  | succ n ih =>
    simp only [picRun]
    revert ih
    generalize picRun b sch w ey t y n = z
    generalize picRun (mirrorBox b) sch w (ey.map fun src t => mirrorA nx (src t)) t y' n = z'
    intro ih
    have hl : LightRel b.dx (-1) (fun g : ZMod nx => -1 - g) (ey.map fun _ => z.a) ((ey.map fun src t => mirrorA nx (src t)).map fun _ => z'.a) := by
      cases ey with
      | none => exact .inl ⟨rfl, rfl⟩
      | some src => exact .inr ⟨z.a, z'.a, rfl, rfl, pond_mirror b.dx ih.a⟩
    have key := push_cov (sym_mirror h) sch w.dt (t + n * w.dt) hl (z.named.map Prod.snd)
    rw [← mirrorSp_eq, ← snd_map, show (z.named.map fun s => (s.1, mirrorSp b s.2)) = z'.named from ih.named.symm] at key
    have hn : rename z'.named (((push b sch w.dt (t + n * w.dt) (ey.map fun _ => z.a) (z.named.map Prod.snd)).1).map (mirrorSp b)) =
        (rename z.named (push b sch w.dt (t + n * w.dt) (ey.map fun _ => z.a) (z.named.map Prod.snd)).1).map fun s => (s.1, mirrorSp b s.2) := by
      rw [ih.named]
      exact rename_carried _ _ _
    have m1 : (picStep (mirrorBox b) sch w (ey.map fun src t => mirrorA nx (src t)) (t + n * w.dt) z').named =
        (rename z.named (push b sch w.dt (t + n * w.dt) (ey.map fun _ => z.a) (z.named.map Prod.snd)).1).map fun s => (s.1, mirrorSp b s.2) := by
      rw [picStep_named, key, ← hn]
      unfold carry3
      rw [← mirrorSp_eq]
    refine ⟨?_, ?_, ?_, ?_, ?_⟩
    · rw [m1]
      show _ = List.map _ (picStep b sch w ey (t + n * w.dt) z).named
      rw [picStep_named]
    · have e1 : (picStep (mirrorBox b) sch w (ey.map fun src t => mirrorA nx (src t)) (t + n * w.dt) z').e =
          (push (mirrorBox b) sch w.dt (t + n * w.dt) ((ey.map fun src t => mirrorA nx (src t)).map fun _ => z'.a) (z'.named.map Prod.snd)).2.1 := by
        cases ey <;> rfl
      have e2 : (picStep b sch w ey (t + n * w.dt) z).e = (push b sch w.dt (t + n * w.dt) (ey.map fun _ => z.a) (z.named.map Prod.snd)).2.1 := by
        cases ey <;> rfl
      rw [e1, key]
      funext g
      show -1 * _ = -(picStep b sch w ey (t + n * w.dt) z).e _
      rw [e2]
      ring
    · cases ey <;> rfl
    all_goals
      cases ey with
      | none => first | exact ih.a | exact ih.prevA
      | some src =>
        have d1 : ∀ g : ZMod nx, electronCharge b.shape b.dx b.xmin z'.named g = electronCharge b.shape b.dx b.xmin z.named (-1 - g) := fun g => by
          rw [ih.named]
          exact electronCharge_mirror h _ g
        simp only [picStep, Option.map] at key hn ⊢
        rw [key]
        simp only [carry3]
        rw [← mirrorSp_eq, hn]
        generalize rename z.named (push b sch w.dt (t + n * w.dt) (some z.a) (z.named.map Prod.snd)).1 = named
        have k := wave_mirror w hnx (s := src (t + n * w.dt + w.dt)) (s' := mirrorA nx (src (t + n * w.dt + w.dt)))
          (d := fun i : ℕ => -0.5 * (electronCharge (nx := nx) b.shape b.dx b.xmin z.named (i : ZMod nx) +
            electronCharge b.shape b.dx b.xmin named (i : ZMod nx)))
          (d' := fun i : ℕ => -0.5 * (electronCharge (nx := nx) b.shape b.dx b.xmin z'.named (i : ZMod nx) +
            electronCharge b.shape b.dx b.xmin (named.map fun s => (s.1, mirrorSp b s.2)) (i : ZMod nx))) ih.a ih.prevA (fun _ _ => rfl)
          fun i hi => by
            have : ((nx - 1 - i : ℕ) : ZMod nx) = -1 - (i : ZMod nx) := by
              rw [Nat.cast_sub (by omega), Nat.cast_sub (by omega), ZMod.natCast_self]
              push_cast
              ring
            rw [d1, electronCharge_mirror h, this]
        first
          | exact k.1
          | exact k.2

/-- **C229.** A plasma that equals its mirror image in a box that does keeps doing so. -/
theorem run_symmetric (h : Filled b) (hnx : 2 ≤ nx) (hb : mirrorBox b = b) (sch : Scheme) (w : Solver) (ey : Option (ℝ → ℕ → ℝ))
    (he : ∀ src ∈ ey, ∀ t, mirrorA nx (src t) = src t) (t : ℝ) {y : PState nx} (hy : SameState y (mirrorState b y)) (n : ℕ) :
    SameState (picRun b sch w ey t y n) (mirrorState b (picRun b sch w ey t y n)) := by
  have h1 := run_reflection h hnx sch w ey t (y := y) (y' := mirrorState b y) ⟨rfl, rfl, rfl, fun _ _ => rfl, fun _ _ => rfl⟩ n
  have h2 := (run_same b hnx sch w ey t hy n).1
  have e : (ey.map fun src t => mirrorA nx (src t)) = ey := by
    cases ey with
    | none => rfl
    | some src => exact congrArg some (funext fun t => he src rfl t)
  rw [hb, e] at h1
  refine ⟨?_, ?_, h1.e.symm.trans h2.e, h1.de.symm.trans h2.de, fun i hi => (h1.a i hi).symm.trans (h2.a i hi), fun i hi => (h1.prevA i hi).symm.trans (h2.prevA i hi)⟩
  · rw [← h1.named]
    exact h2.plasma
  · rw [← h1.named]
    exact h2.light

/-! ### Non-vacuity -/

/-- Four cells of unit length with a uniform background. -/
noncomputable def four : Box 4 := ⟨.tsc, 1, 0, 4, fun _ => 1 / 2, fun _ _ => 0⟩

theorem four_filled : Filled four := ⟨by norm_num [four], by norm_num [four]⟩

/-- Two electrons half a box apart, at the same velocity. -/
noncomputable def pair : PState 4 := ⟨[("electron", ⟨-1, 1, [⟨1 / 2, 3, 1⟩, ⟨5 / 2, 3, 1⟩]⟩)], 0, 0, 0, 0⟩

/-- Two electrons approaching each other symmetrically. -/
noncomputable def meeting : PState 4 := ⟨[("electron", ⟨-1, 1, [⟨1, 2, 1⟩, ⟨3, -2, 1⟩]⟩)], 0, 0, 0, 0⟩

theorem wrap_four (x : ℝ) (h0 : 0 ≤ x) (h1 : x < 4) : wrap 0 4 x = x ∧ wrap 0 4 (x + 4) = x := by
  refine ⟨?_, ?_⟩
  · have := Pic.wrap_id 0 4 x h0 h1 0
    simpa using this
  · have := Pic.wrap_id 0 4 x h0 h1 1
    simpa using this

example : Filled four ∧ movedBox 2 four = four ∧ SameState pair (movedState four 2 pair) := by
  have w1 : wrap 0 4 (1 / 2 + ((2 : ℤ) : ℝ) * 1) = 5 / 2 := by
    rw [show (1 / 2 + ((2 : ℤ) : ℝ) * 1) = 5 / 2 by norm_num]
    exact (wrap_four _ (by norm_num) (by norm_num)).1
  have w2 : wrap 0 4 (5 / 2 + ((2 : ℤ) : ℝ) * 1) = 1 / 2 := by
    rw [show (5 / 2 + ((2 : ℤ) : ℝ) * 1) = 1 / 2 + 4 by norm_num]
    exact (wrap_four _ (by norm_num) (by norm_num)).2
  have e : movedSp four 2 ⟨-1, 1, [⟨1 / 2, 3, 1⟩, ⟨5 / 2, 3, 1⟩]⟩ = ⟨-1, 1, [⟨5 / 2, 3, 1⟩, ⟨1 / 2, 3, 1⟩]⟩ := by
    simp only [movedSp, four, List.map_cons, List.map_nil, w1, w2]
  have p : SamePlasma [⟨-1, 1, [⟨1 / 2, 3, 1⟩, ⟨5 / 2, 3, 1⟩]⟩] [movedSp four 2 ⟨-1, 1, [⟨1 / 2, 3, 1⟩, ⟨5 / 2, 3, 1⟩]⟩] := by
    rw [e]
    exact same_marker_order (.cons ⟨rfl, rfl, List.Perm.swap _ _ _⟩ .nil)
  exact ⟨four_filled, rfl, p, p, rfl, rfl, fun _ _ => rfl, fun _ _ => rfl⟩

example : mirrorBox four = four ∧ SameState meeting (mirrorState four meeting) := by
  have hb : mirrorBox four = four := by
    unfold mirrorBox four
    simp
  have w1 : wrap 0 4 (0 + 4 - 1) = 3 := by
    rw [show (0 + 4 - 1 : ℝ) = 3 by norm_num]
    exact (wrap_four _ (by norm_num) (by norm_num)).1
  have w2 : wrap 0 4 (0 + 4 - 3) = 1 := by
    rw [show (0 + 4 - 3 : ℝ) = 1 by norm_num]
    exact (wrap_four _ (by norm_num) (by norm_num)).1
  have e : mirrorSp four ⟨-1, 1, [⟨1, 2, 1⟩, ⟨3, -2, 1⟩]⟩ = ⟨-1, 1, [⟨3, -2, 1⟩, ⟨1, 2, 1⟩]⟩ := by
    simp only [mirrorSp, four, List.map_cons, List.map_nil, w1, w2, neg_neg]
  have p : SamePlasma [⟨-1, 1, [⟨1, 2, 1⟩, ⟨3, -2, 1⟩]⟩] [mirrorSp four ⟨-1, 1, [⟨1, 2, 1⟩, ⟨3, -2, 1⟩]⟩] := by
    rw [e]
    exact same_marker_order (.cons ⟨rfl, rfl, List.Perm.swap _ _ _⟩ .nil)
  exact ⟨hb, p, p, by funext g; exact neg_zero, by funext g; exact neg_zero, fun _ _ => rfl, fun _ _ => rfl⟩

end Verif.PicSymmetry

import Verif.Props.Vfp2dFilter

/-!
VFP-2D: the kinetic-Ohm step (C86), heating gates and the collision adapter (C87), run set-up (C89).
-/
namespace Verif.Vfp2d
open Finset Complex Verif.Spectral
open scoped ComplexConjugate

/-! ### The Runge-Kutta scheme, independently of the model -/

/-- Classical fourth-order Runge-Kutta for `y' = F t y` where every stage is put back on a
constraint by `P`; `ax c k y` stands for `y + c k`. -/
noncomputable def rk4 {Y : Type*} (ax : ℝ → Y → Y → Y) (F : ℝ → Y → Y) (P : Y → Y) (t h : ℝ) (y : Y) : Y :=
  let k1 := F t y
  let k2 := F (t + h / 2) (P (ax (h / 2) k1 y))
  let k3 := F (t + h / 2) (P (ax (h / 2) k2 y))
  let k4 := F (t + h) (P (ax h k3 y))
  P (ax (h / 6) (ax 1 k4 (ax 2 k3 (ax 2 k2 k1))) y)

/-- The scheme integrates cubics in time exactly and is the fourth-order Taylor polynomial of the
exponential on a linear equation. -/
theorem rk4_order (t h y c0 c1 c2 c3 l : ℝ) :
    rk4 (fun c k y => y + c * k) (fun s _ => c0 + c1 * s + c2 * s ^ 2 + c3 * s ^ 3) id t h y
      = y + (c0 * (t + h) + c1 * (t + h) ^ 2 / 2 + c2 * (t + h) ^ 3 / 3 + c3 * (t + h) ^ 4 / 4)
        - (c0 * t + c1 * t ^ 2 / 2 + c2 * t ^ 3 / 3 + c3 * t ^ 4 / 4)
    ∧ rk4 (fun c k y => y + c * k) (fun _ y => l * y) id t h y
      = y * (1 + l * h + (l * h) ^ 2 / 2 + (l * h) ^ 3 / 6 + (l * h) ^ 4 / 24) := by
  constructor <;> simp only [rk4, id] <;> ring

section
variable {nx ny : ℕ} [NeZero nx] [NeZero ny]

/-- `y + c k` for distribution and magnetic field together. -/
def axpy (c : ℝ) (k y : Flm nx ny × Field nx ny) : Flm nx ny × Field nx ny :=
  (fun x z i j => y.1 x z i j + (c : ℂ) * k.1 x z i j, fun x z => (y.2 x z).add ((k.2 x z).smul c))

/-- What is applied to every stage: Ampère's current, then positivity. -/
noncomputable def OhmStep.constrain (S : OhmStep nx ny) (y : Flm nx ny × Field nx ny) : Flm nx ny × Field nx ny :=
  (S.o.positive? S.tiny S.positivity (S.o.projectTo S.tiny S.c2 y.1 y.2), y.2)

/-- The state a step starts its Runge-Kutta part from, and the one it ends it in. -/
noncomputable def OhmStep.start (S : OhmStep nx ny) (a : RunArgs nx ny) (t : ℝ) (s : State nx ny) : Flm nx ny × Field nx ny :=
  (S.o.projectTo S.tiny S.c2 (S.o.positive? S.tiny S.positivity (collideAt S.collide a t (S.dt / 2) s.f)) s.b, s.b)
noncomputable def OhmStep.advanced (S : OhmStep nx ny) (a : RunArgs nx ny) (t : ℝ) (s : State nx ny) : Flm nx ny × Field nx ny :=
  rk4 axpy (fun τ y => S.rates a τ y.1 y.2) S.constrain t S.dt (S.start a t s)

/-- C86: a step raises an error exactly when there is no `l = 1` harmonic; otherwise it is half a
step of collisions, one classical Runge-Kutta step of Faraday's law and the Vlasov equation with every
stage on the constraint, half a step of collisions at the end time, the filter, and the projection;
the field it returns is the Ohm law's, at the end time, of the state it returns. -/
theorem run_form (S : OhmStep nx ny) (a : RunArgs nx ny) (t : ℝ) (s : State nx ny) :
    (S.o.layout.lMax = 0 → S.run a t s = .error "ValueError")
    ∧ (1 ≤ S.o.layout.lMax → ∃ s', S.run a t s = .ok s'
      ∧ s'.b = S.filterB (S.advanced a t s).2
      ∧ s'.f = S.o.projectTo S.tiny S.c2 (S.o.positive? S.tiny S.positivity (S.filterF (S.o.positive? S.tiny S.positivity
          (collideAt S.collide a (t + S.dt) (S.dt / 2) (S.advanced a t s).1)))) s'.b
      ∧ s'.e = S.field a (t + S.dt) s'.f s'.b) := by
  constructor
  · intro h
    unfold OhmStep.run
    rw [index_invalid S.o.layout (l := 1) (m := 0) (by omega), if_pos (by norm_num)]
  · intro hl
    have h10 := index10 S.o.layout hl
    have hh : (0.5 * S.dt) = S.dt / 2 := by norm_num; ring
    have hc : ∀ (f : Flm nx ny) (b : Field nx ny) (r1 r2 r3 r4 : Flm nx ny × Field nx ny) (h : ℝ),
        S.stage f b (combine r1 r2 r3 r4) h = S.constrain (axpy h (axpy 1 r4 (axpy 2 r3 (axpy 2 r2 r1))) (f, b)) := by
      intro f b r1 r2 r3 r4 h
      have : combine r1 r2 r3 r4 = axpy 1 r4 (axpy 2 r3 (axpy 2 r2 r1)) := by
        unfold combine axpy
        refine Prod.ext ?_ ?_
        · funext x y i j; push_cast; ring
        · funext x y; ext <;> simp only [Vec.add, Vec.smul] <;> ring
      rw [this]
      rfl
    have hst : ∀ (f : Flm nx ny) (b : Field nx ny) (r : Flm nx ny × Field nx ny) (h : ℝ), S.stage f b r h = S.constrain (axpy h r (f, b)) :=
      fun _ _ _ _ => rfl
    unfold OhmStep.run
    rw [if_neg (by omega)]
    simp only [hc, hh, hst]
    refine ⟨_, rfl, ?_⟩
    unfold OhmStep.advanced rk4 OhmStep.start
    exact ⟨rfl, rfl, rfl⟩

/-! ### What the projection and the limiter leave alone -/

theorem core_iso (o : Op) (tiny : ℝ) (hl : 1 ≤ o.layout.lMax) (f : Local) (w : Vec) (j : ℕ) :
    o.projectCore tiny f w (o.layout.index 0 0).toNat j = f (o.layout.index 0 0).toNat j := by
  have h10 := index10 o.layout hl
  unfold Op.projectCore
  dsimp only
  rw [if_neg h10.2.symm, if_neg]
  · simp
  · rintro ⟨h, h'⟩
    have hm : 1 ≤ o.layout.mMax := by
      by_contra hm
      rw [index11_neg o.layout (by omega)] at h
      norm_num at h
    exact (index11 o.layout hl hm).2.1 h'.symm

theorem core_response (o : Op) (tiny : ℝ) (hl : 1 ≤ o.layout.lMax) (f : Local) (w : Vec) : o.response (o.projectCore tiny f w) = o.response f := by
  unfold Op.response
  simp only [core_iso o tiny hl]

theorem core_density (o : Op) (tiny : ℝ) (hl : 1 ≤ o.layout.lMax) (f : Local) (w : Vec) : o.density (o.projectCore tiny f w) = o.density f := by
  unfold Op.density
  simp only [core_iso o tiny hl]

/-- C86: wherever the response of the isotropic part is a normal number, the state a step returns
carries exactly the current of Ampère's law for the magnetic field it returns, and its electric field
is the Ohm law's for that current. -/
theorem run_current (S : OhmStep nx ny) (ht : 0 < S.tiny) (hl : 1 ≤ S.o.layout.lMax) (hm : 1 ≤ S.o.layout.mMax) (a : RunArgs nx ny) (t : ℝ)
    (s s' : State nx ny) (h : S.run a t s = .ok s') (hr : ∀ x y, S.tiny ≤ S.o.response (s'.f x y)) :
    (∀ x y, S.o.current (-1) S.o.v (s'.f x y) = (curl S.o.dX S.o.dY s'.b x y).smul S.c2)
    ∧ s'.e = (ohmTerms S.o S.tiny S.eta s'.f s'.b (fun x y => S.o.current (-1) S.o.v (s'.f x y)) (hiddenAt a (t + S.dt))).total := by
  obtain ⟨s'', h1, hb, hf, he⟩ := (run_form S a t s).2 hl
  obtain rfl : s'' = s' := by rw [h1] at h; exact Except.ok.inj h
  have key : ∀ x y, S.o.current (-1) S.o.v (s''.f x y) = (curl S.o.dX S.o.dY s''.b x y).smul S.c2 := by
    intro x y
    have hr' := hr x y
    rw [hf] at hr' ⊢
    unfold Op.projectTo at hr' ⊢
    rw [core_response _ _ hl] at hr'
    obtain ⟨g, hg, hc, -⟩ := (project_spec S.o S.tiny ht _ ((curl S.o.dX S.o.dY s''.b x y).smul S.c2)).2 hl
    unfold Op.project at hg
    rw [if_neg (by have := index10 S.o.layout hl; omega)] at hg
    rw [Except.ok.inj hg]
    exact hc hm hr'
  refine ⟨key, ?_⟩
  rw [he]
  unfold OhmStep.field
  have : (fun x y => S.o.current (-1) S.o.v (s''.f x y)) = fun x y => (curl S.o.dX S.o.dY s''.b x y).smul S.c2 := by
    funext x y; exact key x y
  rw [this]

/-- C86: with positivity asked for, the isotropic distribution a step returns is real and nonnegative
everywhere. -/
theorem run_positive (S : OhmStep nx ny) (ht : 0 < S.tiny) (hdv : 0 ≤ S.o.dv) (hl : 1 ≤ S.o.layout.lMax) (hp : S.positivity = true) (a : RunArgs nx ny)
    (t : ℝ) (s s' : State nx ny) (h : S.run a t s = .ok s') (x : ZMod nx) (y : ZMod ny) (j : ℕ) :
    0 ≤ (s'.f x y (S.o.layout.index 0 0).toNat j).re ∧ (s'.f x y (S.o.layout.index 0 0).toNat j).im = 0 := by
  obtain ⟨s'', h1, hb, hf, he⟩ := (run_form S a t s).2 hl
  obtain rfl : s'' = s' := by rw [h1] at h; exact Except.ok.inj h
  rw [hf]
  unfold Op.projectTo
  rw [core_iso _ _ hl]
  unfold Op.positive?
  rw [if_pos hp]
  exact (positive_spec S.o hdv S.tiny ht _).1 j

/-! ### Divergence of the magnetic field -/

theorem rates_div (S : OhmStep nx ny) (a : RunArgs nx ny) (t : ℝ) (y : Flm nx ny × Field nx ny) (x : ZMod nx) (z : ZMod ny) :
    divergence S.o.dX S.o.dY (S.rates a t y.1 y.2).2 x z = 0 := by
  unfold OhmStep.rates
  exact magnetic_divergence _ _ _ _ _

theorem axpy_div (dX dY : Deriv) (c : ℝ) (k y : Flm nx ny × Field nx ny) (x : ZMod nx) (z : ZMod ny) :
    divergence dX dY (axpy c k y).2 x z = divergence dX dY y.2 x z + c * divergence dX dY k.2 x z := by
  unfold axpy
  rw [div_add, div_smul]

theorem advanced_div (S : OhmStep nx ny) (a : RunArgs nx ny) (t : ℝ) (s : State nx ny) (x : ZMod nx) (y : ZMod ny) :
    divergence S.o.dX S.o.dY (S.advanced a t s).2 x y = divergence S.o.dX S.o.dY s.b x y := by
  unfold OhmStep.advanced rk4
  dsimp only
  have hP : ∀ y : Flm nx ny × Field nx ny, (S.constrain y).2 = y.2 := fun _ => rfl
  rw [hP, axpy_div, axpy_div, axpy_div, axpy_div, rates_div, rates_div, rates_div, rates_div]
  simp [OhmStep.start]

/-- C86: a step without filter leaves the divergence of the magnetic field exactly as it was, and with
the Hou-Li filter the divergence is filtered: a magnetic field without divergence keeps none. -/
theorem run_div (S : OhmStep nx ny) (hl : 1 ≤ S.o.layout.lMax) (a : RunArgs nx ny) (t : ℝ) (s s' : State nx ny) (h : S.run a t s = .ok s') :
    (S.filter = none → divergence S.o.dX S.o.dY s'.b = divergence S.o.dX S.o.dY s.b)
    ∧ ∀ alpha order dims, 0 ≤ alpha → 1 ≤ order → S.filter = some (houLi2D alpha order dims) →
      divergence S.o.dX S.o.dY s'.b = filterR alpha order dims (divergence S.o.dX S.o.dY s.b)
      ∧ ((∀ x y, divergence S.o.dX S.o.dY s.b x y = 0) → ∀ x y, divergence S.o.dX S.o.dY s'.b x y = 0) := by
  obtain ⟨s'', h1, hb, -, -⟩ := (run_form S a t s).2 hl
  obtain rfl : s'' = s' := by rw [h1] at h; exact Except.ok.inj h
  constructor
  · intro hF
    funext x y
    rw [hb]
    unfold OhmStep.filterB
    rw [hF]
    exact advanced_div S a t s x y
  · intro alpha order dims ha ho hF
    have key : divergence S.o.dX S.o.dY s''.b = filterR alpha order dims (divergence S.o.dX S.o.dY s.b) := by
      have h2 : divergence S.o.dX S.o.dY (S.advanced a t s).2 = divergence S.o.dX S.o.dY s.b := by
        funext x y; exact advanced_div S a t s x y
      rw [← h2, ← filter_divergence alpha ha order ho dims, hb]
      unfold OhmStep.filterB
      rw [hF]
      rfl
    refine ⟨key, fun h0 x y => ?_⟩
    have : divergence S.o.dX S.o.dY s.b = fun _ _ => 0 := by funext x y; exact h0 x y
    rw [key, this, filterR_zero]

/-! ### Equilibrium -/

/-- A filter that leaves uniform arrays alone. -/
def KeepsConstants (F : Option ((ZMod nx → ZMod ny → ℂ) → ZMod nx → ZMod ny → ℂ)) : Prop := ∀ G, F = some G → ∀ c : ℂ, G (fun _ _ => c) = fun _ _ => c

/-- C86: a uniform isotropic plasma in a uniform magnetic field, at rest under its collisions and
without hidden gradient, is returned by a step as it was, with no electric field: whatever the field
stored before. -/
theorem run_equilibrium (S : OhmStep nx ny) (ht : 0 < S.tiny) (hdv : 0 ≤ S.o.dv) (hl : 1 ≤ S.o.layout.lMax) (hF : KeepsConstants S.filter) (a : RunArgs nx ny)
    (ha : a.hidden = none) (t : ℝ) (f0 : ℕ → ℝ) (hpos : ∀ j, 0 ≤ f0 j) (e : Field nx ny) (b0 : Vec) :
    let f : Flm nx ny := fun _ _ k j => if k = (S.o.layout.index 0 0).toNat then (f0 j : ℂ) else 0
    (∀ τ h, collideAt S.collide a τ h f = f) → (∀ x y, S.tiny < S.o.density (f x y)) →
    S.run a t ⟨f, e, fun _ _ => b0⟩ = .ok ⟨f, fun _ _ => ⟨0, 0, 0⟩, fun _ _ => b0⟩ := by
  intro f hc hn
  obtain ⟨B, hB⟩ : ∃ B : Field nx ny, B = fun _ _ => b0 := ⟨_, rfl⟩
  have hiso : ∀ x y, Isotropic S.o.layout (f x y) := by
    intro x y i j hi
    simp only [f, if_neg hi]
  have hcurl : ∀ x y, curl S.o.dX S.o.dY B x y = ⟨0, 0, 0⟩ := by
    intro x y
    have z1 : ∀ (D : Deriv) (c : ℝ) (i : ZMod nx), D.applyR (fun _ => c) i = 0 := fun D c i => applyR_const D c i
    have z2 : ∀ (D : Deriv) (c : ℝ) (i : ZMod ny), D.applyR (fun _ => c) i = 0 := fun D c i => applyR_const D c i
    rw [hB]
    ext <;> simp [curl, ddx, ddy, z1, z2]
  have hcurl0 : ∀ x y, curl S.o.dX S.o.dY (fun (_ : ZMod nx) (_ : ZMod ny) => (⟨0, 0, 0⟩ : Vec)) x y = ⟨0, 0, 0⟩ := by
    intro x y
    have z1 : ∀ (D : Deriv) (c : ℝ) (i : ZMod nx), D.applyR (fun _ => c) i = 0 := fun D c i => applyR_const D c i
    have z2 : ∀ (D : Deriv) (c : ℝ) (i : ZMod ny), D.applyR (fun _ => c) i = 0 := fun D c i => applyR_const D c i
    ext <;> simp [curl, ddx, ddy, z1, z2]
  have hproj : S.o.projectTo S.tiny S.c2 f B = f := by
    funext x y
    unfold Op.projectTo
    obtain ⟨g, hg, -, -, -, -, hid⟩ := (project_spec S.o S.tiny ht (f x y) ((curl S.o.dX S.o.dY B x y).smul S.c2)).2 hl
    unfold Op.project at hg
    rw [if_neg (by have := index10 S.o.layout hl; omega)] at hg
    rw [Except.ok.inj hg]
    refine hid ?_
    rw [hcurl]
    unfold Op.current
    rw [isotropic_vector S.o (f x y) (hiso x y)]
    simp [Vec.smul]
  have hposi : S.o.positive? S.tiny S.positivity f = f := by
    unfold Op.positive?
    split
    · funext x y
      refine (positive_shape S.o hdv S.tiny ht (f x y)).2 (hn x y) fun j => ?_
      simp only [f, if_true, ofReal_re, ofReal_im]
      exact ⟨hpos j, trivial⟩
    · rfl
  have hfield : ∀ τ, S.field a τ f B = fun _ _ => ⟨0, 0, 0⟩ := by
    intro τ
    funext x y
    unfold OhmStep.field
    have h1 : (fun x y => (curl S.o.dX S.o.dY B x y).smul S.c2) = fun (_ : ZMod nx) (_ : ZMod ny) => (⟨0, 0, 0⟩ : Vec) := by
      funext x y; rw [hcurl]; simp [Vec.smul]
    have h2 : hiddenAt a τ = fun _ _ => 0 := by unfold hiddenAt; rw [ha]
    rw [h1, h2]
    have := ohm_isotropic S.o S.tiny S.eta (f x y) (hiso x y) B (fun _ _ => 0) x y
    rw [show f = fun (_ : ZMod nx) (_ : ZMod ny) => f x y from rfl, this]
    simp
  have hrates : ∀ τ, S.rates a τ f B = (fun _ _ _ _ => 0, fun _ _ => ⟨0, 0, 0⟩) := by
    intro τ
    unfold OhmStep.rates
    simp only [hproj, hfield]
    refine Prod.ext ?_ ?_
    · funext x y i j
      have h2 : hiddenAt a τ = fun _ _ => 0 := by unfold hiddenAt; rw [ha]
      have h3 : (fun (x : ZMod nx) (y : ZMod ny) (i j : ℕ) => ((hiddenAt a τ x y : ℝ) : ℂ) * f x y i j / (max (S.o.density (f x y)) S.tiny : ℝ)) = noZ := by
        funext x y i j; rw [h2]; simp [noZ]
      have h4 := rate_equilibrium S.o f0 B x y i j
      simp only
      rw [h3]
      exact h4
    · funext x y
      simp only [dbdt]
      rw [hcurl0]
      simp [Vec.smul]
  have hax : ∀ c, axpy c (fun _ _ _ _ => 0, fun _ _ => ⟨0, 0, 0⟩) (f, B) = (f, B) := by
    intro c
    unfold axpy
    refine Prod.ext ?_ ?_
    · funext x y i j; simp
    · funext x y; ext <;> simp [Vec.add, Vec.smul]
  have hax0 : ∀ c, axpy (nx := nx) (ny := ny) c (fun _ _ _ _ => 0, fun _ _ => ⟨0, 0, 0⟩) (fun _ _ _ _ => 0, fun _ _ => ⟨0, 0, 0⟩)
      = (fun _ _ _ _ => 0, fun _ _ => ⟨0, 0, 0⟩) := by
    intro c
    unfold axpy
    refine Prod.ext ?_ ?_
    · funext x y i j; simp
    · funext x y; ext <;> simp [Vec.add, Vec.smul]
  have hcon : S.constrain (f, B) = (f, B) := by
    unfold OhmStep.constrain
    simp only [hproj, hposi]
  have hstart : S.start a t ⟨f, e, B⟩ = (f, B) := by
    unfold OhmStep.start
    simp only [hc, hposi, hproj]
  have hadv : S.advanced a t ⟨f, e, B⟩ = (f, B) := by
    unfold OhmStep.advanced rk4
    simp only [hstart, hrates, hax, hcon, hax0]
  obtain ⟨s', h1, hb, hf, he⟩ := (run_form S a t ⟨f, e, B⟩).2 hl
  rw [hadv] at hb hf
  have hfB : S.filterB B = B := by
    unfold OhmStep.filterB
    split
    · rfl
    · next G hG =>
      have := hF G hG
      rw [hB]
      funext x y
      simp only [this, ofReal_re]
  have hfF : S.filterF f = f := by
    unfold OhmStep.filterF
    split
    · rfl
    · next G hG =>
      have := hF G hG
      funext x y i j
      exact congrFun (congrFun (this _) x) y
  rw [hfB] at hb
  simp only [hc, hposi, hfF, hb, hproj] at hf
  rw [hf, hb, hfield] at he
  rw [← hB, h1]
  congr 1
  cases s'
  simp only at hb hf he
  rw [hb, hf, he]

/-! ### Number of electrons -/

theorem core_real (o : Op) (tiny : ℝ) (hl : 1 ≤ o.layout.lMax) (f : Local) (w : Vec) (j : ℕ) (hr : RealZero o.layout fun k => f k j) :
    RealZero o.layout fun k => o.projectCore tiny f w k j := by
  intro l
  by_cases h : l ≤ o.layout.lMax
  · have hi := index_valid o.layout (l := l) (m := 0) (by omega)
    have h1 := hr l
    unfold Layout.get at h1 ⊢
    rw [show o.layout.index l 0 = _ from hi.1, if_pos (by positivity), Int.toNat_natCast] at h1 ⊢
    have hne : ¬ (0 ≤ o.layout.index 1 1 ∧ o.layout.pairs.idxOf (l, 0) = (o.layout.index 1 1).toNat) := by
      rintro ⟨h11, he⟩
      have hm : 1 ≤ o.layout.mMax := by
        by_contra hm
        rw [index11_neg o.layout (by omega)] at h11
        norm_num at h11
      have h11' := index_valid o.layout (l := 1) (m := 1) (by omega)
      rw [show o.layout.index 1 1 = _ from h11'.1, Int.toNat_natCast] at he
      have := hi.2.2
      rw [he, h11'.2.2] at this
      simp at this
    unfold Op.projectCore
    dsimp only
    rw [if_neg hne, add_zero, add_im, h1]
    split <;> simp
  · rw [get_invalid o.layout _ (by omega)]; rfl

/-- The electrons that an acceleration moves over the top of the speed grid, in the box. -/
noncomputable def topLoss (S : OhmStep nx ny) (a : RunArgs nx ny) (τ : ℝ) (y : Flm nx ny × Field nx ny) : ℝ :=
  ∑ x, ∑ z, S.o.density (S.o.electric (S.o.projectTo S.tiny S.c2 y.1 y.2 x z) (S.field a τ (S.o.projectTo S.tiny S.c2 y.1 y.2) y.2 x z))

theorem rates_number (S : OhmStep nx ny) (a : RunArgs nx ny) (ha : a.hidden = none) (τ : ℝ) (y : Flm nx ny × Field nx ny) :
    ∑ x, ∑ z, S.o.density ((S.rates a τ y.1 y.2).1 x z) = topLoss S a τ y := by
  have h2 : hiddenAt a τ = fun _ _ => 0 := by unfold hiddenAt; rw [ha]
  have h3 : ∀ g : Flm nx ny, (fun (x : ZMod nx) (z : ZMod ny) (i j : ℕ) => ((hiddenAt a τ x z : ℝ) : ℂ) * g x z i j / (max (S.o.density (g x z)) S.tiny : ℝ)) = noZ := by
    intro g; funext x z i j; rw [h2]; simp [noZ]
  have h4 : (S.rates a τ y.1 y.2).1 = S.o.rate (S.o.projectTo S.tiny S.c2 y.1 y.2) (S.field a τ (S.o.projectTo S.tiny S.c2 y.1 y.2) y.2) y.2 noZ := by
    unfold OhmStep.rates
    simp only [h3]
  rw [h4]
  simp only [rate_density, sum_add_distrib]
  rw [streaming_number, zero_add]
  rfl

theorem rates_real0 (S : OhmStep nx ny) (a : RunArgs nx ny) (τ : ℝ) (y : Flm nx ny × Field nx ny) (x : ZMod nx) (z : ZMod ny) (j : ℕ) :
    RealZero S.o.layout fun k => (S.rates a τ y.1 y.2).1 x z k j := by
  unfold OhmStep.rates
  exact rate_real _ _ _ _ _ _ _ _

theorem axpy_number (o : Op) (c : ℝ) (k y : Flm nx ny × Field nx ny) :
    ∑ x, ∑ z, o.density ((axpy c k y).1 x z) = ∑ x, ∑ z, o.density (y.1 x z) + c * ∑ x, ∑ z, o.density (k.1 x z) := by
  have : ∀ x z, o.density ((axpy c k y).1 x z) = o.density (y.1 x z) + c * o.density (k.1 x z) := by
    intro x z
    unfold axpy
    rw [density_add, density_smul]
  simp only [this, sum_add_distrib, mul_sum]

/-- C86: without the positivity limiter and hidden gradient, with collisions that keep the density
and no filter or the Hou-Li filter, the number of electrons in the box changes over a step only by
what is accelerated over the top of the speed grid in the four stages, with the Runge-Kutta weights. -/
theorem run_number (S : OhmStep nx ny) (hl : 1 ≤ S.o.layout.lMax) (hp : S.positivity = false)
    (hF : S.filter = none ∨ ∃ alpha order dims, 0 ≤ alpha ∧ 1 ≤ order ∧ S.filter = some (houLi2D alpha order dims))
    (hc : Conserving S.o S.collide) (a : RunArgs nx ny) (ha : a.hidden = none) (t : ℝ) (s s' : State nx ny)
    (hr : ∀ x y j, RealZero S.o.layout fun k => s.f x y k j) (h : S.run a t s = .ok s') :
    ∃ y1 y2 y3 y4 : Flm nx ny × Field nx ny, y1 = S.start a t s ∧
      ∑ x, ∑ y, S.o.density (s'.f x y) = ∑ x, ∑ y, S.o.density (s.f x y)
        + S.dt / 6 * (topLoss S a t y1 + 2 * topLoss S a (t + S.dt / 2) y2 + 2 * topLoss S a (t + S.dt / 2) y3 + topLoss S a (t + S.dt) y4) := by
  obtain ⟨s'', h1, hb, hf, -⟩ := (run_form S a t s).2 hl
  obtain rfl : s'' = s' := by rw [h1] at h; exact Except.ok.inj h
  have hp' : ∀ g : Flm nx ny, S.o.positive? S.tiny S.positivity g = g := by
    intro g; unfold Op.positive?; rw [hp]; rfl
  have hcon : ∀ y : Flm nx ny × Field nx ny, S.constrain y = (S.o.projectTo S.tiny S.c2 y.1 y.2, y.2) := by
    intro y; unfold OhmStep.constrain; rw [hp']
  have c1 := collide_density S.o S.collide hc a t (S.dt / 2) s.f hr
  have hpd : ∀ (g : Flm nx ny) (b : Field nx ny) x y, S.o.density (S.o.projectTo S.tiny S.c2 g b x y) = S.o.density (g x y) := by
    intro g b x y; unfold Op.projectTo; exact core_density _ _ hl _ _
  have hpr : ∀ (g : Flm nx ny) (b : Field nx ny), (∀ x y j, RealZero S.o.layout fun k => g x y k j) →
      ∀ x y j, RealZero S.o.layout fun k => S.o.projectTo S.tiny S.c2 g b x y k j := by
    intro g b hg x y j; unfold Op.projectTo; exact core_real _ _ hl _ _ _ (hg x y j)
  have s0n : ∀ x y, S.o.density ((S.start a t s).1 x y) = S.o.density (s.f x y) := by
    intro x y
    unfold OhmStep.start
    simp only [hp']
    rw [hpd]
    exact c1.1 x y
  have s0r : ∀ x y j, RealZero S.o.layout fun k => (S.start a t s).1 x y k j := by
    unfold OhmStep.start
    simp only [hp']
    exact hpr _ _ c1.2
  obtain ⟨y1, hy1⟩ : ∃ y, y = S.start a t s := ⟨_, rfl⟩
  obtain ⟨k1, hk1⟩ : ∃ k, k = S.rates a t y1.1 y1.2 := ⟨_, rfl⟩
  obtain ⟨y2, hy2⟩ : ∃ y, y = S.constrain (axpy (S.dt / 2) k1 y1) := ⟨_, rfl⟩
  obtain ⟨k2, hk2⟩ : ∃ k, k = S.rates a (t + S.dt / 2) y2.1 y2.2 := ⟨_, rfl⟩
  obtain ⟨y3, hy3⟩ : ∃ y, y = S.constrain (axpy (S.dt / 2) k2 y1) := ⟨_, rfl⟩
  obtain ⟨k3, hk3⟩ : ∃ k, k = S.rates a (t + S.dt / 2) y3.1 y3.2 := ⟨_, rfl⟩
  obtain ⟨y4, hy4⟩ : ∃ y, y = S.constrain (axpy S.dt k3 y1) := ⟨_, rfl⟩
  obtain ⟨k4, hk4⟩ : ∃ k, k = S.rates a (t + S.dt) y4.1 y4.2 := ⟨_, rfl⟩
  have hadv : S.advanced a t s = S.constrain (axpy (S.dt / 6) (axpy 1 k4 (axpy 2 k3 (axpy 2 k2 k1))) y1) := by
    rw [hk4, hy4, hk3, hy3, hk2, hy2, hk1, hy1]; rfl
  have hadvr : ∀ x y j, RealZero S.o.layout fun k => (S.advanced a t s).1 x y k j := by
    rw [hadv, hcon]
    refine hpr _ _ fun x y j => ?_
    have r1 : RealZero S.o.layout fun k => k1.1 x y k j := by rw [hk1]; exact rates_real0 S a _ _ x y j
    have r2 : RealZero S.o.layout fun k => k2.1 x y k j := by rw [hk2]; exact rates_real0 S a _ _ x y j
    have r3 : RealZero S.o.layout fun k => k3.1 x y k j := by rw [hk3]; exact rates_real0 S a _ _ x y j
    have r4 : RealZero S.o.layout fun k => k4.1 x y k j := by rw [hk4]; exact rates_real0 S a _ _ x y j
    have ry : RealZero S.o.layout fun k => y1.1 x y k j := by rw [hy1]; exact s0r x y j
    unfold axpy
    exact realZero_add _ _ _ _ ry (realZero_add _ _ _ _ (realZero_add _ _ _ _ (realZero_add _ _ _ _ r1 r2) r3) r4)
  have c2 := collide_density S.o S.collide hc a (t + S.dt) (S.dt / 2) (S.advanced a t s).1 hadvr
  have hfilt : ∀ g : Flm nx ny, ∑ x, ∑ y, S.o.density (S.filterF g x y) = ∑ x, ∑ y, S.o.density (g x y) := by
    intro g
    rcases hF with hF | ⟨alpha, order, dims, h0, h1, hF⟩
    · have : S.filterF g = g := by unfold OhmStep.filterF; rw [hF]
      rw [this]
    · have e1 : ∀ x y, S.o.density (S.filterF g x y) = 4 * Real.pi * (∑ j ∈ range S.o.nv, (houLi2D alpha order dims (fun x y => g x y (S.o.layout.index 0 0).toNat j) x y).re * S.o.v j ^ 2) * S.o.dv := by
        intro x y; unfold OhmStep.filterF; rw [hF]; rfl
      have e2 : ∀ G : ZMod nx → ZMod ny → ℕ → ℂ, ∑ x, ∑ y, 4 * Real.pi * (∑ j ∈ range S.o.nv, (G x y j).re * S.o.v j ^ 2) * S.o.dv
          = 4 * Real.pi * (∑ j ∈ range S.o.nv, (∑ x, ∑ y, G x y j).re * S.o.v j ^ 2) * S.o.dv := by
        intro G
        have : ∀ x, ∑ y, 4 * Real.pi * (∑ j ∈ range S.o.nv, (G x y j).re * S.o.v j ^ 2) * S.o.dv
            = 4 * Real.pi * (∑ j ∈ range S.o.nv, (∑ y, G x y j).re * S.o.v j ^ 2) * S.o.dv := by
          intro x
          rw [← sum_mul, ← mul_sum, sum_comm]
          congr 2
          exact sum_congr rfl fun j _ => by rw [re_sum, sum_mul]
        simp only [this]
        rw [← sum_mul, ← mul_sum, sum_comm]
        congr 2
        exact sum_congr rfl fun j _ => by rw [re_sum, sum_mul]
      simp only [e1]
      rw [e2 fun x y j => houLi2D alpha order dims (fun x y => g x y (S.o.layout.index 0 0).toNat j) x y]
      have e3 : ∀ j, ∑ x, ∑ y, houLi2D alpha order dims (fun x y => g x y (S.o.layout.index 0 0).toNat j) x y = ∑ x, ∑ y, g x y (S.o.layout.index 0 0).toNat j :=
        fun j => (houLi2D_spec (nx := nx) (ny := ny) alpha h0 order h1 dims).2.1 _
      simp only [e3]
      rw [← e2]
      rfl
  refine ⟨y1, y2, y3, y4, hy1, ?_⟩
  have f1 : ∑ x, ∑ y, S.o.density (s''.f x y) = ∑ x, ∑ y, S.o.density ((S.advanced a t s).1 x y) := by
    rw [hf]
    simp only [hp', hpd]
    rw [hfilt]
    simp only [c2.1]
  have f2 : ∑ x, ∑ y, S.o.density (y1.1 x y) = ∑ x, ∑ y, S.o.density (s.f x y) := by rw [hy1]; simp only [s0n]
  rw [f1, hadv, hcon]
  simp only [hpd]
  rw [axpy_number, axpy_number, axpy_number, axpy_number, f2, hk1, hk2, hk3, hk4, rates_number S a ha, rates_number S a ha, rates_number S a ha, rates_number S a ha]
  ring

/-! ### Heating gates and the collision adapter (C87) -/

theorem tanh_bounds (u : ℝ) : -1 < Real.tanh u ∧ Real.tanh u < 1 := ⟨Real.neg_one_lt_tanh u, Real.tanh_lt_one u⟩

/-- C87: the gate is 1 without switch times, lies in `[0, 1]` always, and without a width it is
exactly the window from the time on (included) to the time off (excluded). -/
theorem gate_spec (tOn tOff : Option ℝ) (width t : ℝ) :
    (0 ≤ ibGate tOn tOff width t ∧ ibGate tOn tOff width t ≤ 1)
    ∧ ibGate none none width t = 1
    ∧ (width ≤ 0 → ibGate tOn tOff width t = if (∀ a ∈ tOn, a ≤ t) ∧ (∀ a ∈ tOff, t < a) then 1 else 0) := by
  refine ⟨?_, by simp [ibGate], ?_⟩
  · have h : ∀ p q : ℝ, (0 ≤ p ∧ p ≤ 1) → (0 ≤ q ∧ q ≤ 1) → 0 ≤ p * q ∧ p * q ≤ 1 := fun p q hp hq =>
      ⟨mul_nonneg hp.1 hq.1, mul_le_one₀ hp.2 hq.1 hq.2⟩
    unfold ibGate
    refine h _ _ ?_ ?_
    · cases tOn with
      | none => norm_num
      | some a =>
        have := tanh_bounds ((t - a) / max width 1e-30)
        dsimp only
        split_ifs
        · constructor <;> nlinarith [this.1, this.2]
        · norm_num
        · norm_num
    · cases tOff with
      | none => norm_num
      | some a =>
        have := tanh_bounds ((t - a) / max width 1e-30)
        dsimp only
        split_ifs
        · constructor <;> nlinarith [this.1, this.2]
        · norm_num
        · norm_num
  · intro hw
    unfold ibGate
    cases tOn <;> cases tOff <;> simp [not_lt.2 hw, ite_and]
    split_ifs <;> rfl

/-- C87: a smooth switch passes one half at the switch time and is monotone: the heating is turned on
and off once. -/
theorem gate_smooth (a width : ℝ) (hw : 0 < width) :
    ibGate (some a) none width a = 1 / 2 ∧ ibGate none (some a) width a = 1 / 2
    ∧ StrictMono (ibGate (some a) none width) ∧ StrictAnti (ibGate none (some a) width)
    ∧ ∀ t, ibGate (some a) none width t + ibGate none (some a) width t = 1 := by
  have hm : 0 < max width 1e-30 := lt_max_of_lt_left hw
  have h1 : ∀ t, ibGate (some a) none width t = 0.5 * (1 + Real.tanh ((t - a) / max width 1e-30)) := by
    intro t; unfold ibGate; simp only [gt_iff_lt, if_pos hw, mul_one]
  have h2 : ∀ t, ibGate none (some a) width t = 0.5 * (1 - Real.tanh ((t - a) / max width 1e-30)) := by
    intro t; unfold ibGate; simp only [gt_iff_lt, if_pos hw, one_mul]
  have hmono : ∀ s t, s < t → Real.tanh ((s - a) / max width 1e-30) < Real.tanh ((t - a) / max width 1e-30) := by
    intro s t hst
    have hst' : (s - a) / max width 1e-30 < (t - a) / max width 1e-30 := div_lt_div_of_pos_right (by linarith) hm
    obtain ⟨u, hu⟩ : ∃ u, u = (s - a) / max width 1e-30 := ⟨_, rfl⟩
    obtain ⟨w, hw'⟩ : ∃ w, w = (t - a) / max width 1e-30 := ⟨_, rfl⟩
    rw [← hu, ← hw'] at hst' ⊢
    rw [Real.tanh_eq_sinh_div_cosh, Real.tanh_eq_sinh_div_cosh, div_lt_div_iff₀ (Real.cosh_pos u) (Real.cosh_pos w)]
    have h3 := Real.sinh_sub w u
    have h4 : 0 < Real.sinh (w - u) := by
      rw [Real.sinh_eq]
      have := Real.exp_lt_exp.2 (show -(w - u) < w - u by linarith)
      linarith
    nlinarith
  refine ⟨?_, ?_, fun s t hst => ?_, fun s t hst => ?_, fun t => ?_⟩
  · rw [h1]; norm_num
  · rw [h2]; norm_num
  · rw [h1, h1]; have := hmono s t hst; linarith
  · rw [h2, h2]; have := hmono s t hst; linarith
  · rw [h1, h2]; ring

omit [NeZero nx] [NeZero ny] in
/-- C87: the hidden gradient is zero when none is given, the given one when there is no switch time,
and is multiplied by the same switch otherwise. -/
theorem hidden_spec (a : RunArgs nx ny) (t : ℝ) (x : ZMod nx) (y : ZMod ny) :
    (a.hidden = none → hiddenAt a t x y = 0)
    ∧ (∀ g, a.hidden = some g → hiddenAt a t x y = g x y * ibGate none a.hiddenOff a.hiddenWidth t) := by
  constructor
  · intro h; unfold hiddenAt; rw [h]
  · intro g h
    unfold hiddenAt ibGate
    rw [h]
    cases a.hiddenOff <;> simp

omit [NeZero nx] [NeZero ny] in
/-- C87: what the collision operator is given at time `t`: the charge, ion density, the diffusion
coefficient and the frequency ratio as they are, and the laser intensity times the gate at `t`. -/
theorem collide_args (a : RunArgs nx ny) (t : ℝ) :
    (collArgs a t).Z = a.Z ∧ (collArgs a t).ni = a.ni ∧ (collArgs a t).d0 = a.d0 ∧ (collArgs a t).ibRatio = a.ibRatio
    ∧ (a.ibVosc2 = none → (collArgs a t).ibVosc2 = none)
    ∧ ∀ g, a.ibVosc2 = some g → (collArgs a t).ibVosc2 = some fun x y => g x y * ibGate a.ibOn a.ibOff a.ibWidth t := by
  refine ⟨rfl, rfl, rfl, rfl, fun h => ?_, fun g h => ?_⟩ <;> unfold collArgs <;> simp [h]

end

/-- C87: the collision step raises an error exactly when there is an isotropic operator, a laser
intensity and no frequency ratio; otherwise the isotropic part becomes the operator's result on its
real part, every harmonic with `l ≥ 1` is advanced by the anisotropic operator of its `l` in the
*new* isotropic part (the same for every `m`), and what has no operator is left alone. -/
theorem collision_step (L : Layout) (c : CollOps) (Z ni dt : ℝ) (d0 ib ratio : Option ℝ) (f : Local) :
    (collisionStep L c Z ni dt d0 ib ratio f = .error "ValueError" ↔ c.iso ≠ none ∧ ib ≠ none ∧ ratio = none)
    ∧ ∀ g, collisionStep L c Z ni dt d0 ib ratio f = .ok g →
      (∀ op, c.iso = some op → ∀ j, g (L.index 0 0).toNat j
          = (op d0 (ib.bind fun u => ratio.map fun r => (u, r)) dt (fun i => (f (L.index 0 0).toNat i).re) j : ℂ))
      ∧ (c.iso = none → ∀ j, g (L.index 0 0).toNat j = f (L.index 0 0).toNat j)
      ∧ (∀ l m : ℕ, 1 ≤ l → l ≤ L.lMax → m ≤ l → m ≤ L.mMax → ∀ j,
          (∀ op, c.aniso = some op → L.get (fun k => g k j) l m
            = op Z ni (fun i => (g (L.index 0 0).toNat i).re) l dt (fun i => L.get (fun k => f k i) l m) j)
          ∧ (c.aniso = none → L.get (fun k => g k j) l m = L.get (fun k => f k j) l m)) := by
  have h00 := index_valid L (l := 0) (m := 0) (by omega)
  have hz : (L.index 0 0).toNat = L.pairs.idxOf (0, 0) := by rw [show L.index 0 0 = _ from h00.1, Int.toNat_natCast]
  have p00 : (L.pairs.getD (L.index 0 0).toNat (0, 0)).1 = 0 := by rw [hz, h00.2.2]
  -- the isotropic part
  have iso : ∀ f', isoStep L c dt d0 ib ratio f = .ok f' →
      (∀ op, c.iso = some op → ∀ j, f' (L.index 0 0).toNat j
          = (op d0 (ib.bind fun u => ratio.map fun r => (u, r)) dt (fun i => (f (L.index 0 0).toNat i).re) j : ℂ))
      ∧ (c.iso = none → ∀ j, f' (L.index 0 0).toNat j = f (L.index 0 0).toNat j)
      ∧ ∀ i j, i ≠ (L.index 0 0).toNat → f' i j = f i j := by
    intro f' hf'
    unfold isoStep at hf'
    cases hc : c.iso with
    | none =>
      rw [hc] at hf'
      cases hf'
      exact ⟨fun _ h => by simp at h, fun _ _ => rfl, fun _ _ _ => rfl⟩
    | some op =>
      rw [hc] at hf'
      have key : ∀ pair, ibPair ib ratio = .ok pair → pair = ib.bind fun u => ratio.map fun r => (u, r) := by
        intro pair hp
        cases ib <;> cases ratio <;> simp [ibPair] at hp ⊢ <;> exact hp.symm
      cases hp : ibPair ib ratio with
      | error e => simp [hp] at hf'
      | ok pair =>
        simp only [hp, Except.ok.injEq] at hf'
        have := key pair hp
        subst hf'
        refine ⟨fun op' h j => ?_, fun h => by simp at h, fun i j hi => if_neg hi⟩
        obtain rfl := Option.some.inj h
        simp only [if_true, this]
  constructor
  · unfold collisionStep isoStep
    cases hc : c.iso <;> cases hd : c.aniso <;> cases ib <;> cases ratio <;> simp [ibPair]
  · intro g hg
    unfold collisionStep at hg
    cases hM : isoStep L c dt d0 ib ratio f with
    | error e => simp [hM] at hg
    | ok f' =>
      obtain ⟨i1, i2, i3⟩ := iso f' hM
      simp only [hM] at hg
      cases ha : c.aniso with
      | none =>
        rw [ha] at hg
        obtain rfl := Except.ok.inj hg
        refine ⟨i1, i2, fun l m h1 h2 h3 h4 j => ⟨fun _ h => by simp at h, fun _ => ?_⟩⟩
        have hi := index_valid L (l := l) (m := m) (by omega)
        unfold Layout.get
        rw [hi.1, if_pos (by positivity), if_pos (by positivity), Int.toNat_natCast]
        refine i3 _ _ fun h => ?_
        rw [hz] at h
        have := hi.2.2
        rw [h, h00.2.2] at this
        simp only [Prod.mk.injEq] at this
        omega
      | some op =>
        rw [ha] at hg
        obtain rfl := Except.ok.inj hg
        have hk : ∀ j, anisotropic L op Z ni dt f' (L.index 0 0).toNat j = f' (L.index 0 0).toNat j := by
          intro j; unfold anisotropic; rw [if_pos p00]
        refine ⟨fun op' h j => by rw [hk, i1 op' h], fun h j => by rw [hk, i2 h], fun l m h1 h2 h3 h4 j => ⟨fun op' h => ?_, fun h => by simp at h⟩⟩
        obtain rfl := Option.some.inj h
        have hi := index_valid L (l := l) (m := m) (by omega)
        have hne : L.pairs.idxOf (l, m) ≠ (L.index 0 0).toNat := by
          intro h
          rw [hz] at h
          have := hi.2.2
          rw [h, h00.2.2] at this
          simp only [Prod.mk.injEq] at this
          omega
        simp only [hk]
        unfold Layout.get
        rw [hi.1, if_pos (by positivity), Int.toNat_natCast]
        simp only [if_pos (show (0 : ℤ) ≤ (L.pairs.idxOf (l, m) : ℕ) by positivity)]
        unfold anisotropic
        rw [hi.2.2, if_neg (by simp only; omega)]
        have : f' (L.pairs.idxOf (l, m)) = f (L.pairs.idxOf (l, m)) := by funext j; exact i3 _ _ hne
        rw [this]

/-- C87: the anisotropic operator is refused exactly when it has fewer harmonics than the layout. -/
theorem aniso_iff (nl : ℕ) (L : Layout) : anisoOk nl L = .ok () ↔ L.lMax ≤ nl := by
  unfold anisoOk
  split
  · simp; omega
  · simp; omega

/-! ### Run set-up (C89) -/

/-- C89: the run covers the time asked for, by less than one step more, and no smaller number of steps
would do; an exact multiple is kept. -/
theorem run_end (tmin tmax dt : ℝ) (hdt : 0 < dt) :
    tmax ≤ runEnd tmin tmax dt ∧ runEnd tmin tmax dt < tmax + dt
    ∧ (∀ n : ℤ, tmax ≤ tmin + n * dt → runSteps tmin tmax dt ≤ n)
    ∧ (∀ n : ℤ, tmax = tmin + n * dt → runSteps tmin tmax dt = n ∧ runEnd tmin tmax dt = tmax) := by
  have h1 := Int.le_ceil ((tmax - tmin) / dt)
  have h2 := Int.ceil_lt_add_one ((tmax - tmin) / dt)
  rw [div_le_iff₀ hdt] at h1
  have h3 : ((⌈(tmax - tmin) / dt⌉ : ℤ) : ℝ) * dt < tmax - tmin + dt := by
    have := mul_lt_mul_of_pos_right h2 hdt
    rwa [add_mul, div_mul_cancel₀ _ hdt.ne', one_mul] at this
  unfold runEnd runSteps
  refine ⟨by linarith, by linarith, fun n hn => ?_, fun n hn => ?_⟩
  · rw [Int.ceil_le, div_le_iff₀ hdt]; linarith
  · have : (tmax - tmin) / dt = (n : ℝ) := by rw [hn]; field_simp; ring
    rw [this, Int.ceil_intCast]
    exact ⟨rfl, hn.symm⟩

/-- C89: exactly the two field modes are accepted, and they are different. -/
theorem mode_iff (mode : String) (b : Bool) :
    fieldMode mode = .ok b ↔ (mode = "maxwell" ∧ b = false) ∨ (mode = "kinetic-ohm" ∧ b = true) := by
  unfold fieldMode
  by_cases h : mode = "maxwell"
  · subst h; cases b <;> simp
  · by_cases h2 : mode = "kinetic-ohm"
    · subst h2; cases b <;> simp
    · simp [h, h2]

/-! ### Gauss's law on even grids (C83) -/

/-- C83, the part that holds: with difference derivatives, or an odd number of cells along `y`, a
Maxwell-mode step keeps Gauss's law up to what is accelerated over the top of the speed grid.
Missing: an even number of cells with the Fourier derivative (`leak_even`). -/
theorem gauss_step_partial {nx ny : ℕ} [NeZero nx] [NeZero ny] (o : Op) (hl : 1 ≤ o.layout.lMax) (hD : ∀ d, o.dY = .spectral d → d ≠ 0)
    (hodd : (∃ d, o.dY = .spectral d) → ny % 2 = 1) (c2 dt : ℝ) (c : Option (Collide nx ny)) (hc : Conserving o c) (d : Drivers nx ny)
    (hd : d.current = none) (a : RunArgs nx ny) (t : ℝ) (s : State nx ny) (hr : ∀ x y j, RealZero o.layout fun k => s.f x y k j)
    (x : ZMod nx) (y : ZMod ny) :
    let s' := splitStep o c2 (-1) dt c d a t s
    let m := middle o c2 dt c d a t s
    divergence o.dX o.dY s'.e x y + o.density (s'.f x y) = divergence o.dX o.dY s.e x y + o.density (s.f x y)
      + dt * o.density (o.electric (m.f x y) ((m.e x y).add (driverAt d.externalE (t + 0.5 * dt) x y))) := by
  intro s' m
  have h := (split_gauss o hl c2 dt c hc d hd a t s hr x y).1
  rw [leak_zero o hD hodd, add_zero] at h
  exact h

/-- C83, what fails: with the Fourier derivative and an even number of cells along `y` there is a
distribution, real where it must be, whose density does not change by the divergence of its current. -/
theorem leak_even {nx ny : ℕ} [NeZero nx] [NeZero ny] (o : Op) (hl : 1 ≤ o.layout.lMax) (hm : 1 ≤ o.layout.mMax) (d : ℝ) (hd : d ≠ 0) (hY : o.dY = .spectral d)
    (heven : ny % 2 = 0) (hnv : 0 < o.nv) (hv : o.v 0 ≠ 0) (hs : o.speed 0 ≠ 0) (hdv : o.dv ≠ 0) :
    ∃ (f : Flm nx ny) (x : ZMod nx) (y : ZMod ny), (∀ x y j, RealZero o.layout fun k => f x y k j)
      ∧ o.density (o.streaming f noZ x y) ≠ divergence o.dX o.dY (fun x y => o.current (-1) o.speed (f x y)) x y := by
  have h := (deriv_real_iff (N := ny) (.spectral d) (fun d' h => by cases h; exact hd)).not.2 (fun h => by have := h ⟨d, rfl⟩; omega)
  simp only [not_forall] at h
  obtain ⟨a, i, hai⟩ := h
  have h11 := index11 o.layout hl hm
  obtain ⟨f, hf⟩ : ∃ f : Flm nx ny, f = fun _ y k j => if k = (o.layout.index 1 1).toNat ∧ j = 0 then I * (a y : ℂ) else 0 := ⟨_, rfl⟩
  have hr : ∀ x y j, RealZero o.layout fun k => f x y k j := by
    intro x y j l
    by_cases h : l ≤ o.layout.lMax
    · have hi := index_valid o.layout (l := l) (m := 0) (by omega)
      have h11' := index_valid o.layout (l := 1) (m := 1) (by omega)
      unfold Layout.get
      rw [show o.layout.index l 0 = _ from hi.1, if_pos (by positivity), Int.toNat_natCast, hf]
      dsimp only
      rw [if_neg]
      · rfl
      · rintro ⟨he, -⟩
        rw [show o.layout.index 1 1 = _ from h11'.1, Int.toNat_natCast] at he
        have := hi.2.2
        rw [he, h11'.2.2] at this
        simp at this
    · rw [get_invalid o.layout _ (by omega)]; rfl
  refine ⟨f, 0, i, hr, ?_⟩
  rw [charge_continuity o hl f hr]
  have hget : ∀ y j, ((o.layout.get (fun k => f 0 y k j) 1 1).im : ℂ) = if j = 0 then (a y : ℂ) else 0 := by
    intro y j
    unfold Layout.get
    rw [if_pos h11.1, hf]
    by_cases hj : j = 0
    · simp [hj]
    · simp [hj]
  have hlk : leak o f 0 i = 8 * Real.pi / 3 * (o.v 0 ^ 2 * o.speed 0 * ((Deriv.spectral d).apply (fun y => (a y : ℂ)) i).im * o.dv) := by
    unfold leak
    simp only [hget, hY]
    rw [sum_eq_single_of_mem 0 (mem_range.2 hnv)]
    · simp
    · intro j _ hj
      simp only [if_neg hj]
      rw [deriv_zero]
      simp
  rw [hlk]
  have : 8 * Real.pi / 3 * (o.v 0 ^ 2 * o.speed 0 * ((Deriv.spectral d).apply (fun y => (a y : ℂ)) i).im * o.dv) ≠ 0 := by
    have hpi := Real.pi_pos.ne'
    positivity
  intro hc
  exact this (by linarith)

/-! ### Examples -/

theorem ex_density (x : ZMod 3) (y : ZMod 4) : 1 ≤ exOp.response (exF x y) := by
  have hpi := Real.pi_gt_three
  have i0 : (exOp.layout.index 0 0).toNat = 0 := by decide
  have e0 : ∀ x y j, (exF x y 0 j).re = (x.val : ℝ) + y.val + j := by
    intro x y j
    unfold exF
    rw [if_neg (by decide), ofReal_re]
    push_cast
    ring
  unfold Op.response
  simp only [i0, e0]
  simp only [exOp, sum_range_succ, range_zero, sum_empty]
  have h1 : (0 : ℝ) ≤ x.val + y.val := by positivity
  obtain ⟨c, hc⟩ : ∃ c : ℝ, c = (x.val : ℝ) + y.val := ⟨_, rfl⟩
  rw [← hc] at h1 ⊢
  norm_num
  nlinarith [mul_nonneg h1 (by linarith : (0 : ℝ) ≤ Real.pi)]

/-- A step of length zero on a plasma with every harmonic and a sheared magnetic field: the
hypotheses of `run_current`, `run_div` and `run_number` hold, and the current is not zero. -/
noncomputable def exStep : OhmStep 3 4 := ⟨exOp, 1, 1, 1, 0, none, false, none⟩

example (a : RunArgs 3 4) (s : State 3 4) (hs : s.f = exF) :
    ∃ s', exStep.run a 0 s = .ok s' ∧ ∀ x y, exStep.tiny ≤ exStep.o.response (s'.f x y) := by
  have hl : 1 ≤ exStep.o.layout.lMax := by show 1 ≤ 2; norm_num
  obtain ⟨s', h1, hb, hf, -⟩ := (run_form exStep a 0 s).2 hl
  refine ⟨s', h1, fun x y => ?_⟩
  have hax : ∀ (k y : Flm 3 4 × Field 3 4), axpy 0 k y = y := by
    intro k y
    unfold axpy
    refine Prod.ext ?_ ?_
    · funext x y i j; simp
    · funext x y; ext <;> simp [Vec.add, Vec.smul]
  have hp : ∀ g : Flm 3 4, exStep.o.positive? exStep.tiny exStep.positivity g = g := fun g => by simp [Op.positive?, exStep]
  have hcol : ∀ τ h (g : Flm 3 4), collideAt exStep.collide a τ h g = g := fun _ _ _ => rfl
  have hfil : ∀ g : Flm 3 4, exStep.filterF g = g := fun _ => rfl
  have hpr : ∀ (g : Flm 3 4) (b : Field 3 4) x y, exStep.o.response (exStep.o.projectTo exStep.tiny exStep.c2 g b x y) = exStep.o.response (g x y) :=
    fun g b x y => core_response _ _ hl _ _
  have hadv : ∀ x y, exStep.o.response ((exStep.advanced a 0 s).1 x y) = exOp.response (exF x y) := by
    intro x y
    have : (exStep.advanced a 0 s) = exStep.constrain (exStep.start a 0 s) := by
      unfold OhmStep.advanced rk4
      have : exStep.dt / 6 = 0 := by simp [exStep]
      simp only [this, hax]
    rw [this]
    unfold OhmStep.constrain OhmStep.start
    simp only [hp, hcol, hpr, hs]
    rfl
  rw [hf, hpr, hp, hfil, hp, hcol, hadv]
  exact ex_density x y

/-- The hypotheses of `run_equilibrium`: a filtered, limited step on a uniform plasma. -/
example (a : RunArgs 3 4) (ha : a.hidden = none) (e : Field 3 4) :
    let S : OhmStep 3 4 := ⟨exOp, 1, 1, 1, 0.1, none, true, some (houLi2D 36 36 ["x", "y"])⟩
    let f : Flm 3 4 := fun _ _ k _ => if k = (exOp.layout.index 0 0).toNat then ((1 : ℝ) : ℂ) else 0
    S.run a 0 ⟨f, e, fun _ _ => ⟨1, 2, 3⟩⟩ = .ok ⟨f, fun _ _ => ⟨0, 0, 0⟩, fun _ _ => ⟨1, 2, 3⟩⟩ := by
  intro S f
  refine run_equilibrium S (by norm_num [S]) (by norm_num [S, exOp]) (by show 1 ≤ 2; norm_num) ?_ a ha 0 (fun _ => 1) (fun _ => zero_le_one) e ⟨1, 2, 3⟩ (fun _ _ => rfl) ?_
  · intro G hG c
    obtain rfl := Option.some.inj hG
    exact (houLi2D_spec 36 (by norm_num) 36 (by norm_num) ["x", "y"]).1 c
  · intro x y
    have hpi := Real.pi_gt_three
    show 1 < exOp.density _
    unfold Op.density
    simp only [S, if_true, ofReal_re]
    simp only [exOp, sum_range_succ, range_zero, sum_empty]
    norm_num
    nlinarith

/-- The hypotheses of the gate and run set-up theorems. -/
example : ibGate (some 1) (some 2) 0 1 = 1 ∧ ibGate (some 1) (some 2) 0 2 = 0 ∧ runSteps 0 1 0.3 = 4 := by
  refine ⟨?_, ?_, ?_⟩
  · rw [(gate_spec _ _ 0 1).2.2 le_rfl]; norm_num
  · rw [(gate_spec _ _ 0 2).2.2 le_rfl]; norm_num
  · unfold runSteps; rw [Int.ceil_eq_iff]; norm_num

end Verif.Vfp2d

import Verif.Props.LpsePump

/-! C178: superposition and translation along the transverse direction. -/
namespace Verif.Lpse
open Finset Complex Verif.Spectral
open scoped ComplexConjugate

variable {nx ny : ℕ} [NeZero nx] [NeZero ny]

theorem ifft2_add (F G : Arr nx ny ℂ) (x : ZMod nx) (y : ZMod ny) : ifft2 (fun a b => F a b + G a b) x y = ifft2 F x y + ifft2 G x y := by
  unfold ifft2 ifft
  simp only [ZMod.invDFT_apply, smul_eq_mul, mul_add, sum_add_distrib]

theorem exOf_lin (p : Epw nx ny) (r : ℝ) (f g : Arr nx ny ℂ) : p.exOf (fun a b => r * f a b + g a b) = fun x y => r * p.exOf f x y + p.exOf g x y := by
  funext x y
  unfold Epw.exOf
  rw [← ifft2_smul, ← ifft2_add]; congr 1; funext a b; ring

theorem eyOf_lin (p : Epw nx ny) (r : ℝ) (f g : Arr nx ny ℂ) : p.eyOf (fun a b => r * f a b + g a b) = fun x y => r * p.eyOf f x y + p.eyOf g x y := by
  funext x y
  unfold Epw.eyOf
  rw [← ifft2_smul, ← ifft2_add]; congr 1; funext a b; ring

omit [NeZero nx] [NeZero ny] in
theorem local_lin (p : Epw nx ny) (r : ℝ) (f g : Arr nx ny ℂ) : p.local (fun x y => r * f x y + g x y) = fun x y => r * p.local f x y + p.local g x y := by
  funext x y
  unfold Epw.local
  split <;> ring

theorem phiOf_lin (p : Epw nx ny) (r : ℝ) (f g f' g' : Arr nx ny ℂ) :
    p.phiOf (fun x y => r * f x y + g x y) (fun x y => r * f' x y + g' x y) = fun a b => r * p.phiOf f f' a b + p.phiOf g g' a b := by
  funext a b
  unfold Epw.phiOf
  rw [fft2_add, fft2_add, fft2_smul, fft2_smul]; ring

theorem product_lin (r : ℝ) (E f g : Arr nx ny ℂ) (a : ZMod nx) (b : ZMod ny) :
    fft2 (fun x y => E x y * conj (r * f x y + g x y)) a b = r * fft2 (fun x y => E x y * conj (f x y)) a b + fft2 (fun x y => E x y * conj (g x y)) a b := by
  rw [← fft2_smul, ← fft2_add]
  congr 1; funext x y; rw [map_add, map_mul, conj_ofReal]; ring

theorem source_lin (p : Epw nx ny) (t r : ℝ) (f g e e' E : Arr nx ny ℂ) (a : ZMod nx) (b : ZMod ny) :
    p.tpdSource t (fun a b => r * f a b + g a b) (fun x y => r * e x y + e' x y) E a b = r * p.tpdSource t f e E a b + p.tpdSource t g e' E a b := by
  unfold Epw.tpdSource
  simp only
  have hd : (ifft2 fun a b => (p.ksq a b : ℂ) * (r * f a b + g a b)) =
      fun x y => r * ifft2 (fun a b => (p.ksq a b : ℂ) * f a b) x y + ifft2 (fun a b => (p.ksq a b : ℂ) * g a b) x y := by
    funext x y
    rw [← ifft2_smul, ← ifft2_add]; congr 1; funext a b; ring
  rw [hd, product_lin, product_lin]; ring

/-- C178: superposition: with a given pump the plasma waves obey a (real-)linear equation: sums and multiples of solutions are
solutions, also with the two-plasmon source. -/
theorem superposition (p : Epw nx ny) (hn : p.noise = false) (t r : ℝ) (f g E : Arr nx ny ℂ) :
    p.step t (fun a b => r * f a b + g a b) E = fun a b => r * p.step t f E a b + p.step t g E a b := by
  have hl : p.linear t (fun a b => r * f a b + g a b) = fun a b => r * p.linear t f a b + p.linear t g a b := by
    funext a b; unfold Epw.linear; rw [hn]; simp only [Bool.false_eq_true, if_false]; ring
  funext a b
  unfold Epw.step
  rw [hl, exOf_lin, eyOf_lin, local_lin, local_lin, phiOf_lin, source_lin]
  split <;> ring

/-- A run's plasma waves from a sum of initial waves. -/
theorem superposition_run (p : Epw nx ny) (hn : p.noise = false) (l : Light nx ny) (q : Pump ny) (r : ℝ) (s s' u : State nx ny)
    (hu : u.epw = fun a b => r * s.epw a b + s'.epw a b) (n : ℕ) :
    (run p l (some q) u n).epw = fun a b => r * (run p l (some q) s n).epw a b + (run p l (some q) s' n).epw a b := by
  induction n with
  | zero => exact hu
  | succ n ih =>
    have h : ∀ s, (run p l (some q) s (n + 1)).epw = p.step (n * p.dt) (run p l (some q) s n).epw
        (fun x y => (q.envelope (n * p.dt) : ℂ) * if (1 : Fin 2) = 1 then l.update (n * p.dt) q.colours x y else 0) := fun s => by
      rw [run, split]
    rw [h, h, h, ih, superposition p hn]

/-- A wave pattern moved by `s` cells along `y`: `phi(x, y - s)` has the spectrum `exp(-i k_y s dy) phi_k`. -/
noncomputable def moveY (s : ZMod ny) (phi : Arr nx ny ℂ) : Arr nx ny ℂ := fun a b => (ZMod.stdAddChar (-(s * b)) : ℂ) * phi a b

theorem ifft2_move (s : ZMod ny) (F : Arr nx ny ℂ) (x : ZMod nx) (y : ZMod ny) : ifft2 (moveY s F) x y = ifft2 F x (y - s) := by
  unfold ifft2 moveY ifft
  simp only [ZMod.invDFT_apply, smul_eq_mul]
  congr 1
  refine sum_congr rfl fun b _ => ?_
  have e : (ZMod.stdAddChar (b * (y - s)) : ℂ) = (ZMod.stdAddChar (b * y) : ℂ) * (ZMod.stdAddChar (-(s * b)) : ℂ) := by
    rw [← AddChar.map_add_eq_mul]; congr 1; ring
  rw [e]
  simp only [mul_sum]
  exact sum_congr rfl fun _ _ => by ring

theorem fft2_move (s : ZMod ny) (f : Arr nx ny ℂ) : fft2 (fun x y => f x (y - s)) = moveY s (fft2 f) := by
  funext a b
  unfold moveY
  rw [fft2_sum, fft2_sum, mul_sum]
  refine sum_congr rfl fun x _ => ?_
  rw [mul_sum, ← Equiv.sum_comp (Equiv.addRight s)]
  refine sum_congr rfl fun y _ => ?_
  simp only [Equiv.coe_addRight, add_sub_cancel_right]
  have e : (ZMod.stdAddChar (-((y + s) * b)) : ℂ) = (ZMod.stdAddChar (-(s * b)) : ℂ) * (ZMod.stdAddChar (-(y * b)) : ℂ) := by
    rw [← AddChar.map_add_eq_mul]; congr 1; ring
  rw [e]; ring

/-- C178: where density, boundaries and pump do not depend on `y`, moving the plasma waves along `y` and taking a step commute. -/
theorem translation (p : Epw nx ny) (hn : p.noise = false) (hd : ∀ x y y', p.density x y = p.density x y') (hb : ∀ x y y', p.boundary x y = p.boundary x y')
    (t : ℝ) (phi E : Arr nx ny ℂ) (hE : ∀ x y y', E x y = E x y') (s : ZMod ny) :
    p.step t (moveY s phi) E = moveY s (p.step t phi E) := by
  have hl : p.linear t (moveY s phi) = moveY s (p.linear t phi) := by
    funext a b; unfold Epw.linear moveY; rw [hn]; simp only [Bool.false_eq_true, if_false]; ring
  have hx : ∀ f : Arr nx ny ℂ, p.exOf (moveY s f) = fun x y => p.exOf f x (y - s) := by
    intro f; funext x y
    unfold Epw.exOf
    rw [← ifft2_move]; congr 1; funext a b; unfold moveY; ring
  have hy : ∀ f : Arr nx ny ℂ, p.eyOf (moveY s f) = fun x y => p.eyOf f x (y - s) := by
    intro f; funext x y
    unfold Epw.eyOf
    rw [← ifft2_move]; congr 1; funext a b; unfold moveY; ring
  have hloc : ∀ f : Arr nx ny ℂ, p.local (fun x y => f x (y - s)) = fun x y => p.local f x (y - s) := by
    intro f; funext x y
    unfold Epw.local
    rw [hd x y (y - s), hb x y (y - s)]
  have hphi : ∀ f g : Arr nx ny ℂ, p.phiOf (fun x y => f x (y - s)) (fun x y => g x (y - s)) = moveY s (p.phiOf f g) := by
    intro f g; funext a b
    unfold Epw.phiOf
    rw [fft2_move, fft2_move]; unfold moveY; ring
  have hsrc : ∀ f e : Arr nx ny ℂ, p.tpdSource t (moveY s f) (fun x y => e x (y - s)) E = moveY s (p.tpdSource t f e E) := by
    intro f e; funext a b
    unfold Epw.tpdSource
    simp only
    have hdiv : (ifft2 fun a b => (p.ksq a b : ℂ) * moveY s f a b) = fun x y => ifft2 (fun a b => (p.ksq a b : ℂ) * f a b) x (y - s) := by
      funext x y
      rw [← ifft2_move]; congr 1; funext a b; unfold moveY; ring
    have hpr : ∀ g : Arr nx ny ℂ, fft2 (fun x y => E x y * conj (g x (y - s))) = moveY s (fft2 fun x y => E x y * conj (g x y)) := by
      intro g
      rw [← fft2_move]; congr 1; funext x y; rw [hE x y (y - s)]
    rw [hdiv, hpr, hpr fun x y => ifft2 (fun a b => (p.ksq a b : ℂ) * f a b) x y]
    unfold moveY; ring
  funext a b
  unfold Epw.step
  simp only
  rw [hl, hx, hy, hloc, hloc, hphi, hsrc]
  unfold moveY
  split <;> ring

/-- C178: and so does a whole run with a beam without speckle. -/
theorem translation_run (p : Epw nx ny) (hn : p.noise = false) (hd : ∀ x y y', p.density x y = p.density x y') (hb : ∀ x y y', p.boundary x y = p.boundary x y')
    (l : Light nx ny) (hs : l.speckle = none) (hld : ∀ x y y', l.density x y = l.density x y') (q : Pump ny)
    (hq : ∀ c ∈ q.colours, ∀ y y', c.intensity y = c.intensity y' ∧ c.phase y = c.phase y') (s : ZMod ny) (u v : State nx ny)
    (huv : u.epw = moveY s v.epw) (n : ℕ) : (run p l (some q) u n).epw = moveY s (run p l (some q) v n).epw := by
  induction n with
  | zero => exact huv
  | succ n ih =>
    have h : ∀ s, (run p l (some q) s (n + 1)).epw = p.step (n * p.dt) (run p l (some q) s n).epw
        (fun x y => (q.envelope (n * p.dt) : ℂ) * if (1 : Fin 2) = 1 then l.update (n * p.dt) q.colours x y else 0) := fun s => by
      rw [run, split]
    rw [h, h, ih]
    apply translation p hn hd hb
    intro x y y'
    congr 1
    simp only [if_true]
    rw [pump_waves, pump_waves, hs, hld x y y']
    simp only
    have e : (q.colours.map fun c => l.amp (n * p.dt) c y * (ZMod.stdAddChar ((l.modeOf c.deltaOmega : ZMod nx) * x) : ℂ)) =
        q.colours.map fun c => l.amp (n * p.dt) c y' * (ZMod.stdAddChar ((l.modeOf c.deltaOmega : ZMod nx) * x) : ℂ) := by
      refine List.map_congr_left fun c hc => ?_
      unfold Light.amp
      rw [(hq c hc y y').1, (hq c hc y y').2]
    rw [e]

end Verif.Lpse

import Verif.Props.Vfp2dStep

/-!
The Poisson solve and the initial field of a VFP-2D run (C83).
-/
namespace Verif.Vfp2d
open Finset Complex Verif.Spectral
open scoped ComplexConjugate

section
variable {nx ny : ℕ} [NeZero nx] [NeZero ny]

theorem fft2_swap (a : ZMod nx → ZMod ny → ℂ) (k : ZMod nx) (l : ZMod ny) :
    fft2 a k l = fft (fun y => fft (fun x => a x y) k) l := by
  unfold fft2 fft
  simp only [ZMod.dft_apply, smul_eq_mul, mul_sum]
  rw [sum_comm]
  exact sum_congr rfl fun _ _ => sum_congr rfl fun _ _ => by ring

theorem fft_null {N : ℕ} [NeZero N] (k : ZMod N) : fft (fun _ : ZMod N => (0 : ℂ)) k = 0 := by
  have := fft_smul (N := N) 0 (fun _ => 0) k
  simpa using this

theorem fft2_const (c : ℂ) (k : ZMod nx) (l : ZMod ny) :
    fft2 (fun _ _ => c) k l = if k = 0 ∧ l = 0 then (nx : ℂ) * ny * c else 0 := by
  have w : ∀ (N : ℕ) [NeZero N] (k : ZMod N) (c : ℂ), fft (fun _ : ZMod N => c) k = if k = 0 then (N : ℂ) * c else 0 := by
    intro N _ k c
    have h := fft_wave (N := N) 0 k
    have h1 : wave (N := N) 0 = fun _ => (1 : ℂ) := by funext j; simp [wave]
    rw [h1] at h
    have h2 := fft_smul (N := N) c (fun _ => 1) k
    simp only [mul_one] at h2
    rw [h2, h]
    simp only [Int.cast_zero]
    split <;> ring
  unfold fft2
  by_cases hl : l = 0
  · simp only [w, hl, if_true, and_true]
    by_cases hk : k = 0
    · simp [hk]; ring
    · simp [hk]
  · simp only [w, hl, if_false, and_false]
    split <;> simp

theorem fft2_real (a : Scal nx ny) (k : ZMod nx) (l : ZMod ny) :
    conj (fft2 (fun x y => (a x y : ℂ)) (-k) (-l)) = fft2 (fun x y => (a x y : ℂ)) k l := by
  rw [← fft2_conj]
  simp only [conj_ofReal]

theorem val_zero_iff {N : ℕ} [NeZero N] (k : ZMod N) : k.val = 0 ↔ k = 0 := ZMod.val_eq_zero k

/-- `kfull` is odd away from the Nyquist index. -/
theorem kfull_neg {N : ℕ} [NeZero N] (d : ℝ) (k : ZMod N) (hk : 2 * k.val ≠ N) : kfull d (-k) = -kfull d k := by
  by_cases hz : k.val = 0
  · rw [val_zero_iff] at hz; subst hz; simp [kfull_zero]
  · exact kfull_odd d k hz hk

/-- A charge without content at the Nyquist lines of an even grid. -/
def Smooth (rho : Scal nx ny) : Prop :=
  (2 ∣ nx → ∀ y, alternating (fun x => rho x y) = 0) ∧ (2 ∣ ny → ∀ x, alternating (rho x) = 0)

theorem smooth_fft (rho : Scal nx ny) (h : Smooth rho) (k : ZMod nx) (l : ZMod ny) (hk : 2 * k.val = nx ∨ 2 * l.val = ny) :
    fft2 (fun x y => (rho x y : ℂ)) k l = 0 := by
  rcases hk with hk | hl
  · rw [fft2_swap]
    have : (fun y => fft (fun x => (rho x y : ℂ)) k) = fun _ => 0 := by
      funext y
      rw [alternating_eq (fun x => rho x y) hk, h.1 ⟨k.val, hk.symm⟩ y, ofReal_zero]
    rw [this, fft_null]
  · unfold fft2
    have : (fun x => fft (fun y => (rho x y : ℂ)) l) = fun _ => 0 := by
      funext x
      rw [alternating_eq (rho x) hl, h.2 ⟨l.val, hl.symm⟩ x, ofReal_zero]
    rw [this, fft_null]

theorem invK2_neg (dx dy : ℝ) (k : ZMod nx) (l : ZMod ny) (hk : 2 * k.val ≠ nx) (hl : 2 * l.val ≠ ny) :
    invK2 dx dy (-k) (-l) = invK2 dx dy k l := by
  unfold invK2
  rw [kfull_neg dx k hk, kfull_neg dy l hl]
  simp only [neg_sq]

/-- The spectrum of a potential field of a smooth charge. -/
theorem field_fft (dx dy : ℝ) (rho : Scal nx ny) (h : Smooth rho) (κ : ZMod nx → ZMod ny → ℝ)
    (hκ : ∀ k l, 2 * k.val ≠ nx → 2 * l.val ≠ ny → κ (-k) (-l) = -κ k l) (k : ZMod nx) (l : ZMod ny) :
    fft2 (fun x y => (((ifft2 (fun k l => -I * (κ k l : ℂ) * ((invK2 dx dy k l : ℂ) * fft2 (fun x y => (rho x y : ℂ)) k l)) x y).re : ℝ) : ℂ)) k l
      = -I * (κ k l : ℂ) * ((invK2 dx dy k l : ℂ) * fft2 (fun x y => (rho x y : ℂ)) k l) := by
  rw [fft2_re, fft2_ifft2]
  by_cases hn : 2 * k.val = nx ∨ 2 * l.val = ny
  · have h1 := smooth_fft rho h k l hn
    have h2 := fft2_real rho k l
    rw [h1] at h2
    simp only [map_mul, h2, h1]
    simp
  · push Not at hn
    simp only [map_mul, map_neg, conj_I, conj_ofReal, fft2_real, invK2_neg dx dy k l hn.1 hn.2, hκ k l hn.1 hn.2]
    push_cast
    ring

/-- The spectrum of the derivative of a real array without Nyquist content. -/
theorem ddx_fft (d : ℝ) (a : Scal nx ny) (ha : ∀ k l, 2 * k.val = nx ∨ 2 * l.val = ny → fft2 (fun x y => (a x y : ℂ)) k l = 0) (k : ZMod nx) (l : ZMod ny) :
    fft2 (fun x y => ((ddx (.spectral d) a x y : ℝ) : ℂ)) k l = I * (kfull d k : ℂ) * fft2 (fun x y => (a x y : ℂ)) k l := by
  unfold ddx Deriv.applyR
  rw [fft2_re, fft2_ddx d (fun x y => (a x y : ℂ)), fft2_ddx d (fun x y => (a x y : ℂ))]
  by_cases hn : 2 * k.val = nx ∨ 2 * l.val = ny
  · have h1 := ha k l hn
    have h2 := fft2_real a k l
    rw [h1] at h2
    simp only [map_mul, h1, h2]
    simp
  · push Not at hn
    simp only [map_mul, conj_I, conj_ofReal, fft2_real, kfull_neg d k hn.1]
    push_cast
    ring

theorem ddy_fft (d : ℝ) (a : Scal nx ny) (ha : ∀ k l, 2 * k.val = nx ∨ 2 * l.val = ny → fft2 (fun x y => (a x y : ℂ)) k l = 0) (k : ZMod nx) (l : ZMod ny) :
    fft2 (fun x y => ((ddy (.spectral d) a x y : ℝ) : ℂ)) k l = I * (kfull d l : ℂ) * fft2 (fun x y => (a x y : ℂ)) k l := by
  unfold ddy Deriv.applyR
  rw [fft2_re, fft2_ddy d (fun x y => (a x y : ℂ)), fft2_ddy d (fun x y => (a x y : ℂ))]
  by_cases hn : 2 * k.val = nx ∨ 2 * l.val = ny
  · have h1 := ha k l hn
    have h2 := fft2_real a k l
    rw [h1] at h2
    simp only [map_mul, h1, h2]
    simp
  · push Not at hn
    simp only [map_mul, conj_I, conj_ofReal, fft2_real, kfull_neg d l hn.2]
    push_cast
    ring

theorem k2_pos {dx dy : ℝ} (hdx : dx ≠ 0) (hdy : dy ≠ 0) (k : ZMod nx) (l : ZMod ny) (h : ¬ (k = 0 ∧ l = 0)) :
    0 < kfull dx k ^ 2 + kfull dy l ^ 2 := by
  by_cases hk : k = 0
  · have hl : l.val ≠ 0 := fun hl => h ⟨hk, (val_zero_iff l).1 hl⟩
    have := kfull_ne_zero hdy hl
    positivity
  · have := kfull_ne_zero hdx (k := k) (fun hz => hk ((val_zero_iff k).1 hz))
    positivity

theorem fft2_zero (a : Scal nx ny) : fft2 (fun x y => (a x y : ℂ)) 0 0 = ((∑ x, ∑ y, a x y : ℝ) : ℂ) := by
  unfold fft2
  rw [fft_zero]
  simp only [fft_zero]
  push_cast
  rfl

/-- C83: the field of the Poisson solve: its divergence is the charge without its mean, it has no
curl and no mean, for any charge without content on the Nyquist lines (any charge on odd grids). -/
theorem poisson_gauss (dx dy : ℝ) (hdx : dx ≠ 0) (hdy : dy ≠ 0) (rho : Scal nx ny) (h : Smooth rho) (x : ZMod nx) (y : ZMod ny) :
    divergence (.spectral dx) (.spectral dy) (poisson dx dy rho) x y = rho x y - (∑ x, ∑ y, rho x y) / (nx * ny)
    ∧ curl (.spectral dx) (.spectral dy) (poisson dx dy rho) x y = ⟨0, 0, 0⟩
    ∧ ∑ x, ∑ y, (poisson dx dy rho x y).x = 0 ∧ ∑ x, ∑ y, (poisson dx dy rho x y).y = 0
    ∧ (poisson dx dy rho x y).z = 0 := by
  obtain ⟨ex, hex⟩ : ∃ g : Scal nx ny, g = fun x y => (poisson dx dy rho x y).x := ⟨_, rfl⟩
  obtain ⟨ey, hey⟩ : ∃ g : Scal nx ny, g = fun x y => (poisson dx dy rho x y).y := ⟨_, rfl⟩
  have fx : ∀ k l, fft2 (fun x y => (ex x y : ℂ)) k l = -I * (kfull dx k : ℂ) * ((invK2 dx dy k l : ℂ) * fft2 (fun x y => (rho x y : ℂ)) k l) := by
    intro k l
    rw [hex]
    exact field_fft dx dy rho h (fun k _ => kfull dx k) (fun k l hk _ => kfull_neg dx k hk) k l
  have fy : ∀ k l, fft2 (fun x y => (ey x y : ℂ)) k l = -I * (kfull dy l : ℂ) * ((invK2 dx dy k l : ℂ) * fft2 (fun x y => (rho x y : ℂ)) k l) := by
    intro k l
    rw [hey]
    exact field_fft dx dy rho h (fun _ l => kfull dy l) (fun k l _ hl => kfull_neg dy l hl) k l
  have nx0 : ∀ k l, 2 * k.val = nx ∨ 2 * l.val = ny → fft2 (fun x y => (ex x y : ℂ)) k l = 0 := fun k l hn => by
    rw [fx, smooth_fft rho h k l hn]; simp
  have ny0 : ∀ k l, 2 * k.val = nx ∨ 2 * l.val = ny → fft2 (fun x y => (ey x y : ℂ)) k l = 0 := fun k l hn => by
    rw [fy, smooth_fft rho h k l hn]; simp
  have hnx : (nx : ℂ) ≠ 0 := by exact_mod_cast NeZero.ne nx
  have hny : (ny : ℂ) ≠ 0 := by exact_mod_cast NeZero.ne ny
  have hsum : ∀ g : Scal nx ny, fft2 (fun x y => (g x y : ℂ)) 0 0 = 0 → ∑ x, ∑ y, g x y = 0 := fun g hg => by
    rw [fft2_zero] at hg
    exact_mod_cast hg
  refine ⟨?_, ?_, ?_, ?_, rfl⟩
  · have key : (fun x y => ((ddx (.spectral dx) ex x y : ℝ) : ℂ) + ((ddy (.spectral dy) ey x y : ℝ) : ℂ))
        = fun x y => (rho x y : ℂ) + (-1 : ℂ) * (((∑ x, ∑ y, rho x y) / (nx * ny) : ℝ) : ℂ) := by
      refine fft2_inj fun k l => ?_
      rw [fft2_add, ddx_fft dx ex nx0, ddy_fft dy ey ny0, fx, fy, fft2_add, fft2_smul,
        fft2_const (nx := nx) (ny := ny)]
      by_cases h0 : k = 0 ∧ l = 0
      · rw [if_pos h0, h0.1, h0.2, kfull_zero, kfull_zero, fft2_zero]
        push_cast
        field_simp
        ring
      · rw [if_neg h0]
        have hp := k2_pos hdx hdy k l h0
        unfold invK2
        rw [if_pos hp]
        have hp' : (kfull dx k : ℂ) ^ 2 + (kfull dy l : ℂ) ^ 2 ≠ 0 := by exact_mod_cast hp.ne'
        push_cast
        field_simp
        rw [I_sq]
        ring
    have := congrFun (congrFun key x) y
    have h2 := congrArg Complex.re this
    unfold divergence
    rw [← hex, ← hey]
    have h3 : ∀ a b : ℝ, ((a : ℂ) + (-1 : ℂ) * (b : ℂ)).re = a - b := by intro a b; simp; ring
    rw [add_re, ofReal_re, ofReal_re, h3] at h2
    exact h2
  · have key : (fun x y => ((ddx (.spectral dx) ey x y : ℝ) : ℂ)) = fun x y => ((ddy (.spectral dy) ex x y : ℝ) : ℂ) := by
      refine fft2_inj fun k l => ?_
      rw [ddx_fft dx ey ny0, ddy_fft dy ex nx0, fx, fy]
      ring
    have h1 : ddx (.spectral dx) ey x y = ddy (.spectral dy) ex x y := by exact_mod_cast congrFun (congrFun key x) y
    have z1 : ddy (.spectral dy) (fun x y => (poisson dx dy rho x y).z) x y = 0 := applyR_const _ 0 y
    have z2 : ddx (.spectral dx) (fun x y => (poisson dx dy rho x y).z) x y = 0 := applyR_const _ 0 x
    unfold curl
    rw [z1, z2, ← hex, ← hey, h1]
    simp
  · have := hsum ex (by rw [fx, kfull_zero]; simp)
    rwa [hex] at this
  · have := hsum ey (by rw [fy, kfull_zero]; simp)
    rwa [hey] at this

/-- On odd grids every charge is smooth. -/
theorem smooth_odd (hx : nx % 2 = 1) (hy : ny % 2 = 1) (rho : Scal nx ny) : Smooth rho :=
  ⟨fun h => by omega, fun h => by omega⟩

theorem smooth_zero : Smooth (fun (_ : ZMod nx) (_ : ZMod ny) => (0 : ℝ)) := by
  constructor <;> intro _ _ <;> simp [alternating]

/-- No charge, no field. -/
theorem poisson_zero (dx dy : ℝ) : poisson dx dy (fun (_ : ZMod nx) (_ : ZMod ny) => (0 : ℝ)) = fun _ _ => ⟨0, 0, 0⟩ := by
  have hz : fft2 (fun (_ : ZMod nx) (_ : ZMod ny) => ((0 : ℝ) : ℂ)) = fun _ _ => 0 := by
    funext k l
    rw [fft2_const]; simp
  have hi : ifft2 (fun (_ : ZMod nx) (_ : ZMod ny) => (0 : ℂ)) = fun _ _ => 0 := by
    refine fft2_inj fun k l => ?_
    rw [fft2_ifft2, fft2_const]; simp
  funext x y
  simp only [poisson, hz, mul_zero]
  rw [hi]
  rfl

/-- C83: the initial state: the density is that of the profiles, all of it isotropic; no magnetic
field; a quasineutral run whose distribution carries the profile's density starts without a field,
otherwise the field obeys Gauss's law with the ions of the run when the net charge vanishes. -/
theorem initial_state (o : Op) (dx dy ratio : ℝ) (hdx : dx ≠ 0) (hdy : dy ≠ 0) (q : Bool) (n : Scal nx ny) (f00 : ZMod nx → ZMod ny → ℕ → ℝ)
    (hn : ∀ x y, 4 * Real.pi * (∑ j ∈ range o.nv, f00 x y j * o.v j ^ 2) * o.dv = n x y) :
    let s := initialState o dx dy ratio q n f00
    (∀ x y, o.density (s.f x y) = n x y * ratio)
    ∧ (∀ x y i j, i ≠ (o.layout.index 0 0).toNat → s.f x y i j = 0)
    ∧ (∀ x y, s.b x y = ⟨0, 0, 0⟩)
    ∧ (q = true → ∀ x y, s.e x y = ⟨0, 0, 0⟩)
    ∧ (q = false → Smooth (fun x y => n x y) → ∀ x y, divergence (.spectral dx) (.spectral dy) s.e x y
        = (∑ x, ∑ y, n x y * ratio) / (nx * ny) - o.density (s.f x y)) := by
  intro s
  have hd : ∀ x y, o.density (s.f x y) = n x y * ratio := by
    intro x y
    rw [← hn]
    unfold Op.density
    simp only [s, initialState, if_true, ofReal_re]
    rw [mul_assoc (4 * Real.pi * _), mul_comm o.dv, ← mul_assoc, mul_assoc (4 * Real.pi) _ ratio, sum_mul]
    congr 3
    funext j
    ring
  have he : ∀ (c : Scal nx ny), (fun x y => c x y - o.density (s.f x y)) = fun x y => c x y - n x y * ratio := fun c => by
    funext x y; rw [hd]
  refine ⟨hd, fun x y i j hi => if_neg hi, fun _ _ => rfl, fun hq x y => ?_, fun hq hs x y => ?_⟩
  · have h1 : s.e = poisson dx dy (fun x y => n x y * ratio - o.density (s.f x y)) := by
      simp only [s, initialState, hq, if_true]
    rw [h1, he]
    simp only [sub_self]
    rw [poisson_zero]
  · have hmean : (∑ x' : ZMod nx, ∑ y' : ZMod ny, ((∑ x, ∑ y, n x y * ratio) / (nx * ny) - n x' y' * ratio)) = 0 := by
      have hnx : (nx : ℝ) ≠ 0 := by exact_mod_cast NeZero.ne nx
      have hny : (ny : ℝ) ≠ 0 := by exact_mod_cast NeZero.ne ny
      simp only [sum_sub_distrib, sum_const, card_univ, ZMod.card, nsmul_eq_mul]
      obtain ⟨S, hS⟩ : ∃ S, S = ∑ x : ZMod nx, ∑ y : ZMod ny, n x y * ratio := ⟨_, rfl⟩
      rw [← hS]
      field_simp
      ring
    have h1 : s.e = poisson dx dy (fun x' y' => (∑ x, ∑ y, n x y * ratio) / (nx * ny) - o.density (s.f x' y')) := by
      simp only [s, initialState, hq, Bool.false_eq_true, if_false]
    have hsm : Smooth (fun x' y' => (∑ x, ∑ y, n x y * ratio) / (nx * ny) - n x' y' * ratio) := by
      have alt : ∀ (N : ℕ) [NeZero N] (c : ℝ) (g : ZMod N → ℝ), 2 ∣ N → alternating g = 0 → alternating (fun j => c - g j * ratio) = 0 := by
        intro N _ c g hN hg
        have h1 : (alternating (fun _ : ZMod N => (1 : ℝ)) : ℝ) = 0 := by
          obtain ⟨p, hp⟩ := hN
          have hNpos : 0 < N := Nat.pos_of_ne_zero (NeZero.ne N)
          have hk : 2 * ((p : ℕ) : ZMod N).val = N := by
            rw [ZMod.val_natCast, Nat.mod_eq_of_lt (by omega), hp]
          have h2 := alternating_eq (fun _ : ZMod N => (1 : ℝ)) hk
          have h3 := fft_wave (N := N) 0 (p : ZMod N)
          have h4 : wave (N := N) 0 = fun _ => (1 : ℂ) := by funext j; simp [wave]
          rw [h4, if_neg] at h3
          · simp only [ofReal_one] at h2
            rw [h3] at h2
            exact_mod_cast h2.symm
          · intro h0
            rw [Int.cast_zero] at h0
            rw [h0, ZMod.val_zero] at hk
            omega
        unfold alternating at *
        have : ∀ j : ZMod N, (-1 : ℝ) ^ j.val * (c - g j * ratio) = c * ((-1 : ℝ) ^ j.val * 1) - ratio * ((-1 : ℝ) ^ j.val * g j) := fun j => by ring
        rw [sum_congr rfl fun j _ => this j, sum_sub_distrib, ← mul_sum, ← mul_sum, h1, hg]
        ring
      exact ⟨fun hN y' => alt nx _ (fun x => n x y') hN (hs.1 hN y'), fun hN x' => alt ny _ (n x') hN (hs.2 hN x')⟩
    rw [h1, he, (poisson_gauss dx dy hdx hdy _ hsm x y).1, hmean, hd]
    simp

/-- A charge that varies in both directions, on an odd grid, has a field. -/
example : ∃ x y, poisson (nx := 3) (ny := 5) 1 1 (fun x y => if x = 0 ∧ y = 0 then 1 else 0) x y ≠ ⟨0, 0, 0⟩ := by
  by_contra h
  push Not at h
  have := (poisson_gauss (nx := 3) (ny := 5) 1 1 one_ne_zero one_ne_zero (fun x y => if x = 0 ∧ y = 0 then 1 else 0) (smooth_odd rfl rfl _) 1 1).1
  have hz : poisson (nx := 3) (ny := 5) 1 1 (fun x y => if x = 0 ∧ y = 0 then 1 else 0) = fun _ _ => ⟨0, 0, 0⟩ := by
    funext x y; exact h x y
  rw [hz] at this
  have z : divergence (nx := 3) (ny := 5) (.spectral 1) (.spectral 1) (fun _ _ => ⟨0, 0, 0⟩) 1 1 = 0 := by
    have a1 : (Deriv.spectral 1).applyR (fun _ : ZMod 3 => (0 : ℝ)) 1 = 0 := applyR_const _ 0 1
    have a2 : (Deriv.spectral 1).applyR (fun _ : ZMod 5 => (0 : ℝ)) 1 = 0 := applyR_const _ 0 1
    simp only [divergence, ddx, ddy, a1, a2, add_zero]
  rw [z] at this
  have s1 : (∑ x : ZMod 3, ∑ y : ZMod 5, if x = 0 ∧ y = 0 then (1 : ℝ) else 0) = 1 := by
    simp [ite_and]
  rw [s1, if_neg (by decide)] at this
  norm_num at this

end
end Verif.Vfp2d

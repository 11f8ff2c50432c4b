import Verif.Props.Vfp2dPoisson
import Verif.Model.Vfp2dRecon

/-!
The vector potential of the in-plane field of a VFP-2D run (C209).
-/
namespace Verif.Vfp2d.Recon
open Finset Complex Verif.Spectral Verif.Vfp2d
open scoped ComplexConjugate

section
variable {nx ny : ℕ} [NeZero nx] [NeZero ny]

/-- No content on the Nyquist lines. -/
def Clean (a : Scal nx ny) : Prop := ∀ k l, 2 * k.val = nx ∨ 2 * l.val = ny → fft2 (fun x y => (a x y : ℂ)) k l = 0

theorem clean_of_smooth (a : Scal nx ny) (h : Smooth a) : Clean a := smooth_fft a h

/-- Mean over the box. -/
noncomputable def mean (a : Scal nx ny) : ℝ := (∑ x, ∑ y, a x y) / (nx * ny)

theorem ddx_clean (d : ℝ) (a : Scal nx ny) (h : Clean a) : Clean (ddx (.spectral d) a) := fun k l hn => by
  rw [ddx_fft d a h, h k l hn, mul_zero]

theorem ddy_clean (d : ℝ) (a : Scal nx ny) (h : Clean a) : Clean (ddy (.spectral d) a) := fun k l hn => by
  rw [ddy_fft d a h, h k l hn, mul_zero]

theorem ext2 (a b : Scal nx ny) (h : ∀ k l, fft2 (fun x y => (a x y : ℂ)) k l = fft2 (fun x y => (b x y : ℂ)) k l) : a = b := by
  have := fft2_inj h
  funext x y
  exact_mod_cast congrFun (congrFun this x) y

theorem fft2_sub_real (a b : Scal nx ny) (k : ZMod nx) (l : ZMod ny) :
    fft2 (fun x y => ((a x y - b x y : ℝ) : ℂ)) k l = fft2 (fun x y => (a x y : ℂ)) k l - fft2 (fun x y => (b x y : ℂ)) k l := by
  have : (fun x y => ((a x y - b x y : ℝ) : ℂ)) = fun x y => (a x y : ℂ) + (-1 : ℂ) * (b x y : ℂ) := by
    funext x y; push_cast; ring
  rw [this, fft2_add, fft2_smul]; ring

theorem fft2_add_real (a b : Scal nx ny) (k : ZMod nx) (l : ZMod ny) :
    fft2 (fun x y => ((a x y + b x y : ℝ) : ℂ)) k l = fft2 (fun x y => (a x y : ℂ)) k l + fft2 (fun x y => (b x y : ℂ)) k l := by
  have : (fun x y => ((a x y + b x y : ℝ) : ℂ)) = fun x y => (a x y : ℂ) + (b x y : ℂ) := by
    funext x y; push_cast; ring
  rw [this, fft2_add]

theorem fft2_mul_real (c : ℝ) (a : Scal nx ny) (k : ZMod nx) (l : ZMod ny) :
    fft2 (fun x y => ((c * a x y : ℝ) : ℂ)) k l = c * fft2 (fun x y => (a x y : ℂ)) k l := by
  have : (fun x y => ((c * a x y : ℝ) : ℂ)) = fun x y => (c : ℂ) * (a x y : ℂ) := by
    funext x y; push_cast; ring
  rw [this, fft2_smul]

theorem fft2_mean (a : Scal nx ny) (k : ZMod nx) (l : ZMod ny) :
    fft2 (fun (_ : ZMod nx) (_ : ZMod ny) => ((mean a : ℝ) : ℂ)) k l = if k = 0 ∧ l = 0 then fft2 (fun x y => (a x y : ℂ)) 0 0 else 0 := by
  rw [fft2_const]
  split
  · rw [fft2_zero]
    unfold mean
    have hnx : (nx : ℂ) ≠ 0 := by exact_mod_cast NeZero.ne nx
    have hny : (ny : ℂ) ≠ 0 := by exact_mod_cast NeZero.ne ny
    push_cast
    field_simp
  · rfl

theorem k2_zero (dx dy : ℝ) : k2 dx dy (0 : ZMod nx) (0 : ZMod ny) = 0 := by
  unfold k2; rw [kfull_zero, kfull_zero]; norm_num

/-- The spectrum of the vector potential. -/
theorem potential_fft (dx dy : ℝ) (bx by' : Scal nx ny) (hx : Clean bx) (hy : Clean by') (k : ZMod nx) (l : ZMod ny) :
    fft2 (fun x y => ((potential dx dy bx by' x y : ℝ) : ℂ)) k l = if 0 < k2 dx dy k l then
      (-I * (kfull dy l : ℂ) * fft2 (fun x y => (bx x y : ℂ)) k l + I * (kfull dx k : ℂ) * fft2 (fun x y => (by' x y : ℂ)) k l) / (k2 dx dy k l : ℂ)
      else 0 := by
  unfold potential
  rw [fft2_re, fft2_ifft2]
  by_cases hn : 2 * k.val = nx ∨ 2 * l.val = ny
  · have h1 := hx k l hn
    have h2 := fft2_real bx k l
    have h3 := hy k l hn
    have h4 := fft2_real by' k l
    rw [h1] at h2
    rw [h3] at h4
    rw [apply_ite (fun z : ℂ => conj z)]
    simp only [map_div₀, map_add, map_mul, h1, h2, h3, h4, mul_zero, add_zero, zero_div, ite_self, map_zero]
  · push Not at hn
    have e : k2 dx dy (-k) (-l) = k2 dx dy k l := by
      unfold k2; rw [kfull_neg dx k hn.1, kfull_neg dy l hn.2]; ring
    rw [e]
    split
    · simp only [map_div₀, map_add, map_mul, map_neg, conj_I, conj_ofReal, fft2_real, kfull_neg dx k hn.1, kfull_neg dy l hn.2]
      push_cast
      ring
    · simp

theorem potential_clean (dx dy : ℝ) (bx by' : Scal nx ny) (hx : Clean bx) (hy : Clean by') : Clean (potential dx dy bx by') := fun k l hn => by
  rw [potential_fft dx dy bx by' hx hy, hx k l hn, hy k l hn]
  simp

/-- C209: the potential has no mean. -/
theorem potential_mean (dx dy : ℝ) (bx by' : Scal nx ny) (hx : Smooth bx) (hy : Smooth by') :
    ∑ x, ∑ y, potential dx dy bx by' x y = 0 := by
  have h := potential_fft dx dy bx by' (clean_of_smooth _ hx) (clean_of_smooth _ hy) 0 0
  rw [k2_zero, if_neg (lt_irrefl 0), fft2_zero] at h
  exact_mod_cast h

/-- C209: the curl of the potential is the field without its mean, for every field without divergence. -/
theorem potential_curl (dx dy : ℝ) (hdx : dx ≠ 0) (hdy : dy ≠ 0) (bx by' : Scal nx ny) (hx : Smooth bx) (hy : Smooth by')
    (hdiv : ∀ x y, ddx (.spectral dx) bx x y + ddy (.spectral dy) by' x y = 0) (x : ZMod nx) (y : ZMod ny) :
    ddy (.spectral dy) (potential dx dy bx by') x y = bx x y - mean bx
    ∧ -ddx (.spectral dx) (potential dx dy bx by') x y = by' x y - mean by' := by
  have cx := clean_of_smooth _ hx
  have cy := clean_of_smooth _ hy
  have cp := potential_clean dx dy bx by' cx cy
  have dv : ∀ k l, I * (kfull dx k : ℂ) * fft2 (fun x y => (bx x y : ℂ)) k l + I * (kfull dy l : ℂ) * fft2 (fun x y => (by' x y : ℂ)) k l = 0 := by
    intro k l
    rw [← ddx_fft dx bx cx, ← ddy_fft dy by' cy, ← fft2_add]
    have : (fun x y => ((ddx (.spectral dx) bx x y : ℝ) : ℂ) + ((ddy (.spectral dy) by' x y : ℝ) : ℂ)) = fun _ _ => (0 : ℂ) := by
      funext x y; exact_mod_cast hdiv x y
    rw [this, fft2_const]; simp
  have dv' : ∀ k l, (kfull dx k : ℂ) * fft2 (fun x y => (bx x y : ℂ)) k l + (kfull dy l : ℂ) * fft2 (fun x y => (by' x y : ℂ)) k l = 0 := by
    intro k l
    have := dv k l
    have h2 : I * ((kfull dx k : ℂ) * fft2 (fun x y => (bx x y : ℂ)) k l + (kfull dy l : ℂ) * fft2 (fun x y => (by' x y : ℂ)) k l) = 0 := by
      rw [← this]; ring
    exact (mul_eq_zero.1 h2).resolve_left I_ne_zero
  constructor
  · have key : ddy (.spectral dy) (potential dx dy bx by') = fun x y => bx x y - mean bx := by
      refine ext2 _ _ fun k l => ?_
      rw [ddy_fft dy _ cp, potential_fft dx dy bx by' cx cy, fft2_sub_real bx (fun _ _ => mean bx), fft2_mean]
      by_cases h0 : k = 0 ∧ l = 0
      · obtain ⟨rfl, rfl⟩ := h0
        rw [k2_zero, if_neg (lt_irrefl 0)]; simp
      · have hp : 0 < k2 dx dy k l := k2_pos hdx hdy k l h0
        have hp' : (kfull dx k : ℂ) ^ 2 + (kfull dy l : ℂ) ^ 2 ≠ 0 := by
          have := hp.ne'
          unfold k2 at this
          exact_mod_cast this
        have e := dv' k l
        rw [if_pos hp, if_neg h0]
        unfold k2
        push_cast
        rw [← mul_div_assoc, div_eq_iff hp']
        linear_combination (-(kfull dy l : ℂ) ^ 2 * fft2 (fun x y => (bx x y : ℂ)) k l + (kfull dx k : ℂ) * (kfull dy l : ℂ) * fft2 (fun x y => (by' x y : ℂ)) k l) * I_sq - (kfull dx k : ℂ) * e
    exact congrFun (congrFun key x) y
  · have key : ddx (.spectral dx) (potential dx dy bx by') = fun x y => mean by' - by' x y := by
      refine ext2 _ _ fun k l => ?_
      rw [ddx_fft dx _ cp, potential_fft dx dy bx by' cx cy, fft2_sub_real (fun _ _ => mean by') by', fft2_mean]
      by_cases h0 : k = 0 ∧ l = 0
      · obtain ⟨rfl, rfl⟩ := h0
        rw [k2_zero, if_neg (lt_irrefl 0)]; simp
      · have hp : 0 < k2 dx dy k l := k2_pos hdx hdy k l h0
        have hp' : (kfull dx k : ℂ) ^ 2 + (kfull dy l : ℂ) ^ 2 ≠ 0 := by
          have := hp.ne'
          unfold k2 at this
          exact_mod_cast this
        have e := dv' k l
        rw [if_pos hp, if_neg h0]
        unfold k2
        push_cast
        rw [← mul_div_assoc, div_eq_iff hp']
        linear_combination ((kfull dx k : ℂ) ^ 2 * fft2 (fun x y => (by' x y : ℂ)) k l - (kfull dx k : ℂ) * (kfull dy l : ℂ) * fft2 (fun x y => (bx x y : ℂ)) k l) * I_sq + (kfull dy l : ℂ) * e
    rw [congrFun (congrFun key x) y]
    ring

/-- C209: Ampere's law, for any field, with divergence or not: minus the Laplacian of the potential is the curl of the field. -/
theorem potential_current (dx dy : ℝ) (hdx : dx ≠ 0) (hdy : dy ≠ 0) (bx by' : Scal nx ny) (hx : Smooth bx) (hy : Smooth by') (x : ZMod nx) (y : ZMod ny) :
    -(ddx (.spectral dx) (ddx (.spectral dx) (potential dx dy bx by')) x y + ddy (.spectral dy) (ddy (.spectral dy) (potential dx dy bx by')) x y)
      = ddx (.spectral dx) by' x y - ddy (.spectral dy) bx x y := by
  have cx := clean_of_smooth _ hx
  have cy := clean_of_smooth _ hy
  have cp := potential_clean dx dy bx by' cx cy
  have key : (fun x y => ddx (.spectral dx) (ddx (.spectral dx) (potential dx dy bx by')) x y + ddy (.spectral dy) (ddy (.spectral dy) (potential dx dy bx by')) x y)
      = fun x y => ddy (.spectral dy) bx x y - ddx (.spectral dx) by' x y := by
    refine ext2 _ _ fun k l => ?_
    rw [fft2_add_real, fft2_sub_real, ddx_fft dx _ (ddx_clean dx _ cp), ddy_fft dy _ (ddy_clean dy _ cp), ddx_fft dx _ cp, ddy_fft dy _ cp,
      ddx_fft dx _ cy, ddy_fft dy _ cx, potential_fft dx dy bx by' cx cy]
    by_cases h0 : k = 0 ∧ l = 0
    · obtain ⟨rfl, rfl⟩ := h0
      simp [kfull_zero]
    · have hp : 0 < k2 dx dy k l := k2_pos hdx hdy k l h0
      have hp' : (kfull dx k : ℂ) ^ 2 + (kfull dy l : ℂ) ^ 2 ≠ 0 := by
          have := hp.ne'
          unfold k2 at this
          exact_mod_cast this
      rw [if_pos hp]
      unfold k2
      push_cast
      field_simp
      rw [I_sq]
      ring
  have := congrFun (congrFun key x) y
  beta_reduce at this
  rw [this]
  ring

/-- C209: the potential of a curl is the original potential without its mean. -/
theorem potential_of (dx dy : ℝ) (hdx : dx ≠ 0) (hdy : dy ≠ 0) (a : Scal nx ny) (h : Smooth a) (x : ZMod nx) (y : ZMod ny) :
    potential dx dy (ddy (.spectral dy) a) (fun x y => -ddx (.spectral dx) a x y) x y = a x y - mean a := by
  have ca := clean_of_smooth _ h
  have cx := ddy_clean dy a ca
  have e1 : (fun x y => -ddx (.spectral dx) a x y) = fun x y => (-1) * ddx (.spectral dx) a x y := by funext x y; ring
  have e2 : (fun x y => ((-ddx (.spectral dx) a x y : ℝ) : ℂ)) = fun x y => (((-1) * ddx (.spectral dx) a x y : ℝ) : ℂ) := by funext x y; push_cast; ring
  have cy : Clean (fun x y => -ddx (.spectral dx) a x y) := fun k l hn => by
    rw [e1, fft2_mul_real, ddx_clean dx a ca k l hn, mul_zero]
  have key : potential dx dy (ddy (.spectral dy) a) (fun x y => -ddx (.spectral dx) a x y) = fun x y => a x y - mean a := by
    refine ext2 _ _ fun k l => ?_
    rw [potential_fft dx dy _ _ cx cy, fft2_sub_real a (fun _ _ => mean a), fft2_mean, e2, fft2_mul_real, ddx_fft dx a ca, ddy_fft dy a ca]
    by_cases h0 : k = 0 ∧ l = 0
    · obtain ⟨rfl, rfl⟩ := h0
      rw [k2_zero, if_neg (lt_irrefl 0)]; simp
    · have hp : 0 < k2 dx dy k l := k2_pos hdx hdy k l h0
      have hp' : (kfull dx k : ℂ) ^ 2 + (kfull dy l : ℂ) ^ 2 ≠ 0 := by
          have := hp.ne'
          unfold k2 at this
          exact_mod_cast this
      rw [if_pos hp, if_neg h0]
      unfold k2
      push_cast
      rw [div_eq_iff hp']
      linear_combination (-((kfull dx k : ℂ) ^ 2 + (kfull dy l : ℂ) ^ 2) * fft2 (fun x y => (a x y : ℂ)) k l) * I_sq
  exact congrFun (congrFun key x) y

/-- The potential is linear. -/
theorem potential_linear (dx dy c : ℝ) (bx by' ex ey : Scal nx ny) (hx : Smooth bx) (hy : Smooth by') (gx : Clean ex) (gy : Clean ey) (x : ZMod nx) (y : ZMod ny) :
    potential dx dy (fun x y => bx x y + c * ex x y) (fun x y => by' x y + c * ey x y) x y
      = potential dx dy bx by' x y + c * potential dx dy ex ey x y := by
  have cx := clean_of_smooth _ hx
  have cy := clean_of_smooth _ hy
  have c1 : Clean (fun x y => bx x y + c * ex x y) := fun k l hn => by
    rw [fft2_add_real bx (fun x y => c * ex x y), fft2_mul_real, cx k l hn, gx k l hn]; simp
  have c2 : Clean (fun x y => by' x y + c * ey x y) := fun k l hn => by
    rw [fft2_add_real by' (fun x y => c * ey x y), fft2_mul_real, cy k l hn, gy k l hn]; simp
  have key : potential dx dy (fun x y => bx x y + c * ex x y) (fun x y => by' x y + c * ey x y)
      = fun x y => potential dx dy bx by' x y + c * potential dx dy ex ey x y := by
    refine ext2 _ _ fun k l => ?_
    rw [fft2_add_real (potential dx dy bx by') (fun x y => c * potential dx dy ex ey x y), fft2_mul_real, potential_fft dx dy _ _ c1 c2,
      potential_fft dx dy _ _ cx cy, potential_fft dx dy _ _ gx gy, fft2_add_real bx (fun x y => c * ex x y), fft2_mul_real,
      fft2_add_real by' (fun x y => c * ey x y), fft2_mul_real]
    split
    · ring
    · simp
  exact congrFun (congrFun key x) y

/-- C209: Faraday's law: when the field advances by the curl of an electric field, the potential of every cell decreases by
the field along z, up to the mean of it. So the flux between two cells changes by the difference of their fields. -/
theorem potential_faraday (dx dy dt : ℝ) (hdx : dx ≠ 0) (hdy : dy ≠ 0) (bx by' ez : Scal nx ny) (hx : Smooth bx) (hy : Smooth by') (hz : Smooth ez)
    (x : ZMod nx) (y : ZMod ny) :
    potential dx dy (fun x y => bx x y - dt * ddy (.spectral dy) ez x y) (fun x y => by' x y + dt * ddx (.spectral dx) ez x y) x y
      = potential dx dy bx by' x y - dt * (ez x y - mean ez) := by
  have cz := clean_of_smooth _ hz
  have e1 : (fun x y => -ddx (.spectral dx) ez x y) = fun x y => (-1) * ddx (.spectral dx) ez x y := by funext x y; ring
  have cy : Clean (fun x y => -ddx (.spectral dx) ez x y) := fun k l hn => by
    rw [e1, fft2_mul_real, ddx_clean dx ez cz k l hn, mul_zero]
  have h := potential_linear dx dy (-dt) bx by' (ddy (.spectral dy) ez) (fun x y => -ddx (.spectral dx) ez x y) hx hy (ddy_clean dy ez cz) cy x y
  rw [potential_of dx dy hdx hdy ez hz] at h
  have a1 : (fun x y => bx x y - dt * ddy (.spectral dy) ez x y) = fun x y => bx x y + -dt * ddy (.spectral dy) ez x y := by funext x y; ring
  have a2 : (fun x y => by' x y + dt * ddx (.spectral dx) ez x y) = fun x y => by' x y + -dt * -ddx (.spectral dx) ez x y := by funext x y; ring
  rw [a1, a2, h]
  ring

/-- A uniform field has no potential on a periodic box. -/
theorem potential_uniform (dx dy bx by' : ℝ) (x : ZMod nx) (y : ZMod ny) : potential dx dy (fun _ _ => bx) (fun _ _ => by') x y = 0 := by
  have : (fun (k : ZMod nx) (l : ZMod ny) => if 0 < k2 dx dy k l then
    (-I * (kfull dy l : ℂ) * fft2 (fun (_ : ZMod nx) (_ : ZMod ny) => (bx : ℂ)) k l + I * (kfull dx k : ℂ) * fft2 (fun (_ : ZMod nx) (_ : ZMod ny) => (by' : ℂ)) k l) / (k2 dx dy k l : ℂ)
    else 0) = fun _ _ => 0 := by
    funext k l
    rw [fft2_const, fft2_const]
    by_cases h0 : k = 0 ∧ l = 0
    · obtain ⟨rfl, rfl⟩ := h0
      rw [k2_zero, if_neg (lt_irrefl 0)]
    · rw [if_neg h0, if_neg h0]; simp
  unfold potential
  rw [this]
  have hi : ifft2 (fun (_ : ZMod nx) (_ : ZMod ny) => (0 : ℂ)) = fun _ _ => 0 := by
    refine fft2_inj fun k l => ?_
    rw [fft2_ifft2, fft2_const]; simp
  rw [hi]; rfl

end

/-- C209 fails for fields with content on a Nyquist line of an even grid: a zigzag field without divergence, whose potential is zero everywhere. -/
theorem potential_nyquist_partial :
    ∃ by' : Scal 2 1, (∀ x y, ddx (.spectral 1) (fun _ _ => 0) x y + ddy (.spectral 1) by' x y = 0) ∧ by' 0 0 = 1 ∧ mean by' = 0
      ∧ ∀ x y, potential 1 1 (fun _ _ => 0) by' x y = 0 := by
  refine ⟨fun x _ => if x = 0 then 1 else -1, ?_, rfl, ?_, ?_⟩
  · intro x y
    have a1 : (Deriv.spectral 1).applyR (fun _ : ZMod 2 => (0 : ℝ)) x = 0 := applyR_const _ 0 x
    have a2 : (Deriv.spectral 1).applyR (fun _ : ZMod 1 => (if x = 0 then (1 : ℝ) else -1)) y = 0 := applyR_const _ _ y
    simp only [ddx, ddy, a1, a2, add_zero]
  · unfold mean
    have : (∑ x : ZMod 2, ∑ _y : ZMod 1, (if x = 0 then (1 : ℝ) else -1)) = 0 := by
      have h : (Finset.univ : Finset (ZMod 2)) = {0, 1} := rfl
      rw [h]; simp
    rw [this]; simp
  · intro x y
    have hn : ∀ z : ZMod 2, -z = z := by decide
    have hn1 : ∀ z : ZMod 1, -z = z := by decide
    have key : potential 1 1 (fun (_ : ZMod 2) (_ : ZMod 1) => 0) (fun x _ => if x = 0 then 1 else -1) = fun _ _ => 0 := by
      refine ext2 _ _ fun k l => ?_
      unfold potential
      rw [fft2_re, fft2_ifft2, hn, hn1]
      have hr := fft2_real (fun (x : ZMod 2) (_ : ZMod 1) => if x = 0 then (1 : ℝ) else -1) k l
      have hr0 := fft2_real (fun (x : ZMod 2) (_ : ZMod 1) => (0 : ℝ)) k l
      rw [hn, hn1] at hr hr0
      split
      · simp only [map_div₀, map_add, map_mul, map_neg, conj_I, conj_ofReal, hr, hr0]
        have hc := fft2_const (nx := 2) (ny := 1) (0 : ℂ) k l
        simp only [ofReal_zero]
        rw [hc]
        simp
        ring
      · have hc := fft2_const (nx := 2) (ny := 1) (0 : ℂ) k l
        simp [hc]
    exact congrFun (congrFun key x) y

/-- A single hump of the potential on an odd grid satisfies the hypotheses, with a field that is not zero. -/
example : ∃ a : Scal 3 3, Smooth a ∧ ∃ x y, potential 1 1 (ddy (.spectral 1) a) (fun x y => -ddx (.spectral 1) a x y) x y ≠ 0 := by
  refine ⟨fun x y => if x = 0 ∧ y = 0 then 1 else 0, smooth_odd rfl rfl _, 1, 1, ?_⟩
  rw [potential_of 1 1 one_ne_zero one_ne_zero _ (smooth_odd rfl rfl _)]
  have s1 : (∑ x : ZMod 3, ∑ y : ZMod 3, if x = 0 ∧ y = 0 then (1 : ℝ) else 0) = 1 := by
    simp [ite_and]
  unfold mean
  rw [s1, if_neg (by decide)]
  norm_num

end Verif.Vfp2d.Recon

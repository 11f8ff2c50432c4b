import Verif.Props.SpectraxEnergy
import Verif.Props.SpectraxGauss
import Verif.Props.Driver

/-! C158, C160-C163: static ions, what is saved, the time grid, the driver of the Hermite-Fourier solver. -/
namespace Verif.Spectrax
open Finset Complex Verif.Hermite
open scoped ComplexConjugate

variable {Ny Nx Nz : ℕ} [NeZero Ny] [NeZero Nx] [NeZero Nz] {de di d : Dims}

/-! ### C158: static ions -/

/-- The ions as a linear function of the state. -/
def ionsL (de di : Dims) (Ny Nx Nz : ℕ) : St de di Ny Nx Nz →ₗ[ℝ] Tens di (K Ny Nx Nz → ℂ) where
  toFun y := y.2.1
  map_add' _ _ := rfl
  map_smul' _ _ := rfl

/-- C158: static ions that start as a density only (as the initial state makes them) keep every coefficient in every run of either integrator, whatever the
electrons, fields, collisions, drivers, noise, sponges and (with positive order) filters do. -/
theorem static_ions (p : Setup de di Ny Nx Nz) (hs : p.staticIons = true) (hf : GoodFilter p.filter) (me : TwoFluid.Method) (t : ℝ) (y : St de di Ny Nx Nz)
    (hy : ∀ a b c, ¬ (a.val = 0 ∧ b.val = 0 ∧ c.val = 0) → y.2.1 a b c = 0) (hh : List ℝ) :
    (loop p.expStep t y hh).2.2.1 = y.2.1 ∧ (loop (p.rkStep me) t y hh).2.2.1 = y.2.1 := by
  have l1 : ∀ t h v, ionsL de di Ny Nx Nz (p.lawsonStep t h v) = ionsL de di Ny Nx Nz v := fun t h v =>
    lawson_linear_invariant (ionsL de di Ny Nx Nz) p.exp p.nonlinear (fun s v => by simp [ionsL, Setup.exp, hs]) (fun s v => by simp [ionsL, Setup.nonlinear, hs]) t h v
  have l2 : ∀ t h v, ionsL de di Ny Nx Nz (TwoFluid.rkStep me me.b p.explicit t h v) = ionsL de di Ny Nx Nz v := fun t h v =>
    rk_linear_invariant (ionsL de di Ny Nx Nz) me me.b p.explicit (fun s v => by simp [ionsL, Setup.explicit, hs]) t h v
  have dm : ∀ (f : Option (ℝ × ℕ)) (_ : GoodFilter f) (h : ℝ) (v : St de di Ny Nx Nz) (_ : v.2.1 = y.2.1), (p.damp f h v).2.1 = y.2.1 := by
    intro f hf h v hv
    funext a b c
    show applyFilter f (spongeC p.spongeI h v.2.1) a b c = _
    rw [hv]
    by_cases h0 : a.val = 0 ∧ b.val = 0 ∧ c.val = 0
    · funext k; rw [filter_density hf _ _ _ _ h0.1 h0.2.1 h0.2.2, sponge_density _ _ _ _ _ _ h0.1 h0.2.1 h0.2.2]
    · have z : spongeC p.spongeI h y.2.1 a b c = 0 := by
        cases p.spongeI with
        | none => exact hy a b c h0
        | some s =>
          simp only [spongeC, hy a b c h0, toX3_zero]
          simp only [Pi.zero_apply, zero_mul]
          exact toK3_zero
      rw [hy a b c h0]
      cases f with
      | none => exact z
      | some q => funext k; simp [applyFilter, z]
  have lp : ∀ (step : ℝ → ℝ → St de di Ny Nx Nz → St de di Ny Nx Nz) (_ : ∀ t h v, v.2.1 = y.2.1 → (step t h v).2.1 = y.2.1) (hh : List ℝ) (t : ℝ) (v : St de di Ny Nx Nz),
      v.2.1 = y.2.1 → (loop step t v hh).2.2.1 = y.2.1 := by
    intro step h hh
    induction hh with
    | nil => intro t v hv; exact hv
    | cons a l ih => intro t v hv; exact ih _ _ (h _ _ _ hv)
  exact ⟨lp _ (fun t h v hv => dm _ hf h _ ((l1 t h v).trans hv)) hh t y rfl,
    lp _ (fun t h v hv => dm none (fun _ h => by cases h) h _ ((l2 t h v).trans hv)) hh t y rfl⟩

/-- … and the initial ions are a density only. -/
example (aE aI : ℝ) (L : Fin 3 → ℝ) (nx ny nz : ℤ) (dn omega : ℝ) (a : Fin di.np) (b : Fin di.nm) (c : Fin di.nn) (h : ¬ (a.val = 0 ∧ b.val = 0 ∧ c.val = 0)) :
    (initial (de := de) (di := di) (Ny := Ny) (Nx := Nx) (Nz := Nz) aE aI L nx ny nz dn omega).2.1 a b c = 0 := by
  show (if a.val = 0 ∧ b.val = 0 ∧ c.val = 0 then _ else _) = _
  rw [if_neg h]

/-! ### C160: saved states -/

/-- C160: what is saved at the end of a step is the state before the split-step damping; it agrees with the state of the solver when there is neither a filter
nor a sponge. -/
theorem saved_end (p : Setup de di Ny Nx Nz) (t h : ℝ) (y : St de di Ny Nx Nz) :
    p.expStep t h y = p.damp p.filter h (p.savedExp t h 1 y) ∧ p.savedExp t h 0 y = y ∧
      (p.filter = none → p.spongeF = none → p.spongeE = none → p.spongeI = none → p.savedExp t h 1 y = p.expStep t h y) := by
  have e : p.savedExp t h 1 y = p.lawsonStep t h y := by unfold Setup.savedExp; rw [one_smul]; abel
  refine ⟨by rw [e]; rfl, by unfold Setup.savedExp; rw [zero_smul, add_zero], fun h1 h2 h3 h4 => ?_⟩
  rw [e]
  unfold Setup.expStep Setup.damp
  rw [h1, h2, h3, h4]
  rfl

/-- A state that neither the linear nor the nonlinear terms change is kept by a step. -/
theorem lawson_fixed (p : Setup de di Ny Nx Nz) (y : St de di Ny Nx Nz) (h1 : ∀ s, p.exp s y = y) (h2 : ∀ t, p.nonlinear t y = 0) (t h : ℝ) :
    p.lawsonStep t h y = y := by
  have z : ∀ s, p.exp s 0 = 0 := fun s => (p.expL s).map_zero
  unfold Setup.lawsonStep
  rw [lawson_stages p.exp p.nonlinear t h y (n1 := 0) (n2 := 0) (n3 := 0) (n4 := 0) (h2 t).symm
    (by rw [h1, z, smul_zero, add_zero, h2]) (by rw [h1, smul_zero, add_zero, h2]) (by rw [h1, z, smul_zero, add_zero, h2])]
  simp [h1, z]

/-- The two-mode system with a field sponge of rate 1 everywhere, and a uniform magnetic field alone. -/
noncomputable def sponge2 : Setup ⟨1, 1, 2⟩ ⟨1, 1, 1⟩ 1 2 1 := { wave2 with spongeF := some fun _ => 1 }
noncomputable def magnet2 : St ⟨1, 1, 2⟩ ⟨1, 1, 1⟩ 1 2 1 := (0, 0, 0, fun j k => if j = 2 ∧ k = 0 then 1 else 0)

/-- C160 fails with a sponge: at the end of a step of length 1 the solver continues from a field of `exp(-1)`, what is saved for that time is 1. -/
theorem saved_not_state_partial : (sponge2.expStep 0 1 magnet2).2.2.2 2 0 = ((Real.exp (-1) : ℝ) : ℂ) ∧ (sponge2.savedExp 0 1 1 magnet2).2.2.2 2 0 = 1 := by
  have hx : ∀ s, sponge2.exp s magnet2 = magnet2 := by
    intro s
    have z : sponge2.exp s 0 = 0 := (sponge2.expL s).map_zero
    have z1 : (sponge2.exp s magnet2).1 = 0 := congrArg (fun v : St ⟨1, 1, 2⟩ ⟨1, 1, 1⟩ 1 2 1 => v.1) z
    have z2 : (sponge2.exp s magnet2).2.1 = 0 := congrArg (fun v : St ⟨1, 1, 2⟩ ⟨1, 1, 1⟩ 1 2 1 => v.2.1) z
    have f : ∀ k : K 1 2 1, maxwell (xi sponge2.L k) s (fun i => magnet2.2.2.1 i k) (fun i => magnet2.2.2.2 i k) = (fun i => magnet2.2.2.1 i k, fun i => magnet2.2.2.2 i k) := by
      intro k
      by_cases hk : k = 0
      · subst hk
        rw [xi_zero]
        unfold maxwell cross
        ext j
        · fin_cases j <;> simp
        · fin_cases j <;> simp
      · have e1 : (fun i => magnet2.2.2.1 i k) = 0 := rfl
        have e2 : (fun i => magnet2.2.2.2 i k) = 0 := by funext i; simp [magnet2, hk]
        rw [e1, e2]
        unfold maxwell cross
        ext j
        · fin_cases j <;> simp
        · fin_cases j <;> simp
    refine Prod.ext z1 (Prod.ext z2 (Prod.ext ?_ ?_))
    · funext j k
      show (maxwell (xi sponge2.L k) s (fun i => magnet2.2.2.1 i k) (fun i => magnet2.2.2.2 i k)).1 j = _
      rw [f]
    · funext j k
      show (maxwell (xi sponge2.L k) s (fun i => magnet2.2.2.1 i k) (fun i => magnet2.2.2.2 i k)).2 j = _
      rw [f]
  have hn : ∀ t, sponge2.nonlinear t magnet2 = 0 := by
    intro t
    have l0 : lorentz sponge2.e sponge2.omega magnet2.1 magnet2.2.2.1 magnet2.2.2.2 = 0 := lorentz_none _ _ _ (fun _ _ _ => rfl) _ _
    have J0 : ∀ k j, sponge2.J magnet2 k j = 0 := by
      intro k j
      have e : ∀ p m n, pad (slice magnet2.1 k) p m n = 0 := by
        intro p m n; unfold pad slice; split_ifs <;> rfl
      unfold Setup.J current
      rw [show sponge2.staticIons = true from rfl, if_pos rfl]
      fin_cases j <;> simp [e]
    refine Prod.ext ?_ (Prod.ext rfl (Prod.ext ?_ rfl))
    · exact l0
    · funext j k
      show -sponge2.J magnet2 k j / ((1 : ℝ) : ℂ) + 0 = 0
      rw [J0]; simp
  have L := lawson_fixed sponge2 magnet2 hx hn 0 1
  have S := (saved_end sponge2 0 1 magnet2)
  have e : sponge2.savedExp 0 1 1 magnet2 = magnet2 := by unfold Setup.savedExp; rw [L, sub_self, smul_zero, add_zero]
  constructor
  · rw [S.1, e]
    show toK3 (fun x => toX3 (magnet2.2.2.2 2) x * ((Real.exp (-1 * 1) : ℝ) : ℂ)) 0 = _
    rw [toK3_mean, ← sum_mul]
    have := toK3_mean (toX3 (magnet2.2.2.2 2))
    rw [toK3_toX3] at this
    have m1 : magnet2.2.2.2 2 0 = 1 := by simp [magnet2]
    rw [m1] at this
    rw [mul_comm, mul_div_assoc, ← this, mul_one, mul_one]
  · rw [e]; simp [magnet2]

/-- C154: the error estimate for the step-size controller: with forcing that depends on time alone it is the difference of Simpson's and the trapezoidal
rule of the propagated forcing, whatever the linear flow; in particular it vanishes without nonlinear terms, however long the step. -/
theorem lawson_error_quadrature {E : Type*} [AddCommGroup E] [Module ℝ E] (S : ℝ → E →ₗ[ℝ] E) (f : ℝ → E) (t h : ℝ) (y : E) :
    lawsonError (fun s v => S s v) (fun s _ => f s) t h y =
      (h / 6) • (S h (f t) + (4 : ℝ) • S (h / 2) (f (t + h / 2)) + f (t + h)) - (h / 2) • (S h (f t) + f (t + h)) := by
  unfold lawsonError
  rw [lawson_stages (fun s v => S s v) (fun s _ => f s) t h y (n1 := f t) (n2 := f (t + h / 2)) (n3 := f (t + h / 2)) (n4 := f (t + h)) rfl rfl rfl rfl]
  simp only [smul_add, smul_smul]
  module

/-! ### C161: saved moments -/

/-- C161: the saved density and flows are the zeroth and first moments of the distribution. -/
theorem moments_spec (s : Species) (ha : ∀ i, s.alpha i ≠ 0) (C : Tens d ℂ) (M : Dist) (hM : Represents s.alpha s.u M C) :
    (moments s C).n = (number M).re ∧ ∀ j, (moments s C).J j = (flow M j).re := by
  constructor
  · have h := represents_pad hM 0 0 0
    have b : ∀ a u, bz a u 0 = 1 := fun a u => by rw [show (0 : ℤ) = ((0 : ℕ) : ℤ) by rfl, bz_nat, basis_zero]
    rw [b, b, b] at h
    show (_ * pad C 0 0 0).re = _
    rw [← h]; rfl
  · intro j
    have c := current_spec { s with q := 1 } ha C M hM j
    simp only [ofReal_one, one_mul] at c
    rw [← c]
    unfold moments current
    fin_cases j <;> simp only [Fin.zero_eta, Fin.mk_one, Fin.reduceFinMk, Matrix.cons_val_zero, Matrix.cons_val_one, Matrix.cons_val, one_mul] <;> congr 1 <;> ring

/-- `1/3 Σ_j ∫ (v_j - w_j)² f d³v / n`: the temperature (per mass) of a distribution about the velocity `w`. -/
noncomputable def tempAbout (M : Dist) (w : Fin 3 → ℝ) : ℝ :=
  (∑ j, (square M j - 2 * w j * flow M j + w j ^ 2 * number M)).re / (3 * (number M).re)

/-- C161: the saved temperature is the one about the fixed drift `u` of the species' Hermite basis (real coefficients, density not near zero). -/
theorem temperature_spec (s : Species) (ha : ∀ i, s.alpha i ≠ 0) (C : Tens d ℂ) (hr : ∀ p m n, (C p m n).im = 0) (M : Dist) (hM : Represents s.alpha s.u M C)
    (h0 : 1e-20 ≤ ‖pad C 0 0 0‖) : (moments s C).T = tempAbout M s.u := by
  have h := represents_pad hM
  have b0 : ∀ a u, bz a u 0 = 1 := fun a u => by rw [show (0 : ℤ) = ((0 : ℕ) : ℤ) by rfl, bz_nat, basis_zero]
  have hx : ∀ n, M (bz (s.alpha 0) (s.u 0) n) 1 1 = ((s.alpha 0 * s.alpha 1 * s.alpha 2 : ℝ) : ℂ) * pad C 0 0 n := fun n => by
    rw [← h 0 0 n, b0, b0]
  have hy : ∀ n, M 1 (bz (s.alpha 1) (s.u 1) n) 1 = ((s.alpha 0 * s.alpha 1 * s.alpha 2 : ℝ) : ℂ) * pad C 0 n 0 := fun n => by
    rw [← h 0 n 0, b0, b0]
  have hz : ∀ n, M 1 1 (bz (s.alpha 2) (s.u 2) n) = ((s.alpha 0 * s.alpha 1 * s.alpha 2 : ℝ) : ℂ) * pad C n 0 0 := fun n => by
    rw [← h n 0 0, b0, b0]
  have pr : ∀ p m n, ∃ r : ℝ, pad C p m n = (r : ℂ) := by
    intro p m n
    unfold pad
    split_ifs
    · exact ⟨_, Complex.ext rfl (hr _ _ _)⟩
    · exact ⟨0, by simp⟩
  obtain ⟨c0, e0⟩ := pr 0 0 0
  obtain ⟨x1, ex1⟩ := pr 0 0 1
  obtain ⟨x2, ex2⟩ := pr 0 0 2
  obtain ⟨y1, ey1⟩ := pr 0 1 0
  obtain ⟨y2, ey2⟩ := pr 0 2 0
  obtain ⟨z1, ez1⟩ := pr 1 0 0
  obtain ⟨z2, ez2⟩ := pr 2 0 0
  have c00 : c0 ≠ 0 := by rintro rfl; rw [e0] at h0; norm_num at h0
  have sf : safe0 (pad C 0 0 0) = (c0 : ℂ) := by unfold safe0; rw [if_neg (not_lt.mpr h0), e0]
  have tt : ∀ (N : ℕ) (a : ℝ) (c : ℂ) (r : ℝ), c = (r : ℂ) → (N ≤ 2 → r = 0) → temperature N a (pad C 0 0 0) c = a ^ 2 / 2 * (1 + Real.sqrt 2 * (r / c0)) := by
    intro N a c r hc hN
    unfold temperature
    split_ifs with h2
    · rw [sf, hc, ← ofReal_div, ofReal_re, show (0.5 : ℝ) = 1 / 2 by norm_num]; ring
    · rw [hN (by omega), show (0.5 : ℝ) = 1 / 2 by norm_num]; ring
  have zx : d.nn ≤ 2 → x2 = 0 := fun hh => by
    have : pad C 0 0 2 = 0 := by unfold pad; rw [dif_neg (by omega)]
    rw [ex2] at this; exact_mod_cast this
  have zy : d.nm ≤ 2 → y2 = 0 := fun hh => by
    have : pad C 0 2 0 = 0 := by unfold pad; rw [dif_neg (by omega)]
    rw [ey2] at this; exact_mod_cast this
  have zz : d.np ≤ 2 → z2 = 0 := fun hh => by
    have : pad C 2 0 0 = 0 := by unfold pad; rw [dif_neg (by omega)]
    rw [ez2] at this; exact_mod_cast this
  have T : (moments s C).T = (s.alpha 0 ^ 2 / 2 * (1 + Real.sqrt 2 * (x2 / c0)) + s.alpha 1 ^ 2 / 2 * (1 + Real.sqrt 2 * (y2 / c0)) + s.alpha 2 ^ 2 / 2 * (1 + Real.sqrt 2 * (z2 / c0))) / 3 := by
    unfold moments
    simp only
    rw [tt _ _ _ _ ex2 zx, tt _ _ _ _ ey2 zy, tt _ _ _ _ ez2 zz]
  have n0 : number M = ((s.alpha 0 * s.alpha 1 * s.alpha 2 * c0 : ℝ) : ℂ) := by
    have := hx 0
    rw [b0, e0] at this
    unfold number; rw [this]; push_cast; rfl
  have sq : ∑ j, (square M j - 2 * s.u j * flow M j + s.u j ^ 2 * number M) = ((s.alpha 0 * s.alpha 1 * s.alpha 2 * c0 *
      (s.alpha 0 ^ 2 / 2 * (1 + Real.sqrt 2 * (x2 / c0)) + s.alpha 1 ^ 2 / 2 * (1 + Real.sqrt 2 * (y2 / c0)) + s.alpha 2 ^ 2 / 2 * (1 + Real.sqrt 2 * (z2 / c0))) : ℝ) : ℂ) := by
    rw [n0, Fin.sum_univ_three]
    unfold square flow
    simp only [Matrix.cons_val_zero, Matrix.cons_val_one, Matrix.cons_val]
    rw [show M (Polynomial.X ^ 2) 1 1 = _ from by rw [X2_bz (ha 0) (s.u 0)], show M 1 (Polynomial.X ^ 2) 1 = _ from by rw [X2_bz (ha 1) (s.u 1)],
      show M 1 1 (Polynomial.X ^ 2) = _ from by rw [X2_bz (ha 2) (s.u 2)], show M Polynomial.X 1 1 = _ from by rw [X_bz (ha 0) (s.u 0)],
      show M 1 Polynomial.X 1 = _ from by rw [X_bz (ha 1) (s.u 1)], show M 1 1 Polynomial.X = _ from by rw [X_bz (ha 2) (s.u 2)]]
    simp only [LinearMap.map_add, LinearMap.add_apply, dist1, dist2, dist3, hx, hy, hz, e0, ex1, ex2, ey1, ey2, ez1, ez2]
    have c00' : (c0 : ℂ) ≠ 0 := ofReal_ne_zero.mpr c00
    have w : ((Real.sqrt 2 : ℝ) : ℂ) ^ 2 = 2 := by rw [pow_two]; exact r2_sq
    have wn : ((Real.sqrt 2 : ℝ) : ℂ) ≠ 0 := r2_ne
    push_cast
    have hh : ∀ a : ℂ, a / ((Real.sqrt 2 : ℝ) : ℂ) = a * ((Real.sqrt 2 : ℝ) : ℂ) / 2 := by
      intro a; rw [div_eq_div_iff wn two_ne_zero]; linear_combination a * (-w)
    simp only [hh]
    field_simp
    ring
  rw [T]
  unfold tempAbout
  rw [sq, n0, ofReal_re, ofReal_re]
  have a0 := ha 0
  have a1 := ha 1
  have a2 := ha 2
  field_simp

/-- C161 fails once the species moves: about the actual mean velocity the temperature is smaller by a third of the square of the mean velocity relative to the
basis drift, so an oscillating electron population is reported hotter than it is. -/
theorem temperature_offset_partial (M : Dist) (u : Fin 3 → ℝ) (hn : (number M).re ≠ 0) (V : Fin 3 → ℝ) (hV : ∀ j, (flow M j).re = V j * (number M).re) :
    tempAbout M u = tempAbout M V + (∑ j, (V j - u j) ^ 2) / 3 := by
  unfold tempAbout
  have h : ∀ w : Fin 3 → ℝ, (∑ j, (square M j - 2 * w j * flow M j + w j ^ 2 * number M)).re =
      ∑ j, ((square M j).re - 2 * w j * (V j * (number M).re) + w j ^ 2 * (number M).re) := by
    intro w
    rw [re_sum]
    refine sum_congr rfl fun j _ => ?_
    rw [← hV, add_re, sub_re]
    congr 1
    · congr 1
      rw [show (2 : ℂ) * (w j : ℂ) = ((2 * w j : ℝ) : ℂ) by push_cast; rfl, re_ofReal_mul]
    · rw [show ((w j : ℂ)) ^ 2 = ((w j ^ 2 : ℝ) : ℂ) by push_cast; rfl, re_ofReal_mul]
  rw [h, h]
  simp only [Fin.sum_univ_three]
  field_simp
  ring

/-- C161 fails for the saved total current: it is the sum of the flows, without the charges. -/
theorem total_current_partial (e i : Species) (hqe : e.q = -1) (hqi : i.q = 1) (Ce : Tens de ℂ) (Ci : Tens di ℂ) (j : Fin 3) :
    (current e Ce j + current i Ci j).re = (moments i Ci).J j - (moments e Ce).J j ∧ totalJ e i Ce Ci j = (moments i Ci).J j + (moments e Ce).J j := by
  have c : ∀ {d : Dims} (s : Species) (C : Tens d ℂ), (current s C j).re = s.q * (moments s C).J j := by
    intro d s C
    unfold moments current
    fin_cases j <;> simp only [Fin.zero_eta, Fin.mk_one, Fin.reduceFinMk, Matrix.cons_val_zero, Matrix.cons_val_one, Matrix.cons_val] <;> rw [← re_ofReal_mul] <;> congr 1 <;> push_cast <;> ring
  rw [add_re, c, c, hqe, hqi]
  unfold totalJ
  constructor <;> ring

/-- C161: the coordinate stored with the fields runs to the end of the box; the grid does not contain that point. -/
theorem saved_axis_partial (Lx : ℝ) (hL : 0 < Lx) {N : ℕ} [NeZero N] (hN : 1 < N) :
    savedX Lx N (N - 1) = Lx ∧ (∀ j : ZMod N, xax Lx j < Lx) ∧ ∀ j : ZMod N, j.val ≠ 0 → xax Lx j < savedX Lx N j.val := by
  have h1 : (1 : ℝ) < N := by exact_mod_cast hN
  have h0 : (0 : ℝ) < N := by linarith
  refine ⟨?_, fun j => ?_, fun j hj => ?_⟩
  · unfold savedX
    rw [Nat.cast_sub hN.le, Nat.cast_one, div_mul_cancel₀ _ (by linarith)]
  · unfold xax
    have : (j.val : ℝ) < N := by exact_mod_cast ZMod.val_lt j
    rw [div_mul_eq_mul_div, div_lt_iff₀ h0]
    nlinarith
  · unfold xax savedX
    have : (0 : ℝ) < j.val := by exact_mod_cast Nat.pos_of_ne_zero hj
    refine mul_lt_mul_of_pos_right ?_ this
    exact div_lt_div_of_pos_left hL (by linarith) (by linarith)

/-! ### C162: the time grid -/

/-- C162: with a step size the run is a whole number of steps that ends after the requested time by at most one step; without one it ends exactly there. -/
theorem time_grid (tmax dt : ℝ) (ht : 0 ≤ tmax) (hd : 0 < dt) (nt : Option ℕ) (a : Option Bool) :
    (let g := timeGrid tmax (some dt) nt a
     g.dt = dt ∧ g.tmax = g.dt * g.nt ∧ tmax < g.tmax ∧ g.tmax ≤ tmax + dt) ∧
    (nt ≠ some 0 → let g := timeGrid tmax none nt a
     g.tmax = tmax ∧ g.tmax = g.dt * g.nt ∧ g.nt = nt.getD 501) := by
  constructor
  · refine ⟨rfl, rfl, ?_, ?_⟩
    · show tmax < dt * ((⌊tmax / dt⌋₊ + 1 : ℕ) : ℝ)
      have := Nat.lt_floor_add_one (tmax / dt)
      rw [div_lt_iff₀ hd] at this
      push_cast; linarith
    · show dt * ((⌊tmax / dt⌋₊ + 1 : ℕ) : ℝ) ≤ tmax + dt
      have := Nat.floor_le (div_nonneg ht hd.le)
      rw [le_div_iff₀ hd] at this
      push_cast; linarith
  · intro hn
    have : ((nt.getD 501 : ℕ) : ℝ) ≠ 0 := by
      cases nt with
      | none => norm_num
      | some n => simp only [Option.getD_some]; intro h; exact hn (by rw [Nat.cast_eq_zero.mp h])
    refine ⟨div_mul_cancel₀ _ this, rfl, rfl⟩

/-- Fixed steps always fit: the run takes `nt` steps, and up to `10⁶ - 4` of them the limit leaves room. -/
theorem max_steps (nt : ℕ) (h : nt + 4 ≤ 1000000) (a : Option Bool) : nt ≤ maxSteps nt a := by
  unfold maxSteps
  simp only
  split_ifs <;> omega

/-- C162 fails for the explicit integrator with the default: it steps adaptively, but the step limit is the one of fixed steps. -/
theorem adaptive_default_partial (nt : ℕ) (h : nt * 100 + 4 ≤ 1000000) :
    adaptiveOf false none = true ∧ maxSteps nt none = nt + 4 ∧ maxSteps nt (some true) = nt * 100 + 4 := by
  unfold adaptiveOf maxSteps
  refine ⟨rfl, ?_, ?_⟩ <;> simp <;> omega

/-- C162: a filter enabled without strength and order acts in the vector field but not in the exponential, which uses zero defaults. -/
theorem filter_defaults_partial (s : ℝ) (C : Tens d (K Ny Nx Nz → ℂ)) : gammaDamp (some (gammaOf none none)) s C = C ∧ filterOf none none = (36, 36) := by
  refine ⟨?_, rfl⟩
  simp [gammaDamp, gammaOf]

/-! ### C163: the driver -/

/-- C163: in one dimension the driven field on the grid is the sum of the pulses; with more points along y or z it is that sum times the number of points
of the plane, on the single line `y = z = 0`, and zero elsewhere. -/
theorem drive_shape (qs : List Pulse) (x : ZMod Nx → ℝ) (t : ℝ) (q : K Ny Nx Nz) :
    toX3 (drive qs x t) q = if q.1 = 0 ∧ q.2.2 = 0 then (Ny * Nz : ℂ) * ((qs.map fun p => p.at t (x q.2.1)).sum : ℝ) else 0 := by
  have orth : ∀ {N : ℕ} [NeZero N] (c : ℂ) (y : ZMod N), toX (fun _ => c) y = if y = 0 then (N : ℂ) * c else 0 := by
    intro N _ c y
    rw [toX_sum, ← sum_mul]
    have := AddChar.sum_mulShift (ψ := ZMod.stdAddChar (N := N)) y (ZMod.isPrimitive_stdAddChar N)
    rw [this]
    split_ifs <;> simp
  have fl : ∀ (qs : List Pulse) (j : ZMod Nx) (a : ℝ), qs.foldl (fun tot q => tot + q.at t (x j)) a = a + (qs.map fun p => p.at t (x j)).sum := by
    intro qs j
    induction qs with
    | nil => intro a; simp
    | cons p l ih => intro a; rw [List.foldl_cons, ih, List.map_cons, List.sum_cons]; ring
  unfold toX3 drive
  simp only [orth]
  have e : toX (fun kx => if q.2.2 = 0 then (Nz : ℂ) * toK (fun j : ZMod Nx => ((qs.foldl (fun tot q => tot + q.at t (x j)) 0 : ℝ) : ℂ)) kx else 0) q.2.1 =
      if q.2.2 = 0 then (Nz : ℂ) * ((qs.map fun p => p.at t (x q.2.1)).sum : ℝ) else 0 := by
    split_ifs
    · rw [toX_smul, toX_toK, fl, zero_add]
    · rw [toX_sum]; simp
  rw [e]
  by_cases h1 : q.1 = 0 <;> by_cases h2 : q.2.2 = 0 <;> simp [h1, h2, mul_assoc]

/-- A pulse never exceeds `|k0 a0|`. -/
theorem pulse_bound (q : Pulse) (ht : 0 < q.tRise) (hx : 0 < q.xRise) (t x : ℝ) : |q.at t x| ≤ |q.k0| * |q.a0| := by
  unfold Pulse.at
  rw [abs_mul, abs_mul, abs_mul, abs_mul, abs_abs]
  have a := (Driver.getEnvelope_inside q.tRise q.tRise (q.tCenter - 0.5 * q.tWidth) (q.tCenter + 0.5 * q.tWidth) t ht ht).1.le
  have b := (Driver.getEnvelope_inside q.xRise q.xRise (q.xCenter - 0.5 * q.xWidth) (q.xCenter + 0.5 * q.xWidth) x hx hx).1.le
  have c := Real.abs_sin_le_one (q.k0 * x - (q.w0 + q.dw0) * t)
  have ab := mul_le_one₀ a (abs_nonneg _) b
  calc _ ≤ 1 * |q.k0| * |q.a0| * 1 := by
        refine mul_le_mul ?_ c (abs_nonneg _) (by positivity)
        exact mul_le_mul_of_nonneg_right (mul_le_mul_of_nonneg_right ab (abs_nonneg _)) (abs_nonneg _)
    _ = _ := by ring

end Verif.Spectrax

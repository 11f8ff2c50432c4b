import Verif.Props.Spectral
import Verif.Model.Integrator
import Mathlib.Tactic.Linarith
import Mathlib.Tactic.IntervalCases

/-! C38, C58, C60: the Vlasov-1D time step. -/
namespace Verif.Spectral
open Finset ZMod Complex
open scoped ComplexConjugate

variable {nx : ℕ} [NeZero nx]

/-! ### Specification -/

/-- Number of particles of a species in the box. -/
noncomputable def number (s : Species nx) : ℝ := ∑ x, ∑ j, s.f x j * s.dv

/-! ### Densities -/

omit [NeZero nx] in
theorem pushV_density (e pond : ZMod nx → ℝ) (dt : ℝ) (s : Species nx) : (pushV e pond dt s).density = s.density := by
  funext x
  unfold Species.density pushV
  exact congrArg (· * s.dv) ((edfdv_density s.dv s.charge s.mass e pond dt s.f).1 x)

omit [NeZero nx] in
theorem pushV_charge (e pond : ZMod nx → ℝ) (dt : ℝ) (ss : List (Species nx)) (static : ZMod nx → ℝ) :
    chargeDensity (ss.map (pushV e pond dt)) static = chargeDensity ss static := by
  funext x
  unfold chargeDensity
  rw [List.map_map]
  congr 2
  refine List.map_congr_left fun s _ => ?_
  have : (pushV e pond dt s).charge = s.charge := rfl
  simp only [Function.comp_apply, this, pushV_density]

theorem pushV_number (e pond : ZMod nx → ℝ) (dt : ℝ) (s : Species nx) : number (pushV e pond dt s) = number s := by
  have h := pushV_density e pond dt s
  unfold number
  refine sum_congr rfl fun x _ => ?_
  rw [← sum_mul, ← sum_mul]
  exact congrFun h x

theorem pushX_number (dx dt : ℝ) (s : Species nx) : number (pushX dx dt s) = number s := by
  unfold number pushX
  simp only
  rw [sum_comm, sum_comm (f := fun x j => s.f x j * s.dv)]
  refine sum_congr rfl fun j _ => ?_
  rw [← sum_mul, ← sum_mul, (vdfdx_moments dx s.v dt s.f).1 j]

theorem kick_number (dx : ℝ) (field : FieldKind nx) (pond drv : ZMod nx → ℝ) (c : ℝ) (ss : List (Species nx)) :
    (kick dx field pond drv c ss).map number = ss.map number := by
  unfold kick
  rw [List.map_map]
  exact List.map_congr_left fun s _ => pushV_number ..

theorem drift_number (dx c : ℝ) (ss : List (Species nx)) : (ss.map (pushX dx c)).map number = ss.map number := by
  rw [List.map_map]
  exact List.map_congr_left fun s _ => pushX_number ..

/-- C60: one step of either integrator, with any field solver, driver and laser, keeps the
number of particles of every species. -/
theorem step_number (time : TimeKind) (dx dt : ℝ) (field : FieldKind nx) (a : ℕ → ℝ) (dex : ℕ → ZMod nx → ℝ)
    (y : (ZMod nx → ℝ) × List (Species nx)) :
    (vlasovStep time dx dt field a dex y).2.map number = y.2.map number := by
  cases time
  · show (leapfrog ..).2.map number = _
    unfold leapfrog
    simp only
    rw [← drift_number dx dt y.2, List.map_map]
    exact List.map_congr_left fun s _ => pushV_number ..
  · show (sixth ..).2.map number = _
    unfold sixth
    simp only [kick_number, drift_number]

/-- C60: so does a run of any length. -/
theorem run_number (time : TimeKind) (dx dt : ℝ) (field : FieldKind nx) (y : (ZMod nx → ℝ) × List (Species nx))
    (drives : List ((ℕ → ℝ) × (ℕ → ZMod nx → ℝ))) :
    (vlasovRun time dx dt field y drives).2.map number = y.2.map number := by
  unfold vlasovRun
  induction drives generalizing y with
  | nil => rfl
  | cons d ds ih => rw [List.foldl_cons, ih, step_number]

/-- What the deck says about a species. -/
def parameters (s : Species nx) : ℝ × ℝ × ℝ × (Σ n, ZMod n → ℝ) := (s.charge, s.mass, s.dv, ⟨s.nv, s.v⟩)

theorem kick_parameters (dx : ℝ) (field : FieldKind nx) (pond drv : ZMod nx → ℝ) (c : ℝ) (ss : List (Species nx)) :
    (kick dx field pond drv c ss).map parameters = ss.map parameters := by
  unfold kick
  rw [List.map_map]
  exact List.map_congr_left fun s _ => rfl

theorem drift_parameters (dx c : ℝ) (ss : List (Species nx)) : (ss.map (pushX dx c)).map parameters = ss.map parameters := by
  rw [List.map_map]
  exact List.map_congr_left fun s _ => rfl

/-- C60: the parameters of the species never change, nor their number and order. -/
theorem run_parameters (time : TimeKind) (dx dt : ℝ) (field : FieldKind nx) (y : (ZMod nx → ℝ) × List (Species nx))
    (drives : List ((ℕ → ℝ) × (ℕ → ZMod nx → ℝ))) :
    (vlasovRun time dx dt field y drives).2.map parameters = y.2.map parameters := by
  unfold vlasovRun
  induction drives generalizing y with
  | nil => rfl
  | cons d ds ih =>
    rw [List.foldl_cons, ih]
    cases time
    · show (leapfrog ..).2.map _ = _
      unfold leapfrog
      simp only
      rw [← drift_parameters dx dt y.2, List.map_map]
      exact List.map_congr_left fun s _ => rfl
    · show (sixth ..).2.map _ = _
      unfold sixth
      simp only [kick_parameters, drift_parameters]

theorem kick_charge (dx : ℝ) (field : FieldKind nx) (pond drv : ZMod nx → ℝ) (c : ℝ) (ss : List (Species nx))
    (static : ZMod nx → ℝ) : chargeDensity (kick dx field pond drv c ss) static = chargeDensity ss static := pushV_charge ..

/-! ### Gauss's law (C58) -/

/-- The field a step returns obeys Gauss's law with the charge density of the distributions it
returns, for every resolved wave, with either integrator. -/
theorem poisson_step_gauss (time : TimeKind) (dx dt : ℝ) (hdx : dx ≠ 0) (static : ZMod nx → ℝ) (a : ℕ → ℝ)
    (dex : ℕ → ZMod nx → ℝ) (y : (ZMod nx → ℝ) × List (Species nx)) (p : ℤ) (hp : Resolved nx p) (h0 : p ≠ 0) :
    gaussError dx (vlasovStep time dx dt (.poisson static) a dex y).1
      (chargeDensity (vlasovStep time dx dt (.poisson static) a dex y).2 static) p = 0 := by
  cases time
  · show gaussError dx (leapfrog ..).1 (chargeDensity (leapfrog ..).2 static) p = 0
    unfold leapfrog
    simp only
    rw [pushV_charge]
    exact (poisson_field dx hdx _).1 p hp h0
  · show gaussError dx (sixth ..).1 (chargeDensity (sixth ..).2 static) p = 0
    unfold sixth
    simp only
    rw [kick_charge]
    exact (poisson_field dx hdx _).1 p hp h0

/-- C58: hence Gauss's law holds after any positive number of steps. -/
theorem poisson_run_gauss (time : TimeKind) (dx dt : ℝ) (hdx : dx ≠ 0) (static : ZMod nx → ℝ)
    (y : (ZMod nx → ℝ) × List (Species nx)) (drives : List ((ℕ → ℝ) × (ℕ → ZMod nx → ℝ))) (hd : drives ≠ [])
    (p : ℤ) (hp : Resolved nx p) (h0 : p ≠ 0) :
    gaussError dx (vlasovRun time dx dt (.poisson static) y drives).1
      (chargeDensity (vlasovRun time dx dt (.poisson static) y drives).2 static) p = 0 := by
  unfold vlasovRun
  obtain ⟨ds, d, rfl⟩ : ∃ ds d, drives = ds ++ [d] := ⟨_, _, (List.dropLast_append_getLast hd).symm⟩
  rw [List.foldl_append, List.foldl_cons, List.foldl_nil]
  exact poisson_step_gauss time dx dt hdx static d.1 d.2 _ p hp h0

theorem fft_hampere {nv : ℕ} [NeZero nv] (dx q dv : ℝ) (v : ZMod nv → ℝ) (f : ZMod nx → ZMod nv → ℝ)
    (prev : ZMod nx → ℝ) (dt : ℝ) (k : ZMod nx) (hk : 2 * k.val ≠ nx) :
    fft (fun x => (hampere dx q dv v f prev dt x : ℂ)) k = fft (fun j => (prev j : ℂ)) k + (q : ℂ) * ((oneOverK dx k : ℂ) / I) *
      (∑ j, fft (fun y => (f y j : ℂ)) k * (cexp (-I * (kfull dx k * dt * v j : ℝ)) - 1)) * (dv : ℂ) := by
  unfold hampere
  rw [fft_re_ifft]
  unfold symm
  have key : conj (fft (fun j => (prev j : ℂ)) (-k) + (q : ℂ) * ((oneOverK dx (-k) : ℂ) / I) *
      (∑ j, fft (fun y => (f y j : ℂ)) (-k) * (cexp (-I * (kfull dx (-k) * dt * v j : ℝ)) - 1)) * (dv : ℂ)) =
      fft (fun j => (prev j : ℂ)) k + (q : ℂ) * ((oneOverK dx k : ℂ) / I) *
      (∑ j, fft (fun y => (f y j : ℂ)) k * (cexp (-I * (kfull dx k * dt * v j : ℝ)) - 1)) * (dv : ℂ) := by
    by_cases hz : k.val = 0
    · have : k = 0 := val_eq_zero k |>.1 hz
      subst this
      have h1 := fft_real (N := nx) prev 0
      rw [neg_zero] at h1 ⊢
      simp only [oneOverK, hz, if_true, ofReal_zero, zero_div, mul_zero, zero_mul, add_zero]
      exact h1.symm
    · rw [kfull_odd dx k hz hk, oneOverK_odd dx k hz hk, map_add, fft_real, conj_conj]
      congr 1
      simp only [map_mul, map_div₀, conj_ofReal, conj_I, map_sum, map_sub, map_one, fft_real, conj_conj, ← Complex.exp_conj,
        map_neg]
      have e1 : ∀ j, -(-I) * ((-kfull dx k * dt * v j : ℝ) : ℂ) = -I * ((kfull dx k * dt * v j : ℝ) : ℂ) := by
        intro j; push_cast; ring
      simp only [e1]
      push_cast
      congr 2
      congr 1
      rw [neg_div_neg_eq]
  rw [key]; ring

/-- C58: with the current-based spectral solver, one step leaves the error in Gauss's law
exactly where it was, for every resolved wave, whatever the drivers; the mean field is left
alone. -/
theorem hampere_step_gauss (dx dt : ℝ) (hdx : dx ≠ 0) (static : ZMod nx → ℝ) (a : ℕ → ℝ)
    (dex : ℕ → ZMod nx → ℝ) (prev : ZMod nx → ℝ) (s : Species nx) :
    (∀ p : ℤ, Resolved nx p → p ≠ 0 →
      gaussError dx (vlasovStep .leapfrog dx dt .hampere a dex (prev, [s])).1
        (chargeDensity (vlasovStep .leapfrog dx dt .hampere a dex (prev, [s])).2 static) p =
      gaussError dx prev (chargeDensity [s] static) p) ∧
    ∑ x, (vlasovStep .leapfrog dx dt .hampere a dex (prev, [s])).1 x = ∑ x, prev x := by
  show (∀ p : ℤ, Resolved nx p → p ≠ 0 → gaussError dx (leapfrog dx dt .hampere a dex prev [s]).1
    (chargeDensity (leapfrog dx dt .hampere a dex prev [s]).2 static) p = _) ∧ ∑ x, (leapfrog dx dt .hampere a dex prev [s]).1 x = _
  unfold leapfrog
  simp only
  constructor
  · intro p hp h0
    rw [pushV_charge]
    obtain ⟨hz, hk, _⟩ := resolved_index hp h0
    unfold gaussError
    have hE := fft_hampere dx s.charge s.dv s.v s.f prev dt (p : ZMod nx) hk
    have hE' : mode (solveField dx .hampere [s] prev dt) p = _ := (mode_eq _ _).trans hE
    rw [hE', mode_eq prev]
    have hrho : ∀ t : Species nx, mode (chargeDensity [t] static) p =
        (t.charge : ℂ) * (∑ j, fft (fun y => (t.f y j : ℂ)) (p : ZMod nx)) * (t.dv : ℂ) + mode static p := by
      intro t
      unfold mode chargeDensity Species.density
      simp only [List.map_cons, List.map_nil, List.sum_cons, List.sum_nil, add_zero, ofReal_add, ofReal_mul, ofReal_sum, add_mul,
        sum_add_distrib]
      congr 1
      have : ∀ j, fft (fun y => (t.f y j : ℂ)) (p : ZMod nx) =
          ∑ y : ZMod nx, (t.f y j : ℂ) * cexp (-(2 * Real.pi * I * p * y.val / nx)) := by
        intro j
        rw [← mode_eq (fun y => t.f y j)]; rfl
      simp only [this]
      rw [sum_comm, mul_sum, sum_mul]
      refine sum_congr rfl fun x _ => ?_
      rw [sum_mul, mul_sum, sum_mul, mul_sum, sum_mul]
      refine sum_congr rfl fun j _ => ?_
      ring
    rw [List.map_cons, List.map_nil, hrho, hrho]
    have hshift : ∀ j, fft (fun y => ((pushX dx dt s).f y j : ℂ)) (p : ZMod nx) =
        cexp (-I * (kfull dx (p : ZMod nx) * dt * s.v j : ℝ)) * fft (fun y => (s.f y j : ℂ)) (p : ZMod nx) := by
      intro j
      have h := (shift_modes dx (s.v j * dt) fun y => s.f y j).1 p hp
      rw [mode_eq, mode_eq] at h
      rw [kfull_eq dx hp]
      refine Eq.trans h ?_
      congr 3
      ring_nf
    have hs : (∑ j, fft (fun y => ((pushX dx dt s).f y j : ℂ)) (p : ZMod nx)) =
        (∑ j, fft (fun y => (s.f y j : ℂ)) (p : ZMod nx) * (cexp (-I * (kfull dx (p : ZMod nx) * dt * s.v j : ℝ)) - 1)) +
        ∑ j, fft (fun y => (s.f y j : ℂ)) (p : ZMod nx) := by
      rw [← sum_add_distrib]
      refine sum_congr rfl fun j _ => ?_
      rw [hshift]; ring
    have hc : (pushX dx dt s).charge = s.charge := rfl
    have hdv : (pushX dx dt s).dv = s.dv := rfl
    rw [hc, hdv]
    have hs' : (∑ j : ZMod (pushX dx dt s).nv, fft (fun y => ((pushX dx dt s).f y j : ℂ)) (p : ZMod nx)) = _ := hs
    rw [hs']
    have hkne := kfull_ne_zero hdx hz
    rw [← kfull_eq dx hp]
    have hkc : (kfull dx (p : ZMod nx) : ℂ) ≠ 0 := by exact_mod_cast hkne
    have ho : (oneOverK dx (p : ZMod nx) : ℂ) = 1 / (kfull dx (p : ZMod nx) : ℂ) := by
      unfold oneOverK; rw [if_neg hz]; push_cast; rfl
    rw [ho]
    have hI := I_ne_zero
    field_simp
    ring
  · have hN := NeZero.ne nx
    have h := fft_hampere dx s.charge s.dv s.v s.f prev dt (0 : ZMod nx) (by rw [val_zero]; omega)
    rw [fft_zero, fft_zero] at h
    simp only [oneOverK, val_zero, if_true, ofReal_zero, zero_div, mul_zero, zero_mul, add_zero] at h
    exact_mod_cast h

/-- C58: hence after any number of steps. -/
theorem hampere_run_gauss (dx dt : ℝ) (hdx : dx ≠ 0) (static : ZMod nx → ℝ) (prev : ZMod nx → ℝ) (s : Species nx)
    (drives : List ((ℕ → ℝ) × (ℕ → ZMod nx → ℝ))) :
    (∀ p : ℤ, Resolved nx p → p ≠ 0 →
      gaussError dx (vlasovRun .leapfrog dx dt .hampere (prev, [s]) drives).1
        (chargeDensity (vlasovRun .leapfrog dx dt .hampere (prev, [s]) drives).2 static) p =
      gaussError dx prev (chargeDensity [s] static) p) ∧
    ∑ x, (vlasovRun .leapfrog dx dt .hampere (prev, [s]) drives).1 x = ∑ x, prev x := by
  unfold vlasovRun
  induction drives generalizing prev s with
  | nil => exact ⟨fun _ _ _ => rfl, rfl⟩
  | cons d ds ih =>
    rw [List.foldl_cons]
    obtain ⟨g1, g2⟩ := hampere_step_gauss dx dt hdx static d.1 d.2 prev s
    obtain ⟨e', s', h⟩ : ∃ e' s', vlasovStep .leapfrog dx dt .hampere d.1 d.2 (prev, [s]) = (e', [s']) := ⟨_, _, rfl⟩
    rw [h] at g1 g2 ⊢
    obtain ⟨i1, i2⟩ := ih e' s'
    exact ⟨fun p hp h0 => (i1 p hp h0).trans (g1 p hp h0), i2.trans g2⟩

/-- C58: started from a field that obeys Gauss's law, the law holds for ever. -/
theorem hampere_gauss_forever (dx dt : ℝ) (hdx : dx ≠ 0) (static : ZMod nx → ℝ) (s : Species nx)
    (drives : List ((ℕ → ℝ) × (ℕ → ZMod nx → ℝ))) (p : ℤ) (hp : Resolved nx p) (h0 : p ≠ 0) :
    gaussError dx (vlasovRun .leapfrog dx dt .hampere (poisson dx (chargeDensity [s] static), [s]) drives).1
      (chargeDensity (vlasovRun .leapfrog dx dt .hampere (poisson dx (chargeDensity [s] static), [s]) drives).2 static) p = 0 := by
  rw [(hampere_run_gauss dx dt hdx static _ s drives).1 p hp h0]
  exact (poisson_field dx hdx _).1 p hp h0

omit [NeZero nx] in
/-- C58: the current-based solvers are refused with the sixth-order integrator, and the
spectral one with several species. -/
theorem accepts_iff (time : TimeKind) (field : FieldKind nx) (n : ℕ) :
    accepts time field n = true ↔ (time = .sixth → field ≠ .ampere ∧ field ≠ .hampere) ∧ (field = .hampere → n ≤ 1) := by
  cases time <;> cases field <;> simp [accepts]

/-! ### What a step adds up to (C38) -/

/-- Every species goes through the same sequence of pushes, in fields common to all. -/
theorem sixth_species (dx dt : ℝ) (field : FieldKind nx) (a : ℕ → ℝ) (dex : ℕ → ZMod nx → ℝ) (ss : List (Species nx)) :
    ∃ E : ℕ → ZMod nx → ℝ, (sixth dx dt field a dex ss).2 = ss.map fun s => { s with f := (
      edfdv s.dv s.charge s.mass (E 5) (ponderomotive dx a) (D1 dt * dt) <| vdfdx dx s.v (a1 * dt) <|
      edfdv s.dv s.charge s.mass (E 4) (ponderomotive dx a) (D2 dt * dt) <| vdfdx dx s.v (a2 * dt) <|
      edfdv s.dv s.charge s.mass (E 3) (ponderomotive dx a) (D3 dt * dt) <| vdfdx dx s.v (a3 * dt) <|
      edfdv s.dv s.charge s.mass (E 2) (ponderomotive dx a) (D3 dt * dt) <| vdfdx dx s.v (a2 * dt) <|
      edfdv s.dv s.charge s.mass (E 1) (ponderomotive dx a) (D2 dt * dt) <| vdfdx dx s.v (a1 * dt) <|
      edfdv s.dv s.charge s.mass (E 0) (ponderomotive dx a) (D1 dt * dt) s.f) } := by
  have hk : ∀ (pond drv : ZMod nx → ℝ) (c : ℝ) (ss : List (Species nx)), ∃ e, kick dx field pond drv c ss = ss.map (pushV e pond c) :=
    fun pond drv c ss => ⟨_, rfl⟩
  unfold sixth
  simp only
  generalize ponderomotive (nx := nx) dx a = pond
  obtain ⟨e0, h0⟩ := hk pond (dex 0) (D1 dt * dt) ss
  rw [h0]
  generalize hs1 : List.map (pushX dx (a1 * dt)) (List.map (pushV e0 pond (D1 dt * dt)) ss) = s1
  obtain ⟨e1, h1⟩ := hk pond (dex 1) (D2 dt * dt) s1
  rw [h1]
  generalize hs2 : List.map (pushX dx (a2 * dt)) (List.map (pushV e1 pond (D2 dt * dt)) s1) = s2
  obtain ⟨e2, h2⟩ := hk pond (dex 2) (D3 dt * dt) s2
  rw [h2]
  generalize hs3 : List.map (pushX dx (a3 * dt)) (List.map (pushV e2 pond (D3 dt * dt)) s2) = s3
  obtain ⟨e3', h3⟩ := hk pond (dex 3) (D3 dt * dt) s3
  rw [h3]
  generalize hs4 : List.map (pushX dx (a2 * dt)) (List.map (pushV e3' pond (D3 dt * dt)) s3) = s4
  obtain ⟨e4, h4⟩ := hk pond (dex 4) (D2 dt * dt) s4
  rw [h4]
  generalize hs5 : List.map (pushX dx (a1 * dt)) (List.map (pushV e4 pond (D2 dt * dt)) s4) = s5
  obtain ⟨e5, h5⟩ := hk pond (dex 5) (D1 dt * dt) s5
  rw [h5, ← hs5, ← hs4, ← hs3, ← hs2, ← hs1]
  refine ⟨fun i => match i with | 0 => e0 | 1 => e1 | 2 => e2 | 3 => e3' | 4 => e4 | _ => e5, ?_⟩
  simp only [List.map_map]
  refine List.map_congr_left fun s _ => ?_
  simp only [Function.comp_apply, pushV, pushX]

theorem drift_total : 2 * (a1 + a2) + a3 = 1 := by unfold a1 a2 a3; norm_num

/-- Total weight of the six kicks. -/
theorem kick_total (dt : ℝ) : 2 * (D1 dt + D2 dt + D3 dt) =
    1 + 4 * (c1 + c2 + c3) * dt ^ 2 + 8 * (d2 + d3) * dt ^ 4 - 16 * e3 * dt ^ 6 := by
  unfold D1 D2 D3
  have : 2 * (b1 + b2 + b3) = 1 := by unfold b1 b2 b3; norm_num
  linear_combination this

/-- The kicks of the sixth-order scheme add up to less than the step. -/
theorem kick_total_short (dt : ℝ) (h0 : 0 < dt) (h1 : dt ≤ 1) :
    1 - 0.012 * dt ^ 2 < 2 * (D1 dt + D2 dt + D3 dt) ∧ 2 * (D1 dt + D2 dt + D3 dt) < 1 - 0.011 * dt ^ 2 := by
  rw [kick_total]
  unfold c1 c2 c3 d2 d3 e3
  have h2 : 0 < dt ^ 2 := by positivity
  have h4 : dt ^ 4 ≤ dt ^ 2 := pow_le_pow_of_le_one h0.le h1 (by norm_num)
  have h6 : dt ^ 6 ≤ dt ^ 2 := pow_le_pow_of_le_one h0.le h1 (by norm_num)
  have p4 : 0 < dt ^ 4 := by positivity
  have p6 : 0 < dt ^ 6 := by positivity
  constructor <;> nlinarith

/-- C38: particles without charge stream freely for exactly `dt`, with either integrator:
each wave moves by `v dt`. -/
theorem step_drift (time : TimeKind) (dx dt : ℝ) (field : FieldKind nx) (a : ℕ → ℝ) (dex : ℕ → ZMod nx → ℝ)
    (y : (ZMod nx → ℝ) × List (Species nx)) :
    ∃ g : (s : Species nx) → ZMod nx → ZMod s.nv → ℝ,
      (vlasovStep time dx dt field a dex y).2 = y.2.map (fun s => { s with f := g s }) ∧
      ∀ s ∈ y.2, s.charge = 0 → ∀ j (p : ℤ), Resolved nx p →
        mode (fun x => g s x j) p = cexp (-I * (waveNumber nx dx p * (s.v j * dt) : ℝ)) * mode (fun x => s.f x j) p := by
  have hm : ∀ (s : Species nx) (c : ℝ) (f : ZMod nx → ZMod s.nv → ℝ) (j : ZMod s.nv) (p : ℤ), Resolved nx p →
      mode (fun x => vdfdx dx s.v c f x j) p = cexp (-I * (waveNumber nx dx p * (s.v j * c) : ℝ)) * mode (fun x => f x j) p :=
    fun s c f j p hp => (shift_modes dx (s.v j * c) fun y => f y j).1 p hp
  have hn : ∀ (s : Species nx), s.charge = 0 → ∀ (e pond : ZMod nx → ℝ) (c : ℝ) (f : ZMod nx → ZMod s.nv → ℝ),
      edfdv s.dv s.charge s.mass e pond c f = f := by
    intro s hq e pond c f
    rw [hq]
    exact (edfdv_density s.dv 0 s.mass e pond c f).2.2.2
  cases time
  · refine ⟨fun s => edfdv s.dv s.charge s.mass (fun x => (leapfrog dx dt field a dex y.1 y.2).1 x + dex 0 x) (ponderomotive dx a) dt
      (vdfdx dx s.v dt s.f), ?_, fun s _ hq j p hp => ?_⟩
    · show (leapfrog ..).2 = _
      unfold leapfrog
      simp only [List.map_map]
      refine List.map_congr_left fun s _ => ?_
      simp only [Function.comp_apply, pushV, pushX]
    · dsimp only
      rw [hn s hq]
      exact hm s dt s.f j p hp
  · obtain ⟨E, hE⟩ := sixth_species dx dt field a dex y.2
    refine ⟨_, hE, fun s _ hq j p hp => ?_⟩
    simp only [hn s hq]
    rw [hm s (a1 * dt) _ j p hp, hm s (a2 * dt) _ j p hp, hm s (a3 * dt) _ j p hp, hm s (a2 * dt) _ j p hp, hm s (a1 * dt) _ j p hp]
    rw [← mul_assoc, ← mul_assoc, ← mul_assoc, ← mul_assoc, ← Complex.exp_add, ← Complex.exp_add, ← Complex.exp_add, ← Complex.exp_add]
    congr 2
    have hc : (2 * (a1 + a2) + a3 : ℂ) = 1 := by exact_mod_cast congrArg (fun r : ℝ => (r : ℂ)) drift_total
    push_cast
    linear_combination (-I * (waveNumber nx dx p : ℂ) * ((s.v j : ℂ) * dt)) * hc

/-! ### A uniform plasma in a uniform field (C38) -/

theorem fft_const (c : ℝ) {k : ZMod nx} (hk : k ≠ 0) : fft (fun _ : ZMod nx => (c : ℂ)) k = 0 := by
  unfold fft
  rw [dft_apply]
  simp only [smul_eq_mul, ← sum_mul]
  have h : ∑ j : ZMod nx, (stdAddChar (-(j * k)) : ℂ) = 0 := by
    have h1 : stdAddChar k * ∑ j : ZMod nx, (stdAddChar (-(j * k)) : ℂ) = ∑ j : ZMod nx, (stdAddChar (-(j * k)) : ℂ) := by
      rw [mul_sum, ← Equiv.sum_comp (Equiv.addRight (1 : ZMod nx))]
      refine sum_congr rfl fun j _ => ?_
      rw [Equiv.coe_addRight, ← AddChar.map_add_eq_mul]
      congr 1; ring
    have h2 : (stdAddChar k : ℂ) ≠ 1 := by
      intro h
      exact hk (injective_stdAddChar (h.trans (AddChar.map_zero_eq_one _).symm))
    have h3 : ((stdAddChar k : ℂ) - 1) * ∑ j : ZMod nx, (stdAddChar (-(j * k)) : ℂ) = 0 := by rw [sub_mul, h1, one_mul, sub_self]
    exact (mul_eq_zero.1 h3).resolve_left (sub_ne_zero.2 h2)
  rw [h, zero_mul]

theorem mode_const (c : ℝ) {p : ℤ} (hp : Resolved nx p) (h0 : p ≠ 0) : mode (fun _ : ZMod nx => c) p = 0 := by
  rw [mode_eq]
  refine fft_const c fun h => (resolved_index hp h0).1 ?_
  rw [h, val_zero]

theorem alternating_const (c : ℝ) (h : 2 ∣ nx) : alternating (fun _ : ZMod nx => c) = 0 := by
  obtain ⟨M, hM⟩ := h
  have hN := NeZero.ne nx
  have hk : 2 * ((M : ℕ) : ZMod nx).val = nx := by
    rw [val_natCast, Nat.mod_eq_of_lt (by omega)]; exact hM.symm
  have h1 := alternating_eq (fun _ : ZMod nx => c) hk
  rw [fft_const c (fun h => by rw [h, val_zero] at hk; omega)] at h1
  exact_mod_cast h1.symm

theorem shift_const (d s c : ℝ) : shift d s (fun _ : ZMod nx => c) = fun _ => c := by
  refine eq_of_modes (fun p hp => ?_) fun h => ?_
  · rw [(shift_modes ..).1 p hp]
    by_cases h0 : p = 0
    · subst h0; simp [waveNumber]
    · rw [mode_const c hp h0, mul_zero]
  · rw [(shift_modes ..).2 h, alternating_const c h, mul_zero]

theorem poisson_const (dx : ℝ) (hdx : dx ≠ 0) (c : ℝ) : poisson dx (fun _ : ZMod nx => c) = fun _ => 0 := by
  refine (poisson_unique dx hdx _ _ (fun p hp h0 => ?_) (by simp) fun h => by unfold alternating; simp).symm
  unfold gaussError
  rw [mode_const c hp h0, mode_const 0 hp h0]; simp

/-- The same velocity distribution everywhere. -/
def UniformPlasma (s : Species nx) : Prop := ∀ x y, s.f x = s.f y

theorem pushX_uniform (dx dt : ℝ) (s : Species nx) (hs : UniformPlasma s) : pushX dx dt s = s := by
  obtain ⟨nv, pos, q, m, dv, v, f⟩ := s
  unfold pushX vdfdx
  simp only [Species.mk.injEq, heq_eq_eq, true_and]
  funext x j
  have : (fun y => f y j) = fun _ => f x j := funext fun y => congrFun (hs y x) j
  rw [this, shift_const]

omit [NeZero nx] in
theorem pushV_uniform (E c : ℝ) (s : Species nx) (hs : UniformPlasma s) : UniformPlasma (pushV (fun _ => E) 0 c s) := by
  intro x y
  unfold pushV edfdv
  simp only [Pi.zero_apply]
  rw [hs x y]

theorem field_uniform (dx : ℝ) (hdx : dx ≠ 0) (n0 : ℝ) (ss : List (Species nx)) (hs : ∀ s ∈ ss, UniformPlasma s)
    (prev : ZMod nx → ℝ) (dt : ℝ) : solveField dx (.poisson fun _ => n0) ss prev dt = fun _ => 0 := by
  have h : chargeDensity ss (fun _ : ZMod nx => n0) = fun _ => chargeDensity ss (fun _ : ZMod nx => n0) 0 := by
    funext x
    unfold chargeDensity Species.density
    congr 2
    exact List.map_congr_left fun s h => by rw [hs s h x 0]
  show poisson dx (chargeDensity ss fun _ => n0) = _
  rw [h, poisson_const dx hdx]

omit [NeZero nx] in
theorem ponderomotive_const (dx a0 : ℝ) : ponderomotive (nx := nx) dx (fun _ => a0) = 0 := by
  funext x; simp [ponderomotive]

theorem kick_uniform (dx : ℝ) (hdx : dx ≠ 0) (n0 E0 c : ℝ) (ss : List (Species nx)) (hs : ∀ s ∈ ss, UniformPlasma s) :
    kick dx (.poisson fun _ => n0) 0 (fun _ => E0) c ss = ss.map (pushV (fun _ => E0) 0 c) ∧
    ∀ s ∈ kick dx (.poisson fun _ => n0) 0 (fun _ => E0) c ss, UniformPlasma s := by
  have h : kick dx (.poisson fun _ => n0) 0 (fun _ => E0) c ss = ss.map (pushV (fun _ => E0) 0 c) := by
    unfold kick
    rw [field_uniform dx hdx n0 ss hs]
    simp only [add_zero]
  refine ⟨h, fun s hm => ?_⟩
  rw [h, List.mem_map] at hm
  obtain ⟨t, ht, rfl⟩ := hm
  exact pushV_uniform E0 c t (hs t ht)

theorem drift_uniform (dx dt : ℝ) (ss : List (Species nx)) (hs : ∀ s ∈ ss, UniformPlasma s) : ss.map (pushX dx dt) = ss := by
  conv_rhs => rw [← List.map_id ss]
  exact List.map_congr_left fun s h => pushX_uniform dx dt s (hs s h)

/-- C38: the time for which a step accelerates particles. -/
noncomputable def kickTime (time : TimeKind) (dt : ℝ) : ℝ :=
  match time with
  | .leapfrog => dt
  | .sixth => (1 + 4 * (c1 + c2 + c3) * dt ^ 2 + 8 * (d2 + d3) * dt ^ 4 - 16 * e3 * dt ^ 6) * dt

/-- C38: a uniform plasma in a uniform external field is accelerated by `q E / m` for
`kickTime`: the leapfrog step gives exactly `dt`, the sixth-order one less
(`kick_total_short`).  -/
theorem step_kick_partial (time : TimeKind) (dx dt : ℝ) (hdx : dx ≠ 0) (n0 E0 a0 : ℝ) (ss : List (Species nx))
    (hs : ∀ s ∈ ss, UniformPlasma s) (prev : ZMod nx → ℝ) :
    ∃ g : (s : Species nx) → ZMod nx → ZMod s.nv → ℝ,
      (vlasovStep time dx dt (.poisson fun _ => n0) (fun _ => a0) (fun _ _ => E0) (prev, ss)).2 = ss.map (fun s => { s with f := g s }) ∧
      ∀ s x (p : ℤ), Resolved s.nv p →
        mode (g s x) p = cexp (-I * (waveNumber s.nv s.dv p * (s.charge * E0 / s.mass * kickTime time dt) : ℝ)) * mode (s.f x) p := by
  have hm : ∀ (s : Species nx) (c : ℝ) (f : ZMod nx → ZMod s.nv → ℝ) (x : ZMod nx) (p : ℤ), Resolved s.nv p →
      mode (edfdv s.dv s.charge s.mass (fun _ => E0) 0 c f x) p =
        cexp (-I * (waveNumber s.nv s.dv p * (s.charge * E0 / s.mass * c) : ℝ)) * mode (f x) p := by
    intro s c f x p hp
    unfold edfdv
    rw [(shift_modes ..).1 p hp]
    congr 3
    unfold accel
    simp only [Pi.zero_apply, mul_zero, add_zero]
    push_cast; ring
  cases time
  · refine ⟨fun s => edfdv s.dv s.charge s.mass (fun _ => E0) 0 dt s.f, ?_, fun s x p hp => hm s dt s.f x p hp⟩
    rw [show (vlasovStep .leapfrog dx dt (.poisson fun _ => n0) (fun _ => a0) (fun _ _ => E0) (prev, ss)) =
      leapfrog dx dt (.poisson fun _ => n0) (fun _ => a0) (fun _ _ => E0) prev ss from rfl]
    unfold leapfrog
    simp only
    rw [drift_uniform dx dt ss hs, field_uniform dx hdx n0 ss hs, ponderomotive_const]
    simp only [zero_add]
    exact List.map_congr_left fun s _ => by simp only [pushV]
  · refine ⟨fun s => edfdv s.dv s.charge s.mass (fun _ => E0) 0 (D1 dt * dt) <| edfdv s.dv s.charge s.mass (fun _ => E0) 0 (D2 dt * dt) <|
      edfdv s.dv s.charge s.mass (fun _ => E0) 0 (D3 dt * dt) <| edfdv s.dv s.charge s.mass (fun _ => E0) 0 (D3 dt * dt) <|
      edfdv s.dv s.charge s.mass (fun _ => E0) 0 (D2 dt * dt) <| edfdv s.dv s.charge s.mass (fun _ => E0) 0 (D1 dt * dt) s.f, ?_, ?_⟩
    · rw [show (vlasovStep .sixth dx dt (.poisson fun _ => n0) (fun _ => a0) (fun _ _ => E0) (prev, ss)) =
        sixth dx dt (.poisson fun _ => n0) (fun _ => a0) (fun _ _ => E0) ss from rfl]
      unfold sixth
      simp only
      rw [ponderomotive_const]
      obtain ⟨k0, u0⟩ := kick_uniform dx hdx n0 E0 (D1 dt * dt) ss hs
      rw [drift_uniform dx _ _ u0]
      obtain ⟨k1, u1⟩ := kick_uniform dx hdx n0 E0 (D2 dt * dt) _ u0
      rw [drift_uniform dx _ _ u1]
      obtain ⟨k2, u2⟩ := kick_uniform dx hdx n0 E0 (D3 dt * dt) _ u1
      rw [drift_uniform dx _ _ u2]
      obtain ⟨k3, u3⟩ := kick_uniform dx hdx n0 E0 (D3 dt * dt) _ u2
      rw [drift_uniform dx _ _ u3]
      obtain ⟨k4, u4⟩ := kick_uniform dx hdx n0 E0 (D2 dt * dt) _ u3
      rw [drift_uniform dx _ _ u4]
      obtain ⟨k5, _⟩ := kick_uniform dx hdx n0 E0 (D1 dt * dt) _ u4
      rw [k5, k4, k3, k2, k1, k0]
      simp only [List.map_map]
      refine List.map_congr_left fun s _ => ?_
      simp only [Function.comp_apply, pushV]
    · intro s x p hp
      dsimp only
      rw [hm s _ _ x p hp, hm s _ _ x p hp, hm s _ _ x p hp, hm s _ _ x p hp, hm s _ _ x p hp, hm s _ _ x p hp]
      rw [← mul_assoc, ← mul_assoc, ← mul_assoc, ← mul_assoc, ← mul_assoc, ← Complex.exp_add, ← Complex.exp_add, ← Complex.exp_add,
        ← Complex.exp_add, ← Complex.exp_add]
      congr 2
      rw [show kickTime .sixth dt = 2 * (D1 dt + D2 dt + D3 dt) * dt by rw [kick_total]; rfl]
      push_cast
      ring

/-- C38: the sixth-order scheme loses about 1.2 % of `dt²` of every acceleration. -/
theorem sixth_kick_short (dt : ℝ) (h0 : 0 < dt) (h1 : dt ≤ 1) :
    kickTime .sixth dt < (1 - 0.011 * dt ^ 2) * dt ∧ kickTime .leapfrog dt = dt := by
  refine ⟨?_, rfl⟩
  have := (kick_total_short dt h0 h1).2
  rw [kick_total] at this
  show _ * dt < _
  exact mul_lt_mul_of_pos_right this h0

/-- C38: the sixth-order scheme evaluates the driver of every kick at the time the particles
have drifted to, and ends the step at `dt`. -/
theorem sixth_driver_times (dt : ℝ) :
    sixthTimes dt 0 = 0 ∧ sixthTimes dt 1 = sixthTimes dt 0 + a1 * dt ∧ sixthTimes dt 2 = sixthTimes dt 1 + a2 * dt ∧
    sixthTimes dt 3 = sixthTimes dt 2 + a3 * dt ∧ sixthTimes dt 4 = sixthTimes dt 3 + a2 * dt ∧
    sixthTimes dt 5 = sixthTimes dt 4 + a1 * dt ∧ sixthTimes dt 5 = dt ∧ ∀ i ≤ 5, sixthTimes dt i + sixthTimes dt (5 - i) = dt := by
  have h := drift_total
  refine ⟨by simp [sixthTimes], by simp [sixthTimes]; ring, by simp [sixthTimes]; ring, by simp [sixthTimes]; ring,
    by simp [sixthTimes]; ring, by simp [sixthTimes]; ring, ?_, fun i hi => ?_⟩
  · unfold sixthTimes; simp only; linear_combination dt * h
  · have : i < 6 := by omega
    interval_cases i <;> simp only [sixthTimes, Nat.sub_zero, Nat.reduceSub] <;> linear_combination dt * h

/-- The leapfrog step uses the driver at the beginning of the step only, although it kicks
the particles after they have drifted for the whole step. -/
theorem leapfrog_driver (dx dt : ℝ) (field : FieldKind nx) (a : ℕ → ℝ) (dex dex' : ℕ → ZMod nx → ℝ) (h : dex 0 = dex' 0)
    (prev : ZMod nx → ℝ) (ss : List (Species nx)) :
    leapfrog dx dt field a dex prev ss = leapfrog dx dt field a dex' prev ss ∧ leapfrogTimes dt 0 = 0 := by
  refine ⟨?_, by simp [leapfrogTimes]⟩
  unfold leapfrog
  rw [h]

/-! ### Time reversal (C38) -/

/-- No grid-scale oscillation in velocity. -/
def VQuiet (s : Species nx) : Prop := ∀ x, 2 ∣ s.nv → alternating (s.f x) = 0

/-- No grid-scale oscillation in space. -/
def XQuiet (s : Species nx) : Prop := ∀ j, 2 ∣ nx → alternating (fun x => s.f x j) = 0

omit [NeZero nx] in
theorem pushV_reverse (e pond : ZMod nx → ℝ) (c : ℝ) (s : Species nx) (hs : VQuiet s) : pushV e pond (-c) (pushV e pond c s) = s := by
  obtain ⟨nv, pos, q, m, dv, v, f⟩ := s
  unfold pushV edfdv
  simp only [Species.mk.injEq, heq_eq_eq, true_and]
  funext x
  rw [shift_add_partial _ _ _ _ (hs x)]
  rw [show c * accel q m (e x) (pond x) + -c * accel q m (e x) (pond x) = 0 by ring, shift_zero]

theorem pushX_reverse (dx c : ℝ) (s : Species nx) (hs : XQuiet s) : pushX dx (-c) (pushX dx c s) = s := by
  obtain ⟨nv, pos, q, m, dv, v, f⟩ := s
  unfold pushX vdfdx
  simp only [Species.mk.injEq, heq_eq_eq, true_and]
  funext x j
  have h := shift_add_partial dx (v j * c) (v j * -c) (fun y => f y j) (hs j)
  rw [show v j * c + v j * -c = 0 by ring, shift_zero] at h
  exact congrFun h x

theorem kick_reverse (dx : ℝ) (field : FieldKind nx) (hf : accepts .sixth field 1 = true) (pond drv : ZMod nx → ℝ) (c : ℝ)
    (ss : List (Species nx)) (hs : ∀ s ∈ ss, VQuiet s) : kick dx field pond drv (-c) (kick dx field pond drv c ss) = ss := by
  have he : solveField dx field (kick dx field pond drv c ss) 0 0 = solveField dx field ss 0 0 := by
    cases field with
    | poisson static => show poisson dx (chargeDensity _ static) = _; rw [kick_charge]; rfl
    | boltzmann Te l => show boltzmann dx Te l (chargeDensity _ 0) = _; rw [kick_charge]; rfl
    | ampere => cases hf
    | hampere => cases hf
  have : kick dx field pond drv (-c) (kick dx field pond drv c ss) =
      (kick dx field pond drv c ss).map (pushV (fun x => drv x + solveField dx field (kick dx field pond drv c ss) 0 0 x) pond (-c)) := rfl
  rw [this, he]
  unfold kick
  simp only [List.map_map]
  conv_rhs => rw [← List.map_id ss]
  exact List.map_congr_left fun s h => pushV_reverse _ _ _ s (hs s h)

theorem drift_reverse (dx c : ℝ) (ss : List (Species nx)) (hs : ∀ s ∈ ss, XQuiet s) : (ss.map (pushX dx c)).map (pushX dx (-c)) = ss := by
  rw [List.map_map]
  conv_rhs => rw [← List.map_id ss]
  exact List.map_congr_left fun s h => pushX_reverse _ _ s (hs s h)

/-- The eleven substeps of a sixth-order step. -/
noncomputable def substep (dx dt : ℝ) (field : FieldKind nx) (a : ℕ → ℝ) (dex : ℕ → ZMod nx → ℝ) (n : ℕ)
    (ss : List (Species nx)) : List (Species nx) :=
  let kickBy := fun (i : ℕ) (c : ℝ) => kick dx field (ponderomotive dx a) (dex i) (c * dt) ss
  let driftBy := fun (c : ℝ) => ss.map (pushX dx (c * dt))
  match n with
  | 0 => kickBy 0 (D1 dt)
  | 1 => driftBy a1
  | 2 => kickBy 1 (D2 dt)
  | 3 => driftBy a2
  | 4 => kickBy 2 (D3 dt)
  | 5 => driftBy a3
  | 6 => kickBy 3 (D3 dt)
  | 7 => driftBy a2
  | 8 => kickBy 4 (D2 dt)
  | 9 => driftBy a1
  | _ => kickBy 5 (D1 dt)

/-- The distributions before substep `n`. -/
noncomputable def stages (dx dt : ℝ) (field : FieldKind nx) (a : ℕ → ℝ) (dex : ℕ → ZMod nx → ℝ) (ss : List (Species nx)) :
    ℕ → List (Species nx)
  | 0 => ss
  | n + 1 => substep dx dt field a dex n (stages dx dt field a dex ss n)

theorem stages_last (dx dt : ℝ) (field : FieldKind nx) (a : ℕ → ℝ) (dex : ℕ → ZMod nx → ℝ) (ss : List (Species nx)) :
    (sixth dx dt field a dex ss).2 = stages dx dt field a dex ss 11 := by
  simp only [sixth, stages, substep]

/-- C38: the sixth-order step is symmetric: the step with `-dt` and the drivers in reverse
order undoes it exactly, when no distribution it passes through carries the grid-scale
oscillation (which the pushers do not treat reversibly, `shift_add_fails`). -/
theorem sixth_reversible (dx dt : ℝ) (field : FieldKind nx) (hf : accepts .sixth field 1 = true) (a : ℕ → ℝ)
    (dex : ℕ → ZMod nx → ℝ) (ss : List (Species nx))
    (hv : ∀ i ≤ 10, i % 2 = 0 → ∀ s ∈ stages dx dt field a dex ss i, VQuiet s)
    (hx : ∀ i ≤ 10, i % 2 = 1 → ∀ s ∈ stages dx dt field a dex ss i, XQuiet s) :
    (sixth dx (-dt) field a (fun i => dex (5 - i)) (sixth dx dt field a dex ss).2).2 = ss := by
  have e1 : D1 (-dt) * -dt = -(D1 dt * dt) := by unfold D1; ring
  have e2 : D2 (-dt) * -dt = -(D2 dt * dt) := by unfold D2; ring
  have e3' : D3 (-dt) * -dt = -(D3 dt * dt) := by unfold D3; ring
  rw [stages_last dx dt field a dex ss]
  have hk : ∀ i ≤ 10, i % 2 = 0 → ∀ (drv : ZMod nx → ℝ) (c : ℝ),
      kick dx field (ponderomotive dx a) drv (-c) (kick dx field (ponderomotive dx a) drv c (stages dx dt field a dex ss i)) =
        stages dx dt field a dex ss i := fun i hi h0 drv c => kick_reverse dx field hf _ _ _ _ (hv i hi h0)
  have hd : ∀ i ≤ 10, i % 2 = 1 → ∀ (c : ℝ), ((stages dx dt field a dex ss i).map (pushX dx c)).map (pushX dx (-c)) =
      stages dx dt field a dex ss i := fun i hi h0 c => drift_reverse dx c _ (hx i hi h0)
  unfold sixth
  simp only [Nat.sub_zero, Nat.reduceSub, e1, e2, e3', Nat.sub_self]
  have m1 : a1 * -dt = -(a1 * dt) := by ring
  have m2 : a2 * -dt = -(a2 * dt) := by ring
  have m3 : a3 * -dt = -(a3 * dt) := by ring
  simp only [m1, m2, m3]
  have t : ∀ n, stages dx dt field a dex ss (n + 1) = substep dx dt field a dex n (stages dx dt field a dex ss n) := fun _ => rfl
  rw [t 10, substep, hk 10 (by omega) rfl, t 9, substep, hd 9 (by omega) rfl, t 8, substep, hk 8 (by omega) rfl, t 7, substep,
    hd 7 (by omega) rfl, t 6, substep, hk 6 (by omega) rfl, t 5, substep, hd 5 (by omega) rfl, t 4, substep,
    hk 4 (by omega) rfl, t 3, substep, hd 3 (by omega) rfl, t 2, substep, hk 2 (by omega) rfl, t 1, substep,
    hd 1 (by omega) rfl, t 0, substep, hk 0 (by omega) rfl]
  · rfl
  all_goals (intro h; omega)

/-- A uniform plasma without grid-scale oscillation in velocity meets the hypotheses. -/
theorem uniform_reversible (dx dt : ℝ) (hdx : dx ≠ 0) (n0 E0 a0 : ℝ) (ss : List (Species nx))
    (hs : ∀ s ∈ ss, UniformPlasma s ∧ VQuiet s) :
    (sixth dx (-dt) (.poisson fun _ => n0) (fun _ => a0) (fun _ _ => E0)
      (sixth dx dt (.poisson fun _ => n0) (fun _ => a0) (fun _ _ => E0) ss).2).2 = ss := by
  have hkick : ∀ (c : ℝ) (t : List (Species nx)), (∀ s ∈ t, UniformPlasma s ∧ VQuiet s) →
      ∀ s ∈ kick dx (.poisson fun _ => n0) 0 (fun _ => E0) c t, UniformPlasma s ∧ VQuiet s := by
    intro c t ht s hm
    obtain ⟨h1, h2⟩ := kick_uniform dx hdx n0 E0 c t fun s h => (ht s h).1
    refine ⟨h2 s hm, ?_⟩
    rw [h1, List.mem_map] at hm
    obtain ⟨u, hu, rfl⟩ := hm
    intro x hx
    have := (shift_modes u.dv (c * accel u.charge u.mass E0 0) (u.f x)).2 hx
    rw [(ht u hu).2 x hx, mul_zero] at this
    exact this
  have hst : ∀ n, ∀ s ∈ stages dx dt (.poisson fun _ => n0) (fun _ => a0) (fun _ _ => E0) ss n, UniformPlasma s ∧ VQuiet s := by
    intro n
    induction n with
    | zero => exact hs
    | succ n ih =>
      rw [stages]
      unfold substep
      rw [ponderomotive_const]
      dsimp only
      split <;> first | exact hkick _ _ ih | (rw [drift_uniform dx _ _ fun s h => (ih s h).1]; exact ih)
  refine sixth_reversible dx dt (.poisson fun _ => n0) rfl (fun _ => a0) (fun _ _ => E0) ss (fun i _ _ s h => (hst i s h).2)
    fun i _ _ s h j hx => ?_
  have : (fun x => s.f x j) = fun _ => s.f 0 j := funext fun x => congrFun ((hst i s h).1 x 0) j
  rw [this]
  exact alternating_const _ hx

/-- Eight cells of plasma with the velocity distribution `3/2, 1, 1/2, 1`. -/
noncomputable def someSpecies : Species 8 :=
  { nv := 4, pos := ⟨by decide⟩, charge := -1, mass := 1, dv := 1, v := fun j => j.val - 3 / 2,
    f := fun _ j => if j.val = 0 then 3 / 2 else if j.val = 2 then 1 / 2 else 1 }

theorem someSpecies_ok : UniformPlasma someSpecies ∧ VQuiet someSpecies := by
  refine ⟨fun _ _ => rfl, fun _ _ => ?_⟩
  show ∑ j : Fin 4, (-1 : ℝ) ^ (j : ℕ) * (if (j : ℕ) = 0 then 3 / 2 else if (j : ℕ) = 2 then 1 / 2 else 1) = 0
  rw [Fin.sum_univ_four]
  norm_num

example : (sixth 1 (-1 / 10) (.poisson fun _ => 1) (fun _ => 0) (fun _ _ => 2)
    (sixth 1 (1 / 10) (.poisson fun _ => 1) (fun _ => 0) (fun _ _ => 2) [someSpecies]).2).2 = [someSpecies] := by
  have := uniform_reversible 1 (1 / 10) one_ne_zero 1 2 0 [someSpecies] (by
    intro s h; rw [List.mem_singleton] at h; subst h; exact someSpecies_ok)
  rw [neg_div]; exact this

example : ∃ p : ℤ, Resolved 8 p ∧ p ≠ 0 := ⟨3, by unfold Resolved; norm_num, by norm_num⟩

end Verif.Spectral

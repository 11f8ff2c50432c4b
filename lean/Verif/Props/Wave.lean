import Verif.Model.Wave
import Verif.Props.Pic

/-! C62 (light wave), C63 (particle run and its diagnostics). -/
namespace Verif.Wave
open Finset Verif.Pic Verif.Spectral

/-! ### Interior -/

/-- Courant number. -/
noncomputable def Solver.S (w : Solver) : ℝ := w.c * w.dt / w.dx

theorem const_eq (w : Solver) : w.const = w.S := by unfold Solver.const Solver.S; ring
theorem oneOverConst_eq (w : Solver) : w.oneOverConst = 1 / w.S := by
  unfold Solver.oneOverConst Solver.S
  rw [one_div_div, div_div_eq_mul_div, one_div_mul_eq_div, div_div, mul_comm w.dt w.c]

theorem interior_vacuum (w : Solver) (a aold : ℕ → ℝ) (i : ℕ) :
    w.interior a aold (fun _ => 0) (fun _ => 0) i = 2 * a i - aold i + w.S ^ 2 * (a (i - 1) - 2 * a i + a (i + 1)) := by
  unfold Solver.interior Solver.S
  simp only [zero_mul, sub_zero, add_zero]
  rw [div_pow]; ring

/-- Light of speed `c` turned off: nothing happens. -/
theorem step_off (w : Solver) (hc : w.c ≤ 0) (nx : ℕ) (a aold src density : ℕ → ℝ) : w.step nx a aold src density = (a, aold) := by
  unfold Solver.step; rw [if_neg (not_lt.2 hc)]

theorem step_prev (w : Solver) (hc : 0 < w.c) (nx : ℕ) (a aold src density : ℕ → ℝ) : (w.step nx a aold src density).2 = a := by
  unfold Solver.step; rw [if_pos hc]

/-- C62: in the interior the step is the second-order scheme for
`∂²a/∂t² = c² ∂²a/∂x² - n a + S`. -/
theorem step_wave_equation (w : Solver) (hc : 0 < w.c) (hdt : w.dt ≠ 0) (nx : ℕ) (a aold src density : ℕ → ℝ) (i : ℕ) (h1 : 1 ≤ i) (h2 : i ≤ nx) :
    ((w.step nx a aold src density).1 i - 2 * a i + aold i) / w.dt ^ 2 =
      w.c ^ 2 * ((a (i - 1) - 2 * a i + a (i + 1)) / w.dx ^ 2) - density (i - 1) * a i + src i := by
  unfold Solver.step
  rw [if_pos hc]
  simp only
  rw [if_neg (by omega), if_neg (by omega)]
  unfold Solver.interior
  field_simp
  ring

/-- C62: a plane wave of wave number `k` in a plasma of density `n` propagates in the interior
with the frequency of the discrete dispersion relation, without growth or damping. -/
theorem step_plane_wave (w : Solver) (hc : 0 < w.c) (hdt : w.dt ≠ 0) (hdx : w.dx ≠ 0) (nx : ℕ) (n k ω A φ : ℝ)
    (hdisp : 2 * (1 - Real.cos (ω * w.dt)) / w.dt ^ 2 = w.c ^ 2 * (2 * (1 - Real.cos (k * w.dx)) / w.dx ^ 2) + n)
    (m : ℝ) (i : ℕ) (h1 : 1 ≤ i) (h2 : i ≤ nx) :
    (w.step nx (fun j => A * Real.cos (k * (j * w.dx) - ω * (m * w.dt) + φ))
      (fun j => A * Real.cos (k * (j * w.dx) - ω * ((m - 1) * w.dt) + φ)) (fun _ => 0) (fun _ => n)).1 i =
    A * Real.cos (k * (i * w.dx) - ω * ((m + 1) * w.dt) + φ) := by
  have h := step_wave_equation w hc hdt nx (fun j => A * Real.cos (k * (j * w.dx) - ω * (m * w.dt) + φ))
      (fun j => A * Real.cos (k * (j * w.dx) - ω * ((m - 1) * w.dt) + φ)) (fun _ => 0) (fun _ => n) i h1 h2
  set X := (w.step nx (fun j => A * Real.cos (k * (j * w.dx) - ω * (m * w.dt) + φ))
      (fun j => A * Real.cos (k * (j * w.dx) - ω * ((m - 1) * w.dt) + φ)) (fun _ => 0) (fun _ => n)).1 i
  obtain ⟨θ, hθ⟩ : ∃ θ, θ = k * (i * w.dx) - ω * (m * w.dt) + φ := ⟨_, rfl⟩
  have e1 : k * (((i - 1 : ℕ) : ℝ) * w.dx) - ω * (m * w.dt) + φ = θ - k * w.dx := by
    rw [Nat.cast_sub h1, hθ]; push_cast; ring
  have e2 : k * (((i + 1 : ℕ) : ℝ) * w.dx) - ω * (m * w.dt) + φ = θ + k * w.dx := by rw [hθ]; push_cast; ring
  have e3 : k * (i * w.dx) - ω * ((m - 1) * w.dt) + φ = θ + ω * w.dt := by rw [hθ]; ring
  have e4 : k * (i * w.dx) - ω * ((m + 1) * w.dt) + φ = θ - ω * w.dt := by rw [hθ]; ring
  simp only [e1, e2, e3, ← hθ] at h
  rw [Real.cos_sub, Real.cos_add, Real.cos_add] at h
  rw [e4, Real.cos_sub]
  field_simp at h hdisp
  have hx2 : w.dx ^ 2 ≠ 0 := pow_ne_zero 2 hdx
  apply mul_left_cancel₀ hx2
  linear_combination h + A * Real.cos θ * hdisp

/-! ### Boundaries -/

/-- C62: a wave leaving through a boundary passes it exactly if its shape is a cubic polynomial, at
every Courant number: `y` is the position of the boundary point, measured along the outward
direction of travel. -/
theorem abc_outgoing (w : Solver) (hS : 0 < w.S) (p0 p1 p2 p3 y : ℝ) :
    let P := fun i m : ℝ => p0 + p1 * (y + i + w.S * m) + p2 * (y + i + w.S * m) ^ 2 + p3 * (y + i + w.S * m) ^ 3
    w.abc (P 0 (-1)) (P 1 (-1)) (P 2 (-1)) (P 0 0) (P 1 0) (P 2 0) (P 1 1) (P 2 1) = P 0 1 := by
  intro P
  unfold Solver.abc
  simp only [const_eq, oneOverConst_eq, P]
  have h1 : w.S ≠ 0 := hS.ne'
  have h2 : 1 / w.S + 2 + w.S ≠ 0 := by positivity
  have h3 : 1 + w.S * 2 + w.S ^ 2 ≠ 0 := by positivity
  rw [show -1 / (1 / w.S + 2 + w.S) = -(w.S / (1 + w.S * 2 + w.S ^ 2)) by field_simp]
  field_simp
  ring

/-- The point left of the box: a step exact at the left boundary and in the interior for every
left-going cubic wave. -/
theorem step_leftgoing (w : Solver) (hc : 0 < w.c) (hS : 0 < w.S) (nx : ℕ) (p0 p1 p2 p3 y : ℝ) (i : ℕ) (hi : i ≤ nx) :
    let P := fun (i : ℕ) (m : ℝ) => p0 + p1 * (y + i + w.S * m) + p2 * (y + i + w.S * m) ^ 2 + p3 * (y + i + w.S * m) ^ 3
    (w.step nx (fun i => P i 0) (fun i => P i (-1)) (fun _ => 0) (fun _ => 0)).1 i = P i 1 := by
  intro P
  have hint : ∀ i, 1 ≤ i → w.interior (fun i => P i 0) (fun i => P i (-1)) (fun _ => 0) (fun _ => 0) i = P i 1 := by
    intro i h
    rw [interior_vacuum]
    simp only [P]
    rw [Nat.cast_sub h]
    push_cast; ring
  unfold Solver.step
  rw [if_pos hc]
  simp only
  by_cases h0 : i = 0
  · subst h0
    rw [if_pos rfl, hint 1 le_rfl, hint 2 (by omega)]
    have := abc_outgoing w hS p0 p1 p2 p3 y
    simp only at this
    simp only [P]
    push_cast
    exact this
  · rw [if_neg h0, if_neg (by omega), hint i (by omega)]

/-- C62: uniform fields stay uniform in vacuum. -/
theorem step_uniform (w : Solver) (hc : 0 < w.c) (hS : 0 < w.S) (nx : ℕ) (a0 : ℝ) (i : ℕ) :
    (w.step nx (fun _ => a0) (fun _ => a0) (fun _ => 0) (fun _ => 0)).1 i = a0 := by
  unfold Solver.step
  rw [if_pos hc]
  simp only
  have hint : ∀ i, w.interior (fun _ => a0) (fun _ => a0) (fun _ => 0) (fun _ => 0) i = a0 := by
    intro i; rw [interior_vacuum]; ring
  have hb := abc_outgoing w hS a0 0 0 0 0
  simp only [zero_mul, add_zero] at hb
  simp only [hint, hb]
  split_ifs <;> rfl

/-- C62: mirror symmetry: the two boundaries are treated alike. -/
theorem step_mirror (w : Solver) (nx : ℕ) (hnx : 2 ≤ nx) (a aold src density : ℕ → ℝ) (i : ℕ) (hi : i ≤ nx + 1) :
    (w.step nx (fun j => a (nx + 1 - j)) (fun j => aold (nx + 1 - j)) (fun j => src (nx + 1 - j)) (fun j => density (nx - 1 - j))).1 i =
    (w.step nx a aold src density).1 (nx + 1 - i) := by
  unfold Solver.step
  by_cases hc : 0 < w.c
  · simp only [if_pos hc]
    have hint : ∀ i, 1 ≤ i → i ≤ nx → w.interior (fun j => a (nx + 1 - j)) (fun j => aold (nx + 1 - j)) (fun j => src (nx + 1 - j))
        (fun j => density (nx - 1 - j)) i = w.interior a aold src density (nx + 1 - i) := by
      intro i h1 h2
      unfold Solver.interior
      simp only
      rw [show nx + 1 - (i - 1) = nx + 1 - i + 1 by omega, show nx + 1 - (i + 1) = nx + 1 - i - 1 by omega,
        show nx - 1 - (i - 1) = nx + 1 - i - 1 by omega]
      ring
    by_cases h0 : i = 0
    · subst h0
      rw [if_pos rfl, if_neg (by omega), if_pos (by omega), hint 1 le_rfl (by omega), hint 2 (by omega) hnx]
      rw [show nx + 1 - 0 = nx + 1 by omega, show nx + 1 - 1 = nx by omega, show nx + 1 - 2 = nx - 1 by omega]
    · by_cases h1 : i = nx + 1
      · subst h1
        rw [if_neg h0, if_pos rfl, if_pos (by omega), hint nx (by omega) le_rfl, hint (nx - 1) (by omega) (by omega)]
        rw [show nx + 1 - (nx + 1) = 0 by omega, show nx + 1 - nx = 1 by omega, show nx + 1 - (nx - 1) = 2 by omega]
      · rw [if_neg h0, if_neg h1, if_neg (by omega), if_neg (by omega), hint i (by omega) (by omega)]
  · simp only [if_neg hc]

/-- C62: superposition: for a given plasma the step is linear in the wave and its source. -/
theorem step_linear (w : Solver) (nx : ℕ) (a aold src a' aold' src' density : ℕ → ℝ) (α β : ℝ) (i : ℕ) :
    (w.step nx (fun j => α * a j + β * a' j) (fun j => α * aold j + β * aold' j) (fun j => α * src j + β * src' j) density).1 i =
    α * (w.step nx a aold src density).1 i + β * (w.step nx a' aold' src' density).1 i := by
  have hint : ∀ i, w.interior (fun j => α * a j + β * a' j) (fun j => α * aold j + β * aold' j) (fun j => α * src j + β * src' j) density i =
      α * w.interior a aold src density i + β * w.interior a' aold' src' density i := by
    intro i; unfold Solver.interior; ring
  unfold Solver.step
  split
  · simp only
    split
    · unfold Solver.abc; simp only [hint]; ring
    · split
      · unfold Solver.abc; simp only [hint]; ring
      · exact hint i
  · rfl

/-! ### Pulses at the exact time step -/

/-- A left-going pulse on the points of the box after `m` steps. -/
def pulse (f : ℤ → ℝ) (m : ℤ) (i : ℕ) : ℝ := f (i + m)

theorem abc_one (w : Solver) (hS : w.S = 1) (o0 o1 o2 a0 a1 a2 n1 n2 : ℝ) : w.abc o0 o1 o2 a0 a1 a2 n1 n2 = 2 * a1 - o2 := by
  unfold Solver.abc
  simp only [const_eq, oneOverConst_eq, hS]
  ring

/-- C62: when light crosses exactly one cell per step, a left-going pulse of any shape travels
through the box and out of it, unchanged and without any reflection, for any number of steps. -/
theorem pulse_leaves (w : Solver) (hc : 0 < w.c) (hS : w.S = 1) (nx : ℕ) (hnx : 2 ≤ nx) (f : ℤ → ℝ)
    (hf : ∀ y : ℤ, (nx : ℤ) - 2 ≤ y → f y = 0) (n : ℕ) :
    ∀ i ≤ nx + 1, (w.run nx (pulse f 0, pulse f (-1)) n).1 i = pulse f n i ∧
      (w.run nx (pulse f 0, pulse f (-1)) n).2 i = pulse f (n - 1) i := by
  induction n with
  | zero => intro i _; exact ⟨by simp [Solver.run], by simp [Solver.run]⟩
  | succ n ih =>
    set y := w.run nx (pulse f 0, pulse f (-1)) n with hy
    have hrun : w.run nx (pulse f 0, pulse f (-1)) (n + 1) = w.step nx y.1 y.2 (fun _ => 0) fun _ => 0 := rfl
    rw [hrun]
    have hint : ∀ i, 1 ≤ i → i ≤ nx → w.interior y.1 y.2 (fun _ => 0) (fun _ => 0) i = pulse f (n + 1 : ℕ) i := by
      intro i h1 h2
      rw [interior_vacuum, hS, (ih i (by omega)).1, (ih i (by omega)).2, (ih (i - 1) (by omega)).1, (ih (i + 1) (by omega)).1]
      unfold pulse
      rw [show ((i - 1 : ℕ) : ℤ) + n = i + (n - 1) by omega]
      rw [show ((i + 1 : ℕ) : ℤ) + n = i + (n + 1 : ℕ) by push_cast; ring]
      ring
    intro i hi
    refine ⟨?_, ?_⟩
    · unfold Solver.step
      rw [if_pos hc]
      simp only [abc_one w hS]
      by_cases h0 : i = 0
      · subst h0
        rw [if_pos rfl, (ih 1 (by omega)).1, (ih 2 (by omega)).2]
        unfold pulse
        rw [show ((1 : ℕ) : ℤ) + n = (0 : ℕ) + (n + 1 : ℕ) by push_cast; ring, show ((2 : ℕ) : ℤ) + (n - 1) = (0 : ℕ) + (n + 1 : ℕ) by push_cast; ring]
        ring
      · rw [if_neg h0]
        by_cases h1 : i = nx + 1
        · subst h1
          rw [if_pos rfl, (ih nx (by omega)).1, (ih (nx - 1) (by omega)).2]
          unfold pulse
          rw [hf _ (by omega), hf _ (by omega), hf _ (by omega)]
          ring
        · rw [if_neg h1, hint i (by omega) (by omega)]
    · rw [step_prev w hc]
      rw [(ih i hi).1]
      congr 1
      push_cast; ring

/-- C62: hence the box is empty once the pulse has had time to leave. -/
theorem pulse_gone (w : Solver) (hc : 0 < w.c) (hS : w.S = 1) (nx : ℕ) (hnx : 2 ≤ nx) (f : ℤ → ℝ)
    (hf : ∀ y : ℤ, (nx : ℤ) - 2 ≤ y → f y = 0) (n : ℕ) (hn : nx ≤ n + 2) :
    ∀ i ≤ nx + 1, (w.run nx (pulse f 0, pulse f (-1)) n).1 i = 0 := by
  intro i hi
  rw [(pulse_leaves w hc hS nx hnx f hf n i hi).1]
  exact hf _ (by omega)

/-! ### Forward and backward waves -/

/-- C62: the split of the stored wave is the sum and the difference of the two fields. -/
theorem split_sum (c dx dt : ℝ) (a prev : ℕ → ℝ) (i : ℕ) :
    ep c dx dt a prev i + em c dx dt a prev i = -2 * ((a (i + 1) - prev (i + 1)) / dt) := by
  unfold ep em; ring

/-- C62: a right-going wave with a parabolic profile has no left-going part, and its right-going
part is twice `c` times the slope of the profile half a step back; for a left-going wave it is
the other way round. -/
theorem split_rightgoing (c dx dt : ℝ) (hdx : dx ≠ 0) (hdt : dt ≠ 0) (p0 p1 p2 t : ℝ) (i : ℕ) :
    let P := fun y : ℝ => p0 + p1 * y + p2 * y ^ 2
    em c dx dt (fun j => P (j * dx - c * t)) (fun j => P (j * dx - c * (t - dt))) i = 0 ∧
    ep c dx dt (fun j => P (j * dx - c * t)) (fun j => P (j * dx - c * (t - dt))) i =
      2 * c * (p1 + 2 * p2 * ((i + 1) * dx - c * (t - dt / 2))) := by
  intro P
  unfold ep em
  simp only [P]
  push_cast
  have : (0.5 : ℝ) = 1 / 2 := by norm_num
  rw [this]
  constructor <;> field_simp <;> ring

theorem split_leftgoing (c dx dt : ℝ) (hdx : dx ≠ 0) (hdt : dt ≠ 0) (p0 p1 p2 t : ℝ) (i : ℕ) :
    let P := fun y : ℝ => p0 + p1 * y + p2 * y ^ 2
    ep c dx dt (fun j => P (j * dx + c * t)) (fun j => P (j * dx + c * (t - dt))) i = 0 ∧
    em c dx dt (fun j => P (j * dx + c * t)) (fun j => P (j * dx + c * (t - dt))) i =
      -(2 * c * (p1 + 2 * p2 * ((i + 1) * dx + c * (t - dt / 2)))) := by
  intro P
  unfold ep em
  simp only [P]
  push_cast
  have : (0.5 : ℝ) = 1 / 2 := by norm_num
  rw [this]
  constructor <;> field_simp <;> ring

/-! ### Complete particle runs (C63) -/

variable {nx : ℕ} [NeZero nx]

theorem push_keeps (b : Box nx) (hb : b.xmin < b.xmax) (sch : Scheme) (dt t : ℝ) (a : Option (ℕ → ℝ)) (ss : List PSpecies) :
    ids (push b sch dt t a ss).1 = ids ss ∧ InBox b (push b sch dt t a ss).1 := by
  cases sch
  · exact kdk_keeps b hb _ _ _ _
  · exact yoshida_keeps b hb _ _ _ _

theorem push_length (b : Box nx) (hb : b.xmin < b.xmax) (sch : Scheme) (dt t : ℝ) (a : Option (ℕ → ℝ)) (ss : List PSpecies) :
    (push b sch dt t a ss).1.length = ss.length := by
  have := congrArg List.length (push_keeps b hb sch dt t a ss).1
  simpa [ids] using this

theorem picStep_named (b : Box nx) (sch : Scheme) (w : Solver) (ey : Option (ℝ → ℕ → ℝ)) (t : ℝ) (y : PState nx) :
    (picStep b sch w ey t y).named = rename y.named (push b sch w.dt t (ey.map fun _ => y.a) (y.named.map Prod.snd)).1 := by
  unfold picStep; cases ey <;> rfl

theorem rename_snd (named : List (String × PSpecies)) (ss : List PSpecies) (h : ss.length = named.length) :
    (rename named ss).map Prod.snd = ss ∧ (rename named ss).map Prod.fst = named.map Prod.fst := by
  unfold rename
  exact ⟨by rw [List.map_snd_zip]; simp [h], by rw [List.map_fst_zip]; simp [h]⟩

theorem picStep_keeps (b : Box nx) (hb : b.xmin < b.xmax) (sch : Scheme) (w : Solver) (ey : Option (ℝ → ℕ → ℝ)) (t : ℝ) (y : PState nx) :
    (picStep b sch w ey t y).named.map Prod.fst = y.named.map Prod.fst ∧
    ids ((picStep b sch w ey t y).named.map Prod.snd) = ids (y.named.map Prod.snd) ∧
    InBox b ((picStep b sch w ey t y).named.map Prod.snd) := by
  have hl : (push b sch w.dt t (ey.map fun _ => y.a) (y.named.map Prod.snd)).1.length = y.named.length := by
    rw [push_length b hb]; simp
  obtain ⟨h1, h2⟩ := rename_snd y.named _ hl
  rw [picStep_named]
  rw [h1, h2]
  exact ⟨rfl, push_keeps b hb sch _ _ _ _⟩

/-- C63: over any run, with or without drivers and light waves, the species keep their names,
order, charges, masses, particle numbers and weights. -/
theorem picRun_keeps (b : Box nx) (hb : b.xmin < b.xmax) (sch : Scheme) (w : Solver) (ey : Option (ℝ → ℕ → ℝ)) (t : ℝ) (y : PState nx) (n : ℕ) :
    (picRun b sch w ey t y n).named.map Prod.fst = y.named.map Prod.fst ∧
    ids ((picRun b sch w ey t y n).named.map Prod.snd) = ids (y.named.map Prod.snd) := by
  induction n with
  | zero => exact ⟨rfl, rfl⟩
  | succ n ih =>
    have := picStep_keeps b hb sch w ey (t + n * w.dt) (picRun b sch w ey t y n)
    exact ⟨this.1.trans ih.1, this.2.1.trans ih.2⟩

/-- C63: at every saved step the particles are in the box, the stored field satisfies Gauss's law
for the stored particles, and the stored driver is the driver at the time of the save. -/
theorem picRun_consistent (b : Box nx) (hb : b.xmin < b.xmax) (hdx : b.dx ≠ 0) (sch : Scheme) (w : Solver) (ey : Option (ℝ → ℕ → ℝ)) (t : ℝ) (y : PState nx) (n : ℕ) :
    InBox b ((picRun b sch w ey t y (n + 1)).named.map Prod.snd) ∧
    (∀ p : ℤ, Resolved nx p → p ≠ 0 → gaussError b.dx (picRun b sch w ey t y (n + 1)).e
      (fun g => chargeOf b.shape b.dx b.xmin ((picRun b sch w ey t y (n + 1)).named.map Prod.snd) g + b.static g) p = 0) ∧
    (picRun b sch w ey t y (n + 1)).de = b.driver (t + (n + 1 : ℕ) * w.dt) := by
  set z := picRun b sch w ey t y n with hz
  have hrun : picRun b sch w ey t y (n + 1) = picStep b sch w ey (t + n * w.dt) z := rfl
  rw [hrun]
  refine ⟨(picStep_keeps b hb sch w ey _ z).2.2, fun p hp h0 => ?_, ?_⟩
  · have hl : (push b sch w.dt (t + n * w.dt) (ey.map fun _ => z.a) (z.named.map Prod.snd)).1.length = z.named.length := by
      rw [push_length b hb]; simp
    rw [picStep_named, (rename_snd z.named _ hl).1]
    have he : (picStep b sch w ey (t + n * w.dt) z).e = (push b sch w.dt (t + n * w.dt) (ey.map fun _ => z.a) (z.named.map Prod.snd)).2.1 := by
      unfold picStep; cases ey <;> rfl
    rw [he]
    exact push_gauss b hdx sch w.dt _ _ _ p hp h0
  · have : (picStep b sch w ey (t + n * w.dt) z).de = b.driver (t + n * w.dt + w.dt) := by
      unfold picStep; cases ey <;> rfl
    rw [this]
    congr 1
    push_cast; ring

/-- C63: without transverse driver the vector potential never changes and the particles follow the
electrostatic run. -/
theorem picRun_electrostatic (b : Box nx) (hb : b.xmin < b.xmax) (sch : Scheme) (w : Solver) (t : ℝ) (y : PState nx) (n : ℕ) :
    (picRun b sch w none t y n).a = y.a ∧ (picRun b sch w none t y n).prevA = y.prevA ∧
    (picRun b sch w none t y n).named.map Prod.snd = pushRun b sch w.dt t (y.named.map Prod.snd) n := by
  induction n with
  | zero => exact ⟨rfl, rfl, rfl⟩
  | succ n ih =>
    refine ⟨ih.1, ih.2.1, ?_⟩
    rw [show picRun b sch w none t y (n + 1) = picStep b sch w none (t + n * w.dt) (picRun b sch w none t y n) from rfl, picStep_named,
      (rename_snd _ _ (by rw [push_length b hb]; simp)).1, ih.2.2]
    rfl

/-- C63: the plasma slows the light wave only through the species called `electron`: without it
the wave propagates as in vacuum, whatever the other species do. -/
theorem no_electron_vacuum (b : Box nx) (hb : b.xmin < b.xmax) (sch : Scheme) (w : Solver) (src : ℝ → ℕ → ℝ) (t : ℝ) (y : PState nx)
    (h : "electron" ∉ y.named.map Prod.fst) :
    ((picStep b sch w (some src) t y).a, (picStep b sch w (some src) t y).prevA) =
      w.step nx y.a y.prevA (src (t + w.dt)) fun _ => 0 := by
  have hz : ∀ named : List (String × PSpecies), "electron" ∉ named.map Prod.fst → electronCharge (nx := nx) b.shape b.dx b.xmin named = fun _ => 0 := by
    intro named hn
    funext g
    unfold electronCharge
    have : named.lookup "electron" = none := by
      rw [List.lookup_eq_none_iff]
      intro p hp
      rcases p with ⟨k, s⟩
      by_cases e : "electron" = k
      · exact absurd (List.mem_map.2 ⟨(k, s), hp, e.symm⟩) hn
      · simpa using e
    rw [this]
  have h1 := hz y.named h
  have h2 := hz (picStep b sch w (some src) t y).named (by rw [(picStep_keeps b hb sch w (some src) t y).1]; exact h)
  have h3 := picStep_named b sch w (some src) t y
  rw [h3] at h2
  unfold picStep
  simp only [h1, h2]
  simp

/-- C63: with electrons, the wave sees minus the mean electron charge density before and after
the push. -/
theorem picStep_wave (b : Box nx) (sch : Scheme) (w : Solver) (hc : 0 < w.c) (hdt : w.dt ≠ 0)
    (src : ℝ → ℕ → ℝ) (t : ℝ) (y : PState nx) (s s' : PSpecies)
    (h : y.named.lookup "electron" = some s) (h' : (picStep b sch w (some src) t y).named.lookup "electron" = some s')
    (i : ℕ) (h1 : 1 ≤ i) (h2 : i ≤ nx) :
    ((picStep b sch w (some src) t y).a i - 2 * y.a i + y.prevA i) / w.dt ^ 2 =
      w.c ^ 2 * ((y.a (i - 1) - 2 * y.a i + y.a (i + 1)) / w.dx ^ 2) -
      -(s.charge * deposit b.shape b.dx b.xmin s.ps ((i - 1 : ℕ) : ZMod nx) +
        s'.charge * deposit b.shape b.dx b.xmin s'.ps ((i - 1 : ℕ) : ZMod nx)) / 2 * y.a i + src (t + w.dt) i := by
  have h3 := picStep_named b sch w (some src) t y
  rw [h3] at h'
  have ha : (picStep b sch w (some src) t y).a = (w.step nx y.a y.prevA (src (t + w.dt)) fun i =>
      -0.5 * (electronCharge (nx := nx) b.shape b.dx b.xmin y.named (i : ZMod nx) +
        electronCharge (nx := nx) b.shape b.dx b.xmin (rename y.named (push b sch w.dt t (some y.a) (y.named.map Prod.snd)).1) (i : ZMod nx))).1 := rfl
  rw [ha, step_wave_equation w hc hdt nx _ _ _ _ i h1 h2]
  unfold electronCharge
  rw [h, show (rename y.named (push b sch w.dt t (some y.a) (y.named.map Prod.snd)).1).lookup "electron" = some s' from h']
  simp only
  have : (-0.5 : ℝ) = -(1 / 2) := by norm_num
  rw [this]; ring

/-- C63: the stored moments integrate to the particle sums: number, flux and second moment. -/
theorem savedMoment_total (k : ℕ) (shape : Shape) (dx xmin : ℝ) (hdx : dx ≠ 0) (s : PSpecies) :
    ∑ g : ZMod nx, savedMoment k shape dx xmin s g * dx = (s.ps.map fun p => p.w * p.v ^ k).sum := by
  unfold savedMoment
  have := deposit_total (nx := nx) shape dx xmin hdx (s.ps.map fun p => { p with w := p.w * p.v ^ k })
  simpa [Function.comp_def] using this

/-- C63: the stored particle number never changes during a run. -/
theorem savedNumber_constant (b : Box nx) (hb : b.xmin < b.xmax) (hdx : b.dx ≠ 0) (sch : Scheme) (w : Solver) (ey : Option (ℝ → ℕ → ℝ)) (t : ℝ) (y : PState nx) (n : ℕ) :
    ((picRun b sch w ey t y n).named.map Prod.snd).map (fun s => ∑ g : ZMod nx, savedMoment 0 b.shape b.dx b.xmin s g * b.dx) =
    (y.named.map Prod.snd).map fun s => (s.ps.map Particle.w).sum := by
  have h : ∀ l : List PSpecies, l.map (fun s => ∑ g : ZMod nx, savedMoment 0 b.shape b.dx b.xmin s g * b.dx) =
      (ids l).map fun c => c.2.2.sum := by
    intro l
    unfold ids
    rw [List.map_map]
    refine List.map_congr_left fun s _ => ?_
    rw [savedMoment_total 0 b.shape b.dx b.xmin hdx]
    simp [Function.comp_def]
  rw [h, (picRun_keeps b hb sch w ey t y n).2]
  unfold ids
  rw [List.map_map]
  rfl

/-! Cases meeting the hypotheses. -/

example : 0 < (⟨2, 1, 1 / 2⟩ : Solver).c ∧ (⟨2, 1, 1 / 2⟩ : Solver).S = 1 := by
  norm_num [Solver.S]

example (n : ℕ) (hn : 8 ≤ n) : ∀ i ≤ 11, ((⟨2, 1, 1 / 2⟩ : Solver).run 10
    (pulse (fun y => if y = 3 then 1 else 0) 0, pulse (fun y => if y = 3 then 1 else 0) (-1)) n).1 i = 0 :=
  pulse_gone _ (by norm_num) (by norm_num [Solver.S]) 10 (by norm_num) _ (fun y hy => by
    have : y ≠ 3 := by push_cast at hy; omega
    simp [this]) n (by omega)

example : ∃ y : PState 4, y.named.lookup "electron" ≠ none ∧ "electron" ∈ y.named.map Prod.fst :=
  ⟨{ named := [("electron", ⟨-1, 1, [⟨0, 1, 1⟩]⟩), ("ion", ⟨1, 1836, []⟩)], e := 0, de := 0, a := 0, prevA := 0 }, by simp, by simp⟩

end Verif.Wave

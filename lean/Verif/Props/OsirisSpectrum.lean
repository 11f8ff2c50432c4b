import Verif.Props.OsirisImage
import Verif.Props.SpectraxInit
import Verif.Props.LpsePump

/-!
C200: the (k, ω) power spectrum.
-/
namespace Verif.OsirisPlot
open Finset Verif.Spectral Complex
open scoped ComplexConjugate

variable {nt nx : ℕ} [NeZero nt] [NeZero nx]

/-- Specification: amplitude of `exp i(2π n t / nt + 2π m x / nx)` in the series (integers `n`, `m` of either sign). -/
noncomputable def amplitude (v : ZMod nt → ZMod nx → ℝ) (n m : ℤ) : ℂ :=
  ∑ t, ∑ x, (v t x : ℂ) * cexp (-((2 * Real.pi * n * t.val / nt + 2 * Real.pi * m * x.val / nx : ℝ) : ℂ) * I)

/-- Specification: the power of that mode. -/
noncomputable def power (v : ZMod nt → ZMod nx → ℝ) (n m : ℤ) : ℝ := ‖amplitude v n m‖ ^ 2

theorem rfft2_eq (v : ZMod nt → ZMod nx → ℝ) (n : ℕ) (m : ℤ) : rfft2 v n (m : ZMod nx) = amplitude v n m := by
  unfold rfft2 rfft fft amplitude
  rw [ZMod.dft_apply]
  simp only [ZMod.dft_apply, smul_eq_mul, mul_sum]
  rw [sum_comm]
  refine sum_congr rfl fun t _ => sum_congr rfl fun x _ => ?_
  have h1 : (ZMod.stdAddChar (-(x * (m : ZMod nx))) : ℂ) = cexp (((2 * Real.pi * ((-m : ℤ) : ℝ) * x.val / nx : ℝ) : ℂ) * I) := by
    rw [← Spectrax.char_exp]; congr 1; push_cast; ring
  have h2 : (ZMod.stdAddChar (-(t * (n : ZMod nt))) : ℂ) = cexp (((2 * Real.pi * ((-(n : ℤ) : ℤ) : ℝ) * t.val / nt : ℝ) : ℂ) * I) := by
    rw [← Spectrax.char_exp]; congr 1; push_cast; ring
  rw [h1, h2, ← mul_assoc, ← Complex.exp_add, mul_comm]
  congr 2
  push_cast
  ring

/-- C200: for a real series the mode with both signs reversed has the same power. -/
theorem power_neg (v : ZMod nt → ZMod nx → ℝ) (n m : ℤ) : power v (-n) (-m) = power v n m := by
  have h : amplitude v (-n) (-m) = conj (amplitude v n m) := by
    unfold amplitude
    rw [map_sum]
    refine sum_congr rfl fun t _ => ?_
    rw [map_sum]
    refine sum_congr rfl fun x _ => ?_
    rw [map_mul, Complex.conj_ofReal, ← Complex.exp_conj, map_mul, map_neg, Complex.conj_ofReal, Complex.conj_I]
    congr 2
    push_cast
    ring
  unfold power
  rw [h, RCLike.norm_conj]

theorem power_congr (v : ZMod nt → ZMod nx → ℝ) (n : ℕ) {m m' : ℤ} (h : (m : ZMod nx) = (m' : ZMod nx)) : power v n m = power v n m' := by
  unfold power
  rw [← rfft2_eq, ← rfft2_eq, h]

/-- C200: wave numbers that differ by the number of cells are the same mode. -/
theorem power_periodic (v : ZMod nt → ZMod nx → ℝ) (n : ℕ) (m : ℤ) : power v n (m + nx) = power v n m :=
  power_congr v n (by push_cast; simp)

/-- Signed wave number of column `j` of the spectrum, in units of `2π/(nx dx)`. -/
def colMode (nx j : ℕ) : ℤ := (j : ℤ) - ((nx / 2 : ℕ) : ℤ)

theorem shiftIdx_mode (j : ℕ) : ((shiftIdx nx j : ℕ) : ZMod nx) = ((colMode nx j : ℤ) : ZMod nx) := by
  unfold shiftIdx colMode
  rw [ZMod.natCast_mod]
  rw [Int.cast_sub, Int.cast_natCast, Int.cast_natCast, Nat.cast_add, Nat.cast_sub (Nat.div_le_self nx 2), ZMod.natCast_self, zero_sub, sub_eq_add_neg]

theorem shiftIdx_val {j : ℕ} (hj : j < nx) : shiftIdx nx j = if j < nx / 2 then j + (nx - nx / 2) else j - nx / 2 := by
  unfold shiftIdx
  split_ifs with h
  · rw [Nat.mod_eq_of_lt (by omega)]
  · have e : j + (nx - nx / 2) = (j - nx / 2) + nx := by omega
    rw [e, Nat.add_mod_right, Nat.mod_eq_of_lt (by omega)]

theorem col_coord (g : ℝ → ℝ) (dt dx : ℝ) (v : ZMod nt → ZMod nx → ℝ) {j : ℕ} (hj : j < nx) :
    (half g dt dx v).c j = (colMode nx j : ℝ) * (2 * Real.pi / (nx * dx)) := by
  have hn : 0 < nx := Nat.pos_of_ne_zero (NeZero.ne nx)
  unfold half Grid.fftfreqAt colMode
  dsimp only
  rw [shiftIdx_val hj]
  by_cases h : j < nx / 2
  · rw [if_pos h, if_neg (by omega), Nat.cast_add, Nat.cast_sub (Nat.div_le_self nx 2), Int.cast_sub, Int.cast_natCast, Int.cast_natCast]
    ring
  · rw [if_neg h, if_pos (by omega), Nat.cast_sub (by omega), Int.cast_sub, Int.cast_natCast, Int.cast_natCast]
    ring

theorem row_coord (g : ℝ → ℝ) (dt dx : ℝ) (v : ZMod nt → ZMod nx → ℝ) (n : ℕ) : (half g dt dx v).r n = (n : ℝ) * (2 * Real.pi / (nt * dt)) := by
  unfold half Grid.rfftfreqAt
  dsimp only
  ring

theorem half_data (g : ℝ → ℝ) (dt dx : ℝ) (v : ZMod nt → ZMod nx → ℝ) (n j : ℕ) :
    (half g dt dx v).data n j = g (power v n (colMode nx j)) := by
  unfold half power
  dsimp only
  rw [shiftIdx_mode, rfft2_eq]

/-- What a cell of a spectrum image should show: the (possibly averaged) power of the modes at its own coordinates. -/
structure Shows (g : ℝ → ℝ) (dt dx : ℝ) (v : ZMod nt → ZMod nx → ℝ) (w k value : ℝ) (shift : ℤ) : Prop where
  /-- there are integers labelling the cell, whose mode, displaced by `shift` wave numbers, is shown -/
  ex : ∃ n m : ℤ, w = n * (2 * Real.pi / (nt * dt)) ∧ k = m * (2 * Real.pi / (nx * dx)) ∧ value = g (power v n (m + shift))

/-- Displacement of the lower half of the image. -/
def slip (nx : ℕ) : ℤ := if nx % 2 = 0 then 1 else 0

theorem flip_mode {j : ℕ} (hj : j < nx) : -(colMode nx (nx - 1 - j)) = colMode nx j + slip nx := by
  unfold colMode slip
  split_ifs <;> omega

theorem power_flip (v : ZMod nt → ZMod nx → ℝ) (n : ℕ) {j : ℕ} (hj : j < nx) :
    power v n (colMode nx (nx - 1 - j)) = power v (-(n : ℤ)) (colMode nx j + slip nx) := by
  rw [← flip_mode hj, power_neg]

theorem no_average (g : ℝ → ℝ) (dt dx : ℝ) (v : ZMod nt → ZMod nx → ℝ) (tr tc : ℕ) (hr : nt / 2 + 1 < 2 * tr) (hc : nx < 2 * tc) :
    omegaK g dt dx v tr tc = reflect (half g dt dx v) := by
  unfold omegaK
  rw [untouched _ _ _ (show (half g dt dx v).rows < 2 * tr from hr) (show (half g dt dx v).cols < 2 * tc from hc)]

/-- C200: in the upper half of the image (ω ≥ 0) every cell shows the power of the mode at its own (k, ω); in the lower
half (ω < 0) the same holds if the number of cells is odd, and for an even number the picture is displaced by one wave
number. -/
theorem cells_show (g : ℝ → ℝ) (dt dx : ℝ) (v : ZMod nt → ZMod nx → ℝ) (tr tc : ℕ) (hr : nt / 2 + 1 < 2 * tr) (hc : nx < 2 * tc)
    (i j : ℕ) (hi : i < (omegaK g dt dx v tr tc).rows) (hj : j < nx) :
    Shows g dt dx v ((omegaK g dt dx v tr tc).r i) ((omegaK g dt dx v tr tc).c j) ((omegaK g dt dx v tr tc).data i j)
      (if i < nt / 2 then slip nx else 0) := by
  rw [no_average g dt dx v tr tc hr hc] at hi ⊢
  have hrows : (half g dt dx v).rows = nt / 2 + 1 := rfl
  have hcols : (half g dt dx v).cols = nx := rfl
  unfold reflect at hi ⊢
  by_cases h1 : 1 < (half g dt dx v).rows
  · rw [if_pos h1] at hi ⊢
    dsimp only at hi ⊢
    have e1 : (half g dt dx v).rows - 1 = nt / 2 := rfl
    rw [e1] at hi ⊢
    by_cases h2 : i < nt / 2
    · rw [if_pos h2, if_pos h2, if_pos h2]
      refine ⟨⟨-((nt / 2 - i : ℕ) : ℤ), colMode nx j, ?_, col_coord g dt dx v hj, ?_⟩⟩
      · rw [row_coord]; push_cast; ring
      · rw [half_data, hcols, power_flip v _ hj]
    · rw [if_neg h2, if_neg h2, if_neg h2]
      refine ⟨⟨((i - nt / 2 : ℕ) : ℤ), colMode nx j, ?_, col_coord g dt dx v hj, ?_⟩⟩
      · rw [row_coord]; push_cast; ring
      · rw [half_data, add_zero]
  · rw [if_neg h1] at hi ⊢
    have h0 : nt / 2 = 0 := by omega
    rw [h0, if_neg (by omega)]
    refine ⟨⟨(i : ℤ), colMode nx j, ?_, col_coord g dt dx v hj, ?_⟩⟩
    · rw [row_coord]; push_cast; ring
    · rw [half_data, add_zero]

/-- C200, exact form: with an odd number of cells every cell of the image shows the power at its own (k, ω). -/
theorem odd_exact (hodd : nx % 2 = 1) (g : ℝ → ℝ) (dt dx : ℝ) (v : ZMod nt → ZMod nx → ℝ) (tr tc : ℕ) (hr : nt / 2 + 1 < 2 * tr) (hc : nx < 2 * tc)
    (i j : ℕ) (hi : i < (omegaK g dt dx v tr tc).rows) (hj : j < nx) :
    Shows g dt dx v ((omegaK g dt dx v tr tc).r i) ((omegaK g dt dx v tr tc).c j) ((omegaK g dt dx v tr tc).data i j) 0 := by
  have := cells_show g dt dx v tr tc hr hc i j hi hj
  have e : slip nx = 0 := by unfold slip; rw [if_neg (by omega)]
  rwa [e, ite_self] at this

/-- C200: the axes: frequencies from minus to plus the highest one, wave numbers in order of increasing value. -/
theorem axes (g : ℝ → ℝ) (dt dx : ℝ) (hdt : 0 < dt) (hdx : 0 < dx) (v : ZMod nt → ZMod nx → ℝ) (tr tc : ℕ) (hr : nt / 2 + 1 < 2 * tr)
    (hc : nx < 2 * tc) :
    (omegaK g dt dx v tr tc).rows = 2 * (nt / 2) + 1 ∧
    (∀ i < 2 * (nt / 2) + 1, (omegaK g dt dx v tr tc).r i = ((i : ℝ) - ((nt / 2 : ℕ) : ℝ)) * (2 * Real.pi / (nt * dt))) ∧
    (∀ j < nx, (omegaK g dt dx v tr tc).c j = (colMode nx j : ℝ) * (2 * Real.pi / (nx * dx))) := by
  have _ := hdt; have _ := hdx
  rw [no_average g dt dx v tr tc hr hc]
  have hrows : (half g dt dx v).rows = nt / 2 + 1 := rfl
  unfold reflect
  by_cases h1 : 1 < (half g dt dx v).rows
  · rw [if_pos h1]
    dsimp only
    have e1 : (half g dt dx v).rows - 1 = nt / 2 := rfl
    rw [e1]
    refine ⟨by omega, ?_, fun j hj => col_coord g dt dx v hj⟩
    intro i hi
    split_ifs with h2
    · rw [row_coord, Nat.cast_sub (by omega)]; ring
    · rw [row_coord, Nat.cast_sub (by omega)]
  · rw [if_neg h1]
    have h0 : nt / 2 = 0 := by omega
    rw [hrows, h0]
    refine ⟨rfl, ?_, fun j hj => col_coord g dt dx v hj⟩
    intro i hi
    rw [row_coord]; push_cast; ring

/-! ### The failure for an even number of cells -/

theorem char_sum {N : ℕ} [NeZero N] (k : ZMod N) : ∑ x : ZMod N, (ZMod.stdAddChar (x * k) : ℂ) = if k = 0 then (N : ℂ) else 0 := by
  have h := AddChar.sum_mulShift (ψ := (ZMod.stdAddChar : AddChar (ZMod N) ℂ)) k (ZMod.isPrimitive_stdAddChar N)
  rw [h]
  split_ifs <;> simp

/-- A travelling wave: mode number `a` in space and `b` in time. -/
noncomputable def wave (A φ : ℝ) (a b : ℤ) (t : ZMod nt) (x : ZMod nx) : ℝ :=
  A * Real.cos (2 * Real.pi * a * x.val / nx - 2 * Real.pi * b * t.val / nt + φ)

theorem wave_eq (A φ : ℝ) (a b : ℤ) (t : ZMod nt) (x : ZMod nx) : (wave A φ a b t x : ℂ)
    = A / 2 * cexp (φ * I) * ((ZMod.stdAddChar ((a : ZMod nx) * x) : ℂ) * ZMod.stdAddChar (((-b : ℤ) : ZMod nt) * t))
      + A / 2 * cexp (-(φ * I)) * ((ZMod.stdAddChar (((-a : ℤ) : ZMod nx) * x) : ℂ) * ZMod.stdAddChar ((b : ZMod nt) * t)) := by
  unfold wave
  rw [Spectrax.char_exp, Spectrax.char_exp, Spectrax.char_exp, Spectrax.char_exp, Complex.ofReal_mul, Complex.ofReal_cos, Complex.cos]
  have e1 : ((2 * Real.pi * a * x.val / nx - 2 * Real.pi * b * t.val / nt + φ : ℝ) : ℂ) * I
      = φ * I + (((2 * Real.pi * a * x.val / nx : ℝ) : ℂ) * I + ((2 * Real.pi * ((-b : ℤ) : ℝ) * t.val / nt : ℝ) : ℂ) * I) := by
    push_cast; ring
  have e2 : -((2 * Real.pi * a * x.val / nx - 2 * Real.pi * b * t.val / nt + φ : ℝ) : ℂ) * I
      = -(φ * I) + (((2 * Real.pi * ((-a : ℤ) : ℝ) * x.val / nx : ℝ) : ℂ) * I + ((2 * Real.pi * b * t.val / nt : ℝ) : ℂ) * I) := by
    push_cast; ring
  rw [e1, e2, Complex.exp_add, Complex.exp_add, Complex.exp_add, Complex.exp_add]
  ring

theorem amplitude_char (v : ZMod nt → ZMod nx → ℝ) (n m : ℤ) : amplitude v n m
    = ∑ t, ∑ x, (v t x : ℂ) * ((ZMod.stdAddChar (x * ((-m : ℤ) : ZMod nx)) : ℂ) * ZMod.stdAddChar (t * ((-n : ℤ) : ZMod nt))) := by
  unfold amplitude
  refine sum_congr rfl fun t _ => sum_congr rfl fun x _ => ?_
  rw [mul_comm x, mul_comm t, Spectrax.char_exp, Spectrax.char_exp, ← Complex.exp_add]
  congr 2
  push_cast
  ring

theorem sum_chars (p : ZMod nx) (q : ZMod nt) (p' : ZMod nx) (q' : ZMod nt) (c : ℂ) :
    ∑ t : ZMod nt, ∑ x : ZMod nx, c * ((ZMod.stdAddChar (p * x) : ℂ) * ZMod.stdAddChar (q * t)) * ((ZMod.stdAddChar (x * p') : ℂ) * ZMod.stdAddChar (t * q'))
      = c * ((if q + q' = 0 then (nt : ℂ) else 0) * (if p + p' = 0 then (nx : ℂ) else 0)) := by
  rw [← char_sum (q + q'), ← char_sum (p + p'), sum_mul_sum, mul_sum]
  refine sum_congr rfl fun t _ => ?_
  rw [mul_sum]
  refine sum_congr rfl fun x _ => ?_
  rw [mul_add, mul_add, AddChar.map_add_eq_mul, AddChar.map_add_eq_mul, mul_comm p x, mul_comm q t]
  ring

/-- C200: a wave `A cos(k x - ω t + φ)` of the grid has power only in the modes `(-b, a)` and `(b, -a)` of
(frequency, wave number). -/
theorem wave_amplitude (A φ : ℝ) (a b n m : ℤ) : amplitude (nt := nt) (nx := nx) (wave A φ a b) n m
    = A / 2 * cexp (φ * I) * ((if ((n + b : ℤ) : ZMod nt) = 0 then (nt : ℂ) else 0) * (if ((m - a : ℤ) : ZMod nx) = 0 then (nx : ℂ) else 0))
      + A / 2 * cexp (-(φ * I)) * ((if ((n - b : ℤ) : ZMod nt) = 0 then (nt : ℂ) else 0) * (if ((m + a : ℤ) : ZMod nx) = 0 then (nx : ℂ) else 0)) := by
  rw [amplitude_char]
  simp only [wave_eq, add_mul, sum_add_distrib]
  rw [sum_chars, sum_chars]
  have c1 : ((-b : ℤ) : ZMod nt) + ((-n : ℤ) : ZMod nt) = 0 ↔ ((n + b : ℤ) : ZMod nt) = 0 := by
    rw [← neg_eq_zero]; push_cast; rw [neg_add, neg_neg, neg_neg, add_comm]
  have c2 : (a : ZMod nx) + ((-m : ℤ) : ZMod nx) = 0 ↔ ((m - a : ℤ) : ZMod nx) = 0 := by
    rw [← neg_eq_zero]; push_cast; rw [neg_add, neg_neg, add_comm, sub_eq_add_neg]
  have c3 : (b : ZMod nt) + ((-n : ℤ) : ZMod nt) = 0 ↔ ((n - b : ℤ) : ZMod nt) = 0 := by
    rw [← neg_eq_zero]; push_cast; rw [neg_add, neg_neg, add_comm, sub_eq_add_neg]
  have c4 : ((-a : ℤ) : ZMod nx) + ((-m : ℤ) : ZMod nx) = 0 ↔ ((m + a : ℤ) : ZMod nx) = 0 := by
    rw [← neg_eq_zero]; push_cast; rw [neg_add, neg_neg, neg_neg, add_comm]
  simp only [c1, c2, c3, c4]

/-- C200: a wave moving to the right (`a`, `b` positive) appears at ω > 0 with k < 0 (and at ω < 0 with k > 0), with power
`(A nt nx / 2)²`; at ω > 0 and k > 0 it has none. -/
theorem wave_place (A φ : ℝ) (a b : ℤ) (ha : 0 < a) (ha' : 2 * a < nx) (hb : 0 < b) (hb' : 2 * b < nt) :
    power (nt := nt) (nx := nx) (wave A φ a b) b (-a) = (A * nt * nx / 2) ^ 2 ∧
    power (nt := nt) (nx := nx) (wave A φ a b) b a = 0 ∧
    (∀ n m : ℤ, 0 ≤ n → 2 * n ≤ nt → 2 * |m| ≤ nx → (n, m) ≠ (b, -a) → power (nt := nt) (nx := nx) (wave A φ a b) n m = 0) := by
  have hz : ∀ {N : ℕ} [NeZero N] (p : ℤ), |p| < N → p ≠ 0 → ((p : ℤ) : ZMod N) ≠ 0 := by
    intro N _ p h1 h2 h3
    exact Spectrax.mode_ne (N := N) (a := p) (b := 0) (by rw [sub_zero]; exact h1) h2 (by rw [h3, Int.cast_zero])
  have main : ∀ n m : ℤ, 0 ≤ n → 2 * n ≤ nt → 2 * |m| ≤ nx → (n, m) ≠ (b, -a) → power (nt := nt) (nx := nx) (wave A φ a b) n m = 0 := by
    intro n m h0 h1 h2 hne
    have hm := abs_le.1 (show |m| ≤ |m| from le_rfl)
    unfold power
    rw [wave_amplitude, if_neg (hz (N := nt) (n + b) (by rw [abs_of_nonneg (by omega)]; omega) (by omega))]
    have : (if ((n - b : ℤ) : ZMod nt) = 0 then (nt : ℂ) else 0) * (if ((m + a : ℤ) : ZMod nx) = 0 then (nx : ℂ) else 0) = 0 := by
      by_cases hn : n = b
      · rw [if_neg (hz (N := nx) (m + a) (by rw [abs_lt]; omega) (by rintro h; exact hne (by rw [hn, show m = -a by omega]))), mul_zero]
      · rw [if_neg (hz (N := nt) (n - b) (by rw [abs_lt]; omega) (by omega)), zero_mul]
    rw [this]
    simp
  refine ⟨?_, ?_, main⟩
  · unfold power
    rw [wave_amplitude, if_neg (hz (N := nt) (b + b) (by rw [abs_of_nonneg (by omega)]; omega) (by omega)), sub_self, neg_add_cancel, if_pos (Int.cast_zero),
      if_pos (Int.cast_zero), zero_mul, mul_zero, zero_add]
    have e : (A / 2 * cexp (-(φ * I)) * ((nt : ℂ) * nx)) = ((A * nt * nx / 2 : ℝ) : ℂ) * cexp (((-φ : ℝ) : ℂ) * I) := by push_cast; ring_nf
    rw [e, norm_mul, Complex.norm_exp_ofReal_mul_I, mul_one, Complex.norm_real, Real.norm_eq_abs, sq_abs]
  · exact main b a (by omega) (by omega) (by rw [abs_of_pos ha]; omega) (by intro h; have := congrArg Prod.snd h; simp at this; omega)

/-- C200 fails in the lower half for an even number of cells: a spatially uniform oscillation of frequency `b` is drawn,
at `-ω`, one wave number to the left of `k = 0`, and the cell at `k = 0` shows nothing. -/
theorem even_displaced_partial (heven : nx % 2 = 0) (hnx : 2 ≤ nx) (b : ℕ) (hb : 0 < b) (hb' : 2 * b < nt) (dt dx : ℝ) (tr tc : ℕ)
    (hr : nt / 2 + 1 < 2 * tr) (hc : nx < 2 * tc) :
    (omegaK id dt dx (wave (nt := nt) (nx := nx) 1 0 0 b) tr tc).c (nx / 2) = 0 ∧
    (omegaK id dt dx (wave (nt := nt) (nx := nx) 1 0 0 b) tr tc).r (nt / 2 - b) = -(b * (2 * Real.pi / (nt * dt))) ∧
    power (wave (nt := nt) (nx := nx) 1 0 0 b) (-b) 0 = ((nt : ℝ) * nx / 2) ^ 2 ∧
    (omegaK id dt dx (wave (nt := nt) (nx := nx) 1 0 0 b) tr tc).data (nt / 2 - b) (nx / 2) = 0 ∧
    (omegaK id dt dx (wave (nt := nt) (nx := nx) 1 0 0 b) tr tc).data (nt / 2 - b) (nx / 2 - 1) = ((nt : ℝ) * nx / 2) ^ 2 := by
  have hz : ∀ {N : ℕ} [NeZero N] (p : ℤ), |p| < N → p ≠ 0 → ((p : ℤ) : ZMod N) ≠ 0 := by
    intro N _ p h1 h2 h3
    exact Spectrax.mode_ne (N := N) (a := p) (b := 0) (by rw [sub_zero]; exact h1) h2 (by rw [h3, Int.cast_zero])
  set v := wave (nt := nt) (nx := nx) 1 0 0 b with hv
  have hp : ∀ m : ℤ, |m| < nx → power v b m = if m = 0 then ((nt : ℝ) * nx / 2) ^ 2 else 0 := by
    intro m hm
    unfold power
    rw [hv, wave_amplitude, if_neg (hz (N := nt) ((b : ℤ) + (b : ℤ)) (by rw [abs_of_nonneg (by omega)]; omega) (by omega)), sub_self, if_pos Int.cast_zero, add_zero]
    by_cases h : m = 0
    · subst h
      rw [if_pos Int.cast_zero, if_pos rfl]
      have e : ((1 : ℝ) : ℂ) / 2 * cexp (((0 : ℝ) : ℂ) * I) * (0 * (if ((0 - 0 : ℤ) : ZMod nx) = 0 then (nx : ℂ) else 0)) + ((1 : ℝ) : ℂ) / 2 * cexp (-(((0 : ℝ) : ℂ) * I)) * ((nt : ℂ) * nx)
          = (((nt : ℝ) * nx / 2 : ℝ) : ℂ) := by push_cast; simp; ring
      rw [e, Complex.norm_real, Real.norm_eq_abs, sq_abs]
    · rw [if_neg (hz (N := nx) m hm h), if_neg h]
      simp
  have hslip : slip nx = 1 := by unfold slip; rw [if_pos heven]
  have hrows : (half id dt dx v).rows = nt / 2 + 1 := rfl
  have hcell : ∀ j < nx, (omegaK id dt dx v tr tc).data (nt / 2 - b) j = power v b (colMode nx (nx - 1 - j)) := by
    intro j hj
    rw [no_average id dt dx v tr tc hr hc]
    unfold reflect
    rw [if_pos (show 1 < (half id dt dx v).rows by rw [hrows]; omega)]
    dsimp only
    have e1 : (half id dt dx v).rows - 1 = nt / 2 := rfl
    have e2 : (half id dt dx v).cols = nx := rfl
    rw [e1, e2, if_pos (by omega), half_data, show nt / 2 - (nt / 2 - b) = b by omega]
    rfl
  refine ⟨?_, ?_, ?_, ?_, ?_⟩
  · rw [no_average id dt dx v tr tc hr hc]
    unfold reflect
    rw [if_pos (show 1 < (half id dt dx v).rows by rw [hrows]; omega)]
    dsimp only
    rw [col_coord id dt dx v (by omega)]
    unfold colMode
    simp
  · rw [no_average id dt dx v tr tc hr hc]
    unfold reflect
    rw [if_pos (show 1 < (half id dt dx v).rows by rw [hrows]; omega)]
    dsimp only
    have e1 : (half id dt dx v).rows - 1 = nt / 2 := rfl
    rw [e1, if_pos (by omega), row_coord, show nt / 2 - (nt / 2 - b) = b by omega]
  · rw [show (0 : ℤ) = -0 by rfl, power_neg, hp 0 (by rw [abs_zero]; omega), if_pos rfl]
  · rw [hcell _ (by omega), hp _ (by unfold colMode; rw [abs_lt]; omega), if_neg (by unfold colMode; omega)]
  · rw [hcell _ (by omega), hp _ (by unfold colMode; rw [abs_lt]; omega), if_pos (by unfold colMode; omega)]

/-! ### With averaging -/

/-- C200: after averaging, mirror images about `k = 0` are off by the dropped columns (plus one for an even number of
cells), which is never more than one drawn cell. -/
theorem mirror_within_cell (g : ℝ → ℝ) (dt dx : ℝ) (v : ZMod nt → ZMod nx → ℝ) (tr tc : ℤ) (j : ℕ) (hj : j < (downsample (half g dt dx v) tr tc).cols) :
    (downsample (half g dt dx v) tr tc).c ((downsample (half g dt dx v) tr tc).cols - 1 - j)
      = -(downsample (half g dt dx v) tr tc).c j - (((nx - kept nx tc : ℕ) : ℝ) + (slip nx : ℝ)) * (2 * Real.pi / (nx * dx))
    ∧ ((nx - kept nx tc : ℕ) : ℤ) + slip nx ≤ factor nx tc := by
  have hfd := few_dropped nx tc
  refine ⟨?_, ?_⟩
  · have hfp := factor_pos nx tc
    rw [downsample_eq] at hj ⊢
    have hcols : (half g dt dx v).cols = nx := rfl
    dsimp only at hj ⊢
    rw [hcols] at hj ⊢
    have hN : nx / factor nx tc * factor nx tc = kept nx tc := rfl
    set f := factor nx tc with hf
    set N := nx / f with hNdef
    have hk : ∀ i < N, blockMean f (half g dt dx v).c i = (((i : ℝ) * f + ((f : ℝ) - 1) / 2) - ((nx / 2 : ℕ) : ℝ)) * (2 * Real.pi / (nx * dx)) := by
      intro i hi
      have e : blockMean f (half g dt dx v).c i
          = blockMean f (fun k => -(((nx / 2 : ℕ) : ℝ) * (2 * Real.pi / (nx * dx))) + (k : ℝ) * (2 * Real.pi / (nx * dx))) i := by
        unfold blockMean
        congr 1
        refine sum_congr rfl fun a ha => ?_
        have ha := mem_range.1 ha
        have : (i + 1) * f ≤ N * f := Nat.mul_le_mul_right _ hi
        rw [Nat.succ_mul] at this
        rw [col_coord g dt dx v (show i * f + a < nx by omega)]
        unfold colMode
        rw [Int.cast_sub, Int.cast_natCast, Int.cast_natCast]
        ring
      rw [e, centres f (by omega)]
      rw [Nat.cast_add, Nat.cast_sub hfp]
      push_cast
      ring
    rw [hk j hj, hk (N - 1 - j) (by omega)]
    have e1 : ((N - 1 - j : ℕ) : ℝ) = (N : ℝ) - 1 - j := by rw [Nat.cast_sub (by omega), Nat.cast_sub (by omega)]; simp
    have e2 : ((nx - kept nx tc : ℕ) : ℝ) = (nx : ℝ) - (N : ℝ) * f := by rw [Nat.cast_sub hfd.1, ← hN]; push_cast; ring
    have e3 : (slip nx : ℝ) = 1 - ((nx : ℝ) - 2 * ((nx / 2 : ℕ) : ℝ)) := by
      have h := Nat.div_add_mod nx 2
      have h' : (nx : ℝ) = 2 * ((nx / 2 : ℕ) : ℝ) + ((nx % 2 : ℕ) : ℝ) := by exact_mod_cast h.symm
      have hlt := Nat.mod_lt nx (show 0 < 2 by omega)
      unfold slip
      split_ifs with h0
      · rw [h0] at h'; push_cast at h' ⊢; linarith
      · have h1 : nx % 2 = 1 := by omega
        rw [h1] at h'; push_cast at h' ⊢; linarith
    rw [e1, e2, e3]
    ring
  · have h1 : slip nx ≤ 1 := by unfold slip; split_ifs <;> omega
    omega

/-! ### The zoom window -/

/-- C200: the window of the lower panel is the requested one, never beyond what the data resolve; without a positive
request it is the largest square they resolve. -/
theorem zoom_window (k w : ℝ) (z : Option ℝ) : ∃ r, zoomWindow (some (k, w)) z = some r ∧ r ≤ k ∧ r ≤ w ∧
    (∀ y, z = some y → 0 < y → r = min y (min k w)) ∧ ((∀ y, z = some y → y ≤ 0) → r = min k w) := by
  unfold zoomWindow
  cases z with
  | none => exact ⟨_, rfl, min_le_left _ _, min_le_right _ _, by simp, fun _ => rfl⟩
  | some y =>
    dsimp only
    by_cases h : y ≤ 0
    · rw [if_pos h]
      exact ⟨_, rfl, min_le_left _ _, min_le_right _ _, fun y' hy hp => by cases hy; linarith, fun _ => rfl⟩
    · rw [if_neg h]
      refine ⟨_, rfl, le_trans (min_le_right _ _) (min_le_left _ _), le_trans (min_le_right _ _) (min_le_right _ _), fun y' hy _ => by cases hy; rfl, ?_⟩
      intro h'
      exact absurd (h' y rfl) h

theorem no_window (z : Option ℝ) : zoomWindow none z = none := rfl

/-- Three times, four cells: the hypotheses of the displacement are met. -/
example : power (nt := 3) (nx := 4) (wave 1 0 0 1) (-1) 0 = (3 * 4 / 2) ^ 2 := by
  have := (even_displaced_partial (nt := 3) (nx := 4) (by decide) (by decide) 1 (by decide) (by decide) 1 1 2 3 (by decide) (by decide)).2.2.1
  norm_num at this ⊢
  exact this

example : power (nt := 5) (nx := 5) (wave 2 0 1 2) 2 (-1) = (2 * 5 * 5 / 2) ^ 2 := by
  have := (wave_place (nt := 5) (nx := 5) 2 0 1 2 (by decide) (by decide) (by decide) (by decide)).1
  exact_mod_cast this

end Verif.OsirisPlot

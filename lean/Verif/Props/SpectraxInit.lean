import Verif.Props.SpectraxConserve
import Verif.Props.Spectral

/-! C157: the initial state: density ripple and the field that goes with it; where it goes wrong. -/
namespace Verif.Spectrax
open Finset Complex Verif.Hermite

variable {Ny Nx Nz : ℕ} [NeZero Ny] [NeZero Nx] [NeZero Nz] {de di : Dims}

theorem jaxIndex_fft {N : ℕ} {i : ℤ} (h : -(N : ℤ) ≤ i ∧ i < N) : jaxIndex N (fftIndex i N) = some (i : ZMod N) := by
  unfold fftIndex jaxIndex
  by_cases h0 : 0 ≤ i
  · rw [if_pos h0, if_pos ⟨h0, h.2⟩]
  · rw [if_neg h0, if_pos ⟨by omega, by omega⟩]
    push_cast; simp

/-- A write of a representable mode goes to its wave number. -/
theorem setAt_eq (c : K Ny Nx Nz → ℂ) {nx ny nz : ℤ} (hx : -(Nx : ℤ) ≤ nx ∧ nx < Nx) (hy : -(Ny : ℤ) ≤ ny ∧ ny < Ny) (hz : -(Nz : ℤ) ≤ nz ∧ nz < Nz) (v : ℂ) :
    setAt c nx ny nz v = Function.update c ((ny : ZMod Ny), (nx : ZMod Nx), (nz : ZMod Nz)) v := by
  unfold setAt
  rw [jaxIndex_fft hx, jaxIndex_fft hy, jaxIndex_fft hz]

/-- A single wave number transforms to its plane wave. -/
theorem toX3_sum (c : K Ny Nx Nz → ℂ) (x : K Ny Nx Nz) :
    toX3 c x = ∑ ky, ∑ kx, ∑ kz, ZMod.stdAddChar (ky * x.1) * (ZMod.stdAddChar (kx * x.2.1) * (ZMod.stdAddChar (kz * x.2.2) * c (ky, kx, kz))) := by
  unfold toX3
  rw [toX_sum]
  refine sum_congr rfl fun ky _ => ?_
  rw [toX_sum, mul_sum]
  refine sum_congr rfl fun kx _ => ?_
  rw [toX_sum, mul_sum, mul_sum]

theorem toX3_add (c c' : K Ny Nx Nz → ℂ) (x : K Ny Nx Nz) : toX3 (c + c') x = toX3 c x + toX3 c' x := by
  simp only [toX3_sum, Pi.add_apply, mul_add, sum_add_distrib]

theorem toX3_single (k : K Ny Nx Nz) (v : ℂ) (x : K Ny Nx Nz) :
    toX3 (Function.update 0 k v) x = ZMod.stdAddChar (k.1 * x.1) * (ZMod.stdAddChar (k.2.1 * x.2.1) * (ZMod.stdAddChar (k.2.2 * x.2.2) * v)) := by
  rw [toX3_sum, sum_eq_single k.1, sum_eq_single k.2.1, sum_eq_single k.2.2]
  · simp
  · intro b _ hb
    rw [Function.update_of_ne (fun h => hb (congrArg (fun q : K Ny Nx Nz => q.2.2) h))]; simp
  · simp
  · intro b _ hb
    refine sum_eq_zero fun z _ => ?_
    rw [Function.update_of_ne (fun h => hb (congrArg (fun q : K Ny Nx Nz => q.2.1) h))]; simp
  · simp
  · intro b _ hb
    refine sum_eq_zero fun z _ => sum_eq_zero fun z' _ => ?_
    rw [Function.update_of_ne (fun h => hb (congrArg (fun q : K Ny Nx Nz => q.1) h))]; simp
  · simp

theorem char_exp {N : ℕ} [NeZero N] (n : ℤ) (x : ZMod N) : (ZMod.stdAddChar ((n : ZMod N) * x) : ℂ) = cexp (((2 * Real.pi * n * x.val / N : ℝ) : ℂ) * I) := by
  have : ((n : ZMod N) * x) = ((n * x.val : ℤ) : ZMod N) := by push_cast; rw [ZMod.natCast_zmod_val]
  rw [this, ZMod.stdAddChar_coe]
  congr 1; push_cast; ring

/-- Distinct wave numbers of resolved modes. -/
theorem mode_ne {N : ℕ} [NeZero N] {a b : ℤ} (h : |a - b| < N) (hab : a ≠ b) : (a : ZMod N) ≠ (b : ZMod N) := by
  intro e
  rw [ZMod.intCast_eq_intCast_iff_dvd_sub] at e
  obtain ⟨c, hc⟩ := e
  have : c ≠ 0 := by rintro rfl; omega
  have h1 : (N : ℤ) ≤ |b - a| := by
    rw [hc, abs_mul]
    have : 1 ≤ |c| := Int.one_le_abs this
    have h2 : |(N : ℤ)| = N := abs_of_nonneg (by positivity)
    rw [h2]; nlinarith [show (0 : ℤ) ≤ N by positivity]
  rw [abs_sub_comm] at h1; omega

/-- Mode numbers that are resolved: below the Nyquist number in every direction and not all zero. -/
def Resolved (Ny Nx Nz : ℕ) (nx ny nz : ℤ) : Prop := 2 * |nx| < Nx ∧ 2 * |ny| < Ny ∧ 2 * |nz| < Nz ∧ ¬ (nx = 0 ∧ ny = 0 ∧ nz = 0)

section
variable {nx ny nz : ℤ}

/-- The wave number of the mode. -/
def waveK (Ny Nx Nz : ℕ) (nx ny nz : ℤ) : K Ny Nx Nz := ((ny : ZMod Ny), (nx : ZMod Nx), (nz : ZMod Nz))

omit [NeZero Ny] [NeZero Nx] [NeZero Nz] in
theorem waveK_neg : waveK Ny Nx Nz (-nx) (-ny) (-nz) = -waveK Ny Nx Nz nx ny nz := by unfold waveK; push_cast; rfl

theorem waveK_ne (h : Resolved Ny Nx Nz nx ny nz) : waveK Ny Nx Nz nx ny nz ≠ 0 ∧ waveK Ny Nx Nz nx ny nz ≠ -waveK Ny Nx Nz nx ny nz := by
  obtain ⟨hx, hy, hz, h0⟩ := h
  have key : ∀ {N : ℕ} [NeZero N] {n : ℤ}, 2 * |n| < N → n ≠ 0 → (n : ZMod N) ≠ 0 ∧ (n : ZMod N) ≠ -(n : ZMod N) := by
    intro N _ n h hn
    refine ⟨?_, ?_⟩
    · have := mode_ne (N := N) (a := n) (b := 0) (by rw [sub_zero]; have := abs_nonneg n; omega) hn
      simpa using this
    · have := mode_ne (N := N) (a := n) (b := -n) (by rw [sub_neg_eq_add, ← two_mul, abs_mul]; simpa using h) (by omega)
      simpa using this
  rw [← waveK_neg]
  unfold waveK
  constructor
  · intro e
    apply h0
    refine ⟨?_, ?_, ?_⟩
    · by_contra hn; exact (key hx hn).1 (congrArg (fun q : K Ny Nx Nz => q.2.1) e)
    · by_contra hn; exact (key hy hn).1 (congrArg (fun q : K Ny Nx Nz => q.1) e)
    · by_contra hn; exact (key hz hn).1 (congrArg (fun q : K Ny Nx Nz => q.2.2) e)
  · intro e
    apply h0
    refine ⟨?_, ?_, ?_⟩
    · by_contra hn; exact (key hx hn).2 (by simpa using congrArg (fun q : K Ny Nx Nz => q.2.1) e)
    · by_contra hn; exact (key hy hn).2 (by simpa using congrArg (fun q : K Ny Nx Nz => q.1) e)
    · by_contra hn; exact (key hz hn).2 (by simpa using congrArg (fun q : K Ny Nx Nz => q.2.2) e)

theorem writes (h : Resolved Ny Nx Nz nx ny nz) (c : K Ny Nx Nz → ℂ) (a b : ℂ) :
    setAt (setAt c (-nx) (-ny) (-nz) a) nx ny nz b = Function.update (Function.update c (-waveK Ny Nx Nz nx ny nz) a) (waveK Ny Nx Nz nx ny nz) b := by
  obtain ⟨hx, hy, hz, -⟩ := h
  have r : ∀ {N : ℕ} {n : ℤ}, 2 * |n| < N → (-(N : ℤ) ≤ n ∧ n < N) ∧ (-(N : ℤ) ≤ -n ∧ -n < N) := by
    intro N n h
    rcases abs_cases n with ⟨e, _⟩ | ⟨e, _⟩ <;> constructor <;> constructor <;> omega
  rw [setAt_eq _ (r hx).1 (r hy).1 (r hz).1, setAt_eq _ (r hx).2 (r hy).2 (r hz).2, ← waveK_neg]
  rfl

/-- C157: with one thermal speed for the three directions the initial electron density is `1 + dn sin(k·x)` for every resolved mode, of any signs
and direction, and that of the ions is 1. -/
theorem initial_density_wave (alphaE alphaI : ℝ) (he : alphaE ≠ 0) (hi : alphaI ≠ 0) (L : Fin 3 → ℝ) (dn omega : ℝ) (h : Resolved Ny Nx Nz nx ny nz)
    (hd : 0 < de.np ∧ 0 < de.nm ∧ 0 < de.nn) (hd' : 0 < di.np ∧ 0 < di.nm ∧ 0 < di.nn) (x : K Ny Nx Nz) :
    let y : St de di Ny Nx Nz := initial alphaE alphaI L nx ny nz dn omega
    ((alphaE ^ 3 : ℝ) : ℂ) * toX3 (y.1 ⟨0, hd.1⟩ ⟨0, hd.2.1⟩ ⟨0, hd.2.2⟩) x =
        ((1 + dn * Real.sin (2 * Real.pi * (ny * x.1.val / Ny + nx * x.2.1.val / Nx + nz * x.2.2.val / Nz)) : ℝ) : ℂ) ∧
      ((alphaI ^ 3 : ℝ) : ℂ) * toX3 (y.2.1 ⟨0, hd'.1⟩ ⟨0, hd'.2.1⟩ ⟨0, hd'.2.2⟩) x = 1 := by
  intro y
  have hk := waveK_ne h
  set k := waveK Ny Nx Nz nx ny nz with hkd
  have ae : (alphaE : ℂ) ≠ 0 := ofReal_ne_zero.mpr he
  have ai : (alphaI : ℂ) ≠ 0 := ofReal_ne_zero.mpr hi
  constructor
  · have e : y.1 ⟨0, hd.1⟩ ⟨0, hd.2.1⟩ ⟨0, hd.2.2⟩ = (Function.update (0 : K Ny Nx Nz → ℂ) 0 ((1 / alphaE ^ 3 : ℝ) : ℂ) + Function.update (0 : K Ny Nx Nz → ℂ) (-k) (I * ((1 / (2 * alphaE ^ 3) * dn : ℝ) : ℂ)))
        + Function.update (0 : K Ny Nx Nz → ℂ) k (-I * ((1 / (2 * alphaE ^ 3) * dn : ℝ) : ℂ)) := by
      simp only [y, initial, and_self, if_true, initialE0]
      rw [writes h, ← hkd]
      funext q
      simp only [Pi.add_apply]
      by_cases h1 : q = k
      · subst h1; rw [Function.update_self, Function.update_of_ne hk.1, Function.update_of_ne hk.2, Function.update_self]; simp
      · rw [Function.update_of_ne h1, Function.update_of_ne h1]
        by_cases h2 : q = -k
        · subst h2
          rw [Function.update_self, Function.update_of_ne (neg_ne_zero.mpr hk.1), Function.update_self]; simp
        · rw [Function.update_of_ne h2, Function.update_of_ne h2]; simp
    rw [e, toX3_add, toX3_add, toX3_single, toX3_single, toX3_single]
    have m1 : ((ZMod.stdAddChar (k.1 * x.1) : ℂ) * ((ZMod.stdAddChar (k.2.1 * x.2.1) : ℂ) * ((ZMod.stdAddChar (k.2.2 * x.2.2) : ℂ)))) =
        cexp (((2 * Real.pi * (ny * x.1.val / Ny + nx * x.2.1.val / Nx + nz * x.2.2.val / Nz) : ℝ) : ℂ) * I) := by
      rw [hkd]; unfold waveK
      simp only
      rw [char_exp, char_exp, char_exp, ← Complex.exp_add, ← Complex.exp_add]
      congr 1; push_cast; ring
    have m2 : ((ZMod.stdAddChar ((-k).1 * x.1) : ℂ) * ((ZMod.stdAddChar ((-k).2.1 * x.2.1) : ℂ) * ((ZMod.stdAddChar ((-k).2.2 * x.2.2) : ℂ)))) =
        cexp (-((2 * Real.pi * (ny * x.1.val / Ny + nx * x.2.1.val / Nx + nz * x.2.2.val / Nz) : ℝ) : ℂ) * I) := by
      rw [hkd, ← waveK_neg]; unfold waveK
      simp only
      rw [char_exp, char_exp, char_exp, ← Complex.exp_add, ← Complex.exp_add]
      congr 1; push_cast; ring
    set th := (2 * Real.pi * (ny * x.1.val / Ny + nx * x.2.1.val / Nx + nz * x.2.2.val / Nz) : ℝ)
    have s : (Real.sin th : ℂ) = (cexp (-(th : ℂ) * I) - cexp ((th : ℂ) * I)) * I / 2 := by rw [ofReal_sin, Complex.sin]
    rw [show ((1 + dn * Real.sin th : ℝ) : ℂ) = 1 + (dn : ℂ) * (Real.sin th : ℂ) by push_cast; rfl, s, ← m1, ← m2]
    simp only [Prod.fst_zero, Prod.snd_zero, zero_mul, AddChar.map_zero_eq_one, one_mul]
    push_cast
    field_simp
    ring
  · have e : y.2.1 ⟨0, hd'.1⟩ ⟨0, hd'.2.1⟩ ⟨0, hd'.2.2⟩ = Function.update (0 : K Ny Nx Nz → ℂ) 0 ((1 / alphaI ^ 3 : ℝ) : ℂ) := by
      simp only [y, initial, and_self, if_true]
    rw [e, toX3_single]
    simp only [Prod.fst_zero, Prod.snd_zero, zero_mul, AddChar.map_zero_eq_one, one_mul]
    push_cast
    field_simp

end

/-- The wave vector of a resolved mode. -/
theorem xi_wave {nx ny nz : ℤ} (L : Fin 3 → ℝ) (hx : 2 * |nx| < Nx) (hy : 2 * |ny| < Ny) (hz : 2 * |nz| < Nz) :
    xi L (waveK Ny Nx Nz nx ny nz) = ![2 * Real.pi * nx / L 0, 2 * Real.pi * ny / L 1, 2 * Real.pi * nz / L 2] := by
  have h : ∀ {N : ℕ} [NeZero N] (l : ℝ) {n : ℤ}, 2 * |n| < N → kx l (n : ZMod N) = 2 * Real.pi * n / l := by
    intro N _ l n hn
    have hN : (N : ℝ) ≠ 0 := Nat.cast_ne_zero.mpr (NeZero.ne N)
    rw [kx_eq, Spectral.kfull_eq _ hn, Spectral.waveNumber, mul_div_cancel₀ _ hN]
  unfold xi waveK
  simp only
  rw [h _ hx, h _ hy, h _ hz]

/-- Mode numbers of a wave along one axis. -/
def axis (dir : Fin 3) (n : ℤ) (j : Fin 3) : ℤ := if j = dir then n else 0

/-- The two written field values, and the charge. -/
theorem initialF_axis {dir : Fin 3} {n : ℤ} (hn : 0 < n) (h : Resolved Ny Nx Nz (axis dir n 0) (axis dir n 1) (axis dir n 2)) (L : Fin 3 → ℝ) (dn omega : ℝ)
    (ho : omega ≠ 0) (j : ℕ) : initialF L (axis dir n 0) (axis dir n 1) (axis dir n 2) dn omega j =
      if j = dir.val then Function.update (Function.update (0 : K Ny Nx Nz → ℂ) (-waveK Ny Nx Nz (axis dir n 0) (axis dir n 1) (axis dir n 2))
        ((dn * L dir / (4 * Real.pi * n * omega) : ℝ) : ℂ)) (waveK Ny Nx Nz (axis dir n 0) (axis dir n 1) (axis dir n 2)) ((dn * L dir / (4 * Real.pi * n * omega) : ℝ) : ℂ)
      else 0 := by
  have hs : axis dir n 0 + axis dir n 1 + axis dir n 2 = n := by fin_cases dir <;> simp [axis]
  have hc : component (axis dir n 1) (axis dir n 2) = dir.val := by
    fin_cases dir <;> simp [axis, component, Int.sign_eq_one_of_pos hn]
  have hl : L 0 * ((axis dir n 0).sign : ℝ) + L 1 * ((axis dir n 1).sign : ℝ) + L 2 * ((axis dir n 2).sign : ℝ) = L dir := by
    fin_cases dir <;> simp [axis, Int.sign_eq_one_of_pos hn]
  unfold initialF
  simp only
  rw [hs, hc, hl, writes h]
  by_cases hj : j = dir.val
  · rw [if_pos ⟨by omega, ho, by exact_mod_cast hj⟩, if_pos hj]
  · rw [if_neg (fun q => hj (by exact_mod_cast q.2.2)), if_neg hj]

/-- C157: for one wave along an axis with a positive, resolved mode number, and equal thermal speeds of the directions, the initial electric field
satisfies Gauss's law at every wave vector (electrons of charge -1, ions of charge 1). -/
theorem initial_gauss (p : Setup de di Ny Nx Nz) (aE aI : ℝ) (hE : ∀ i, p.e.alpha i = aE) (hI : ∀ i, p.i.alpha i = aI) (he : aE ≠ 0) (hi : aI ≠ 0)
    (hqe : p.e.q = -1) (hqi : p.i.q = 1) (hL : ∀ i, p.L i ≠ 0) (ho : p.omega ≠ 0) (dn : ℝ) (dir : Fin 3) (n : ℤ) (hn : 0 < n)
    (h : Resolved Ny Nx Nz (axis dir n 0) (axis dir n 1) (axis dir n 2)) (hd : 0 < de.np ∧ 0 < de.nm ∧ 0 < de.nn)
    (hd' : 0 < di.np ∧ 0 < di.nm ∧ 0 < di.nn) (k : K Ny Nx Nz) :
    gauss p (initial aE aI p.L (axis dir n 0) (axis dir n 1) (axis dir n 2) dn p.omega) k = 0 := by
  have hk := waveK_ne h
  have x1 := xi_wave p.L h.1 h.2.1 h.2.2.1
  have x2 := xi_wave (Ny := Ny) (Nx := Nx) (Nz := Nz) (nx := -axis dir n 0) (ny := -axis dir n 1) (nz := -axis dir n 2) p.L (by rw [abs_neg]; exact h.1) (by rw [abs_neg]; exact h.2.1) (by rw [abs_neg]; exact h.2.2.1)
  rw [waveK_neg] at x2
  have ae : (aE : ℂ) ≠ 0 := ofReal_ne_zero.mpr he
  have ai : (aI : ℂ) ≠ 0 := ofReal_ne_zero.mpr hi
  have oo : (p.omega : ℂ) ≠ 0 := ofReal_ne_zero.mpr ho
  have pi0 : (Real.pi : ℂ) ≠ 0 := ofReal_ne_zero.mpr Real.pi_ne_zero
  have nn : (n : ℂ) ≠ 0 := by exact_mod_cast hn.ne'
  have LL : ∀ i, (p.L i : ℂ) ≠ 0 := fun i => ofReal_ne_zero.mpr (hL i)
  have ce : charge p.e (slice (initial (de := de) (di := di) (Ny := Ny) (Nx := Nx) (Nz := Nz) aE aI p.L (axis dir n 0) (axis dir n 1) (axis dir n 2) dn p.omega).1 k) =
      -((aE ^ 3 : ℝ) : ℂ) * initialE0 aE (axis dir n 0) (axis dir n 1) (axis dir n 2) dn k := by
    unfold charge
    rw [hE, hE, hE, hqe]
    have : pad (slice (initial (de := de) (di := di) (Ny := Ny) (Nx := Nx) (Nz := Nz) aE aI p.L (axis dir n 0) (axis dir n 1) (axis dir n 2) dn p.omega).1 k) 0 0 0 =
      initialE0 aE (axis dir n 0) (axis dir n 1) (axis dir n 2) dn k := by
      unfold pad
      rw [dif_pos ⟨⟨le_refl _, by omega⟩, ⟨le_refl _, by omega⟩, le_refl _, by omega⟩]
      simp [slice, initial]
    rw [this]; push_cast; ring
  have ci : charge p.i (slice (initial (de := de) (di := di) (Ny := Ny) (Nx := Nx) (Nz := Nz) aE aI p.L (axis dir n 0) (axis dir n 1) (axis dir n 2) dn p.omega).2.1 k) =
      if k = 0 then 1 else 0 := by
    unfold charge
    rw [hI, hI, hI, hqi]
    have : pad (slice (initial (de := de) (di := di) (Ny := Ny) (Nx := Nx) (Nz := Nz) aE aI p.L (axis dir n 0) (axis dir n 1) (axis dir n 2) dn p.omega).2.1 k) 0 0 0 =
      Function.update (0 : K Ny Nx Nz → ℂ) 0 ((1 / aI ^ 3 : ℝ) : ℂ) k := by
      unfold pad
      rw [dif_pos ⟨⟨le_refl _, by omega⟩, ⟨le_refl _, by omega⟩, le_refl _, by omega⟩]
      simp [slice, initial]
    rw [this]
    by_cases hk0 : k = 0
    · subst hk0; rw [Function.update_self, if_pos rfl]; push_cast; field_simp
    · rw [Function.update_of_ne hk0, if_neg hk0]; simp
  unfold gauss
  rw [ce, ci]
  have e0 : ∀ j : Fin 3, (initial (de := de) (di := di) (Ny := Ny) (Nx := Nx) (Nz := Nz) aE aI p.L (axis dir n 0) (axis dir n 1) (axis dir n 2) dn p.omega).2.2.1 j =
      initialF p.L (axis dir n 0) (axis dir n 1) (axis dir n 2) dn p.omega j := fun j => rfl
  simp only [e0]
  simp only [initialF_axis hn h p.L dn p.omega ho]
  unfold initialE0
  rw [writes h]
  by_cases h1 : k = waveK Ny Nx Nz (axis dir n 0) (axis dir n 1) (axis dir n 2)
  · subst h1
    rw [Function.update_self, if_neg hk.1, x1]
    fin_cases dir <;> simp [Fin.sum_univ_three, axis] <;> field_simp [LL 0, LL 1, LL 2] <;> ring
  · rw [Function.update_of_ne h1]
    by_cases h2 : k = -waveK Ny Nx Nz (axis dir n 0) (axis dir n 1) (axis dir n 2)
    · subst h2
      rw [Function.update_self, if_neg (neg_ne_zero.mpr hk.1), x2]
      have h3 := h1
      fin_cases dir <;> simp [Fin.sum_univ_three, axis] at h3 ⊢ <;> simp only [Function.update_of_ne h3, Function.update_self] <;> field_simp [LL 0, LL 1, LL 2] <;> ring
    · rw [Function.update_of_ne h2]
      have z : ∀ j : Fin 3, (if (j : ℕ) = dir.val then Function.update (Function.update (0 : K Ny Nx Nz → ℂ) (-waveK Ny Nx Nz (axis dir n 0) (axis dir n 1) (axis dir n 2))
        ((dn * p.L dir / (4 * Real.pi * n * p.omega) : ℝ) : ℂ)) (waveK Ny Nx Nz (axis dir n 0) (axis dir n 1) (axis dir n 2)) ((dn * p.L dir / (4 * Real.pi * n * p.omega) : ℝ) : ℂ)
          else 0) k = 0 := by
        intro j
        split_ifs
        · rw [Function.update_of_ne h1, Function.update_of_ne h2]; rfl
        · rfl
      simp only [z]
      by_cases h0 : k = 0
      · subst h0; rw [Function.update_self, if_pos rfl]; push_cast; simp; field_simp; simp
      · rw [Function.update_of_ne h0, if_neg h0]; simp

/-! ### Where the initial state is not what the deck says -/

/-- With all mode numbers zero the uniform density itself is overwritten: the mean electron number becomes `-i dn/2` instead of 1. -/
theorem initial_uniform_partial (alpha dn : ℝ) (ha : alpha ≠ 0) :
    ((alpha ^ 3 : ℝ) : ℂ) * initialE0 (Ny := Ny) (Nx := Nx) (Nz := Nz) alpha 0 0 0 dn 0 = -I * dn / 2 := by
  have a : (alpha : ℂ) ≠ 0 := ofReal_ne_zero.mpr ha
  have hN : ∀ N : ℕ, [NeZero N] → -(N : ℤ) ≤ 0 ∧ (0 : ℤ) < N := fun N _ => ⟨by simp, by exact_mod_cast NeZero.pos N⟩
  unfold initialE0
  rw [neg_zero, setAt_eq _ (hN Nx) (hN Ny) (hN Nz)]
  have : (((0 : ℤ) : ZMod Ny), ((0 : ℤ) : ZMod Nx), ((0 : ℤ) : ZMod Nz)) = (0 : K Ny Nx Nz) := by simp
  rw [this, Function.update_self]
  push_cast
  field_simp

/-- With different thermal speeds the coefficient written for the uniform density, `1 / alpha_x³`, stands for the density
`alpha_y alpha_z / alpha_x²`, which is 1 only when `alpha_y alpha_z = alpha_x²`. -/
theorem initial_anisotropic_partial (s : Species) (ha : s.alpha 0 ≠ 0) {nx ny nz : ℤ} (h : Resolved Ny Nx Nz nx ny nz) (dn : ℝ) :
    ((s.alpha 0 * s.alpha 1 * s.alpha 2 : ℝ) : ℂ) * initialE0 (Ny := Ny) (Nx := Nx) (Nz := Nz) (s.alpha 0) nx ny nz dn 0 =
      ((s.alpha 1 * s.alpha 2 / s.alpha 0 ^ 2 : ℝ) : ℂ) := by
  have a : (s.alpha 0 : ℂ) ≠ 0 := ofReal_ne_zero.mpr ha
  have hk := waveK_ne h
  unfold initialE0
  rw [writes h, Function.update_of_ne hk.1.symm, Function.update_of_ne (neg_ne_zero.mpr hk.1).symm, Function.update_self]
  push_cast; field_simp

/-- A mode number equal to the number of points: the write for `-k` lands on the mean, the one for `+k` is dropped, so the
mean electron number becomes `i dn/2`. -/
theorem initial_alias_partial (alpha dn : ℝ) (ha : alpha ≠ 0) :
    ((alpha ^ 3 : ℝ) : ℂ) * initialE0 (Ny := Ny) (Nx := Nx) (Nz := Nz) alpha Nx 0 0 dn 0 = I * dn / 2 := by
  have a : (alpha : ℂ) ≠ 0 := ofReal_ne_zero.mpr ha
  have hN : ∀ N : ℕ, [NeZero N] → -(N : ℤ) ≤ 0 ∧ (0 : ℤ) < N := fun N _ => ⟨by simp, by exact_mod_cast NeZero.pos N⟩
  have hX : (0 : ℤ) < Nx := by exact_mod_cast NeZero.pos Nx
  unfold initialE0
  rw [neg_zero, setAt_eq _ (nx := -(Nx : ℤ)) ⟨le_refl _, by omega⟩ (hN Ny) (hN Nz)]
  have : (((0 : ℤ) : ZMod Ny), ((-(Nx : ℤ) : ℤ) : ZMod Nx), ((0 : ℤ) : ZMod Nz)) = (0 : K Ny Nx Nz) := by simp
  rw [this]
  have d : jaxIndex Nx (fftIndex (Nx : ℤ) Nx) = none := by
    unfold fftIndex jaxIndex
    rw [if_pos (show (0 : ℤ) ≤ Nx by omega), if_neg (show ¬ ((0 : ℤ) ≤ Nx ∧ (Nx : ℤ) < Nx) by omega), if_neg (show ¬ (-(Nx : ℤ) ≤ Nx ∧ (Nx : ℤ) < 0) by omega)]
  unfold setAt
  rw [d]
  cases jaxIndex Ny (fftIndex 0 Ny) <;> (simp only; rw [Function.update_self]; push_cast; field_simp)

/-- A negative mode number along x changes the sign of the density ripple but not of the field: Gauss's law is violated by twice the ripple. -/
theorem initial_negative_partial (p : Setup de di Ny Nx Nz) (aE aI : ℝ) (hE : ∀ i, p.e.alpha i = aE) (he : aE ≠ 0) (hqe : p.e.q = -1) (hL : p.L 0 ≠ 0)
    (ho : p.omega ≠ 0) (dn : ℝ) (n : ℤ) (hn : n < 0) (h : 2 * |n| < Nx) (hd : 0 < de.np ∧ 0 < de.nm ∧ 0 < de.nn) :
    gauss p (initial aE aI p.L n 0 0 dn p.omega) (waveK Ny Nx Nz n 0 0) = -I * dn / p.omega := by
  have hN : ∀ N : ℕ, [NeZero N] → 2 * |(0 : ℤ)| < N := fun N _ => by simpa using NeZero.pos N
  have hr : Resolved Ny Nx Nz n 0 0 := ⟨h, hN Ny, hN Nz, fun q => hn.ne q.1⟩
  have hk := waveK_ne hr
  have x1 := xi_wave p.L h (hN Ny) (hN Nz)
  have ae : (aE : ℂ) ≠ 0 := ofReal_ne_zero.mpr he
  have oo : (p.omega : ℂ) ≠ 0 := ofReal_ne_zero.mpr ho
  have pi0 : (Real.pi : ℂ) ≠ 0 := ofReal_ne_zero.mpr Real.pi_ne_zero
  have nn : (n : ℂ) ≠ 0 := by exact_mod_cast hn.ne
  have LL : (p.L 0 : ℂ) ≠ 0 := ofReal_ne_zero.mpr hL
  have wr := writes hr
  rw [neg_zero] at wr
  have ce : pad (slice (initial (de := de) (di := di) (Ny := Ny) (Nx := Nx) (Nz := Nz) aE aI p.L n 0 0 dn p.omega).1 (waveK Ny Nx Nz n 0 0)) 0 0 0 =
      -I * ((1 / (2 * aE ^ 3) * dn : ℝ) : ℂ) := by
    unfold pad
    rw [dif_pos ⟨⟨le_refl _, by omega⟩, ⟨le_refl _, by omega⟩, le_refl _, by omega⟩]
    simp only [slice, initial, initialE0, Int.toNat_zero, and_self, if_true]
    rw [neg_zero, wr, Function.update_self]
  have ci : pad (slice (initial (de := de) (di := di) (Ny := Ny) (Nx := Nx) (Nz := Nz) aE aI p.L n 0 0 dn p.omega).2.1 (waveK Ny Nx Nz n 0 0)) 0 0 0 = 0 := by
    unfold pad
    split_ifs
    · simp only [slice, initial, Int.toNat_zero, and_self, if_true]
      rw [Function.update_of_ne hk.1]; rfl
    · rfl
  have f0 : initialF (Ny := Ny) (Nx := Nx) (Nz := Nz) p.L n 0 0 dn p.omega 0 (waveK Ny Nx Nz n 0 0) = ((dn * p.L 0 / (4 * Real.pi * (-n) * p.omega) : ℝ) : ℂ) := by
    unfold initialF
    simp only [Int.sign_eq_neg_one_of_neg hn, add_zero, neg_zero]
    rw [if_pos ⟨hn.ne, ho, by simp [component]⟩, wr, Function.update_self]
    simp; ring
  have f1 : ∀ j : ℕ, j ≠ 0 → initialF (Ny := Ny) (Nx := Nx) (Nz := Nz) p.L n 0 0 dn p.omega j (waveK Ny Nx Nz n 0 0) = 0 := by
    intro j hj
    unfold initialF
    rw [if_neg (fun q => hj (by have := q.2.2; simpa [component] using this))]; rfl
  unfold gauss charge
  rw [ce, ci, hE, hE, hE, hqe, x1]
  simp only [Fin.sum_univ_three]
  have e0 : ∀ j : Fin 3, (initial (de := de) (di := di) (Ny := Ny) (Nx := Nx) (Nz := Nz) aE aI p.L n 0 0 dn p.omega).2.2.1 j = initialF p.L n 0 0 dn p.omega j := fun j => rfl
  rw [e0, e0, e0]
  rw [show (((0 : Fin 3) : ℕ)) = 0 from rfl, f0, f1 _ (by decide), f1 _ (by decide)]
  simp
  field_simp
  ring

/-- With a negative `ny` the field is written into `Bz`, with `ny` and `nz` both positive into `Bx`: the electric field is zero although the
density is not uniform. -/
theorem initial_component_partial (L : Fin 3 → ℝ) (dn omega : ℝ) (nx ny nz : ℤ) (h : (ny < 0 ∧ nz = 0) ∨ (0 < ny ∧ 0 < nz)) (j : Fin 3) :
    initialF (Ny := Ny) (Nx := Nx) (Nz := Nz) L nx ny nz dn omega j = 0 := by
  have hc : 3 ≤ component ny nz := by
    rcases h with ⟨h1, rfl⟩ | ⟨h1, h2⟩
    · simp [component, Int.sign_eq_neg_one_of_neg h1]
    · simp [component, Int.sign_eq_one_of_pos h1, Int.sign_eq_one_of_pos h2]
  unfold initialF
  simp only
  rw [if_neg (fun q => by have := q.2.2; have := j.isLt; omega)]

/-- The hypotheses are met: mode 1 along x on 8 points. -/
example : Resolved 1 8 1 (axis 0 1 0) (axis 0 1 1) (axis 0 1 2) := by unfold Resolved axis; simp

end Verif.Spectrax

import Verif.Model.VlasovSave
import Verif.Props.Spectral
import Verif.Props.SpectraxInit
import Verif.Props.LpsePump

/-!
C196: the charge spectrum of the ion-acoustic module.
-/
namespace Verif.VlasovSave
open Finset Verif.Spectral Complex
open scoped ComplexConjugate

variable {nx : ℕ} [NeZero nx]

/-- C196: the saved modes are modes of the grid: the slice `[: nk_modes + 1]` of the real transform has exactly that many
entries, and all the requested ones if the grid has them. -/
theorem modes_available (requested n : ℕ) : nkModes requested n + 1 ≤ rfftLen n ∧ nkModes requested n ≤ requested ∧
    (2 * requested ≤ n → nkModes requested n = requested) := by
  unfold nkModes rfftLen; omega

/-- C196: the saved numbers are the amplitudes of the modes of the total charge, divided by the number of cells. -/
theorem nk_mode (species : List (Species nx)) (m : ℕ) : nk species m = mode (fun x => (species.map fun s => s.charge * s.density x).sum) m / nx := by
  rw [mode_eq]
  unfold nk rfft chargeDensity
  simp only [add_zero]
  push_cast
  rfl

/-- C196: the saved mode 0 is the mean charge. -/
theorem mean_charge (species : List (Species nx)) : nk species 0 = ((mean (chargeDensity species fun _ => 0) : ℝ) : ℂ) := by
  unfold nk rfft mean
  rw [Nat.cast_zero, fft_zero]
  push_cast
  rfl

theorem fft_cosine (a A φ : ℝ) (m : ℕ) :
    fft (fun x : ZMod nx => ((a + A * Real.cos (2 * Real.pi * m * x.val / nx + φ) : ℝ) : ℂ))
      = fun k => nx * ((if k = 0 then (a : ℂ) else 0) + (if k = (m : ZMod nx) then A / 2 * cexp (φ * I) else 0)
          + if k = -(m : ZMod nx) then A / 2 * cexp (-(φ * I)) else 0) := by
  have hN : (nx : ℂ) ≠ 0 := Nat.cast_ne_zero.2 (NeZero.ne nx)
  set H : ZMod nx → ℂ := fun k => nx * ((if k = 0 then (a : ℂ) else 0) + (if k = (m : ZMod nx) then A / 2 * cexp (φ * I) else 0)
          + if k = -(m : ZMod nx) then A / 2 * cexp (-(φ * I)) else 0) with hH
  rw [← fft_ifft H]
  congr 1
  funext x
  have hs := Lpse.ifft_sum H x
  have e1 : ∑ k, (ZMod.stdAddChar (k * x) : ℂ) * H k = nx * (a + ZMod.stdAddChar ((m : ZMod nx) * x) * (A / 2 * cexp (φ * I))
      + ZMod.stdAddChar (-(m : ZMod nx) * x) * (A / 2 * cexp (-(φ * I)))) := by
    simp only [hH]
    have : ∀ k : ZMod nx, (ZMod.stdAddChar (k * x) : ℂ) * (nx * ((if k = 0 then (a : ℂ) else 0) + (if k = (m : ZMod nx) then A / 2 * cexp (φ * I) else 0)
          + if k = -(m : ZMod nx) then A / 2 * cexp (-(φ * I)) else 0))
        = nx * ((if k = 0 then ZMod.stdAddChar (k * x) * (a : ℂ) else 0) + (if k = (m : ZMod nx) then ZMod.stdAddChar (k * x) * (A / 2 * cexp (φ * I)) else 0)
          + if k = -(m : ZMod nx) then ZMod.stdAddChar (k * x) * (A / 2 * cexp (-(φ * I))) else 0) := fun k => by
      split_ifs <;> ring
    simp only [this]
    rw [← mul_sum, sum_add_distrib, sum_add_distrib]
    simp
  rw [e1] at hs
  have hs' := mul_left_cancel₀ hN hs
  rw [hs']
  have c1 := Spectrax.char_exp (N := nx) (m : ℤ) x
  have c2 := Spectrax.char_exp (N := nx) (-(m : ℤ)) x
  push_cast at c1 c2
  rw [c1, c2]
  push_cast
  rw [Complex.cos]
  have e2 : cexp (2 * (Real.pi : ℂ) * m * x.val / nx * I) * (A / 2 * cexp (φ * I)) = A * (cexp ((2 * (Real.pi : ℂ) * m * x.val / nx + φ) * I) / 2) := by
    rw [add_mul, Complex.exp_add]; ring
  have e3 : cexp (2 * (Real.pi : ℂ) * -m * x.val / nx * I) * (A / 2 * cexp (-(φ * I))) = A * (cexp (-(2 * (Real.pi : ℂ) * m * x.val / nx + φ) * I) / 2) := by
    rw [neg_add, add_mul, Complex.exp_add]
    have a1 : 2 * (Real.pi : ℂ) * -m * x.val / nx * I = -(2 * (Real.pi : ℂ) * m * x.val / nx) * I := by ring
    have a2 : -((φ : ℂ) * I) = -(φ : ℂ) * I := by ring
    rw [a1, a2]; ring
  rw [e2, e3]
  ring

/-- C196: a charge wave of amplitude `A` on a mean charge `a`, in a mode `m` below half the number of cells, has the complex
amplitude `A / 2` with its phase and the power `A² / 4` in mode `m`, `a²` in mode 0 and nothing in the other saved modes. -/
theorem wave_spectrum (species : List (Species nx)) (a A φ : ℝ) (m : ℕ) (h0 : 0 < m) (h1 : 2 * m < nx)
    (hr : ∀ x : ZMod nx, (species.map fun s => s.charge * s.density x).sum = a + A * Real.cos (2 * Real.pi * m * x.val / nx + φ)) :
    nk species m = A / 2 * cexp (φ * I) ∧ power species m = A ^ 2 / 4 ∧ power species 0 = a ^ 2 ∧
      ∀ k, k ≠ 0 → k ≠ m → 2 * k ≤ nx → power species k = 0 := by
  have hN : (nx : ℂ) ≠ 0 := Nat.cast_ne_zero.2 (NeZero.ne nx)
  have ne : ∀ p q : ℤ, |p - q| < nx → p ≠ q → (p : ZMod nx) ≠ (q : ZMod nx) := fun p q => Spectrax.mode_ne
  have key : ∀ k : ℕ, nk species k = (if (k : ZMod nx) = 0 then (a : ℂ) else 0) + (if (k : ZMod nx) = (m : ZMod nx) then A / 2 * cexp (φ * I) else 0)
          + if (k : ZMod nx) = -(m : ZMod nx) then A / 2 * cexp (-(φ * I)) else 0 := fun k => by
    have e1 : (chargeDensity species fun _ => 0) = fun x : ZMod nx => a + A * Real.cos (2 * Real.pi * m * x.val / nx + φ) := by
      funext x; unfold chargeDensity; rw [hr, add_zero]
    unfold nk rfft
    rw [e1, fft_cosine a A φ m]
    field_simp
  have m0 : (m : ZMod nx) ≠ 0 := by
    have := ne (m : ℤ) 0 (by rw [abs_lt]; constructor <;> push_cast <;> omega) (by omega)
    simpa using this
  have mm : (m : ZMod nx) ≠ -(m : ZMod nx) := by
    have := ne (m : ℤ) (-m) (by rw [abs_lt]; constructor <;> push_cast <;> omega) (by omega)
    simpa using this
  have e0 : nk species 0 = a := by
    rw [key 0]
    rw [Nat.cast_zero, if_pos rfl, if_neg m0.symm, if_neg (fun h => m0 (neg_eq_zero.1 h.symm))]
    ring
  have em : nk species m = A / 2 * cexp (φ * I) := by
    rw [key m, if_neg m0, if_pos rfl, if_neg mm]; ring
  have pw : ∀ k, power species k = normSq (nk species k) := fun k => by unfold power; rw [normSq_apply]; ring
  refine ⟨em, ?_, ?_, fun k hk0 hkm hk => ?_⟩
  · rw [pw, em, map_mul, normSq_eq_norm_sq (cexp _), Complex.norm_exp_ofReal_mul_I]
    have : (A : ℂ) / 2 = ((A / 2 : ℝ) : ℂ) := by push_cast; ring
    rw [this, normSq_ofReal]; ring
  · rw [pw, e0, normSq_ofReal]; ring
  · have k0 : (k : ZMod nx) ≠ 0 := by
      have := ne (k : ℤ) 0 (by rw [abs_lt]; constructor <;> push_cast <;> omega) (by omega)
      simpa using this
    have k1 : (k : ZMod nx) ≠ (m : ZMod nx) := by
      have := ne (k : ℤ) m (by rw [abs_lt]; constructor <;> push_cast <;> omega) (by omega)
      simpa using this
    have k2 : (k : ZMod nx) ≠ -(m : ZMod nx) := by
      have := ne (k : ℤ) (-m) (by rw [abs_lt]; constructor <;> push_cast <;> omega) (by omega)
      simpa using this
    rw [pw, key k, if_neg k0, if_neg k1, if_neg k2]
    simp

/-- C196: the powers of the modes account for the mean square of the charge: mode 0 once, every mode below half the number of cells
twice. -/
theorem power_bound (species : List (Species nx)) (M : ℕ) (hM : 2 * M < nx) :
    power species 0 + 2 * ∑ m ∈ range M, power species (m + 1) ≤ mean (fun x => (chargeDensity species (fun _ => 0) x) ^ 2) ∧
      (nx = 2 * M + 1 → power species 0 + 2 * ∑ m ∈ range M, power species (m + 1) = mean fun x => (chargeDensity species (fun _ => 0) x) ^ 2) := by
  have hN : (nx : ℝ) ≠ 0 := Nat.cast_ne_zero.2 (NeZero.ne nx)
  have pN : (0 : ℝ) < nx := by positivity
  set rho := chargeDensity species fun _ => 0 with hrho
  set F : ZMod nx → ℂ := fft fun j => (rho j : ℂ) with hF
  have pw : ∀ k : ℕ, power species k = normSq (F (k : ZMod nx)) / nx ^ 2 := fun k => by
    have : power species k = normSq (nk species k) := by unfold power; rw [normSq_apply]; ring
    rw [this]
    unfold nk rfft
    rw [← hrho, ← hF, normSq_div, normSq_natCast, pow_two]
  have ps : ∑ k, normSq (F k) = nx * ∑ j, rho j ^ 2 := by
    have := parseval (fun j => (rho j : ℂ)) (fun j => (rho j : ℂ))
    rw [← hF] at this
    have e1 : ∀ k, conj (F k) * F k = ((normSq (F k) : ℝ) : ℂ) := fun k => by rw [normSq_eq_conj_mul_self]
    have e2 : ∀ j, conj ((rho j : ℝ) : ℂ) * (rho j : ℂ) = ((rho j ^ 2 : ℝ) : ℂ) := fun j => by rw [conj_ofReal]; push_cast; ring
    simp only [e1, e2] at this
    exact_mod_cast this
  have conjF : ∀ k, normSq (F (-k)) = normSq (F k) := fun k => by rw [hF, fft_real, normSq_conj]
  have flip : ∀ k, 0 < k → k < nx → normSq (F ((nx - k : ℕ) : ZMod nx)) = normSq (F (k : ZMod nx)) := fun k h0 h1 => by
    rw [← conjF]; congr 2; rw [Nat.cast_sub h1.le]; simp
  have lower : ∑ k ∈ range (2 * M + 1), normSq (F (if k ≤ M then (k : ZMod nx) else ((nx - (k - M) : ℕ) : ZMod nx)))
      = normSq (F 0) + 2 * ∑ m ∈ range M, normSq (F ((m + 1 : ℕ) : ZMod nx)) := by
    rw [show 2 * M + 1 = (M + 1) + M by ring, sum_range_add, sum_range_succ', add_comm (∑ m ∈ range M, _)]
    have a1 : ∀ m ∈ range M, normSq (F (if m + 1 ≤ M then ((m + 1 : ℕ) : ZMod nx) else ((nx - (m + 1 - M) : ℕ) : ZMod nx))) = normSq (F ((m + 1 : ℕ) : ZMod nx)) :=
      fun m hm => by rw [if_pos (by have := mem_range.1 hm; omega)]
    have a2 : ∀ m ∈ range M, normSq (F (if M + 1 + m ≤ M then ((M + 1 + m : ℕ) : ZMod nx) else ((nx - (M + 1 + m - M) : ℕ) : ZMod nx))) = normSq (F ((m + 1 : ℕ) : ZMod nx)) :=
      fun m hm => by
        rw [if_neg (by omega), show M + 1 + m - M = m + 1 by omega]
        exact flip (m + 1) (by omega) (by have := mem_range.1 hm; omega)
    rw [sum_congr rfl a1, sum_congr rfl a2]
    simp
    ring
  have inj : Set.InjOn (fun k : ℕ => if k ≤ M then (k : ZMod nx) else ((nx - (k - M) : ℕ) : ZMod nx)) (range (2 * M + 1)) := by
    intro a ha b hb hab
    rw [coe_range, Set.mem_Iio] at ha hb
    have val : ∀ k, k < 2 * M + 1 → (if k ≤ M then (k : ZMod nx) else ((nx - (k - M) : ℕ) : ZMod nx)).val = if k ≤ M then k else nx - (k - M) := fun k hk => by
      split_ifs <;> (rw [ZMod.val_natCast, Nat.mod_eq_of_lt (by omega)])
    have h := congrArg ZMod.val hab
    dsimp only at h
    rw [val a ha, val b hb] at h
    split_ifs at h <;> omega
  have im : ∑ k ∈ range (2 * M + 1), normSq (F (if k ≤ M then (k : ZMod nx) else ((nx - (k - M) : ℕ) : ZMod nx)))
      = ∑ q ∈ (range (2 * M + 1)).image (fun k : ℕ => if k ≤ M then (k : ZMod nx) else ((nx - (k - M) : ℕ) : ZMod nx)), normSq (F q) := by
    rw [sum_image inj]
  have tot : power species 0 + 2 * ∑ m ∈ range M, power species (m + 1)
      = (normSq (F 0) + 2 * ∑ m ∈ range M, normSq (F ((m + 1 : ℕ) : ZMod nx))) / nx ^ 2 := by
    simp only [pw]
    rw [← sum_div, Nat.cast_zero]; ring
  have me : mean (fun x => rho x ^ 2) = (∑ k, normSq (F k)) / nx ^ 2 := by
    unfold mean; rw [ps]; field_simp
  refine ⟨?_, fun hM1 => ?_⟩
  · rw [tot, me, ← lower, im]
    refine div_le_div_of_nonneg_right ?_ (by positivity)
    exact sum_le_sum_of_subset_of_nonneg (subset_univ _) fun _ _ _ => normSq_nonneg _
  · rw [tot, me, ← lower, im]
    congr 1
    have hu : (range (2 * M + 1)).image (fun k : ℕ => if k ≤ M then (k : ZMod nx) else ((nx - (k - M) : ℕ) : ZMod nx)) = univ := by
      apply eq_univ_of_card
      rw [card_image_of_injOn inj, card_range, ZMod.card, hM1]
    rw [hu]

/-! ### The late-time window -/

/-- C196: a window that reaches the end of the run contains the last sample, so its average exists. -/
theorem window_contains_end (tmin tmax : ℝ) (h : tmin ≤ tmax) (n : ℕ) (hn : 2 ≤ n) (w0 : ℝ) (h0 : w0 ≤ 1) : n - 1 ∈ windowTimes tmin tmax n w0 1 := by
  have e0 : Grid.linspaceAt tmin tmax n 0 = tmin := by unfold Grid.linspaceAt; rw [if_neg (by omega)]; simp
  have e1 : Grid.linspaceAt tmin tmax n (n - 1) = tmax := by
    unfold Grid.linspaceAt
    rw [if_neg (by omega), Nat.cast_sub (by omega)]
    have : (n : ℝ) - 1 ≠ 0 := by
      have : (2 : ℝ) ≤ n := by exact_mod_cast hn
      intro hc; linarith
    push_cast
    field_simp
    ring
  unfold windowTimes
  dsimp only
  rw [mem_filter, mem_range, e0, e1]
  refine ⟨by omega, ?_, by linarith⟩
  nlinarith

/-- C196: the samples of a window are those at fractions of the run between the two limits. -/
theorem window_spec (tmin tmax : ℝ) (h : tmin < tmax) (n : ℕ) (hn : 2 ≤ n) (w0 w1 : ℝ) (i : ℕ) :
    i ∈ windowTimes tmin tmax n w0 w1 ↔ i < n ∧ w0 ≤ (i : ℝ) / (n - 1) ∧ (i : ℝ) / (n - 1) ≤ w1 := by
  have pn : (0 : ℝ) < (n : ℝ) - 1 := by
    have : (2 : ℝ) ≤ n := by exact_mod_cast hn
    linarith
  have el : ∀ i : ℕ, Grid.linspaceAt tmin tmax n i = tmin + (i : ℝ) / (n - 1) * (tmax - tmin) := fun i => by
    unfold Grid.linspaceAt; rw [if_neg (by omega)]; ring
  have e0 : Grid.linspaceAt tmin tmax n 0 = tmin := by rw [el]; simp
  have e1 : Grid.linspaceAt tmin tmax n (n - 1) = tmax := by
    rw [el, Nat.cast_sub (by omega)]; push_cast; rw [div_self pn.ne']; ring
  unfold windowTimes
  dsimp only
  rw [mem_filter, mem_range, e0, e1, el]
  have pd : 0 < tmax - tmin := by linarith
  constructor
  · rintro ⟨a, b, c⟩
    exact ⟨a, le_of_mul_le_mul_right (by linarith) pd, le_of_mul_le_mul_right (by linarith) pd⟩
  · rintro ⟨a, b, c⟩
    exact ⟨a, by nlinarith, by nlinarith⟩

/-- C196: a window inside one interval of samples is empty and its average is NaN. -/
theorem window_empty_partial : windowTimes 0 10 2 (1 / 2) (3 / 5) = ∅ := by
  ext i
  rw [window_spec 0 10 (by norm_num) 2 le_rfl]
  constructor
  · rintro ⟨h, h1, h2⟩
    exfalso
    have : i = 0 ∨ i = 1 := by omega
    rcases this with rfl | rfl
    · norm_num at h1
    · norm_num at h2
  · intro h; simp at h

/-! ### The screening length -/

/-- C196: without an explicit length the recorded screening length is the one the field solver uses if the mean charge is 1. -/
theorem screening_consistent (dx Te : ℝ) (hT : 0 ≤ Te) (rho : ZMod nx → ℝ) (h : (∑ j, rho j) / nx = 1) :
    boltzmann dx Te (some (screening Te none)) rho = boltzmann dx Te none rho := by
  have e : screening Te none = Real.sqrt Te := rfl
  funext x
  unfold boltzmann
  dsimp only
  rw [e, Real.sq_sqrt hT, h, div_one]

/-- C196: with an explicit length it is that length. -/
theorem screening_explicit (Te l : ℝ) : screening Te (some l) = l := rfl

/-- C196: for another mean charge the recorded length is not the one the field solver uses: the response of a resolved mode
differs. -/
theorem screening_differs_partial (dx Te : ℝ) (hdx : 0 < dx) (hT : 0 < Te) (rho : ZMod nx → ℝ) (h0 : 0 < (∑ j, rho j) / nx) (h : (∑ j, rho j) / nx ≠ 1)
    (p : ℤ) (hp : Resolved nx p) (hp0 : p ≠ 0) (hm : mode rho p ≠ 0) :
    boltzmann dx Te (some (screening Te none)) rho ≠ boltzmann dx Te none rho := by
  intro e
  have a := (boltzmann_field dx Te (some (screening Te none)) rho).1 p hp
  have b := (boltzmann_field dx Te none rho).1 p hp
  rw [e, b] at a
  have hk : waveNumber nx dx p ≠ 0 := by
    obtain ⟨hz, _, _⟩ := resolved_index hp hp0
    have hk := kfull_ne_zero hdx.ne' hz
    rwa [kfull_eq dx hp] at hk
  have a' := mul_right_cancel₀ hm a
  have a'' := mul_left_cancel₀ (neg_ne_zero.2 I_ne_zero) a'
  have a3 : waveNumber nx dx p * (Te / ((∑ j, rho j) / nx)) / (1 + (Te / ((∑ j, rho j) / nx)) * waveNumber nx dx p ^ 2)
      = waveNumber nx dx p * (Te / ((∑ j, rho j) / nx)) / (1 + (screening Te none) ^ 2 * waveNumber nx dx p ^ 2) := by
    exact_mod_cast a''
  have es : (screening Te none) ^ 2 = Te := by
    have e : screening Te none = Real.sqrt Te := rfl
    rw [e, Real.sq_sqrt hT.le]
  rw [es] at a3
  generalize (∑ j, rho j) / (nx : ℝ) = r at *
  have hk2 : 0 < waveNumber nx dx p ^ 2 := by positivity
  have d1 : 1 + Te / r * waveNumber nx dx p ^ 2 ≠ 0 := by positivity
  have d2 : 1 + Te * waveNumber nx dx p ^ 2 ≠ 0 := by positivity
  have num : waveNumber nx dx p * (Te / r) ≠ 0 := mul_ne_zero hk (by positivity)
  rw [div_eq_div_iff d1 d2] at a3
  have a4 := mul_left_cancel₀ num a3
  have a5 : Te * waveNumber nx dx p ^ 2 = Te / r * waveNumber nx dx p ^ 2 := by linarith
  have a6 := mul_right_cancel₀ hk2.ne' a5
  field_simp at a6
  exact h a6

/-- A cold beam of ions with a wave in its density meets the hypotheses of `wave_spectrum`. -/
noncomputable def ionWave : Species 8 where
  nv := 1
  pos := ⟨one_ne_zero⟩
  charge := 1
  mass := 1836
  dv := 1
  v := fun _ => 0
  f := fun x _ => 1 + 1 / 10 * Real.cos (2 * Real.pi * (2 : ℕ) * x.val / (8 : ℕ) + 0)

example : power [ionWave] 2 = 1 / 400 := by
  have h : ∀ x : ZMod 8, ([ionWave].map fun s => s.charge * s.density x).sum = 1 + 1 / 10 * Real.cos (2 * Real.pi * (2 : ℕ) * x.val / (8 : ℕ) + 0) := fun x => by
    rw [List.map_singleton, List.sum_singleton]
    unfold Species.density
    have e : ∑ j : ZMod ionWave.nv, ionWave.f x j = 1 + 1 / 10 * Real.cos (2 * Real.pi * (2 : ℕ) * x.val / (8 : ℕ) + 0) := by
      exact Fintype.sum_unique (ι := ZMod 1) _
    rw [e]
    show 1 * (_ * (1 : ℝ)) = _
    ring
  rw [(wave_spectrum (nx := 8) [ionWave] 1 (1 / 10) 0 2 (by norm_num) (by norm_num) h).2.1]
  norm_num

end Verif.VlasovSave

import Verif.Props.SpectraxExtra

/-! C157, C163, C181: more on the initial state, the drivers, the density noise and the sponge of the Hermite-Fourier solver. -/
namespace Verif.Spectrax
open Finset Complex Verif.Hermite
open scoped ComplexConjugate

variable {Ny Nx Nz : ℕ} [NeZero Ny] [NeZero Nx] [NeZero Nz] {de di d : Dims}

/-- C157: apart from the density wave and its electric field nothing is perturbed: no flows and no higher moments, uniform ions, no magnetic field and
no electric field across the wave. -/
theorem initial_rest (aE aI : ℝ) (L : Fin 3 → ℝ) (dn omega : ℝ) (ho : omega ≠ 0) (dir : Fin 3) (n : ℤ) (hn : 0 < n)
    (h : Resolved Ny Nx Nz (axis dir n 0) (axis dir n 1) (axis dir n 2)) :
    let y : St de di Ny Nx Nz := initial aE aI L (axis dir n 0) (axis dir n 1) (axis dir n 2) dn omega
    (∀ p m l, ¬(p.val = 0 ∧ m.val = 0 ∧ l.val = 0) → y.1 p m l = 0) ∧ (∀ p m l, ¬(p.val = 0 ∧ m.val = 0 ∧ l.val = 0) → y.2.1 p m l = 0) ∧
    (∀ p m l k, k ≠ 0 → y.2.1 p m l k = 0) ∧
    (∀ j, j ≠ dir → y.2.2.1 j = 0) ∧ ∀ j, y.2.2.2 j = 0 := by
  intro y
  refine ⟨fun p m l hp => ?_, fun p m l hp => ?_, fun p m l k hk => ?_, fun j hj => ?_, fun j => ?_⟩
  · simp only [y, initial, if_neg hp]
  · simp only [y, initial, if_neg hp]
  · have e : (y.2.1 p m l) = if p.val = 0 ∧ m.val = 0 ∧ l.val = 0 then Function.update (0 : K Ny Nx Nz → ℂ) 0 ((1 / aI ^ 3 : ℝ) : ℂ) else 0 := rfl
    rw [e]
    split
    · exact Function.update_of_ne hk _ _
    · rfl
  · simp only [y, initial]
    rw [initialF_axis hn h L dn omega ho, if_neg (fun q => hj (Fin.ext q))]
  · simp only [y, initial]
    rw [initialF_axis hn h L dn omega ho, if_neg (fun q => by have := dir.isLt; omega)]

/-- The hypotheses are met: mode 2 along x. -/
example (k : K 1 8 1) : ((initial (de := ⟨2, 2, 2⟩) (di := ⟨2, 2, 2⟩) 1 1 (fun _ => 1) (axis 0 2 0) (axis 0 2 1) (axis 0 2 2) 0.1 1 : St ⟨2, 2, 2⟩ ⟨2, 2, 2⟩ 1 8 1).2.2.2 0) k = 0 := by
  have h := (initial_rest (de := ⟨2, 2, 2⟩) (di := ⟨2, 2, 2⟩) (Ny := 1) (Nx := 8) (Nz := 1) 1 1 (fun _ => 1) 0.1 1 one_ne_zero 0 2 (by norm_num) (by unfold Resolved axis; simp)).2.2.2.2 0
  exact congrFun h k

/-- C181: the noise drives the density only, as a source that depends on x alone: it is the same at all y, z. -/
theorem noise_spec (w : ZMod Nx → ℂ) (C : Tens d (K Ny Nx Nz → ℂ)) :
    (∀ p m n, ¬(p.val = 0 ∧ m.val = 0 ∧ n.val = 0) → addNoise (some w) C p m n = C p m n) ∧
    ∀ p m n, (p.val = 0 ∧ m.val = 0 ∧ n.val = 0) → ∀ x : K Ny Nx Nz,
      toX3 (fun k => addNoise (some w) C p m n k - C p m n k) x = toX w x.2.1 := by
  refine ⟨fun p m n h => ?_, fun p m n h x => ?_⟩
  · funext k
    simp only [addNoise]
    rw [if_neg (fun q => h ⟨q.1, q.2.1, q.2.2.1⟩), add_zero]
  · have e : (fun k : K Ny Nx Nz => addNoise (some w) C p m n k - C p m n k) = fun k => if k.1 = 0 ∧ k.2.2 = 0 then w k.2.1 else 0 := by
      funext k
      simp only [addNoise, h.1, h.2.1, h.2.2, true_and]
      ring
    rw [e, toX3_sum, toX_sum, sum_eq_single 0]
    · simp only [true_and, zero_mul, AddChar.map_zero_eq_one, one_mul]
      refine sum_congr rfl fun kx _ => ?_
      rw [sum_eq_single 0]
      · simp
      · intro b _ hb; simp [hb]
      · simp
    · intro b _ hb; simp [hb]
    · simp

/-- C181: the sponge rate is between 0 and the strength (twice the strength at most if both layers overlap), zero outside the layers and on the sides that are
not asked for, and `strength` times the square of the depth in the layer. -/
theorem sponge_profile (Lx strength width : ℝ) (hL : 0 < Lx) (hs : 0 ≤ strength) (hw : 0 ≤ width) (x : ℝ) :
    (∀ sides, 0 ≤ sponge Lx strength width sides x ∧ sponge Lx strength width sides x ≤ 2 * strength) ∧
    (sponge Lx strength width "right" x ≤ strength ∧ sponge Lx strength width "left" x ≤ strength) ∧
    (∀ sides, Lx * width ≤ x → x ≤ Lx * (1 - width) → sponge Lx strength width sides x = 0) ∧
    (x ≤ Lx * (1 - width) → sponge Lx strength width "right" x = 0) ∧ (Lx * width ≤ x → sponge Lx strength width "left" x = 0) ∧
    sponge Lx strength width "both" x = sponge Lx strength width "right" x + sponge Lx strength width "left" x := by
  have c0 : ∀ z, 0 ≤ clip01 z := fun z => le_min (le_max_right _ _) zero_le_one
  have c1 : ∀ z, clip01 z ≤ 1 := fun z => min_le_right _ _
  have cn : ∀ z, z ≤ 0 → clip01 z = 0 := fun z hz => by unfold clip01; rw [max_eq_right hz]; norm_num
  have cs : ∀ z, clip01 z ^ 2 ≤ 1 := fun z => pow_le_one₀ (c0 z) (c1 z)
  have hd : 0 < Lx - Lx * (1 - width) + 1e-10 := by have := mul_nonneg hL.le hw; nlinarith
  have hd' : 0 < Lx * width + 1e-10 := by have := mul_nonneg hL.le hw; nlinarith
  have rr : ∀ z, 0 ≤ strength * clip01 z ^ 2 ∧ strength * clip01 z ^ 2 ≤ strength := fun z =>
    ⟨by have := c0 z; positivity, mul_le_of_le_one_right hs (cs z)⟩
  have r0 : x ≤ Lx * (1 - width) → strength * clip01 ((x - Lx * (1 - width)) / (Lx - Lx * (1 - width) + 1e-10)) ^ 2 = 0 := fun h => by
    rw [cn _ (div_nonpos_of_nonpos_of_nonneg (by linarith) hd.le)]; ring
  have l0 : Lx * width ≤ x → strength * clip01 ((Lx * width - x) / (Lx * width + 1e-10)) ^ 2 = 0 := fun h => by
    rw [cn _ (div_nonpos_of_nonpos_of_nonneg (by linarith) hd'.le)]; ring
  have hR := rr ((x - Lx * (1 - width)) / (Lx - Lx * (1 - width) + 1e-10))
  have hLf := rr ((Lx * width - x) / (Lx * width + 1e-10))
  refine ⟨fun sides => ?_, ⟨?_, ?_⟩, fun sides ha hb => ?_, fun h => ?_, fun h => ?_, ?_⟩
  · unfold sponge
    simp only
    split <;> split <;> constructor <;> linarith [hR.1, hR.2, hLf.1, hLf.2]
  · unfold sponge; simp only [true_or, if_true]; rw [if_neg (by decide)]; linarith [hR.2]
  · unfold sponge; simp only [true_or, if_true]; rw [if_neg (by decide)]; linarith [hLf.2]
  · unfold sponge; simp only; rw [r0 hb, l0 ha]; simp
  · unfold sponge; simp only [true_or, if_true]; rw [if_neg (by decide), r0 h]; ring
  · unfold sponge; simp only [true_or, if_true]; rw [if_neg (by decide), l0 h]; ring
  · unfold sponge; simp only [true_or, or_true, if_true]
    rw [if_neg (by decide : ¬("left" = "right" ∨ "left" = "both")), if_neg (by decide : ¬("right" = "left" ∨ "right" = "both"))]; ring

/-- C181: at the very edge the rate is the strength (but for the regularisation), half way into the layer a quarter of it. -/
theorem sponge_quadratic (Lx strength width x : ℝ) (hL : 0 < Lx) (hw : 0 < width) (h0 : Lx * (1 - width) ≤ x) (h1 : x ≤ Lx) :
    sponge Lx strength width "right" x = strength * ((x - Lx * (1 - width)) / (Lx * width + 1e-10)) ^ 2 ∧
    sponge Lx strength width "left" (Lx - x) = strength * ((x - Lx * (1 - width)) / (Lx * width + 1e-10)) ^ 2 := by
  have hd : 0 < Lx * width + 1e-10 := by positivity
  have e : Lx - Lx * (1 - width) + 1e-10 = Lx * width + 1e-10 := by ring
  have cc : clip01 ((x - Lx * (1 - width)) / (Lx * width + 1e-10)) = (x - Lx * (1 - width)) / (Lx * width + 1e-10) := by
    unfold clip01
    rw [max_eq_left (div_nonneg (by linarith) hd.le), min_eq_left]
    rw [div_le_one hd]; have : (0 : ℝ) ≤ 1e-10 := by norm_num
    nlinarith
  constructor
  · unfold sponge; simp only [true_or, if_true]; rw [if_neg (by decide), e, cc]; ring
  · unfold sponge; simp only [true_or, if_true]
    rw [if_neg (by decide), show Lx * width - (Lx - x) = x - Lx * (1 - width) by ring, cc]; ring

/-- C181: the sponge multiplies fields and the non-density coefficients of both species by `exp(-rate * h)` at every point, so it
never increases them anywhere; the densities are untouched. -/
theorem sponge_pointwise (p : Setup de di Ny Nx Nz) (sF sE sI : ZMod Nx → ℝ) (hF : p.spongeF = some sF) (hE : p.spongeE = some sE) (hI : p.spongeI = some sI)
    (h : ℝ) (y : St de di Ny Nx Nz) (x : K Ny Nx Nz) :
    (∀ j, toX3 ((p.damp none h y).2.2.1 j) x = toX3 (y.2.2.1 j) x * ((Real.exp (-sF x.2.1 * h) : ℝ) : ℂ)) ∧
    (∀ j, toX3 ((p.damp none h y).2.2.2 j) x = toX3 (y.2.2.2 j) x * ((Real.exp (-sF x.2.1 * h) : ℝ) : ℂ)) ∧
    (∀ a b c, toX3 ((p.damp none h y).1 a b c) x = toX3 (y.1 a b c) x *
      ((if a.val = 0 ∧ b.val = 0 ∧ c.val = 0 then 1 else Real.exp (-sE x.2.1 * h) : ℝ) : ℂ)) ∧
    ∀ a b c, toX3 ((p.damp none h y).2.1 a b c) x = toX3 (y.2.1 a b c) x *
      ((if a.val = 0 ∧ b.val = 0 ∧ c.val = 0 then 1 else Real.exp (-sI x.2.1 * h) : ℝ) : ℂ) := by
  refine ⟨fun j => ?_, fun j => ?_, fun a b c => ?_, fun a b c => ?_⟩
  · simp only [Setup.damp, spongeField, hF, toX3_toK3]
  · simp only [Setup.damp, spongeField, hF, toX3_toK3]
  · simp only [Setup.damp, spongeC, applyFilter, hE, toX3_toK3]
  · simp only [Setup.damp, spongeC, applyFilter, hI, toX3_toK3]

theorem sum_norm (c : K Ny Nx Nz → ℂ) : ∑ k, ‖c k‖ ^ 2 = (∑ x, ‖toX3 c x‖ ^ 2) / (Ny * Nx * Nz) := by
  have hq : ∀ z : ℂ, conj z * z = ((‖z‖ ^ 2 : ℝ) : ℂ) := fun z => by rw [mul_comm, mul_conj, normSq_eq_norm_sq]
  have h := parseval3 c c
  simp only [hq] at h
  exact_mod_cast h.symm

/-- C181: with a non-negative rate the sponge never increases the field energy. -/
theorem sponge_energy (p : Setup de di Ny Nx Nz) (sF : ZMod Nx → ℝ) (hF : p.spongeF = some sF) (hs : ∀ j, 0 ≤ sF j) (f : Option (ℝ × ℕ)) (h : ℝ) (hh : 0 ≤ h) (y : St de di Ny Nx Nz) :
    energy (p.damp f h y).2.2.1 ≤ energy y.2.2.1 ∧ energy (p.damp f h y).2.2.2 ≤ energy y.2.2.2 := by
  have key : ∀ E : Fin 3 → K Ny Nx Nz → ℂ, energy (spongeField (some sF) h E) ≤ energy E := by
    intro E
    unfold energy
    have key : ∀ j, ∑ k, ‖spongeField (some sF) h E j k‖ ^ 2 ≤ ∑ k, ‖E j k‖ ^ 2 := by
      intro j
      rw [sum_norm (spongeField (some sF) h E j), sum_norm (E j)]
      have hN : (0 : ℝ) ≤ Ny * Nx * Nz := by positivity
      refine div_le_div_of_nonneg_right (sum_le_sum fun x _ => ?_) hN
      simp only [spongeField, toX3_toK3]
      rw [norm_mul, norm_real, Real.norm_eq_abs, abs_of_pos (Real.exp_pos _)]
      have h1 : Real.exp (-sF x.2.1 * h) ≤ 1 := Real.exp_le_one_iff.2 (by have := mul_nonneg (hs x.2.1) hh; linarith)
      have h2 : ‖toX3 (E j) x‖ * Real.exp (-sF x.2.1 * h) ≤ ‖toX3 (E j) x‖ := mul_le_of_le_one_right (norm_nonneg _) h1
      have h3 : 0 ≤ ‖toX3 (E j) x‖ * Real.exp (-sF x.2.1 * h) := by positivity
      exact pow_le_pow_left₀ h3 h2 2
    refine sum_le_sum fun j _ => ?_
    exact key j
  unfold Setup.damp
  rw [hF]
  exact ⟨key _, key _⟩

/-- C163: the pulse is a wave of frequency `w0 + dw0` and wave number `k0`: its nodes travel at the phase velocity. -/
theorem pulse_front (q : Pulse) (n : ℤ) (x t s : ℝ) (hk : q.k0 ≠ 0) (h : q.k0 * x - (q.w0 + q.dw0) * t = n * Real.pi) :
    q.at t x = 0 ∧ q.at (t + s) (x + (q.w0 + q.dw0) / q.k0 * s) = 0 := by
  have e : q.k0 * (x + (q.w0 + q.dw0) / q.k0 * s) - (q.w0 + q.dw0) * (t + s) = n * Real.pi := by rw [← h]; field_simp; ring
  unfold Pulse.at
  rw [h, e, Real.sin_int_mul_pi]
  constructor <;> ring

/-- C163: with constant envelopes the amplitude reaches `|k0| a0` at the crests. -/
theorem pulse_crest (q : Pulse) (x t : ℝ) (h : q.k0 * x - (q.w0 + q.dw0) * t = Real.pi / 2) :
    q.at t x = Driver.getEnvelope q.tRise q.tRise (q.tCenter - 0.5 * q.tWidth) (q.tCenter + 0.5 * q.tWidth) t *
      Driver.getEnvelope q.xRise q.xRise (q.xCenter - 0.5 * q.xWidth) (q.xCenter + 0.5 * q.xWidth) x * |q.k0| * q.a0 := by
  unfold Pulse.at
  rw [h, Real.sin_pi_div_two, mul_one]

end Verif.Spectrax

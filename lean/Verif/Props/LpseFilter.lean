import Verif.Props.LpseWave
import Verif.Props.Pic
import Verif.Props.Driver
import Verif.Model.Speckle

/-! C168, C173: filters, dealiasing and absorbing boundaries of the envelope solver. -/
namespace Verif.Lpse
open Finset Complex Verif.Spectral

variable {nx ny : ℕ} [NeZero nx] [NeZero ny]

/-- Every grid mode is a signed integer below half the number of cells. -/
theorem kax_signed {N : ℕ} [NeZero N] (d : ℝ) (a : ZMod N) :
    ∃ s : ℤ, (s : ZMod N) = a ∧ -(N : ℤ) ≤ 2 * s ∧ 2 * s < N ∧ kax d a = s * (2 * Real.pi / (N * d)) := by
  have hl := a.val_lt
  by_cases h : a.val < (N - 1) / 2 + 1
  · refine ⟨a.val, by simp, by omega, by omega, ?_⟩
    rw [kax_eq]
    unfold kfull Grid.fftfreqAt
    rw [if_pos h]; push_cast; ring
  · refine ⟨a.val - N, by simp, by omega, by omega, ?_⟩
    rw [kax_eq]
    unfold kfull Grid.fftfreqAt
    rw [if_neg h]; push_cast; ring

theorem kax_unique {N : ℕ} [NeZero N] (d : ℝ) (s : ℤ) (h1 : -(N : ℤ) ≤ 2 * s) (h2 : 2 * s < N) :
    kax d (s : ZMod N) = s * (2 * Real.pi / (N * d)) := by
  obtain ⟨r, hr, r1, r2, e⟩ := kax_signed d (s : ZMod N)
  rw [e]
  have : (N : ℤ) ∣ r - s := by rw [← ZMod.intCast_zmod_eq_zero_iff_dvd]; push_cast; rw [hr]; ring
  obtain ⟨c, hc⟩ := this
  have hN : 0 < (N : ℤ) := by have := NeZero.pos N; omega
  have : c = 0 := by
    by_contra hne
    rcases lt_or_gt_of_ne hne with h | h <;> nlinarith
  have : r = s := by rw [this] at hc; linarith
  rw [this]

/-- The largest resolved wave numbers. -/
theorem nyquist_eq {N : ℕ} [NeZero N] {d : ℝ} (hd : 0 < d) : nyquist N d = ((N / 2 : ℕ) : ℝ) * (2 * Real.pi / (N * d)) := by
  have hN : 0 < (N : ℝ) := Nat.cast_pos.2 (NeZero.pos N)
  have hp := Real.pi_pos
  have hk : 0 < 2 * Real.pi / (N * d) := by positivity
  refine le_antisymm (sup'_le _ _ fun a _ => ?_) ?_
  · obtain ⟨s, _, s1, s2, e⟩ := kax_signed d a
    rw [e, abs_mul, abs_of_pos hk]
    refine mul_le_mul_of_nonneg_right ?_ hk.le
    have : |s| ≤ ((N / 2 : ℕ) : ℤ) := by rw [abs_le]; omega
    have h := (Int.cast_le (R := ℝ)).2 this
    rwa [Int.cast_abs, Int.cast_natCast] at h
  · have e := kax_unique (N := N) d (-((N / 2 : ℕ) : ℤ)) (by omega) (by have := NeZero.pos N; omega)
    have h := le_sup' (fun a : ZMod N => |kax d a|) (mem_univ ((-((N / 2 : ℕ) : ℤ) : ℤ) : ZMod N))
    refine le_trans (le_of_eq ?_) h
    rw [e, abs_mul, abs_of_pos hk, Int.cast_neg, Int.cast_natCast, abs_neg, abs_of_nonneg (by positivity)]

theorem kmax_eq {N : ℕ} [NeZero N] {d : ℝ} (hd : 0 < d) : kmax N d = (((N - 1) / 2 : ℕ) : ℝ) * (2 * Real.pi / (N * d)) := by
  have hN : 0 < (N : ℝ) := Nat.cast_pos.2 (NeZero.pos N)
  have hp := Real.pi_pos
  have hk : 0 < 2 * Real.pi / (N * d) := by positivity
  refine le_antisymm (sup'_le _ _ fun a _ => ?_) ?_
  · obtain ⟨s, _, s1, s2, e⟩ := kax_signed d a
    rw [e]
    refine mul_le_mul_of_nonneg_right ?_ hk.le
    have : s ≤ (((N - 1) / 2 : ℕ) : ℤ) := by omega
    have h := (Int.cast_le (R := ℝ)).2 this
    rwa [Int.cast_natCast] at h
  · have e := kax_unique (N := N) d (((N - 1) / 2 : ℕ) : ℤ) (by omega) (by have := NeZero.pos N; omega)
    have h := le_sup' (fun a : ZMod N => kax d a) (mem_univ ((((N - 1) / 2 : ℕ) : ℤ) : ZMod N))
    refine le_trans (le_of_eq ?_) h
    rw [e, Int.cast_natCast]

/-- C173: the low-pass filter only ever attenuates, keeps the mean, and keeps or removes modes when there is no taper. -/
theorem isotropic_range (dx dy lp taper : ℝ) (a : ZMod nx) (b : ZMod ny) :
    0 ≤ isotropic dx dy lp taper a b ∧ isotropic dx dy lp taper a b ≤ 1 ∧
    (taper ≤ 0 → isotropic dx dy lp taper a b = 0 ∨ isotropic dx dy lp taper a b = 1) ∧
    (0 < lp * kmax nx dx → lp * kmax nx dx ≤ kmag dx dy a b → isotropic dx dy lp taper a b = 0) ∧
    (0 ≤ taper → kmag dx dy a b < lp * kmax nx dx * (1 - taper) → isotropic dx dy lp taper a b = 1) := by
  unfold isotropic
  simp only
  generalize lp * kmax nx dx = c
  generalize kmag dx dy a b = k
  refine ⟨?_, ?_, ?_, ?_, ?_⟩
  · split; · exact zero_le_one
    split; · split <;> norm_num
    split; · rfl
    split
    · have := Real.neg_one_le_cos (Real.pi * ((k - max (c * (1 - taper)) 0) / (c - max (c * (1 - taper)) 0)))
      nlinarith
    · exact zero_le_one
  · split; · rfl
    split; · split <;> norm_num
    split; · exact zero_le_one
    split
    · have := Real.cos_le_one (Real.pi * ((k - max (c * (1 - taper)) 0) / (c - max (c * (1 - taper)) 0)))
      nlinarith
    · rfl
  · intro h
    rw [if_pos h]
    split; · right; rfl
    split; · right; rfl
    left; rfl
  · intro h0 h
    rw [if_neg (not_le.2 h0), if_pos h, if_neg (not_lt.2 h)]
    simp
  · intro h0 h
    by_cases hc : c ≤ 0
    · rw [if_pos hc]
    · have hcp := not_le.1 hc
      have hkc : k < c := h.trans_le (by nlinarith)
      rw [if_neg hc]
      split; · rfl
      rw [if_neg (not_le.2 hkc), if_neg]
      rintro ⟨h1, _⟩
      exact absurd h (not_lt.2 ((le_max_left _ _).trans h1))

/-- C173: whichever dealiasing is chosen. -/
theorem filter_range (dx dy lp taper : ℝ) (dealias : String) (sup : ℝ × ℝ) (F : Arr nx ny ℝ) (h : filterGrid dx dy lp taper dealias sup = .ok F)
    (a : ZMod nx) (b : ZMod ny) : 0 ≤ F a b ∧ F a b ≤ 1 := by
  unfold filterGrid at h
  obtain ⟨h0, h1, _⟩ := isotropic_range dx dy lp taper a b
  split at h
  · simp only at h
    split at h
    · cases h
    · cases h
      simp only
      split
      · rw [mul_one]; exact ⟨h0, h1⟩
      · simp
  · split at h
    · cases h; exact ⟨h0, h1⟩
    · cases h

/-- C168: an unknown dealiasing option, or a pump the grid leaves no room for, is refused. -/
theorem dealias_refused (dx dy lp taper : ℝ) (dealias : String) (sup : ℝ × ℝ)
    (h : (dealias ≠ "shifted-band" ∧ dealias ≠ "isotropic") ∨ (dealias = "shifted-band" ∧ (nyquist nx dx ≤ sup.1 ∨ nyquist ny dy ≤ sup.2))) :
    filterGrid (nx := nx) (ny := ny) dx dy lp taper dealias sup = .error "ValueError" := by
  unfold filterGrid
  rcases h with ⟨h1, h2⟩ | ⟨h1, h2⟩
  · rw [if_neg h1, if_neg h2]
  · rw [if_pos h1]
    simp only
    rw [if_pos]
    rcases h2 with h2 | h2
    · left; linarith
    · right; linarith

theorem k0_mono (w0 c wp0 dw dm : ℝ) (hw : 0 < w0) (hc : 0 < c) (h0 : 0 ≤ 1 + dw) (h : dw ≤ dm) :
    w0 / c * Real.sqrt ((1 + dw) ^ 2 - wp0 ^ 2 / w0 ^ 2) ≤ w0 / c * Real.sqrt ((1 + dm) ^ 2 - (wp0 / w0) ^ 2) := by
  refine mul_le_mul_of_nonneg_left (Real.sqrt_le_sqrt ?_) (by positivity)
  rw [div_pow]
  have : (1 + dw) ^ 2 ≤ (1 + dm) ^ 2 := by nlinarith
  linarith

/-- C168: every retained mode plus every colour of the pump fits under the Nyquist number, also after the pump has been moved to
the grid. -/
theorem band_room (l : Light nx ny) (dy lp taper dm : ℝ) (na : Option ℝ) (F : Arr nx ny ℝ) (hx : 0 < l.dx) (hw : 0 < l.w0) (hc : 0 < l.c)
    (hF : filterGrid l.dx dy lp taper "shifted-band" (pumpSupport l.w0 l.c l.wp0 (some (dm, na))) = .ok F)
    (dw : ℝ) (h0 : 0 ≤ 1 + dw) (hdw : dw ≤ dm) (a : ZMod nx) (b : ZMod ny) (hr : F a b ≠ 0) (s : ℤ) (hs : kax l.dx a = s * l.dk) :
    |s| + l.modeOf dw ≤ ((nx / 2 : ℕ) : ℤ) ∧ 0 ≤ l.modeOf dw ∧ (0 < l.k0 dw → |s| < ((nx / 2 : ℕ) : ℤ)) := by
  have hN : 0 < (nx : ℝ) := Nat.cast_pos.2 (NeZero.pos nx)
  have hdk : 0 < l.dk := by unfold Light.dk; have := Real.pi_pos; positivity
  unfold filterGrid at hF
  rw [if_pos rfl] at hF
  simp only at hF
  split at hF
  · cases hF
  cases hF
  simp only at hr
  have hb : |kax l.dx a| ≤ nyquist nx l.dx - (pumpSupport l.w0 l.c l.wp0 (some (dm, na))).1 := by
    by_contra hcon
    apply hr
    rw [if_neg (fun h => hcon h.1), mul_zero]
  have hk0 : l.k0 dw ≤ (pumpSupport l.w0 l.c l.wp0 (some (dm, na))).1 := k0_mono _ _ _ _ _ hw hc h0 hdw
  have hk0' : 0 ≤ l.k0 dw := by unfold Light.k0; positivity
  rw [nyquist_eq hx, hs, abs_mul, abs_of_pos hdk] at hb
  have hdk' : 2 * Real.pi / (nx * l.dx) = l.dk := rfl
  rw [hdk'] at hb
  have hmain : |(s : ℝ)| + l.k0 dw / l.dk ≤ ((nx / 2 : ℕ) : ℝ) := by
    have : |(s : ℝ)| * l.dk + l.k0 dw ≤ ((nx / 2 : ℕ) : ℝ) * l.dk := by linarith
    have := (div_le_iff₀ hdk).2 this
    rwa [add_div, mul_div_cancel_right₀ _ hdk.ne'] at this
  have hr := Pic.roundEven_near (l.k0 dw / l.dk)
  have hq : 0 ≤ l.k0 dw / l.dk := by positivity
  have hm : l.modeOf dw = Pic.roundEven (l.k0 dw / l.dk) := rfl
  rw [← hm] at hr
  rw [abs_le] at hr
  refine ⟨?_, ?_, ?_⟩
  · by_contra hcon
    have h1 : ((nx / 2 : ℕ) : ℤ) + 1 ≤ |s| + l.modeOf dw := by omega
    have h2 := (Int.cast_le (R := ℝ)).2 h1
    rw [Int.cast_add, Int.cast_add, Int.cast_natCast, Int.cast_abs, Int.cast_one] at h2
    linarith [hr.1]
  · by_contra hcon
    have h1 : l.modeOf dw ≤ -1 := by omega
    have h2 : (l.modeOf dw : ℝ) ≤ -1 := by exact_mod_cast h1
    linarith [hr.2]
  · intro hpos
    have hq : 0 < l.k0 dw / l.dk := by positivity
    have : |(s : ℝ)| < ((nx / 2 : ℕ) : ℝ) := by linarith
    rw [← Int.cast_abs, ← Int.cast_natCast (R := ℝ) (nx / 2)] at this
    exact Int.cast_lt.1 this

/-- C168: with the shifted band no pair of retained waves is coupled through an alias: if `k` and `q = k0 - k` (as indices) are
both retained, their wave numbers really add up to the pump's. -/
theorem alias_free (l : Light nx ny) (dy lp taper dm : ℝ) (na : Option ℝ) (F : Arr nx ny ℝ) (hx : 0 < l.dx) (hw : 0 < l.w0) (hc : 0 < l.c)
    (hF : filterGrid l.dx dy lp taper "shifted-band" (pumpSupport l.w0 l.c l.wp0 (some (dm, na))) = .ok F)
    (dw : ℝ) (h0 : 0 ≤ 1 + dw) (hdw : dw ≤ dm) (hk0 : 0 < l.k0 dw) (a : ZMod nx) (b b' : ZMod ny) (ha : F a b ≠ 0)
    (hq : F ((l.modeOf dw : ZMod nx) - a) b' ≠ 0) :
    kax l.dx ((l.modeOf dw : ZMod nx) - a) + kax l.dx a = l.modeOf dw * l.dk := by
  obtain ⟨s, hs, s1, s2, es⟩ := kax_signed l.dx a
  obtain ⟨r, hr, r1, r2, er⟩ := kax_signed l.dx ((l.modeOf dw : ZMod nx) - a)
  have hdk' : 2 * Real.pi / (nx * l.dx) = l.dk := rfl
  rw [hdk'] at es er
  obtain ⟨A1, A2, A3⟩ := band_room l dy lp taper dm na F hx hw hc hF dw h0 hdw a b ha s es
  obtain ⟨B1, _, B3⟩ := band_room l dy lp taper dm na F hx hw hc hF dw h0 hdw _ b' hq r er
  have A3 := A3 hk0
  have B3 := B3 hk0
  have hdvd : (nx : ℤ) ∣ r + s - l.modeOf dw := by
    rw [← ZMod.intCast_zmod_eq_zero_iff_dvd]; push_cast; rw [hr, hs]; ring
  obtain ⟨c, hcc⟩ := hdvd
  have hN : 0 < (nx : ℤ) := by have := NeZero.pos nx; omega
  have ha1 := abs_le.1 (le_of_lt A3); have ha2 := abs_lt.1 A3
  have hb2 := abs_lt.1 B3
  have hsum : |r + s - l.modeOf dw| < nx := by
    rw [abs_lt]
    have h1 := neg_abs_le s; have h2 := le_abs_self s
    have h3 := neg_abs_le r; have h4 := le_abs_self r
    constructor <;> omega
  have : c = 0 := by
    by_contra hne
    rw [hcc, abs_mul, abs_of_pos hN] at hsum
    have : 1 ≤ |c| := Int.one_le_abs hne
    nlinarith
  rw [this, mul_zero] at hcc
  have hz : r + s = l.modeOf dw := by omega
  rw [es, er, ← add_mul]
  congr 1
  exact_mod_cast hz

/-- The isotropic filter does not dealias (the default): waves whose sum is 32 modes away from the pump are coupled, with the
usual cut-off of 0.66 and a resolved pump. -/
theorem isotropic_aliases_partial : ∃ F : Arr 32 1 ℝ, filterGrid (2 * Real.pi / 32) 1 0.66 0 "isotropic" (14, 0) = .ok F ∧
    (14 : ℝ) < nyquist 32 (2 * Real.pi / 32) ∧ F (-9 : ℤ) 0 = 1 ∧ F ((14 : ℤ) - (-9 : ℤ)) 0 = 1 ∧
    kax (2 * Real.pi / 32) ((14 : ℤ) - (-9 : ℤ) : ZMod 32) + kax (2 * Real.pi / 32) ((-9 : ℤ) : ZMod 32) ≠ 14 := by
  have hp := Real.pi_pos
  have hd : (0 : ℝ) < 2 * Real.pi / 32 := by positivity
  have hone : 2 * Real.pi / (((32 : ℕ) : ℝ) * (2 * Real.pi / 32)) = 1 := by push_cast; field_simp
  have k9 : kax (2 * Real.pi / 32) ((-9 : ℤ) : ZMod 32) = -9 := by
    rw [kax_unique (N := 32) _ (-9) (by norm_num) (by norm_num), hone]; norm_num
  have e23 : ((14 : ℤ) - (-9 : ℤ) : ZMod 32) = ((-9 : ℤ) : ZMod 32) := by decide
  have hm : kmax 32 (2 * Real.pi / 32) = 15 := by rw [kmax_eq hd, hone]; norm_num
  have hF : isotropic (nx := 32) (ny := 1) (2 * Real.pi / 32) 1 0.66 0 ((-9 : ℤ) : ZMod 32) 0 = 1 := by
    unfold isotropic kmag
    rw [hm, k9, kax_eq, kfull_zero]
    have : Real.sqrt ((-9) ^ 2 + 0 ^ 2) = 9 := by
      rw [show ((-9 : ℝ)) ^ 2 + 0 ^ 2 = 9 ^ 2 by norm_num, Real.sqrt_sq (by norm_num)]
    rw [this]
    norm_num
  refine ⟨_, rfl, ?_, hF, ?_, ?_⟩
  · rw [nyquist_eq hd, hone]; norm_num
  · rw [e23]; exact hF
  · rw [e23, k9]; norm_num

/-- The speckle's transverse support is computed with the wave number in the plasma and not in vacuum: the outermost beamlet of a
plate with 8 beamlets at quarter-critical density lies outside. -/
theorem speckle_support_partial : ∃ (lam f D w0 c : ℝ), 0 < lam ∧ 0 < f ∧ 0 < D ∧ w0 / c = 2 * Real.pi / lam ∧
    (pumpSupport w0 c (w0 * Real.sqrt 0.25) (some (0, some (D / (2 * f))))).2 <
      2 * Real.pi / 8 * Speckle.lens 8 7 / (lam * f / D) := by
  refine ⟨1, 1, 1, 2 * Real.pi, 1, by norm_num, by norm_num, by norm_num, by ring, ?_⟩
  unfold pumpSupport Speckle.lens Grid.linspaceAt
  simp only
  have hp := Real.pi_pos
  have e : (2 * Real.pi * Real.sqrt 0.25 / (2 * Real.pi)) ^ 2 = 0.25 := by
    rw [mul_div_cancel_left₀ _ (by positivity), Real.sq_sqrt (by norm_num)]
  rw [e]
  have hs : Real.sqrt ((1 + 0) ^ 2 - 0.25) < 0.874 := by
    rw [Real.sqrt_lt' (by norm_num)]; norm_num
  norm_num at hs ⊢
  nlinarith

/-- C173: absorbing boundaries only ever absorb, whatever the widths; periodic boundaries leave the fields alone. -/
theorem absorbing_range (kx ky : String) (width coeff dt x0 x1 y0 y1 x y : ℝ) (hw : 0 < width) (hc : 0 ≤ coeff) (hd : 0 ≤ dt) :
    let B := absorbing coeff dt (envelopeAxis kx width x0 x1 x) (envelopeAxis ky width y0 y1 y)
    0 < B ∧ B ≤ 1 ∧ (kx ≠ "absorbing" → ky ≠ "absorbing" → B = 1) ∧ (0 < coeff → 0 < dt → kx = "absorbing" ∨ ky = "absorbing" → B < 1) := by
  intro B
  have hax : ∀ k lo hi z, |envelopeAxis k width lo hi z| ≤ 1 ∧ (k = "absorbing" → |envelopeAxis k width lo hi z| < 1) := by
    intro k lo hi z
    unfold envelopeAxis
    split
    · have := (Driver.getEnvelope_inside (width / 5) (width / 5) (lo + width) (hi - width) z (by positivity) (by positivity)).1
      exact ⟨this.le, fun _ => this⟩
    · rename_i h; simp [h]
  have h1 := hax kx x0 x1 x; have h2 := hax ky y0 y1 y
  have hprod : |envelopeAxis kx width x0 x1 x * envelopeAxis ky width y0 y1 y| ≤ 1 := by
    rw [abs_mul]; exact mul_le_one₀ h1.1 (abs_nonneg _) h2.1
  refine ⟨Real.exp_pos _, ?_, ?_, ?_⟩
  · show Real.exp _ ≤ 1
    rw [Real.exp_le_one_iff]
    have := (abs_le.1 hprod).2
    have := mul_nonneg hc hd
    nlinarith
  · intro a b
    simp [B, absorbing, envelopeAxis, a, b]
  · intro c1 d1 h
    show Real.exp _ < 1
    rw [Real.exp_lt_one_iff]
    have : envelopeAxis kx width x0 x1 x * envelopeAxis ky width y0 y1 y < 1 := by
      refine lt_of_le_of_lt (le_abs_self _) ?_
      rw [abs_mul]
      rcases h with h | h
      · exact mul_lt_one_of_nonneg_of_lt_one_left (abs_nonneg _) (h1.2 h) h2.1
      · exact mul_lt_one_of_nonneg_of_lt_one_right h1.1 (abs_nonneg _) (h2.2 h)
    have := mul_pos c1 d1
    nlinarith

/-- C164, C173: the filter and boundaries every deck produces meet the assumptions of the energy theorem. -/
theorem deck_physical (p : Epw nx ny) (hx : 0 < p.dx) (hy : 0 < p.dy) (ht : 0 ≤ p.dt) (hw : 0 < p.wp0) (hv : 0 < p.vteSq) (hn : 0 ≤ p.nuColl)
    (lp taper : ℝ) (dealias : String) (sup : ℝ × ℝ) (hF : filterGrid p.dx p.dy lp taper dealias sup = .ok p.lowPass)
    (bx bY : String) (width coeff x0 x1 y0 y1 : ℝ) (X : ZMod nx → ℝ) (Y : ZMod ny → ℝ) (hwid : 0 < width) (hc : 0 ≤ coeff)
    (hB : ∀ x y, p.boundary x y = absorbing coeff p.dt (envelopeAxis bx width x0 x1 (X x)) (envelopeAxis bY width y0 y1 (Y y))) : Physical p where
  dx := hx
  dy := hy
  dt := ht
  wp0 := hw
  vte := hv
  nu := hn
  low := filter_range p.dx p.dy lp taper dealias sup p.lowPass hF
  bnd x y := by
    rw [hB]
    have h := absorbing_range bx bY width coeff p.dt x0 x1 y0 y1 (X x) (Y y) hwid hc ht
    exact ⟨h.1.le, h.2.1⟩

end Verif.Lpse

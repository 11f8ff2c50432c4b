import Verif.Props.HermiteConserve
import Verif.Props.Driver

/-!
C108 (equilibrium), C110 (linear response and options), C111 (drivers), C112 (initial state) and C113 (sponge)
of the Hermite-Poisson solver.
-/
namespace Verif.Hermite
open Finset Complex Verif.Spectral
open scoped Matrix ComplexConjugate

variable {N : ℕ} [NeZero N] {n ne ni : ℕ} [NeZero n] [NeZero ne] [NeZero ni]

/-! ### C108 -/

/-- A uniform plasma at rest in the basis: only the mean density. -/
def Uniform (C : Coef n N) : Prop := ∀ i k, ¬ (i = 0 ∧ k = 0) → C i k = 0

theorem toX_mean (c : ZMod N → ℂ) (h : ∀ k, k ≠ 0 → c k = 0) (x : ZMod N) : toX c x = c 0 := by
  have hN : (N : ℂ) ≠ 0 := Nat.cast_ne_zero.mpr (NeZero.ne N)
  have e : c = toK fun _ => c 0 := by
    funext k
    by_cases hk : k = 0
    · subst hk; rw [toK_mean]; simp [hN]
    · have h1 := fft_const (nx := N) (c 0).re hk
      have h2 := fft_const (nx := N) (c 0).im hk
      have h3 : (fun _ : ZMod N => c 0) = fun j : ZMod N => (fun _ : ZMod N => (((c 0).re : ℝ) : ℂ)) j + I * (fun _ : ZMod N => (((c 0).im : ℝ) : ℂ)) j := by
        funext j; simp only; rw [mul_comm]; exact (Complex.re_add_im (c 0)).symm
      rw [h k hk, toK, h3, Vfp2d.fft_add, Vfp2d.fft_smul, h1, h2]; simp
  rw [congrArg (fun c => toX c x) e, toX_toK]

theorem field_const (L r : ℝ) : field L (fun _ : ZMod N => r) = fun _ => 0 := by
  refine toK_inj fun k => ?_
  rw [toK_field]
  have hz : toK (fun _ : ZMod N => (((0 : ℝ) : ℝ) : ℂ)) k = 0 := by
    rw [toK, show (fun _ : ZMod N => ((0 : ℝ) : ℂ)) = 0 from by funext x; simp, Spectral.fft, map_zero]; simp
  rw [hz]
  split_ifs
  · rfl
  · by_cases hk : k = 0
    · subst hk; rw [oneOverKx, if_pos ZMod.val_zero]; simp
    · rw [toK, fft_const r hk]; simp

theorem uniform_density (alpha : ℝ) (C : Coef n N) (h : Uniform C) (x : ZMod N) : density alpha C x = alpha ^ 3 * (C 0 0).re := by
  rw [density, toX_mean _ fun k hk => h 0 k (by simp [hk])]

theorem stream_null (d : Eigh n) (alpha : ℝ) (k : ZMod N → ℝ) (C : Coef n N) (s : ℝ) (q : ZMod N) (h : ∀ i, C i q = 0) (i : Fin n) :
    stream d alpha k C s i q = 0 := by
  rw [stream]; simp [h]

theorem linear_uniform {d : Eigh n} {T : Matrix (Fin n) (Fin n) ℝ} (hd : IsEigh d T) (alpha L : ℝ) (p : Damping n) (hk : Keeps p 0) (C : Coef n N) (hC : Uniform C)
    (s : ℝ) : linear d alpha p (kx L) C s = C := by
  funext i q
  by_cases hq : q = 0
  · subst hq
    by_cases hi : i = 0
    · subst hi; exact linear_keeps hd _ _ _ 0 (kx_zero _) 0 hk.1 hk.2 _ _
    · rw [linear, damping_eq, stream_mean hd _ _ _ _ _ (kx_zero L), hC i 0 (by simp [hi]), zero_mul]
  · rw [linear, damping_eq, stream_null _ _ _ _ _ _ (fun i => hC i q (by simp [hq])), zero_mul, hC i q (by simp [hq])]

omit [NeZero n] in
theorem force_null (C : Coef n N) (alpha omega dt : ℝ) (terms : ℕ) : forceExp C (fun _ => 0) alpha omega dt none terms = C := by
  funext i
  rw [← toK_toX (forceExp C (fun _ => 0) alpha omega dt none terms i), ← toK_toX (C i)]
  congr 1; funext x
  rw [force_series, Finset.sum_eq_single 0]
  · rw [at', dif_pos (by have := i.2; omega)]; simp [div_self (sqrt_fact_ne i.val)]
  · intro k _ hk; rw [mul_zero, mul_zero, zero_div, zero_pow hk]; simp
  · simp

theorem maskedForce_null (m : Option (ZMod N → Bool)) : maskedForce m (fun _ : ZMod N => 0) = fun _ => 0 := by
  funext x
  have := maskedForce_lin m 0 0 (fun _ : ZMod N => 0) (fun _ => 0) x
  rw [show (fun _ : ZMod N => (0 : ℝ) * 0 + 0 * 0) = fun _ => 0 from by funext x; ring] at this
  rw [this]; ring

omit [NeZero n] in
theorem coupling_null (C : Coef n N) (qm alpha omega : ℝ) (m : Option (ZMod N → Bool)) : coupling C (fun _ => 0) qm alpha omega m = 0 := by
  funext i k
  rw [coupling, maskedForce_null]
  simp only [ofReal_zero, mul_zero, zero_mul]
  have : toK (fun _ : ZMod N => (0 : ℂ)) = fun _ => 0 := by
    funext k; rw [toK, show (fun _ : ZMod N => (0 : ℂ)) = 0 from rfl, Spectral.fft, map_zero]; simp
  rw [this]
  rcases m with _ | m <;> simp [masked]

theorem force_uniform (p : Setup ne ni N) (hb : Built p) (C eq : Coef n N) (hC : Uniform C) (alpha : ℝ) :
    p.force C eq (fun _ => 0) alpha = C := by
  have hm : ∀ i, masked p.mask (C i) = C i := by
    intro i; funext k
    rcases hmm : p.mask with _ | f
    · rfl
    · rw [masked]
      by_cases hk : k = 0
      · subst hk; rw [if_pos (hb.mask0 f hmm)]
      · split_ifs
        · rfl
        · exact (hC i k (by simp [hk])).symm
  rw [Setup.force]
  split_ifs
  · rw [coupling_null]; funext i k; simp
  · rcases hmm : p.mask with _ | f
    · rw [force_null]
    · funext i
      rw [(force_masked f C _ alpha p.omega p.dt p.terms i).1, maskedForce_null, force_null, ← hmm]
      have e : (fun j => masked p.mask (C j)) = C := funext hm
      rw [hm, hm]

theorem sponge_uniform (s : Option (ZMod N → ℝ)) (dt : ℝ) (C : Coef n N) (hC : Uniform C) : spongeK s dt C = C := by
  funext i
  by_cases hi : i = 0
  · subst hi; exact sponge_density s dt C
  · rcases s with _ | s
    · rfl
    · have h0 : C i = fun _ => 0 := by funext k; exact hC i k (by simp [hi])
      have hx : ∀ x, toX (C i) x = 0 := fun x => by rw [toX_mean _ (fun k _ => by rw [h0]), h0]
      simp only [spongeK, hx, zero_mul]
      rw [h0]
      funext k; rw [toK, show (fun _ : ZMod N => (0 : ℂ)) = 0 from rfl, Spectral.fft, map_zero]; simp

/-- Static ion density, if any, is that of uniform ions. -/
def UniformBackground (p : Setup ne ni N) : Prop := ∀ d, p.staticDensity = some d → ∃ r, d = fun _ => r

theorem ex_uniform (p : Setup ne ni N) (hbg : UniformBackground p) (c : Ks ne ni N) (h1 : Uniform c.1) (h2 : Uniform c.2) : p.ex c = fun _ => 0 := by
  have : ∃ r, (fun x => p.ionDensity c.2 x - density p.alphaE c.1 x) = fun _ => r := by
    rcases hs : p.staticDensity with _ | d
    · exact ⟨p.alphaI ^ 3 * (c.2 0 0).re - p.alphaE ^ 3 * (c.1 0 0).re, by
        funext x; rw [Setup.ionDensity, hs]; simp only; rw [uniform_density _ _ h1, uniform_density _ _ h2]⟩
    · obtain ⟨r, hr⟩ := hbg d hs
      exact ⟨r - p.alphaE ^ 3 * (c.1 0 0).re, by funext x; rw [Setup.ionDensity, hs]; simp only; rw [hr, uniform_density _ _ h1]⟩
  obtain ⟨r, hr⟩ := this
  rw [Setup.ex, hr, field_const]

/-- A uniform plasma without drivers or noise stays as it is, for any number of steps, with either
integrator, any collisions, sponge and linear response; no field appears, even if the charges do not
balance (the mean of the charge density is ignored). -/
theorem equilibrium (p : Setup ne ni N) (hb : Built p) (hbg : UniformBackground p) (hE : Keeps p.dampE 0) (hI : Keeps p.dampI 0)
    (hx : p.exDriver = fun _ _ => 0) (hy : p.eyDriver = fun _ _ => 0) (hn : p.noise = fun _ _ => 0) (y : State ne ni N) (h1 : Uniform y.c.1) (h2 : Uniform y.c.2)
    (ha : y.a = fun _ => 0) (hp : y.prev = fun _ => 0) (m : ℕ) :
    (p.run y m).c = y.c ∧ (p.run y m).a = (fun _ => 0) ∧ (p.run y m).prev = (fun _ => 0) ∧ (m ≠ 0 → (p.run y m).e = fun _ => 0) := by
  obtain ⟨T, hT⟩ := hb.eE
  obtain ⟨T', hT'⟩ := hb.eI
  have hexp : ∀ s (c : Ks ne ni N), Uniform c.1 → Uniform c.2 → p.exp s c = c := by
    intro s c u1 u2
    rw [Setup.exp, linear_uniform hT _ _ _ hE _ u1]
    refine Prod.ext rfl ?_
    simp only
    split_ifs
    · rfl
    · rw [linear_uniform hT' _ _ _ hI _ u2]
  have hacc : ∀ q, acceleration q (fun _ : ZMod N => (0 : ℝ)) (fun _ => 0) = fun _ => 0 := fun q => by funext x; simp [acceleration]
  have hstep : ∀ t (z : State ne ni N), z.c = y.c → z.a = (fun _ => 0) → z.prev = (fun _ => 0) → (p.step t z).c = y.c ∧ (p.step t z).e = fun _ => 0 := by
    intro t z hz hza hzp
    have hc : (if p.strang = true then p.strangStep t z else lawson p.exp (p.rhs (pond p.dx z.a) (p.noise t)) t p.dt z.c) = y.c := by
      split_ifs
      · rw [Setup.strangStep]
        simp only [hz, hza, hzp, mul_zero, sub_zero, pond_null, hx, hn, hexp _ y.c h1 h2, ex_uniform p hbg y.c h1 h2, add_zero, hacc]
        rw [force_uniform p hb _ _ h1, force_uniform p hb _ _ h2]
        simp only [ite_self]
        exact hexp _ y.c h1 h2
      · have hr : ∀ s (c : Ks ne ni N), Uniform c.1 → Uniform c.2 → p.rhs (pond p.dx z.a) (p.noise t) s c = 0 := by
          intro s c u1 u2
          rw [Setup.rhs]
          simp only [hza, pond_null, hx, hn, ex_uniform p hbg c u1 u2, add_zero, hacc, coupling_null, ite_self]
          rfl
        have h0 : ∀ s, p.exp s (0 : Ks ne ni N) = 0 := fun s => hexp s 0 (fun _ _ _ => rfl) (fun _ _ _ => rfl)
        unfold lawson
        simp only [hz, hexp _ y.c h1 h2, hr _ y.c h1 h2, h0, smul_zero, add_zero]
    rw [Setup.step]
    simp only [hc]
    refine ⟨?_, ex_uniform p hbg y.c h1 h2⟩
    rw [sponge_uniform _ _ _ h1, sponge_uniform _ _ _ h2]
  induction m with
  | zero => exact ⟨rfl, ha, hp, fun h => absurd rfl h⟩
  | succ m ih =>
    rw [Setup.run]
    have hd := step_dark p hy (m * p.dt) (p.run y m) ih.2.1 ih.2.2.1
    have hs := hstep (m * p.dt) (p.run y m) ih.1 ih.2.1 ih.2.2.1
    exact ⟨hs.1, hd.1, hd.2, fun _ => hs.2⟩

/-! ### C112 -/

theorem wave_re (m : ℕ) (x : ZMod N) : (Vfp2d.wave (m : ℤ) x).re = Real.cos (2 * Real.pi * m * x.val / N) := by
  rw [Vfp2d.wave]
  rw [show (2 * Real.pi * I * ((m : ℤ) : ℂ) * x.val / N : ℂ) = ((2 * Real.pi * m * x.val / N : ℝ) : ℂ) * I by push_cast; ring]
  rw [Complex.exp_ofReal_mul_I_re]

/-- One Fourier coefficient is a wave. -/
theorem toX_single (m : ℤ) (x : ZMod N) : toX (fun k => if k = (m : ZMod N) then 1 else 0) x = Vfp2d.wave m x := by
  have hN : (N : ℂ) ≠ 0 := Nat.cast_ne_zero.mpr (NeZero.ne N)
  have : (fun k : ZMod N => if k = (m : ZMod N) then (1 : ℂ) else 0) = toK (Vfp2d.wave m) := by
    funext k; rw [toK, Vfp2d.fft_wave]; split_ifs <;> simp [hN]
  rw [this, toX_toK]

/-- The initial electrons: uniform, or with exactly the requested cosine when the mode is resolved and
is neither the mean nor the Nyquist mode. -/
theorem initial_density (alpha n0 : ℝ) (ha : alpha ≠ 0) :
    (∀ x : ZMod N, density alpha (initialE ne alpha n0 none) x = n0) ∧
    ∀ (m : ℕ) (eps : ℝ), 0 < m → m < N → 2 * m ≠ N → ∀ x : ZMod N,
      density alpha (initialE ne alpha n0 (some (m, eps))) x = n0 * (1 + eps * Real.cos (2 * Real.pi * m * x.val / N)) := by
  have h3 : alpha ^ 3 ≠ 0 := pow_ne_zero 3 ha
  constructor
  · intro x
    rw [uniform_density _ _ (fun i k h => by rw [initialE]; simp [h])]
    rw [initialE]; simp only [and_self, if_true, ofReal_re]; field_simp
  · intro m eps h0 hN h2 x
    have hmv : ((m : ℕ) : ZMod N).val = m := by rw [ZMod.val_natCast, Nat.mod_eq_of_lt hN]
    have hm0 : ((m : ℕ) : ZMod N) ≠ 0 := by intro h; have := congrArg ZMod.val h; rw [hmv, ZMod.val_zero] at this; omega
    have hmn : ((m : ℕ) : ZMod N) ≠ -((m : ℕ) : ZMod N) := by
      intro h; exact h2 (by have := (neg_eq_self_iff (k := ((m : ℕ) : ZMod N)) (by rw [hmv]; omega)).1 h.symm; rw [hmv] at this; exact this)
    have e : initialE ne alpha n0 (some (m, eps)) 0 = fun k : ZMod N => ((n0 / alpha ^ 3 : ℝ) : ℂ) * (if k = ((0 : ℤ) : ZMod N) then 1 else 0) +
        ((0.5 * eps * n0 / alpha ^ 3 : ℝ) : ℂ) * ((if k = ((m : ℤ) : ZMod N) then 1 else 0) + (if k = ((-m : ℤ) : ZMod N) then 1 else 0)) := by
      funext k
      rw [initialE]
      simp only [true_and, hN, hN.le]
      push_cast
      by_cases hk : k = (m : ZMod N)
      · subst hk; simp [hm0, hmn]
      · by_cases hk' : k = -(m : ZMod N)
        · subst hk'; simp [hm0, Ne.symm hmn]
        · simp [hk, hk']
    rw [density, e, toX_add, toX_smul, toX_smul, toX_add, toX_single, toX_single, toX_single]
    have w0 : (Vfp2d.wave (0 : ℤ) x : ℂ) = 1 := by rw [Vfp2d.wave]; simp
    have wn : (Vfp2d.wave (m : ℤ) x + Vfp2d.wave (-m : ℤ) x).re = 2 * Real.cos (2 * Real.pi * m * x.val / N) := by
      rw [Complex.add_re, wave_re]
      have : (Vfp2d.wave (-m : ℤ) x : ℂ).re = Real.cos (2 * Real.pi * m * x.val / N) := by
        rw [Vfp2d.wave, show (2 * Real.pi * I * ((-m : ℤ) : ℂ) * x.val / N : ℂ) = ((-(2 * Real.pi * m * x.val / N) : ℝ) : ℂ) * I by push_cast; ring,
          Complex.exp_ofReal_mul_I_re, Real.cos_neg]
      rw [this]; ring
    rw [w0, Complex.add_re, re_ofReal_mul, re_ofReal_mul, wn]
    simp only [one_re, mul_one]
    field_simp
    ring

/-- Two modes give something else: mode zero (and mode `N`) replaces the mean density by
`eps n0 / 2`; a mode beyond `N` is ignored. -/
theorem initial_modes (alpha n0 eps : ℝ) (ha : alpha ≠ 0) (x : ZMod N) :
    density alpha (initialE ne alpha n0 (some (0, eps))) x = eps * n0 / 2 ∧ density alpha (initialE ne alpha n0 (some (N, eps))) x = eps * n0 / 2 ∧
    ∀ m, N < m → density alpha (initialE ne alpha n0 (some (m, eps))) x = n0 := by
  have h3 : alpha ^ 3 ≠ 0 := pow_ne_zero 3 ha
  have hN : 0 < N := Nat.pos_of_ne_zero (NeZero.ne N)
  refine ⟨?_, ?_, ?_⟩
  · rw [uniform_density _ _ (fun i k h => by rw [initialE]; simp [hN, h])]
    rw [initialE]
    simp only [true_and, hN, Nat.cast_zero, true_or, if_true, ofReal_re]; norm_num; field_simp
  · rw [uniform_density _ _ (fun i k h => by rw [initialE]; simp [h])]
    rw [initialE]
    simp only [true_and, lt_irrefl, false_and, le_refl, CharP.cast_eq_zero, neg_zero, false_or, if_true, ofReal_re]; norm_num; field_simp
  · intro m hm
    have e : initialE ne alpha n0 (some (m, eps)) = initialE (N := N) ne alpha n0 none := by
      funext i k; rw [initialE, initialE]; simp [not_lt.mpr hm.le, not_le.mpr hm]
    rw [e]; exact (initial_density alpha n0 ha).1 x

/-- The Nyquist mode has half the requested amplitude. -/
theorem initial_nyquist (alpha n0 eps : ℝ) (ha : alpha ≠ 0) (m : ℕ) (hm : 0 < m) (hN : 2 * m = N) (x : ZMod N) :
    density alpha (initialE ne alpha n0 (some (m, eps))) x = n0 * (1 + eps / 2 * Real.cos (2 * Real.pi * m * x.val / N)) := by
  have h3 : alpha ^ 3 ≠ 0 := pow_ne_zero 3 ha
  have hlt : m < N := by omega
  have hmv : ((m : ℕ) : ZMod N).val = m := by rw [ZMod.val_natCast, Nat.mod_eq_of_lt hlt]
  have hm0 : ((m : ℕ) : ZMod N) ≠ 0 := by intro h; have := congrArg ZMod.val h; rw [hmv, ZMod.val_zero] at this; omega
  have hmn : -((m : ℕ) : ZMod N) = ((m : ℕ) : ZMod N) := (neg_eq_self_iff (by rw [hmv]; omega)).2 (by rw [hmv]; exact hN)
  have e : initialE ne alpha n0 (some (m, eps)) 0 = fun k : ZMod N => ((n0 / alpha ^ 3 : ℝ) : ℂ) * (if k = ((0 : ℤ) : ZMod N) then 1 else 0) +
      ((0.5 * eps * n0 / alpha ^ 3 : ℝ) : ℂ) * (if k = ((m : ℤ) : ZMod N) then 1 else 0) := by
    funext k
    rw [initialE]
    simp only [true_and, hlt, hlt.le, hmn]
    push_cast
    by_cases hk : k = (m : ZMod N)
    · subst hk; simp [hm0]
    · simp [hk]
  rw [density, e, toX_add, toX_smul, toX_smul, toX_single, toX_single, Complex.add_re, re_ofReal_mul, re_ofReal_mul, wave_re]
  have w0 : (Vfp2d.wave (0 : ℤ) x : ℂ) = 1 := by rw [Vfp2d.wave]; simp
  rw [w0, one_re]
  field_simp
  ring

example (x : ZMod 8) : density 2 (initialE 4 2 3 (some (2, 1 / 10))) x = 3 * (1 + 1 / 10 * Real.cos (2 * Real.pi * (2 : ℕ) * x.val / (8 : ℕ))) :=
  (initial_density 2 3 (by norm_num)).2 2 (1 / 10) (by norm_num) (by norm_num) (by norm_num) x

/-! ### C113 -/

/-- The plasma sponge multiplies, at each position, every coefficient but the density by
`exp(-s dt)`; the field sponge acts on the interior points only.  With a non-negative profile
nothing grows. -/
theorem sponge_effect (s : ZMod N → ℝ) (dt : ℝ) (C : Coef n N) (a : ℕ → ℝ) :
    spongeK (some s) dt C 0 = C 0 ∧ (∀ i, i ≠ 0 → ∀ x, toX (spongeK (some s) dt C i) x = toX (C i) x * (Real.exp (-s x * dt) : ℝ)) ∧
    spongeA (some s) dt a 0 = a 0 ∧ spongeA (some s) dt a (N + 1) = a (N + 1) ∧
    (∀ x : ZMod N, spongeA (some s) dt a (x.val + 1) = a (x.val + 1) * Real.exp (-s x * dt)) ∧
    ((∀ x, 0 ≤ s x) → 0 ≤ dt → (∀ i x, ‖toX (spongeK (some s) dt C i) x‖ ≤ ‖toX (C i) x‖) ∧ ∀ i, |spongeA (some s) dt a i| ≤ |a i|) := by
  have hk : ∀ i, i ≠ 0 → ∀ x, toX (spongeK (some s) dt C i) x = toX (C i) x * (Real.exp (-s x * dt) : ℝ) := by
    intro i hi x
    have hv : i.val ≠ 0 := fun h => hi (Fin.ext (by rw [h, Fin.val_zero]))
    simp only [spongeK, if_neg hv]; rw [toX_toK]
  have h1 : ∀ (x : ZMod N), (∀ x, 0 ≤ s x) → 0 ≤ dt → Real.exp (-s x * dt) ≤ 1 := fun x h hd => Real.exp_le_one_iff.mpr (by nlinarith [h x])
  refine ⟨sponge_density _ _ _, hk, by simp [spongeA], by simp [spongeA], fun x => ?_, fun hs hd => ⟨fun i x => ?_, fun i => ?_⟩⟩
  · have := x.val_lt
    simp only [spongeA]
    rw [if_pos ⟨by omega, by omega⟩, Nat.add_sub_cancel, ZMod.natCast_zmod_val]
  · by_cases hi : i = 0
    · subst hi; rw [sponge_density]
    · rw [hk i hi, norm_mul, Complex.norm_real, Real.norm_eq_abs, abs_of_pos (Real.exp_pos _)]
      exact mul_le_of_le_one_right (norm_nonneg _) (h1 x hs hd)
  · simp only [spongeA]
    split_ifs
    · rw [abs_mul, abs_of_pos (Real.exp_pos _)]
      exact mul_le_of_le_one_right (abs_nonneg _) (h1 _ hs hd)
    · exact le_rfl
end Verif.Hermite

import Verif.Spec.Norm
import Mathlib.Tactic.FieldSimp
import Mathlib.Tactic.NormNum
import Mathlib.Tactic.Linarith
import Mathlib.Tactic.Positivity

/-! C29 (normalize) and C53 (the normalisations fit together). -/
namespace Verif.Norm

theorem magnitude_ok {q : Qty} {r : ℝ} : magnitude q = .ok r ↔ q.dim = Dim.none ∧ q.val = r := by
  unfold magnitude Qty.to
  split
  · rename_i h; split at h
    · cases h; simp [*]
    · cases h
  · rename_i h; split at h
    · cases h
    · simp [*]

theorem div_dim_none (a b : Dim) : a.mul (b.pow (-1)) = Dim.none ↔ a = b := by
  simp only [Dim.mul, Dim.pow, Dim.none, Dim.ext_iff]
  constructor
  · rintro ⟨h1, h2, h3, h4, h5⟩; refine ⟨?_, ?_, ?_, ?_, ?_⟩ <;> linarith
  · rintro ⟨h1, h2, h3, h4, h5⟩; refine ⟨?_, ?_, ?_, ?_, ?_⟩ <;> linarith

theorem mul_dim_none (a b : Dim) : a.mul b = Dim.none ↔ a = Dim.none.mul (b.pow (-1)) := by
  simp only [Dim.mul, Dim.pow, Dim.none, Dim.ext_iff]
  constructor
  · rintro ⟨h1, h2, h3, h4, h5⟩; refine ⟨?_, ?_, ?_, ?_, ?_⟩ <;> linarith
  · rintro ⟨h1, h2, h3, h4, h5⟩; refine ⟨?_, ?_, ?_, ?_, ?_⟩ <;> linarith

theorem magnitude_div {q w : Qty} (hw : w.val ≠ 0) {r : ℝ} : magnitude (q.div w) = .ok r ↔ q = times r w := by
  rw [magnitude_ok]
  simp only [Qty.div, div_dim_none, times, Qty.ext_iff]
  rw [div_eq_iff hw, and_comm]

theorem magnitude_mul {q w : Qty} (hw : w.val ≠ 0) {r : ℝ} :
    magnitude (q.mul w) = .ok r ↔ q = times r ((Qty.num 1).div w) := by
  rw [magnitude_ok]
  simp only [Qty.mul, Qty.div, mul_dim_none, times, Qty.ext_iff, Qty.num]
  rw [and_comm]
  constructor
  · rintro ⟨h1, h2⟩; refine ⟨?_, h2⟩; rw [← h1]; field_simp
  · rintro ⟨h1, h2⟩; refine ⟨?_, h2⟩; rw [h1]; field_simp

/-- Numbers are returned as they are. -/
theorem normalize_number (x : ℝ) (n : Option PlasmaNorm) (d : DimArg) : normalize (.num x) n d = .ok x := rfl

/-- A physical quantity is converted to `r` exactly when it is `r` times the unit of
that dimension; in particular a quantity of any other dimension, or a bare number in
a text, is rejected. -/
theorem normalize_text (q : Qty) (n : PlasmaNorm) (hn : NonZero n) (d : DimArg) (r : ℝ) :
    normalize (.text (some q)) (some n) d = .ok r ↔ ∃ w, unitOf n d = some w ∧ q = times r w := by
  obtain ⟨h1, h2, h3, h4⟩ := hn
  cases d with
  | x => simp [normalize, unitOf, magnitude_div h1]
  | t => simp [normalize, unitOf, magnitude_div h2]
  | v => simp [normalize, unitOf, magnitude_div h3]
  | k => simp [normalize, unitOf, magnitude_mul h1]
  | other => simp [normalize, unitOf]
  | temp =>
    simp only [normalize, unitOf]
    cases hT : n.T0 with
    | none => simp
    | some T => simp [magnitude_div (h4 T hT)]

/-- A text without a normalisation, an unknown dimension name, a text that is not a
quantity, and a temperature where no reference temperature exists, are all rejected. -/
theorem normalize_rejects :
    (∀ s d, normalize (.text s) none d = .error .noNorm) ∧
    (∀ s n, normalize (.text s) (some n) .other = .error .unknownDim) ∧
    (∀ n d, ∃ e, normalize (.text none) n d = .error e) ∧
    (∀ s n, n.T0 = none → ∃ e, normalize (.text s) (some n) .temp = .error e) := by
  refine ⟨fun _ _ => rfl, fun _ _ => rfl, ?_, ?_⟩
  · intro n d
    cases n with
    | none => exact ⟨_, rfl⟩
    | some n => cases d <;> exact ⟨_, rfl⟩
  · intro s n hT
    cases s with
    | none => exact ⟨_, rfl⟩
    | some q => exact ⟨.typeError, by simp [normalize, hT]⟩

theorem times_num {r s : ℝ} : times r (Qty.num s) = Qty.num (r * s) := rfl

/-- Phases are preserved: whenever a length and a wavenumber both convert, the
product of the code values is the dimensionless product of the physical ones. -/
theorem phase_invariant (x k : Qty) (n : PlasmaNorm) (hn : NonZero n) (a b : ℝ)
    (hx : normalize (.text (some x)) (some n) .x = .ok a) (hk : normalize (.text (some k)) (some n) .k = .ok b) :
    k.mul x = Qty.num (b * a) := by
  obtain ⟨w, h1, rfl⟩ := (normalize_text _ _ hn _ _).1 hx
  obtain ⟨w', h2, rfl⟩ := (normalize_text _ _ hn _ _).1 hk
  simp only [unitOf, Option.some.injEq] at h1 h2
  subst h1 h2
  have := hn.1
  ext1
  · simp only [Qty.mul, times, Qty.div, Qty.num]; field_simp
  · simp only [Qty.mul, times, Qty.div, Qty.num, Dim.mul, Dim.pow, Dim.none, Dim.ext_iff]
    refine ⟨?_, ?_, ?_, ?_, ?_⟩ <;> ring

/-- Motion is preserved: with a consistent normalisation, covering the length `x` in
the time `t` is the velocity `x / t` in code units too. -/
theorem velocity_invariant (x t : Qty) (n : PlasmaNorm) (hn : NonZero n) (hc : Consistent n) (a b : ℝ)
    (hx : normalize (.text (some x)) (some n) .x = .ok a) (ht : normalize (.text (some t)) (some n) .t = .ok b) :
    normalize (.text (some (x.div t))) (some n) .v = .ok (a / b) := by
  obtain ⟨w, h1, rfl⟩ := (normalize_text _ _ hn _ _).1 hx
  obtain ⟨w', h2, rfl⟩ := (normalize_text _ _ hn _ _).1 ht
  simp only [unitOf, Option.some.injEq] at h1 h2
  subst h1 h2
  refine (normalize_text _ _ hn _ _).2 ⟨_, rfl, ?_⟩
  have h2 := hn.2.1
  ext1
  · simp only [times, Qty.div]
    rw [hc.fit]
    simp only [Qty.mul]
    by_cases hb : b = 0
    · simp [hb]
    · field_simp
  · simp only [times, Qty.div, hc.L0_dim, hc.tau_dim, hc.v0_dim]
    simp only [Dim.mul, Dim.pow, dLength, dTime, dSpeed]
    norm_num

theorem to_ok {q q' : Qty} {d : Dim} : q.to d = .ok q' ↔ q.dim = d ∧ q' = q := by
  unfold Qty.to
  split <;> simp_all [eq_comm]

theorem Consistent.nonZero {n : PlasmaNorm} (h : Consistent n) (hT : ∀ T, n.T0 = some T → T.val ≠ 0) : NonZero n :=
  ⟨ne_of_gt h.L0_pos, ne_of_gt h.tau_pos, ne_of_gt h.v0_pos, hT⟩

theorem bind_ok {α β : Type} {e : Except Err α} {f : α → Except Err β} {b : β} :
    (e >>= f) = .ok b ↔ ∃ a, e = .ok a ∧ f a = .ok b := by
  cases e with
  | error x => simp [bind, Except.bind]
  | ok x => simp [bind, Except.bind]

theorem return_ok {α : Type} {a b : α} : (pure a : Except Err α) = .ok b ↔ b = a := by
  simp [pure, Except.pure, eq_comm]

theorem debye_eq {u : Consts} {m0 q0 n0 T0 : Qty} {n : PlasmaNorm} :
    debye u m0 q0 n0 T0 = .ok n ↔
      ((n0.mul q0.sq).div (m0.mul u.epsQ)).sqrt.dim = dRate ∧ (T0.div m0).sqrt.dim = dSpeed ∧
      ((T0.div m0).sqrt.div ((n0.mul q0.sq).div (m0.mul u.epsQ)).sqrt).dim = dLength ∧
      n = ⟨m0, q0, n0, some T0, (T0.div m0).sqrt.div ((n0.mul q0.sq).div (m0.mul u.epsQ)).sqrt, (T0.div m0).sqrt,
        (Qty.num 1).div ((n0.mul q0.sq).div (m0.mul u.epsQ)).sqrt⟩ := by
  unfold debye
  simp only [bind_ok, return_ok, to_ok]
  constructor
  · rintro ⟨w, ⟨h1, rfl⟩, v, ⟨h2, rfl⟩, x, ⟨h3, rfl⟩, rfl⟩
    exact ⟨h1, h2, h3, rfl⟩
  · rintro ⟨h1, h2, h3, rfl⟩
    exact ⟨_, ⟨h1, rfl⟩, _, ⟨h2, rfl⟩, _, ⟨h3, rfl⟩, rfl⟩

/-- The Debye normalisation of a species of mass `m0` and charge `q0` exists exactly
for a density and a temperature in energy units. -/
theorem debye_ok_iff (u : Consts) (m0 q0 n0 T0 : Qty) (hm : m0.dim = dMass) (hq : q0.dim = dCharge) :
    (∃ n, debye u m0 q0 n0 T0 = .ok n) ↔ n0.dim = dDensity ∧ T0.dim = dEnergy := by
  simp only [debye_eq]
  obtain ⟨nv, n1, n2, n3, n4, n5⟩ := n0
  obtain ⟨tv, t1, t2, t3, t4, t5⟩ := T0
  simp only [Qty.sqrt, Qty.div, Qty.mul, Qty.sq, Consts.epsQ, hm, hq, Dim.mul, Dim.pow, dMass, dCharge, dPermittivity,
    dRate, dSpeed, dLength, dDensity, dEnergy, Dim.mk.injEq]
  constructor
  · rintro ⟨n, ⟨a1, a2, a3, a4, a5⟩, ⟨b1, b2, b3, b4, b5⟩, -, -⟩
    refine ⟨⟨?_, ?_, ?_, ?_, ?_⟩, ⟨?_, ?_, ?_, ?_, ?_⟩⟩ <;> linarith
  · rintro ⟨⟨rfl, rfl, rfl, rfl, rfl⟩, ⟨rfl, rfl, rfl, rfl, rfl⟩⟩
    exact ⟨_, by norm_num, by norm_num, by norm_num, rfl⟩

/-- In Debye units: time is counted in inverse plasma frequencies, length in Debye
lengths, velocity in root mean square thermal velocities, these three fit together,
and the thermal velocity is `√2`. -/
theorem debye_spec (u : Consts) (m0 q0 n0 T0 : Qty) (hm : m0.dim = dMass) (hm0 : 0 < m0.val) (hq : q0.dim = dCharge)
    (hq0 : q0.val ≠ 0) (hn : 0 < n0.val) (hT : 0 < T0.val) (n : PlasmaNorm) (h : debye u m0 q0 n0 T0 = .ok n) :
    Consistent n ∧ (1 / n.tau.val) ^ 2 = n0.val * q0.val ^ 2 / (m0.val * u.eps0) ∧
    n.v0.val ^ 2 = T0.val / m0.val ∧ n.L0.val ^ 2 = u.eps0 * T0.val / (n0.val * q0.val ^ 2) ∧
    vthNorm n = .ok (Real.sqrt 2) ∧ n.n0 = n0 ∧ n.T0 = some T0 := by
  obtain ⟨hd1, hd2⟩ := (debye_ok_iff u m0 q0 n0 T0 hm hq).1 ⟨n, h⟩
  obtain ⟨h1, h2, h3, rfl⟩ := debye_eq.1 h
  have he := u.eps0_pos
  have hw : 0 < n0.val * q0.val ^ 2 / (m0.val * u.eps0) := by positivity
  have hv : 0 < T0.val / m0.val := by positivity
  have hws : 0 < Real.sqrt (n0.val * q0.val ^ 2 / (m0.val * u.eps0)) := Real.sqrt_pos.2 hw
  have hvs : 0 < Real.sqrt (T0.val / m0.val) := Real.sqrt_pos.2 hv
  refine ⟨⟨?_, ?_, hvs, h3, ?_, h2, ?_⟩, ?_, ?_, ?_, ?_, rfl, rfl⟩
  · exact div_pos hvs hws
  · exact div_pos one_pos hws
  · show (Qty.num 1).dim.mul (((n0.mul q0.sq).div (m0.mul u.epsQ)).sqrt.dim.pow (-1)) = dTime
    rw [h1]
    simp [Qty.num, Dim.mul, Dim.pow, dRate, Dim.none, dTime]
  · ext1
    · simp only [Qty.div, Qty.mul, Qty.num]; ring
    · show (T0.div m0).sqrt.dim.mul (((n0.mul q0.sq).div (m0.mul u.epsQ)).sqrt.dim.pow (-1)) =
        (T0.div m0).sqrt.dim.mul ((Qty.num 1).dim.mul (((n0.mul q0.sq).div (m0.mul u.epsQ)).sqrt.dim.pow (-1)))
      rw [h1, h2]
      simp [Qty.num, Dim.mul, Dim.pow, dRate, Dim.none, dSpeed]
  · simp only [Qty.div, Qty.num, Qty.sqrt, Qty.mul, Qty.sq, Consts.epsQ, one_div, inv_inv]
    exact Real.sq_sqrt hw.le
  · exact Real.sq_sqrt hv.le
  · simp only [Qty.div, Qty.sqrt, Qty.mul, Qty.sq, Consts.epsQ]
    rw [div_pow, Real.sq_sqrt hw.le, Real.sq_sqrt hv.le]
    field_simp
  · unfold vthNorm
    simp only
    rw [magnitude_ok]
    constructor
    · simp only [Qty.div, Qty.sqrt, Qty.mul, Qty.num, hm, hd2]
      simp only [Dim.mul, Dim.pow, Dim.none, dMass, dEnergy]
      norm_num
    · simp only [Qty.div, Qty.sqrt, Qty.mul, Qty.num]
      rw [mul_div_assoc, Real.sqrt_mul (by norm_num)]
      field_simp

theorem num_mul_dim (a : ℝ) (q : Qty) : ((Qty.num a).mul q).dim = q.dim := by
  simp [Qty.num, Qty.mul, Dim.mul, Dim.none]

/-- C53 for electrons: `L0 = sqrt(eps0 T0 / (n0 e^2))`, `tau = 1 / wp0`. -/
theorem electron_units (u : Consts) (n0 T0 : Qty) (hn : n0.dim = dDensity) (hT : T0.dim = dEnergy) (hn0 : 0 < n0.val)
    (hT0 : 0 < T0.val) :
    ∃ n, electronDebye u n0 T0 = .ok n ∧ Consistent n ∧ (1 / n.tau.val) ^ 2 = n0.val * u.e ^ 2 / (u.me * u.eps0) ∧
      n.v0.val ^ 2 = T0.val / u.me ∧ n.L0.val ^ 2 = u.eps0 * T0.val / (n0.val * u.e ^ 2) ∧
      vthNorm n = .ok (Real.sqrt 2) := by
  obtain ⟨n, h⟩ := (debye_ok_iff u u.meQ u.eQ n0 T0 rfl rfl).2 ⟨hn, hT⟩
  obtain ⟨a, b, c, d, e, -, -⟩ := debye_spec u u.meQ u.eQ n0 T0 rfl u.me_pos rfl (ne_of_gt u.e_pos) hn0 hT0 n h
  exact ⟨n, h, a, b, c, d, e⟩

/-- C53 for ions of mass `A m_p` and charge `Z e`. -/
theorem ion_units (u : Consts) (n0 T0 : Qty) (A Z : ℝ) (hA : 0 < A) (hZ : Z ≠ 0) (hn : n0.dim = dDensity)
    (hT : T0.dim = dEnergy) (hn0 : 0 < n0.val) (hT0 : 0 < T0.val) :
    ∃ n, ionDebye u n0 T0 A Z = .ok n ∧ Consistent n ∧
      (1 / n.tau.val) ^ 2 = n0.val * (Z * u.e) ^ 2 / (A * u.mp * u.eps0) ∧
      n.v0.val ^ 2 = T0.val / (A * u.mp) ∧ n.L0.val ^ 2 = u.eps0 * T0.val / (n0.val * (Z * u.e) ^ 2) ∧
      vthNorm n = .ok (Real.sqrt 2) := by
  have hm : ((Qty.num A).mul u.mpQ).dim = dMass := num_mul_dim _ _
  have hq : ((Qty.num Z).mul u.eQ).dim = dCharge := num_mul_dim _ _
  obtain ⟨n, h⟩ := (debye_ok_iff u _ _ n0 T0 hm hq).2 ⟨hn, hT⟩
  obtain ⟨a, b, c, d, e, -, -⟩ := debye_spec u _ _ n0 T0 hm (mul_pos hA u.mp_pos) hq
    (mul_ne_zero hZ (ne_of_gt u.e_pos)) hn0 hT0 n h
  exact ⟨n, h, a, b, c, d, e⟩

/-- C53: quantities of the wrong kind are rejected by the Debye factories. -/
theorem debye_rejects (u : Consts) (n0 T0 : Qty) (A Z : ℝ) (hbad : n0.dim ≠ dDensity ∨ T0.dim ≠ dEnergy) :
    (∃ e, electronDebye u n0 T0 = .error e) ∧ (∃ e, ionDebye u n0 T0 A Z = .error e) := by
  have hm : ((Qty.num A).mul u.mpQ).dim = dMass := num_mul_dim _ _
  have hq : ((Qty.num Z).mul u.eQ).dim = dCharge := num_mul_dim _ _
  constructor
  · cases h : electronDebye u n0 T0 with
    | error e => exact ⟨e, rfl⟩
    | ok n =>
      obtain ⟨h1, h2⟩ := (debye_ok_iff u u.meQ u.eQ n0 T0 rfl rfl).1 ⟨n, h⟩
      rcases hbad with hb | hb
      · exact absurd h1 hb
      · exact absurd h2 hb
  · cases h : ionDebye u n0 T0 A Z with
    | error e => exact ⟨e, rfl⟩
    | ok n =>
      obtain ⟨h1, h2⟩ := (debye_ok_iff u _ _ n0 T0 hm hq).1 ⟨n, h⟩
      rcases hbad with hb | hb
      · exact absurd h1 hb
      · exact absurd h2 hb

/-- C53 for lasers: `L0 = λ / 2π`, `v0 = c`, `tau = L0 / c` is the inverse laser
frequency, and `n0` is the density whose electron plasma frequency is the laser's. -/
theorem laser_units (u : Consts) (lam T0 : Qty) (hl : lam.dim = dLength) (hl0 : 0 < lam.val) :
    ∃ n, laser u lam T0 = .ok n ∧ Consistent n ∧ n.L0.val = lam.val / (2 * Real.pi) ∧ n.v0.val = u.c ∧
      n.n0.dim = dDensity ∧ n.n0.val * u.e ^ 2 / (u.me * u.eps0) = (1 / n.tau.val) ^ 2 ∧
      1 / n.tau.val = 2 * Real.pi * u.c / lam.val ∧ cNorm u n = .ok 1 := by
  have hc := u.c_pos
  have he := u.e_pos
  have hm := u.me_pos
  have hp := u.eps0_pos
  have hpi := Real.pi_pos
  have d1 : ((lam.div (Qty.num 2)).div (Qty.num Real.pi)).dim = dLength := by
    simp [Qty.div, Qty.num, hl, Dim.mul, Dim.pow, Dim.none]
  have d2 : (u.cQ.div ((lam.div (Qty.num 2)).div (Qty.num Real.pi))).dim = dRate := by
    show u.cQ.dim.mul ((((lam.div (Qty.num 2)).div (Qty.num Real.pi)).dim).pow (-1)) = dRate
    rw [d1]
    simp [Consts.cQ, Dim.mul, Dim.pow, dLength, dSpeed, dRate]
  have d3 : (((u.epsQ.mul u.meQ).mul (u.cQ.div ((lam.div (Qty.num 2)).div (Qty.num Real.pi))).sq).div u.eQ.sq).dim
      = dDensity := by
    show ((u.epsQ.mul u.meQ).dim.mul ((u.cQ.div ((lam.div (Qty.num 2)).div (Qty.num Real.pi))).dim.pow 2)).mul
      (u.eQ.sq.dim.pow (-1)) = dDensity
    rw [d2]
    simp only [Consts.epsQ, Consts.meQ, Consts.eQ, Qty.mul, Qty.sq, Dim.mul, Dim.pow, dRate, dPermittivity, dMass,
      dCharge, dDensity]
    norm_num
  have hv : ((lam.div (Qty.num 2)).div (Qty.num Real.pi)).val = lam.val / (2 * Real.pi) := by
    simp only [Qty.div, Qty.num]; field_simp
  refine ⟨⟨u.meQ, u.eQ, ((u.epsQ.mul u.meQ).mul (u.cQ.div ((lam.div (Qty.num 2)).div (Qty.num Real.pi))).sq).div u.eQ.sq,
    some T0, (lam.div (Qty.num 2)).div (Qty.num Real.pi), (Qty.num 1).mul u.cQ,
    (Qty.num 1).div (u.cQ.div ((lam.div (Qty.num 2)).div (Qty.num Real.pi)))⟩,
    ?_, ⟨?_, ?_, ?_, d1, ?_, ?_, ?_⟩, hv, ?_, d3, ?_, ?_, ?_⟩
  · unfold laser
    simp only [bind_ok, return_ok, to_ok]
    exact ⟨_, ⟨d1, rfl⟩, _, ⟨d2, rfl⟩, _, ⟨d3, rfl⟩, rfl⟩
  · rw [hv]; positivity
  · simp only [Qty.div, Qty.num, Consts.cQ]; positivity
  · simp only [Qty.mul, Qty.num, Consts.cQ]; positivity
  · show (Qty.num 1).dim.mul ((u.cQ.div ((lam.div (Qty.num 2)).div (Qty.num Real.pi))).dim.pow (-1)) = dTime
    rw [d2]
    simp [Qty.num, Dim.mul, Dim.pow, Dim.none, dRate, dTime]
  · exact num_mul_dim _ _
  · ext1
    · simp only [Qty.div, Qty.mul, Qty.num, Consts.cQ]; field_simp
    · show ((lam.div (Qty.num 2)).div (Qty.num Real.pi)).dim = ((Qty.num 1).mul u.cQ).dim.mul
        ((Qty.num 1).dim.mul ((u.cQ.div ((lam.div (Qty.num 2)).div (Qty.num Real.pi))).dim.pow (-1)))
      rw [d1, d2, num_mul_dim]
      simp [Qty.num, Consts.cQ, Dim.mul, Dim.pow, Dim.none, dRate, dSpeed, dLength]
  · simp [Qty.mul, Qty.num, Consts.cQ]
  · simp only [Qty.div, Qty.mul, Qty.sq, Qty.num, Consts.cQ, Consts.eQ, Consts.meQ, Consts.epsQ]; field_simp
  · simp only [Qty.div, Qty.num, Consts.cQ]; field_simp
  · unfold cNorm
    rw [magnitude_ok]
    constructor
    · show u.cQ.dim.mul (((Qty.num 1).mul u.cQ).dim.pow (-1)) = Dim.none
      rw [num_mul_dim, div_dim_none]
    · simp only [Qty.div, Qty.mul, Qty.num, Consts.cQ]; field_simp

theorem osiris_eq {u : Consts} {wp n0 : Qty} {n : PlasmaNorm} :
    osirisNorm u wp n0 = .ok n ↔ wp.dim = dRate ∧ n0.dim = dDensity ∧
      n = ⟨u.meQ, u.eQ, n0, none, ((Qty.num 1).mul u.cQ).div wp, (Qty.num 1).mul u.cQ, (Qty.num 1).div wp⟩ := by
  unfold osirisNorm
  simp only [bind_ok, return_ok, to_ok]
  constructor
  · rintro ⟨w, ⟨h1, rfl⟩, x, ⟨h3, rfl⟩, m, ⟨h4, rfl⟩, rfl⟩
    exact ⟨h1, h4, rfl⟩
  · rintro ⟨h1, h2, rfl⟩
    refine ⟨_, ⟨h1, rfl⟩, _, ⟨?_, rfl⟩, _, ⟨h2, rfl⟩, rfl⟩
    show ((Qty.num 1).mul u.cQ).dim.mul (wp.dim.pow (-1)) = dLength
    rw [num_mul_dim, h1]
    simp [Consts.cQ, Dim.mul, Dim.pow, dRate, dSpeed, dLength]

/-- The electron plasma frequency at density `n0`. -/
noncomputable def plasmaFreq (u : Consts) (n0 : Qty) : Qty := ⟨Real.sqrt (n0.val * u.e ^ 2 / (u.me * u.eps0)), dRate⟩

/-- C53 for the skin depth units: length `c / wp0`, velocity `c`, time `1 / wp0`, where
`wp0` is the plasma frequency of the reported reference density; no reference
temperature. -/
theorem osiris_units (u : Consts) (wp : Qty) (hw : wp.dim = dRate) (hw0 : 0 < wp.val) :
    ∃ n, skinDepthFromFreq u wp = .ok n ∧ Consistent n ∧ n.v0.val = u.c ∧ 1 / n.tau.val = wp.val ∧
      n.L0.val = u.c / wp.val ∧ n.n0.dim = dDensity ∧ 0 < n.n0.val ∧ plasmaFreq u n.n0 = wp ∧ n.T0 = none := by
  have hc := u.c_pos
  have he := u.e_pos
  have hm := u.me_pos
  have hp := u.eps0_pos
  have d1 : (((wp.sq.mul u.epsQ).mul u.meQ).div u.eQ.sq).dim = dDensity := by
    simp only [Consts.epsQ, Consts.meQ, Consts.eQ, Qty.mul, Qty.div, Qty.sq, Dim.mul, Dim.pow, hw, dRate,
      dPermittivity, dMass, dCharge, dDensity]
    norm_num
  refine ⟨⟨u.meQ, u.eQ, ((wp.sq.mul u.epsQ).mul u.meQ).div u.eQ.sq, none, ((Qty.num 1).mul u.cQ).div wp,
    (Qty.num 1).mul u.cQ, (Qty.num 1).div wp⟩, ?_, ⟨?_, ?_, ?_, ?_, ?_, ?_, ?_⟩, ?_, ?_, ?_, d1, ?_, ?_, rfl⟩
  · unfold skinDepthFromFreq
    rw [bind_ok]
    exact ⟨_, to_ok.2 ⟨d1, rfl⟩, osiris_eq.2 ⟨hw, d1, rfl⟩⟩
  · simp only [Qty.div, Qty.mul, Qty.num, Consts.cQ]; positivity
  · simp only [Qty.div, Qty.num]; positivity
  · simp only [Qty.mul, Qty.num, Consts.cQ]; positivity
  · show ((Qty.num 1).mul u.cQ).dim.mul (wp.dim.pow (-1)) = dLength
    rw [num_mul_dim, hw]
    simp [Consts.cQ, Dim.mul, Dim.pow, dRate, dSpeed, dLength]
  · simp only [Qty.div, Qty.num, hw]
    simp [Dim.mul, Dim.pow, Dim.none, dRate, dTime]
  · exact num_mul_dim _ _
  · ext1
    · simp only [Qty.div, Qty.mul, Qty.num, Consts.cQ]; ring
    · simp [Qty.div, Qty.mul, Qty.num, Consts.cQ, hw, Dim.mul, Dim.pow, Dim.none, dRate, dSpeed]
  · simp [Qty.mul, Qty.num, Consts.cQ]
  · simp [Qty.div, Qty.num]
  · simp [Qty.div, Qty.mul, Qty.num, Consts.cQ]
  · simp only [Qty.div, Qty.mul, Qty.sq, Consts.epsQ, Consts.meQ, Consts.eQ]; positivity
  · ext1
    · simp only [plasmaFreq, Qty.div, Qty.mul, Qty.sq, Consts.epsQ, Consts.meQ, Consts.eQ]
      have : wp.val ^ 2 * u.eps0 * u.me / u.e ^ 2 * u.e ^ 2 / (u.me * u.eps0) = wp.val ^ 2 := by field_simp
      rw [this, Real.sqrt_sq hw0.le]
    · exact hw.symm

/-- C53: giving the reference density, or the plasma frequency it corresponds to, is
the same thing. -/
theorem density_or_frequency (u : Consts) (n0 : Qty) (hn : n0.dim = dDensity) (hn0 : 0 < n0.val) :
    skinDepth u n0 = skinDepthFromFreq u (plasmaFreq u n0) ∧ ∃ n, skinDepth u n0 = .ok n := by
  have he := u.e_pos
  have hm := u.me_pos
  have hp := u.eps0_pos
  have d1 : ((n0.mul u.eQ.sq).div (u.meQ.mul u.epsQ)).sqrt = plasmaFreq u n0 := by
    ext1
    · rfl
    · simp only [plasmaFreq, Consts.epsQ, Consts.meQ, Consts.eQ, Qty.mul, Qty.div, Qty.sq, Qty.sqrt, Dim.mul, Dim.pow, hn,
        dRate, dPermittivity, dMass, dCharge, dDensity]
      norm_num
  have hw : 0 < n0.val * u.e ^ 2 / (u.me * u.eps0) := by positivity
  have d2 : ((((plasmaFreq u n0).sq.mul u.epsQ).mul u.meQ).div u.eQ.sq) = n0 := by
    ext1
    · simp only [plasmaFreq, Consts.epsQ, Consts.meQ, Consts.eQ, Qty.mul, Qty.div, Qty.sq]
      rw [Real.sq_sqrt hw.le]; field_simp
    · simp only [plasmaFreq, Consts.epsQ, Consts.meQ, Consts.eQ, Qty.mul, Qty.div, Qty.sq, Dim.mul, Dim.pow, hn,
        dRate, dPermittivity, dMass, dCharge, dDensity]
      norm_num
  have hto : ∀ (q : Qty) d, q.dim = d → q.to d = .ok q := fun q d h => to_ok.2 ⟨h, rfl⟩
  have e1 : skinDepth u n0 = osirisNorm u (plasmaFreq u n0) n0 := by
    unfold skinDepth
    rw [d1, hto (plasmaFreq u n0) dRate rfl]
    rfl
  have e2 : skinDepthFromFreq u (plasmaFreq u n0) = osirisNorm u (plasmaFreq u n0) n0 := by
    unfold skinDepthFromFreq
    rw [d2, hto _ _ hn]
    rfl
  refine ⟨by rw [e1, e2], ?_⟩
  rw [e1]
  exact ⟨_, osiris_eq.2 ⟨rfl, hn, rfl⟩⟩

/-- A constant table that satisfies `Consts`. -/
def exConsts : Consts := ⟨3, 1, 1, 1836, 1, by norm_num, by norm_num, by norm_num, by norm_num, by norm_num⟩

/-- The factories are applicable: a density 4 and a temperature 9 give `tau = 1/2`. -/
example : ∃ n, electronDebye exConsts ⟨4, dDensity⟩ ⟨9, dEnergy⟩ = .ok n ∧ Consistent n ∧ NonZero n ∧ (1 / n.tau.val) ^ 2 = 4 ∧
    normalize (.text (some (times 7 n.L0))) (some n) .x = .ok 7 := by
  obtain ⟨n, h1, h2, h3, h4, h5, h6⟩ := electron_units exConsts ⟨4, dDensity⟩ ⟨9, dEnergy⟩ rfl rfl (by norm_num) (by norm_num)
  have hT : n.T0 = some ⟨9, dEnergy⟩ := (debye_spec exConsts _ _ _ _ rfl exConsts.me_pos rfl (ne_of_gt exConsts.e_pos)
    (by norm_num) (by norm_num) n h1).2.2.2.2.2.2
  have hz : NonZero n := h2.nonZero (by rw [hT]; rintro T ⟨⟩; norm_num)
  refine ⟨n, h1, h2, hz, ?_, (normalize_text _ _ hz _ _).2 ⟨_, rfl, rfl⟩⟩
  rw [h3]; norm_num [exConsts]

/-- `laser_units`, `osiris_units`, `density_or_frequency` apply to a wavelength, a
frequency, a density. -/
example : (∃ n, laser exConsts ⟨5, dLength⟩ ⟨9, dEnergy⟩ = .ok n) ∧ (∃ n, skinDepthFromFreq exConsts ⟨5, dRate⟩ = .ok n) ∧
    (∃ n, skinDepth exConsts ⟨4, dDensity⟩ = .ok n) ∧ (∃ n, ionDebye exConsts ⟨4, dDensity⟩ ⟨9, dEnergy⟩ 4 2 = .ok n) ∧
    (∃ e, electronDebye exConsts ⟨4, dDensity⟩ ⟨300, ⟨0, 0, 0, 0, 1⟩⟩ = .error e) :=
  ⟨(laser_units exConsts _ _ rfl (by norm_num)).imp fun _ h => h.1,
   (osiris_units exConsts _ rfl (by norm_num)).imp fun _ h => h.1,
   (density_or_frequency exConsts _ rfl (by norm_num)).2,
   (ion_units exConsts _ _ 4 2 (by norm_num) (by norm_num) rfl rfl (by norm_num) (by norm_num)).imp fun _ h => h.1,
   (debye_rejects exConsts _ _ 1 1 (Or.inr (by decide))).1⟩

end Verif.Norm

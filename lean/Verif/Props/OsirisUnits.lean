import Verif.Model.Osiris
import Verif.Props.Norm
import Mathlib.Analysis.Real.Pi.Bounds

/-! C205: physical units recorded for an OSIRIS deck. -/
namespace Verif.Osiris
open Verif.Density Verif.Norm

theorem inUnit_ok {q : Qty} {d : Dim} {f x : ℝ} : inUnit q d f = .ok x ↔ q.dim = d ∧ x = q.val * f := by
  unfold inUnit Qty.to
  split
  · next e h =>
    split at h
    · cases h
    · next hne =>
      constructor
      · intro h; cases h
      · intro h; exact absurd h.1 hne
  · next q' h =>
    split at h
    · next he =>
      injection h with h
      subst h
      constructor
      · intro h
        injection h with h
        exact ⟨he, h.symm⟩
      · rintro ⟨-, rfl⟩; rfl
    · cases h

theorem optUnit_ok {x : Option ℝ} {q : Qty} {d : Dim} {f : ℝ} {r : Option ℝ} (hq : q.dim = d) :
    optUnit x q d f = .ok r ↔ r = x.map fun x => x * q.val * f := by
  unfold optUnit
  cases x with
  | none =>
    constructor
    · intro h; injection h with h; exact h.symm
    · rintro rfl; rfl
  | some x =>
    have : inUnit ((Qty.num x).mul q) d f = .ok (x * q.val * f) := inUnit_ok.2 ⟨by rw [num_mul_dim, hq], rfl⟩
    dsimp only
    rw [this]
    constructor
    · intro h; injection h with h; exact h.symm
    · rintro rfl; rfl

/-- The skin depth units with plasma frequency `w`: what the units of OSIRIS are. -/
noncomputable def skin (u : Consts) (w n : ℝ) : PlasmaNorm :=
  ⟨u.meQ, u.eQ, ⟨n, dDensity⟩, none, ((Qty.num 1).mul u.cQ).div ⟨w, dRate⟩, (Qty.num 1).mul u.cQ, (Qty.num 1).div ⟨w, dRate⟩⟩

/-- The reference of a deck. -/
inductive Reference (u : Consts) (sim : Params ℝ) : ℝ → ℝ → Prop
  /-- The density is given, in particles per cubic centimetre; the plasma frequency is that of the density. -/
  | density (n : ℝ) (h : dictGet sim kN0 = some (.num n)) (hn : 0 < n) : Reference u sim (Real.sqrt (n * 10 ^ 6 * u.e ^ 2 / (u.me * u.eps0))) (n * 10 ^ 6)
  /-- Only the plasma frequency is given, in radians per second. -/
  | frequency (w : ℝ) (h0 : dictGet sim kN0 = none) (h : dictGet sim kOmegaP0 = some (.num w)) (hw : 0 < w) :
      Reference u sim w (w ^ 2 * u.eps0 * u.me / u.e ^ 2)

theorem reference_pos {u : Consts} {sim : Params ℝ} {w n : ℝ} (h : Reference u sim w n) : 0 < w ∧ 0 < n ∧ w ^ 2 = n * u.e ^ 2 / (u.me * u.eps0) := by
  have he := u.e_pos
  have hm := u.me_pos
  have hp := u.eps0_pos
  cases h with
  | density m h hn =>
    have : 0 < m * 10 ^ 6 * u.e ^ 2 / (u.me * u.eps0) := by positivity
    exact ⟨Real.sqrt_pos.2 this, by positivity, Real.sq_sqrt this.le⟩
  | frequency w h0 h hw =>
    refine ⟨hw, by positivity, ?_⟩
    field_simp

theorem refNorm_ok {u : Consts} {sim : Params ℝ} {w n : ℝ} (h : Reference u sim w n) : refNorm u sim = some (.ok (skin u w n)) := by
  have he := u.e_pos
  have hm := u.me_pos
  have hp := u.eps0_pos
  cases h with
  | density m h hn =>
    unfold refNorm
    have hd := (density_or_frequency u ⟨m * 10 ^ 6, dDensity⟩ rfl (by show 0 < m * 10 ^ 6; positivity))
    obtain ⟨h1, n', h2⟩ := hd
    rw [h]
    have h3 : skinDepth u ⟨m * 10 ^ 6, dDensity⟩ = .ok (skin u (Real.sqrt (m * 10 ^ 6 * u.e ^ 2 / (u.me * u.eps0))) (m * 10 ^ 6)) := by
      have h2' := h2
      unfold skinDepth at h2'
      rw [bind_ok] at h2'
      obtain ⟨wq, hw, ho⟩ := h2'
      rw [h2]
      rw [to_ok] at hw
      obtain ⟨hwd, rfl⟩ := hw
      rw [osiris_eq] at ho
      obtain ⟨-, -, rfl⟩ := ho
      congr 1
      unfold skin
      have e : (((⟨m * 10 ^ 6, dDensity⟩ : Qty).mul u.eQ.sq).div (u.meQ.mul u.epsQ)).sqrt =
          ⟨Real.sqrt (m * 10 ^ 6 * u.e ^ 2 / (u.me * u.eps0)), dRate⟩ := by
        ext1
        · rfl
        · exact hwd
      rw [e]
    cases dictGet sim kOmegaP0 <;> simp only [h3]
  | frequency w h0 h hw =>
    unfold refNorm
    rw [h0, h]
    dsimp only
    congr 1
    unfold skinDepthFromFreq
    rw [bind_ok]
    have dd : ((((⟨w, dRate⟩ : Qty).sq.mul u.epsQ).mul u.meQ).div u.eQ.sq).dim = dDensity := by
      simp [Qty.div, Qty.mul, Qty.sq, Consts.epsQ, Consts.meQ, Consts.eQ, Dim.mul, Dim.pow, dDensity, dRate, dPermittivity, dMass, dCharge]
      norm_num
    refine ⟨_, to_ok.2 ⟨dd, rfl⟩, osiris_eq.2 ⟨rfl, dd, ?_⟩⟩
    unfold skin
    have e : ((((⟨w, dRate⟩ : Qty).sq.mul u.epsQ).mul u.meQ).div u.eQ.sq) = ⟨w ^ 2 * u.eps0 * u.me / u.e ^ 2, dDensity⟩ := by
      ext1
      · rfl
      · exact dd
    rw [e]

theorem tau_dim (u : Consts) (w n : ℝ) : (skin u w n).tau.dim = dTime := by
  simp [skin, Qty.div, Qty.num, Dim.mul, Dim.pow, Dim.none, dRate, dTime]

theorem L0_dim (u : Consts) (w n : ℝ) : (skin u w n).L0.dim = dLength := by
  simp [skin, Qty.div, Qty.mul, Qty.num, Consts.cQ, Dim.mul, Dim.pow, Dim.none, dRate, dSpeed, dLength]

/-- What the recorded laser quantities are, in terms of the frequency `w` of the laser. -/
theorem laserUnits_ok (u : Consts) (w n a om : ℝ) : laserUnits u (skin u w n).tau a om = .ok
    ⟨om / (1 / w), 2 * Real.pi * u.c / (om / (1 / w)) * 10 ^ 9, a, (a * (om / (1 / w)) * u.me * u.c / u.e) ^ 2 * u.eps0 * u.c / 2 * (1 / 10 ^ 4)⟩ := by
  unfold laserUnits
  rw [bind_ok]
  refine ⟨om / (1 / w), inUnit_ok.2 ⟨?_, ?_⟩, ?_⟩
  · simp [skin, Qty.div, Qty.num, Dim.mul, Dim.pow, Dim.none, dRate]
  · simp [skin, Qty.div, Qty.num]
  rw [bind_ok]
  refine ⟨2 * Real.pi * u.c / (om / (1 / w)) * 10 ^ 9, inUnit_ok.2 ⟨?_, ?_⟩, ?_⟩
  · simp [skin, Qty.div, Qty.mul, Qty.num, Consts.cQ, Dim.mul, Dim.pow, Dim.none, dRate, dSpeed, dLength]
  · simp [skin, Qty.div, Qty.mul, Qty.num, Consts.cQ]
  rw [bind_ok]
  refine ⟨(a * (om / (1 / w)) * u.me * u.c / u.e) ^ 2 * u.eps0 * u.c / 2 * (1 / 10 ^ 4), inUnit_ok.2 ⟨?_, ?_⟩, rfl⟩
  · simp [skin, Qty.div, Qty.mul, Qty.sq, Qty.num, Consts.cQ, Consts.meQ, Consts.eQ, Consts.epsQ, Dim.mul, Dim.pow, Dim.none, dRate, dSpeed, dMass,
      dCharge, dPermittivity, dIntensity]
    norm_num
  · simp [skin, Qty.div, Qty.mul, Qty.sq, Qty.num, Consts.cQ, Consts.meQ, Consts.eQ, Consts.epsQ]

/-- C205: everything that is recorded, given the reference. -/
theorem units_eq {u : Consts} {secs : Secs ℝ} {w n : ℝ} (h : Reference u (sec secs nSim) w n) (U : Units) :
    writeUnits u secs = .ok (some U) ↔ U.wp0 = w ∧ U.tp0 = 1 / w * 10 ^ 15 ∧ U.n0 = n / 10 ^ 6 ∧ U.v0 = u.c ∧ U.x0 = u.c / w * 10 ^ 9 ∧
      U.cLight = 1 ∧ U.beta = 1 ∧
      (∃ len, boxLength (sec secs nSpace) = .ok len ∧ U.box = len.map fun x => x * (u.c / w) * 10 ^ 6) ∧
      (∃ t, runTime (sec secs nTime) = .ok t ∧ U.duration = t.map fun x => x * (1 / w) * 10 ^ 12) ∧
      laserEntry u (skin u w n).tau (laserOf secs) = .ok U.laser := by
  have hw := (reference_pos h).1
  have hc := u.c_pos
  unfold writeUnits
  rw [refNorm_ok h]
  dsimp only
  have key : unitsOf u secs (skin u w n) = .ok U ↔ U.wp0 = w ∧ U.tp0 = 1 / w * 10 ^ 15 ∧ U.n0 = n / 10 ^ 6 ∧ U.v0 = u.c ∧ U.x0 = u.c / w * 10 ^ 9 ∧
      U.cLight = 1 ∧ U.beta = 1 ∧
      (∃ len, boxLength (sec secs nSpace) = .ok len ∧ U.box = len.map fun x => x * (u.c / w) * 10 ^ 6) ∧
      (∃ t, runTime (sec secs nTime) = .ok t ∧ U.duration = t.map fun x => x * (1 / w) * 10 ^ 12) ∧
      laserEntry u (skin u w n).tau (laserOf secs) = .ok U.laser := by
    have v1 : ((Qty.num 1).div (skin u w n).tau).val = w := by simp [skin, Qty.div, Qty.num]
    have d1 : ((Qty.num 1).div (skin u w n).tau).dim = dRate := by simp [skin, Qty.div, Qty.num, Dim.mul, Dim.pow, Dim.none, dRate]
    have v2 : (skin u w n).tau.val = 1 / w := by simp [skin, Qty.div, Qty.num]
    have v3 : (skin u w n).L0.val = u.c / w := by simp [skin, Qty.div, Qty.mul, Qty.num, Consts.cQ]
    have v4 : (skin u w n).v0.val = u.c := by simp [skin, Qty.mul, Qty.num, Consts.cQ]
    have d4 : (skin u w n).v0.dim = dSpeed := by simp [skin, Qty.mul, Qty.num, Consts.cQ, Dim.mul, Dim.none, dSpeed]
    have cn : ∀ x, cNorm u (skin u w n) = .ok x ↔ x = 1 := by
      intro x
      unfold cNorm
      rw [magnitude_ok]
      constructor
      · rintro ⟨-, rfl⟩
        simp only [Qty.div]
        rw [v4]
        simp [Consts.cQ, hc.ne']
      · rintro rfl
        constructor
        · show u.cQ.dim.mul ((skin u w n).v0.dim.pow (-1)) = Dim.none
          rw [d4]
          simp [Consts.cQ, Dim.mul, Dim.pow, Dim.none, dSpeed]
        · simp only [Qty.div]
          rw [v4]
          simp [Consts.cQ, hc.ne']
    unfold unitsOf
    simp only [bind_ok, inUnit_ok, cn, return_ok]
    rw [v1, v2, v3, v4]
    constructor
    · rintro ⟨a1, ⟨-, rfl⟩, a2, ⟨-, rfl⟩, a3, ⟨-, rfl⟩, a4, ⟨-, rfl⟩, a5, ⟨-, rfl⟩, a6, rfl, len, hlen, box, hbox, t, ht, dur, hdur, la, hla, rfl⟩
      rw [optUnit_ok (L0_dim u w n), v3] at hbox
      rw [optUnit_ok (tau_dim u w n), v2] at hdur
      refine ⟨by ring, rfl, ?_, by ring, rfl, rfl, by norm_num, ⟨len, hlen, hbox⟩, ⟨t, ht, hdur⟩, hla⟩
      show n * (1 / 10 ^ 6) = n / 10 ^ 6
      ring
    · obtain ⟨b1, b2, b3, b4, b5, b6, b7, b8, b9, b10⟩ := U
      rintro ⟨e1, e2, e3, e4, e5, e6, e7, ⟨len, hlen, hbox⟩, ⟨t, ht, hdur⟩, hla⟩
      dsimp only at *
      refine ⟨_, ⟨d1, rfl⟩, _, ⟨tau_dim u w n, rfl⟩, _, ⟨rfl, rfl⟩, _, ⟨d4, rfl⟩, _, ⟨L0_dim u w n, rfl⟩, _, rfl, len, hlen, _,
        (optUnit_ok (L0_dim u w n)).2 rfl, t, ht, _, (optUnit_ok (tau_dim u w n)).2 rfl, b10, hla, ?_⟩
      rw [v2, v3, e1, e2, e3, e4, e5, e6, e7, hbox, hdur]
      congr 1
      · ring
      · show n / 10 ^ 6 = n * (1 / 10 ^ 6)
        ring
      · ring
      · norm_num
  cases hu : unitsOf u secs (skin u w n) with
  | error e =>
    rw [hu] at key
    constructor
    · intro h; cases h
    · intro h; cases key.2 h
  | ok q =>
    rw [hu] at key
    rw [← key]
    constructor
    · intro h
      injection h with h
      injection h with h
      rw [h]
    · intro h
      injection h with h
      rw [h]

/-- C205: the reference scales: the plasma frequency belongs to the recorded density, times are in inverse plasma frequencies, lengths in
skin depths, velocities in units of the speed of light. -/
theorem reference_scales {u : Consts} {secs : Secs ℝ} {w n : ℝ} (h : Reference u (sec secs nSim) w n) {U : Units} (hU : writeUnits u secs = .ok (some U)) :
    0 < U.wp0 ∧ U.wp0 ^ 2 = U.n0 * 10 ^ 6 * u.e ^ 2 / (u.me * u.eps0) ∧ U.tp0 / 10 ^ 15 * U.wp0 = 1 ∧ U.x0 / 10 ^ 9 * U.wp0 = u.c ∧
      U.v0 = u.c ∧ U.cLight = 1 ∧ U.beta = 1 := by
  obtain ⟨hw, hn, e⟩ := reference_pos h
  obtain ⟨h1, h2, h3, h4, h5, h6, h7, -⟩ := (units_eq h U).1 hU
  rw [h1, h2, h3, h4, h5, h6, h7]
  refine ⟨hw, ?_, ?_, ?_, rfl, rfl, rfl⟩
  · rw [e]; ring
  · field_simp
  · field_simp

/-- C205: a density in the deck is recorded as it is, and a plasma frequency is recorded as it is. -/
theorem reference_recorded {u : Consts} {secs : Secs ℝ} {U : Units} (hU : writeUnits u secs = .ok (some U)) (x : ℝ) (hx : 0 < x) :
    (dictGet (sec secs nSim) kN0 = some (.num x) → U.n0 = x) ∧
      (dictGet (sec secs nSim) kN0 = none → dictGet (sec secs nSim) kOmegaP0 = some (.num x) → U.wp0 = x) := by
  constructor
  · intro h
    rw [((units_eq (.density x h hx) U).1 hU).2.2.1]
    field_simp
  · intro h0 h
    exact ((units_eq (.frequency x h0 h hx) U).1 hU).1

/-- C205: with both, the density counts. -/
theorem density_first (u : Consts) (sim : Params ℝ) (v : DVal ℝ) (h : dictGet sim kN0 = some v) : refNorm u sim = refNorm u [(kN0, v)] := by
  unfold refNorm
  rw [h]
  have e : dictGet [(kN0, v)] kN0 = some v := by simp [dictGet]
  rw [e]
  cases v <;> cases dictGet sim kOmegaP0 <;> rfl

/-- C205: without a reference nothing is recorded. -/
theorem no_reference (u : Consts) (secs : Secs ℝ) (h : dictGet (sec secs nSim) kN0 = none) (h' : dictGet (sec secs nSim) kOmegaP0 = none) :
    writeUnits u secs = .ok none := by
  unfold writeUnits refNorm
  rw [h, h']

/-- C205: box length in microns and duration in picoseconds; the duration starts at `tmin`. -/
theorem box_and_duration {u : Consts} {secs : Secs ℝ} {w n : ℝ} (h : Reference u (sec secs nSim) w n) {U : Units} (hU : writeUnits u secs = .ok (some U)) :
    (∀ va vb a b la lb, arrayValue (sec secs nSpace) kXmin = some va → arrayValue (sec secs nSpace) kXmax = some vb → floats va = some (a :: la) →
        floats vb = some (b :: lb) → U.box = some ((b - a) * U.x0 / 10 ^ 3)) ∧
      (∀ T t, dictGet (sec secs nTime) kTmax = some (.num T) → dictGet (sec secs nTime) kTmin = some (.num t) → U.duration = some ((T - t) * U.tp0 / 10 ^ 3)) ∧
      (∀ T, dictGet (sec secs nTime) kTmax = some (.num T) → dictGet (sec secs nTime) kTmin = none → U.duration = some (T * U.tp0 / 10 ^ 3)) ∧
      (dictGet (sec secs nTime) kTmax = none → U.duration = none) ∧
      (arrayValue (sec secs nSpace) kXmin = none ∨ arrayValue (sec secs nSpace) kXmax = none → U.box = none) := by
  obtain ⟨-, h2, -, -, h5, -, -, ⟨len, hlen, hbox⟩, ⟨t, ht, hdur⟩, -⟩ := (units_eq h U).1 hU
  refine ⟨fun va vb a b la lb e1 e2 e3 e4 => ?_, fun T t' e1 e2 => ?_, fun T e1 e2 => ?_, fun e => ?_, fun e => ?_⟩
  · unfold boxLength at hlen
    rw [e1, e2] at hlen
    dsimp only at hlen
    rw [e3, e4] at hlen
    injection hlen with hlen
    rw [hbox, ← hlen, h5]
    simp only [Option.map_some]
    congr 1
    ring
  · unfold runTime at ht
    rw [e1, e2] at ht
    injection ht with ht
    rw [hdur, ← ht, h2]
    simp only [Option.map_some]
    congr 1
    ring
  · unfold runTime at ht
    rw [e1, e2] at ht
    injection ht with ht
    rw [hdur, ← ht, h2]
    simp only [Option.map_some]
    congr 1
    ring
  · unfold runTime at ht
    rw [e] at ht
    injection ht with ht
    rw [hdur, ← ht]
    rfl
  · unfold boxLength at hlen
    have : len = none := by
      rcases e with e | e
      · rw [e] at hlen
        injection hlen with hlen
        exact hlen.symm
      · rw [e] at hlen
        cases hx : arrayValue (sec secs nSpace) kXmin with
        | none => rw [hx] at hlen; injection hlen with hlen; exact hlen.symm
        | some v => rw [hx] at hlen; injection hlen with hlen; exact hlen.symm
    rw [hbox, this]
    rfl

/-- C205: the laser. Its frequency is `omega0` plasma frequencies, its wavelength the vacuum wavelength of that frequency, and intensity times
wavelength squared is proportional to `a0` squared with a constant that depends on neither density nor frequency. -/
theorem laser_recorded {u : Consts} {secs : Secs ℝ} {w n : ℝ} (h : Reference u (sec secs nSim) w n) {U : Units} (hU : writeUnits u secs = .ok (some U))
    {a om : ℝ} (hl : laserOf secs = some (.num a, .num om)) (hom : 0 < om) :
    ∃ L, U.laser = some L ∧ L.a0 = a ∧ L.w = om * U.wp0 ∧ L.wavelength / 10 ^ 9 * L.w = 2 * Real.pi * u.c ∧
      L.intensity * (L.wavelength / 10 ^ 3) ^ 2 = 2 * Real.pi ^ 2 * u.eps0 * u.me ^ 2 * u.c ^ 5 / u.e ^ 2 * 10 ^ 8 * a ^ 2 := by
  obtain ⟨hw, -, -⟩ := reference_pos h
  have hc := u.c_pos
  have he := u.e_pos
  obtain ⟨h1, -, -, -, -, -, -, -, -, hla⟩ := (units_eq h U).1 hU
  unfold laserEntry at hla
  rw [hl] at hla
  dsimp only at hla
  rw [laserUnits_ok] at hla
  injection hla with hla
  refine ⟨_, hla.symm, rfl, ?_, ?_, ?_⟩
  · rw [h1]
    show om / (1 / w) = om * w
    field_simp
  · show 2 * Real.pi * u.c / (om / (1 / w)) * 10 ^ 9 / 10 ^ 9 * (om / (1 / w)) = _
    field_simp
  · show (a * (om / (1 / w)) * u.me * u.c / u.e) ^ 2 * u.eps0 * u.c / 2 * (1 / 10 ^ 4) * (2 * Real.pi * u.c / (om / (1 / w)) * 10 ^ 9 / 10 ^ 3) ^ 2 = _
    field_simp

/-- C205: with the measured constants the constant is 1.37e18 W/cm^2 µm^2 to within a quarter of a percent, the number of the documentation. -/
theorem laser_constant (u : Consts) (hc : u.c = 299792458) (he : u.e = 1602176634 / 10 ^ 28) (hm : u.me = 91093837 / 10 ^ 38)
    (hp : u.eps0 = 88541878 / 10 ^ 19) :
    |2 * Real.pi ^ 2 * u.eps0 * u.me ^ 2 * u.c ^ 5 / u.e ^ 2 * 10 ^ 8 - 137 * 10 ^ 16| ≤ 137 * 10 ^ 16 / 400 := by
  have h1 := Real.pi_gt_d6
  have h2 := Real.pi_lt_d6
  have l : (3.141592 : ℝ) ^ 2 ≤ Real.pi ^ 2 := pow_le_pow_left₀ (by norm_num) h1.le 2
  have r : Real.pi ^ 2 ≤ (3.141593 : ℝ) ^ 2 := pow_le_pow_left₀ Real.pi_pos.le h2.le 2
  rw [hc, he, hm, hp]
  generalize Real.pi ^ 2 = y at *
  rw [abs_le]
  constructor
  · norm_num at l ⊢
    linarith
  · norm_num at r ⊢
    linarith

/-- C205: the laser is the antenna, else the speckled pulse, else the pulse: the first that gives both amplitude and frequency. -/
theorem laser_section (secs : Secs ℝ) (a om : DVal ℝ) :
    (dictGet (sec secs nAntenna) kA0 = some a → dictGet (sec secs nAntenna) kOmega0 = some om → laserOf secs = some (a, om)) ∧
      ((dictGet (sec secs nAntenna) kA0 = none ∨ dictGet (sec secs nAntenna) kOmega0 = none) →
        dictGet (sec secs nSpeckle) kA0 = some a → dictGet (sec secs nSpeckle) kOmega0 = some om → laserOf secs = some (a, om)) ∧
      ((dictGet (sec secs nAntenna) kA0 = none ∨ dictGet (sec secs nAntenna) kOmega0 = none) →
        (dictGet (sec secs nSpeckle) kA0 = none ∨ dictGet (sec secs nSpeckle) kOmega0 = none) →
        dictGet (sec secs nZpulse) kA0 = some a → dictGet (sec secs nZpulse) kOmega0 = some om → laserOf secs = some (a, om)) := by
  have no : ∀ n, (dictGet (sec secs n) kA0 = none ∨ dictGet (sec secs n) kOmega0 = none) →
      laserIn (sec secs n) = none := by
    intro n h
    unfold laserIn
    rcases h with h | h
    · rw [h]
    · rw [h]; cases dictGet (sec secs n) kA0 <;> rfl
  have yes : ∀ n, dictGet (sec secs n) kA0 = some a → dictGet (sec secs n) kOmega0 = some om → laserIn (sec secs n) = some (a, om) := by
    intro n h1 h2
    unfold laserIn
    rw [h1, h2]
  refine ⟨fun h1 h2 => ?_, fun h0 h1 h2 => ?_, fun h0 h0' h1 h2 => ?_⟩
  · unfold laserOf
    rw [List.findSome?_cons, yes _ h1 h2]
  · unfold laserOf
    rw [List.findSome?_cons, no _ h0]
    dsimp only
    rw [List.findSome?_cons, yes _ h1 h2]
  · unfold laserOf
    rw [List.findSome?_cons, no _ h0]
    dsimp only
    rw [List.findSome?_cons, no _ h0']
    dsimp only
    rw [List.findSome?_cons, yes _ h1 h2]

/-- C205: the deck of a laser plasma run is accepted, with all entries. -/
theorem units_accepted (u : Consts) (secs : Secs ℝ) {w n : ℝ} (h : Reference u (sec secs nSim) w n) {len t : Option ℝ}
    (hl : boxLength (sec secs nSpace) = .ok len) (ht : runTime (sec secs nTime) = .ok t)
    (hla : laserOf secs = none ∨ ∃ a om, laserOf secs = some (.num a, .num om)) : ∃ U, writeUnits u secs = .ok (some U) := by
  have : ∃ L, laserEntry u (skin u w n).tau (laserOf secs) = .ok L := by
    rcases hla with e | ⟨a, om, e⟩
    · rw [e]; exact ⟨none, rfl⟩
    · rw [e]
      unfold laserEntry
      dsimp only
      rw [laserUnits_ok]
      exact ⟨_, rfl⟩
  obtain ⟨L, hL⟩ := this
  exact ⟨⟨w, 1 / w * 10 ^ 15, n / 10 ^ 6, u.c, u.c / w * 10 ^ 9, 1, 1, len.map fun x => x * (u.c / w) * 10 ^ 6, t.map fun x => x * (1 / w) * 10 ^ 12, L⟩,
    (units_eq h _).2 ⟨rfl, rfl, rfl, rfl, rfl, rfl, rfl, ⟨len, hl, rfl⟩, ⟨t, ht, rfl⟩, hL⟩⟩

/-- A deck with a density, a box, a duration and an antenna. -/
noncomputable def laserDeck : Secs ℝ :=
  [(nSim, [(kN0, .num (9 * 10 ^ 21))]), (nSpace, [(kXmin, .num 0), (kXmax, .num 100)]), (nTime, [(kTmax, .num 1000)]), (nAntenna, [(kA0, .num (1 / 100)), (kOmega0, .num 2)])]

example (u : Consts) : ∃ U L, writeUnits u laserDeck = .ok (some U) ∧ U.laser = some L ∧ L.w = 2 * U.wp0 ∧ U.n0 = 9 * 10 ^ 21 ∧ U.duration = some (1000 * U.tp0 / 10 ^ 3) := by
  have hs : dictGet (sec laserDeck nSim) kN0 = some (.num (9 * 10 ^ 21)) := rfl
  have h : Reference u (sec laserDeck nSim) _ _ := .density (9 * 10 ^ 21) hs (by norm_num)
  have hl : laserOf laserDeck = some (.num (1 / 100), .num 2) := rfl
  obtain ⟨U, hU⟩ := units_accepted u laserDeck h (len := some (100 - 0)) (t := some (1000 - 0)) rfl rfl (Or.inr ⟨_, _, hl⟩)
  obtain ⟨L, h1, -, h2, -⟩ := laser_recorded h hU hl (by norm_num)
  exact ⟨U, L, hU, h1, h2, (reference_recorded hU _ (by norm_num)).1 hs, (box_and_duration h hU).2.2.1 _ rfl rfl⟩

end Verif.Osiris

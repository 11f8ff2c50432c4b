import Verif.Props.Vfp2dPoisson

/-!
VFP-2D: the positivity limiter and the current projection (C84), and the kinetic Ohm law (C85).
-/
namespace Verif.Vfp2d
open Finset Complex Verif.Spectral
open scoped ComplexConjugate

/-! ### Positivity (C84) -/

/-- The density of the positive part of the isotropic distribution. -/
noncomputable def Op.posDensity (o : Op) (f : Local) : ℝ :=
  4 * Real.pi * (∑ j ∈ range o.nv, max (f (o.layout.index 0 0).toNat j).re 0 * o.v j ^ 2) * o.dv

theorem positive_form (o : Op) (tiny : ℝ) (f : Local) :
    o.positive tiny f = fun i j => if i = (o.layout.index 0 0).toNat then
      ((max (f (o.layout.index 0 0).toNat j).re 0 * (if 0 < o.density f ∧ tiny < o.posDensity f then o.density f / max (o.posDensity f) tiny else 0) : ℝ) : ℂ)
      else f i j := by
  have h1 : (∑ j ∈ range o.nv, (f (o.layout.index 0 0).toNat j).re * (4 * Real.pi * o.v j ^ 2 * o.dv)) = o.density f := by
    unfold Op.density
    rw [mul_sum, sum_mul]
    exact sum_congr rfl fun _ _ => by ring
  have h2 : (∑ j ∈ range o.nv, max (f (o.layout.index 0 0).toNat j).re 0 * (4 * Real.pi * o.v j ^ 2 * o.dv)) = o.posDensity f := by
    unfold Op.posDensity
    rw [mul_sum, sum_mul]
    exact sum_congr rfl fun _ _ => by ring
  unfold Op.positive
  simp only [h1, h2]

theorem density_scaled (o : Op) (f g : Local) (c : ℝ) (h : ∀ j, (g (o.layout.index 0 0).toNat j).re = max (f (o.layout.index 0 0).toNat j).re 0 * c) :
    o.density g = c * o.posDensity f := by
  unfold Op.density Op.posDensity
  simp only [h]
  rw [show (∑ j ∈ range o.nv, max (f (o.layout.index 0 0).toNat j).re 0 * c * o.v j ^ 2)
    = c * ∑ j ∈ range o.nv, max (f (o.layout.index 0 0).toNat j).re 0 * o.v j ^ 2 by
      rw [mul_sum]; exact sum_congr rfl fun _ _ => by ring]
  ring

theorem density_le_pos (o : Op) (hdv : 0 ≤ o.dv) (f : Local) : o.density f ≤ o.posDensity f := by
  unfold Op.density Op.posDensity
  refine mul_le_mul_of_nonneg_right (mul_le_mul_of_nonneg_left (sum_le_sum fun j _ => ?_) (by positivity)) hdv
  exact mul_le_mul_of_nonneg_right (le_max_left _ _) (sq_nonneg _)

/-- C84: after the limiter the isotropic distribution is real and nonnegative at every speed; every
other harmonic is untouched; the density is kept wherever it was positive (and above the smallest
number), and the cell is emptied where it was not. -/
theorem positive_spec (o : Op) (hdv : 0 ≤ o.dv) (tiny : ℝ) (ht : 0 < tiny) (f : Local) :
    let g := o.positive tiny f
    (∀ j, 0 ≤ (g (o.layout.index 0 0).toNat j).re ∧ (g (o.layout.index 0 0).toNat j).im = 0)
    ∧ (∀ i j, i ≠ (o.layout.index 0 0).toNat → g i j = f i j)
    ∧ (tiny < o.density f → o.density g = o.density f)
    ∧ (o.density f ≤ 0 → ∀ j, g (o.layout.index 0 0).toNat j = 0)
    ∧ 0 ≤ o.density g := by
  intro g
  have hg : g = _ := positive_form o tiny f
  have hpos : 0 ≤ (if 0 < o.density f ∧ tiny < o.posDensity f then o.density f / max (o.posDensity f) tiny else 0) := by
    split
    · next h => exact div_nonneg h.1.le (le_max_of_le_right ht.le)
    · exact le_refl _
  have h0 : ∀ j, 0 ≤ (g (o.layout.index 0 0).toNat j).re ∧ (g (o.layout.index 0 0).toNat j).im = 0 := by
    intro j
    rw [hg]
    simp only [if_true, ofReal_re, ofReal_im, and_true]
    exact mul_nonneg (le_max_right _ _) hpos
  refine ⟨h0, fun i j hi => ?_, fun hd => ?_, fun hd j => ?_, ?_⟩
  · rw [hg]; exact if_neg hi
  · have hp : tiny < o.posDensity f := lt_of_lt_of_le hd (density_le_pos o hdv f)
    rw [density_scaled o f g (o.density f / max (o.posDensity f) tiny)]
    · rw [max_eq_left hp.le]
      exact div_mul_cancel₀ _ (ht.trans hp).ne'
    · intro j
      rw [hg]
      simp only [if_true, ofReal_re]
      rw [if_pos ⟨ht.trans hd, hp⟩]
  · rw [hg]
    simp only [if_true]
    rw [if_neg (by intro h; exact absurd h.1 (not_lt.2 hd))]
    simp
  · unfold Op.density
    refine mul_nonneg (mul_nonneg (by positivity) (sum_nonneg fun j _ => mul_nonneg (h0 j).1 (sq_nonneg _))) hdv

/-- C84: the limiter keeps the shape of the positive part, and leaves a distribution that is
already nonnegative alone. -/
theorem positive_shape (o : Op) (hdv : 0 ≤ o.dv) (tiny : ℝ) (ht : 0 < tiny) (f : Local) :
    (∃ c, 0 ≤ c ∧ c ≤ 1 ∧ ∀ j, (o.positive tiny f (o.layout.index 0 0).toNat j).re = c * max (f (o.layout.index 0 0).toNat j).re 0)
    ∧ (tiny < o.density f → (∀ j, 0 ≤ (f (o.layout.index 0 0).toNat j).re ∧ (f (o.layout.index 0 0).toNat j).im = 0) → o.positive tiny f = f) := by
  rw [positive_form]
  constructor
  · refine ⟨if 0 < o.density f ∧ tiny < o.posDensity f then o.density f / max (o.posDensity f) tiny else 0, ?_, ?_, fun j => ?_⟩
    · split
      · next h => exact div_nonneg h.1.le (le_max_of_le_right ht.le)
      · exact le_refl _
    · split
      · exact div_le_one_of_le₀ ((density_le_pos o hdv f).trans (le_max_left _ _)) (le_max_of_le_right ht.le)
      · exact zero_le_one
    · simp only [if_true, ofReal_re]
      ring
  · intro hd hp
    have hpd : o.posDensity f = o.density f := by
      unfold Op.posDensity Op.density
      congr 2
      exact sum_congr rfl fun j _ => by rw [max_eq_left (hp j).1]
    have hc : (if 0 < o.density f ∧ tiny < o.posDensity f then o.density f / max (o.posDensity f) tiny else 0) = 1 := by
      rw [if_pos ⟨ht.trans hd, by rw [hpd]; exact hd⟩, hpd, max_eq_left hd.le]
      exact div_self (ht.trans hd).ne'
    funext i j
    rw [hc]
    by_cases hi : i = (o.layout.index 0 0).toNat
    · rw [if_pos hi, hi, max_eq_left (hp j).1, mul_one]
      exact Complex.ext (ofReal_re _) (by rw [ofReal_im, (hp j).2])
    · rw [if_neg hi]

/-! ### Current projection (C84) -/

theorem index10 (L : Layout) (hl : 1 ≤ L.lMax) : 0 ≤ L.index 1 0 ∧ (L.index 1 0).toNat ≠ (L.index 0 0).toNat := by
  have h10 := (index_valid L (l := 1) (m := 0) (by omega))
  have h00 := (index_valid L (l := 0) (m := 0) (by omega))
  rw [show L.index 1 0 = _ from h10.1, show L.index 0 0 = _ from h00.1, Int.toNat_natCast, Int.toNat_natCast]
  refine ⟨by positivity, fun h => ?_⟩
  have := h10.2.2
  rw [h, h00.2.2] at this
  simp at this

theorem index11 (L : Layout) (hl : 1 ≤ L.lMax) (hm : 1 ≤ L.mMax) :
    0 ≤ L.index 1 1 ∧ (L.index 1 1).toNat ≠ (L.index 0 0).toNat ∧ (L.index 1 1).toNat ≠ (L.index 1 0).toNat := by
  have h10 := (index_valid L (l := 1) (m := 0) (by omega))
  have h11 := (index_valid L (l := 1) (m := 1) (by omega))
  have h00 := (index_valid L (l := 0) (m := 0) (by omega))
  rw [show L.index 1 0 = _ from h10.1, show L.index 0 0 = _ from h00.1, show L.index 1 1 = _ from h11.1, Int.toNat_natCast, Int.toNat_natCast, Int.toNat_natCast]
  refine ⟨by positivity, fun h => ?_, fun h => ?_⟩
  · have := h11.2.2
    rw [h, h00.2.2] at this
    simp at this
  · have := h11.2.2
    rw [h, h10.2.2] at this
    simp at this

theorem index11_neg (L : Layout) (hm : L.mMax = 0) : L.index 1 1 = -1 := index_invalid L (by omega)

/-- The moment by which a drift of the isotropic part changes the current. -/
noncomputable def Op.response (o : Op) (f : Local) : ℝ :=
  4 * Real.pi / 3 * (∑ j ∈ range o.nv, (f (o.layout.index 0 0).toNat j).re * o.v j ^ 3) * o.dv

/-- The current after the projection, component by component, whatever the response. -/
theorem project_current (o : Op) (hl : 1 ≤ o.layout.lMax) (tiny : ℝ) (ht : 0 < tiny) (f : Local) (target : Vec) :
    let J := o.current (-1) o.v f
    let J' := o.current (-1) o.v (o.projectCore tiny f target)
    let r := o.response f / max (o.response f) tiny
    J'.x = J.x + r * (target.x - J.x)
    ∧ (1 ≤ o.layout.mMax → J'.y = J.y + r * (target.y - J.y) ∧ J'.z = J.z + r * (target.z - J.z))
    ∧ (o.layout.mMax = 0 → J'.y = 0 ∧ J'.z = 0) := by
  intro J J' r
  obtain ⟨R, hR⟩ : ∃ R, R = max (o.response f) tiny := ⟨_, rfl⟩
  have hRp : R ≠ 0 := by rw [hR]; exact (lt_max_of_lt_right ht).ne'
  obtain ⟨ax, hax⟩ : ∃ ax : ℝ, ax = -(target.x - J.x) / R := ⟨_, rfl⟩
  obtain ⟨a1, ha1⟩ : ∃ a1 : ℂ, a1 = (-((target.y - J.y : ℝ) : ℂ) + I * ((target.z - J.z : ℝ) : ℂ)) / (2 * (R : ℂ)) := ⟨_, rfl⟩
  have hp : o.projectCore tiny f target = fun i j => f i j
      + (if i = (o.layout.index 1 0).toNat then ((ax * (f (o.layout.index 0 0).toNat j).re : ℝ) : ℂ) else 0)
      + (if 0 ≤ o.layout.index 1 1 ∧ i = (o.layout.index 1 1).toNat then a1 * ((f (o.layout.index 0 0).toNat j).re : ℂ) else 0) := by
    rw [hax, ha1, hR]; rfl
  have h10 := index10 o.layout hl
  have are : a1.re = -(target.y - J.y) / (2 * R) := by
    rw [ha1]
    have : (2 * (R : ℂ)) = ((2 * R : ℝ) : ℂ) := by push_cast; rfl
    rw [this, div_ofReal_re]
    simp
  have aim : a1.im = (target.z - J.z) / (2 * R) := by
    rw [ha1]
    have : (2 * (R : ℂ)) = ((2 * R : ℝ) : ℂ) := by push_cast; rfl
    rw [this, div_ofReal_im]
    simp
  -- the fluxes
  have g10 : ∀ (f : Local) (j : ℕ), (flux o.layout fun k => f k j).x = (f (o.layout.index 1 0).toNat j).re := by
    intro f j; unfold flux Layout.get; rw [if_pos h10.1]
  have hx : ∀ j, (flux o.layout fun k => o.projectCore tiny f target k j).x = (flux o.layout fun k => f k j).x + ax * (f (o.layout.index 0 0).toNat j).re := by
    intro j
    rw [g10, g10, hp]
    simp only [if_true]
    by_cases hm : o.layout.mMax = 0
    · rw [index11_neg o.layout hm]
      simp
    · have h11 := index11 o.layout hl (by omega)
      rw [if_neg (fun h => h11.2.2 h.2.symm)]
      simp
  have cur : ∀ f : Local, o.current (-1) o.v f = ⟨-1 * (4 * Real.pi / 3 * ((∑ j ∈ range o.nv, (flux o.layout fun k => f k j).x * (o.v j ^ 2 * o.v j)) * o.dv)),
      -1 * (4 * Real.pi / 3 * ((∑ j ∈ range o.nv, (flux o.layout fun k => f k j).y * (o.v j ^ 2 * o.v j)) * o.dv)),
      -1 * (4 * Real.pi / 3 * ((∑ j ∈ range o.nv, (flux o.layout fun k => f k j).z * (o.v j ^ 2 * o.v j)) * o.dv))⟩ := by
    intro f
    unfold Op.current
    rw [vector_flux o hl]
  have comp : ∀ (u u' : ℕ → ℝ) (c : ℝ), (∀ j, u' j = u j + c * (f (o.layout.index 0 0).toNat j).re) →
      -1 * (4 * Real.pi / 3 * ((∑ j ∈ range o.nv, u' j * (o.v j ^ 2 * o.v j)) * o.dv))
        = -1 * (4 * Real.pi / 3 * ((∑ j ∈ range o.nv, u j * (o.v j ^ 2 * o.v j)) * o.dv)) - c * o.response f := by
    intro u u' c h
    have : (∑ j ∈ range o.nv, u' j * (o.v j ^ 2 * o.v j)) = (∑ j ∈ range o.nv, u j * (o.v j ^ 2 * o.v j))
        + c * ∑ j ∈ range o.nv, (f (o.layout.index 0 0).toNat j).re * o.v j ^ 3 := by
      rw [mul_sum, ← sum_add_distrib]
      exact sum_congr rfl fun j _ => by rw [h]; ring
    rw [this]
    unfold Op.response
    ring
  have Jx := congrArg Vec.x (cur f)
  have Jy := congrArg Vec.y (cur f)
  have Jz := congrArg Vec.z (cur f)
  have Jx' := congrArg Vec.x (cur (o.projectCore tiny f target))
  have Jy' := congrArg Vec.y (cur (o.projectCore tiny f target))
  have Jz' := congrArg Vec.z (cur (o.projectCore tiny f target))
  dsimp only at Jx Jy Jz Jx' Jy' Jz'
  refine ⟨?_, fun hm => ?_, fun hm => ?_⟩
  · have h1 := comp _ _ ax hx
    rw [← Jx, ← Jx'] at h1
    rw [show J'.x = _ from h1, show (o.current (-1) o.v f).x = J.x from rfl, hax, show r = o.response f / R by rw [hR]]
    field_simp
    ring
  · have h11 := index11 o.layout hl hm
    have g11 : ∀ (f : Local) (j : ℕ), o.layout.get (fun k => f k j) 1 1 = f (o.layout.index 1 1).toNat j := by
      intro f j; unfold Layout.get; rw [if_pos h11.1]
    have hg : ∀ j, o.layout.get (fun k => o.projectCore tiny f target k j) 1 1 = o.layout.get (fun k => f k j) 1 1 + a1 * ((f (o.layout.index 0 0).toNat j).re : ℂ) := by
      intro j
      rw [g11, g11, hp]
      dsimp only
      rw [if_neg h11.2.2, if_pos ⟨h11.1, rfl⟩, add_zero]
    have hy : ∀ j, (flux o.layout fun k => o.projectCore tiny f target k j).y = (flux o.layout fun k => f k j).y + (2 * a1.re) * (f (o.layout.index 0 0).toNat j).re := by
      intro j
      unfold flux
      simp only [hg, add_re, re_mul_ofReal]
      ring
    have hz : ∀ j, (flux o.layout fun k => o.projectCore tiny f target k j).z = (flux o.layout fun k => f k j).z + (-2 * a1.im) * (f (o.layout.index 0 0).toNat j).re := by
      intro j
      unfold flux
      simp only [hg, add_im, im_mul_ofReal]
      ring
    have h1 := comp _ _ (2 * a1.re) hy
    have h2 := comp _ _ (-2 * a1.im) hz
    rw [← Jy, ← Jy'] at h1
    rw [← Jz, ← Jz'] at h2
    rw [show J'.y = _ from h1, show J'.z = _ from h2, show (o.current (-1) o.v f).y = J.y from rfl, show (o.current (-1) o.v f).z = J.z from rfl, are, aim, show r = o.response f / R by rw [hR]]
    constructor
    · field_simp
      ring
    · field_simp
      ring
  · have g0 : ∀ (f : Local) (j : ℕ), o.layout.get (fun k => f k j) 1 1 = 0 := by
      intro f j; exact get_invalid _ _ (by omega)
    rw [show J'.y = _ from Jy', show J'.z = _ from Jz']
    unfold flux
    simp only [g0 (o.projectCore tiny f target)]
    simp

/-- C84: the projection raises an error exactly when there is no `l = 1` harmonic; otherwise the
result carries exactly the prescribed current wherever the response of the isotropic part is a
normal number, keeps the isotropic part, hence the density, and every harmonic with `l ≠ 1`. -/
theorem project_spec (o : Op) (tiny : ℝ) (ht : 0 < tiny) (f : Local) (target : Vec) :
    (o.layout.lMax = 0 → o.project tiny f target = .error "ValueError")
    ∧ (1 ≤ o.layout.lMax → ∃ g, o.project tiny f target = .ok g
      ∧ (1 ≤ o.layout.mMax → tiny ≤ o.response f → o.current (-1) o.v g = target)
      ∧ (o.layout.mMax = 0 → tiny ≤ o.response f → o.current (-1) o.v g = ⟨target.x, 0, 0⟩)
      ∧ o.density g = o.density f
      ∧ (∀ (l m : ℕ) (j : ℕ), l ≠ 1 → o.layout.get (fun k => g k j) l m = o.layout.get (fun k => f k j) l m)
      ∧ (o.current (-1) o.v f = target → g = f)) := by
  constructor
  · intro h
    unfold Op.project
    rw [index_invalid o.layout (l := 1) (m := 0) (by omega), if_pos (by norm_num)]
  · intro hl
    have h10 := index10 o.layout hl
    have keep : ∀ i j, i ≠ (o.layout.index 1 0).toNat → (0 ≤ o.layout.index 1 1 → i ≠ (o.layout.index 1 1).toNat) → o.projectCore tiny f target i j = f i j := by
      intro i j hi hi'
      unfold Op.projectCore
      dsimp only
      rw [if_neg hi, if_neg (fun h => hi' h.1 h.2)]
      simp
    have h0 : ∀ j, o.projectCore tiny f target (o.layout.index 0 0).toNat j = f (o.layout.index 0 0).toNat j := by
      intro j
      refine keep _ _ h10.2.symm fun h => ?_
      have hm : 1 ≤ o.layout.mMax := by
        by_contra hm
        rw [index11_neg o.layout (by omega)] at h
        norm_num at h
      exact (index11 o.layout hl hm).2.1.symm
    refine ⟨o.projectCore tiny f target, ?_, fun hm hr => ?_, fun hm hr => ?_, ?_, fun l m j hl1 => ?_, fun hJ => ?_⟩
    · unfold Op.project
      rw [if_neg (by omega)]
    · have h := project_current o hl tiny ht f target
      rw [max_eq_left hr, div_self (ht.trans_le hr).ne'] at h
      obtain ⟨h1, h2, -⟩ := h
      obtain ⟨h2, h3⟩ := h2 hm
      ext
      · rw [h1]; ring
      · rw [h2]; ring
      · rw [h3]; ring
    · have h := project_current o hl tiny ht f target
      rw [max_eq_left hr, div_self (ht.trans_le hr).ne'] at h
      obtain ⟨h1, -, h2⟩ := h
      obtain ⟨h2, h3⟩ := h2 hm
      ext
      · rw [h1]; ring
      · rw [h2]
      · rw [h3]
    · unfold Op.density
      simp only [h0]
    · by_cases hv : l ≤ o.layout.lMax ∧ m ≤ l ∧ m ≤ o.layout.mMax
      · have hi := index_valid o.layout hv
        unfold Layout.get
        rw [hi.1, if_pos (by positivity), if_pos (by positivity), Int.toNat_natCast]
        refine keep _ _ (fun h => ?_) fun h11 h => ?_
        · have h1 := index_valid o.layout (l := 1) (m := 0) (by omega)
          rw [show o.layout.index 1 0 = _ from h1.1, Int.toNat_natCast] at h
          have := hi.2.2
          rw [h, h1.2.2] at this
          simp only [Prod.mk.injEq] at this
          omega
        · have hm : 1 ≤ o.layout.mMax := by
            by_contra hm
            rw [index11_neg o.layout (by omega)] at h11
            norm_num at h11
          have h1 := index_valid o.layout (l := 1) (m := 1) (by omega)
          rw [show o.layout.index 1 1 = _ from h1.1, Int.toNat_natCast] at h
          have := hi.2.2
          rw [h, h1.2.2] at this
          simp only [Prod.mk.injEq] at this
          omega
      · rw [get_invalid _ _ (by omega), get_invalid _ _ (by omega)]
    · funext i j
      unfold Op.projectCore
      simp only [hJ, sub_self]
      simp

/-- C84: `cartesian_l2` is a symmetric traceless tensor. -/
theorem cartesian_symmetric (L : Layout) (a : ℕ → ℂ) :
    (∀ r < 3, ∀ c < 3, cartesianL2 L a r c = cartesianL2 L a c r) ∧ cartesianL2 L a 0 0 + cartesianL2 L a 1 1 + cartesianL2 L a 2 2 = 0 := by
  constructor
  · intro r hr c hc
    interval_cases r <;> interval_cases c <;>
      simp only [cartesian_01, cartesian_02, cartesian_10, cartesian_12, cartesian_20, cartesian_21]
  · rw [cartesian_00, cartesian_11, cartesian_22]
    ring

/-- C84: complex harmonics survive the real storage, and a final axis of any other length is refused. -/
theorem real_storage : (∀ z, realToComplex (complexToReal z) = .ok z) ∧
    ∀ a : List ℝ, (realToComplex a = .error "ValueError" ↔ a.length ≠ 2) ∧ ∀ z, realToComplex a = .ok z → complexToReal z = a := by
  refine ⟨fun z => ?_, fun a => ?_⟩
  · unfold complexToReal realToComplex
    change Except.ok _ = _
    rw [mul_comm, Complex.re_add_im]
  · match a with
    | [] => simp [realToComplex]
    | [_] => simp [realToComplex]
    | [u, w] =>
      refine ⟨by simp [realToComplex], fun z h => ?_⟩
      simp only [realToComplex, Except.ok.injEq] at h
      subst h
      simp [complexToReal]
    | _ :: _ :: _ :: _ => simp [realToComplex]

/-! ### Kinetic Ohm law (C85) -/

section
variable {nx ny : ℕ} [NeZero nx] [NeZero ny]

/-- The derivative of a real array is real (a central difference, or a Fourier derivative on an
odd number of cells: `deriv_real_iff`). -/
def RealD (D : Deriv) (N : ℕ) [NeZero N] : Prop := ∀ (a : ZMod N → ℝ) i, (D.apply (fun j => (a j : ℂ)) i).im = 0

theorem re_apply {N : ℕ} [NeZero N] {D : Deriv} (h : RealD D N) (a : ZMod N → ℂ) (i : ZMod N) : (D.apply a i).re = D.applyR (fun j => (a j).re) i := by
  rw [re_deriv, h, sub_zero]

theorem im_apply {N : ℕ} [NeZero N] {D : Deriv} (h : RealD D N) (a : ZMod N → ℂ) (i : ZMod N) : (D.apply a i).im = D.applyR (fun j => (a j).im) i := by
  have h1 := re_apply h (fun j => -I * a j) i
  rw [deriv_smul] at h1
  simpa using h1

theorem cartesian_deriv {N : ℕ} [NeZero N] {D : Deriv} (h : RealD D N) (L : Layout) (a : ZMod N → ℕ → ℂ) (i : ZMod N) (r c : ℕ) (hr : r < 3) (hc : c < 3) :
    cartesianL2 L (fun k => D.apply (fun t => a t k) i) r c = D.applyR (fun t => cartesianL2 L (a t) r c) i := by
  have hg : ∀ l m : ℤ, L.get (fun k => D.apply (fun t => a t k) i) l m = D.apply (fun t => L.get (a t) l m) i :=
    fun l m => get_apply L (fun g => D.apply g i) (deriv_zero _ _) a l m
  have hsub : ∀ u w : ZMod N → ℝ, D.applyR (fun t => u t - w t) i = D.applyR u i - D.applyR w i := by
    intro u w
    have h1 := applyR_add D u (fun t => -1 * w t) i
    rw [applyR_smul D (-1)] at h1
    rw [sub_eq_add_neg, ← neg_one_mul, ← h1]
    congr 1
    funext t
    ring
  interval_cases r <;> interval_cases c <;>
    simp only [cartesian_00, cartesian_01, cartesian_02, cartesian_10, cartesian_11, cartesian_12, cartesian_20, cartesian_21, cartesian_22, hg,
      re_apply h, im_apply h, applyR_smul, applyR_add, hsub]

theorem cartesian_smul (L : Layout) (c : ℝ) (a : ℕ → ℂ) (r s : ℕ) (hr : r < 3) (hs : s < 3) :
    cartesianL2 L (fun k => (c : ℂ) * a k) r s = c * cartesianL2 L a r s := by
  have hg : ∀ l m : ℤ, L.get (fun k => (c : ℂ) * a k) l m = (c : ℂ) * L.get a l m := by
    intro l m; unfold Layout.get; split <;> simp
  interval_cases r <;> interval_cases s <;>
    simp only [cartesian_00, cartesian_01, cartesian_02, cartesian_10, cartesian_11, cartesian_12, cartesian_20, cartesian_21, cartesian_22, hg,
      re_ofReal_mul, im_ofReal_mul] <;> ring

/-- The raw moment `4π ∫ f00 vᵖ v² dv` and `8π/15 ∫ F2 vᵖ v⁴ dv`. -/
noncomputable def Op.raw (o : Op) (p : ℕ) (f : Local) : ℝ := 4 * Real.pi * (∑ j ∈ range o.nv, (f (o.layout.index 0 0).toNat j).re * o.v j ^ (p + 2)) * o.dv
noncomputable def Op.raw2 (o : Op) (p : ℕ) (f : Local) (r c : ℕ) : ℝ :=
  8 * Real.pi / 15 * (∑ j ∈ range o.nv, cartesianL2 o.layout (fun k => f k j) r c * o.v j ^ (p + 4)) * o.dv

theorem n_scalar (o : Op) (tiny : ℝ) (ht : 0 < tiny) (p : ℕ) (f : Local) (hn : tiny ≤ o.density f) : o.density f * o.scalarMoment tiny p f = o.raw p f := by
  unfold Op.scalarMoment
  rw [max_eq_left hn]
  exact mul_div_cancel₀ _ (ht.trans_le hn).ne'

theorem n_tensor (o : Op) (tiny : ℝ) (ht : 0 < tiny) (p : ℕ) (f : Local) (hn : tiny ≤ o.density f) (r c : ℕ) :
    o.density f * o.tensorMoment tiny p f r c = o.raw2 p f r c := by
  unfold Op.tensorMoment
  rw [max_eq_left hn]
  exact mul_div_cancel₀ _ (ht.trans_le hn).ne'

theorem applyR_raw {N : ℕ} [NeZero N] (o : Op) (D : Deriv) (p : ℕ) (f : ZMod N → Local) (i : ZMod N) :
    D.applyR (fun t => o.raw p (f t)) i = 4 * Real.pi * (∑ j ∈ range o.nv, D.applyR (fun t => (f t (o.layout.index 0 0).toNat j).re) i * o.v j ^ (p + 2)) * o.dv := by
  have h1 : (fun t => o.raw p (f t)) = fun t => ∑ j ∈ range o.nv, (4 * Real.pi * o.v j ^ (p + 2) * o.dv) * (f t (o.layout.index 0 0).toNat j).re := by
    funext t
    unfold Op.raw
    rw [mul_sum, sum_mul]
    exact sum_congr rfl fun _ _ => by ring
  rw [h1, applyR_lin, mul_sum, sum_mul]
  exact sum_congr rfl fun _ _ => by ring

theorem applyR_raw2 {N : ℕ} [NeZero N] (o : Op) (D : Deriv) (p : ℕ) (f : ZMod N → Local) (i : ZMod N) (r c : ℕ) :
    D.applyR (fun t => o.raw2 p (f t) r c) i
      = 8 * Real.pi / 15 * (∑ j ∈ range o.nv, D.applyR (fun t => cartesianL2 o.layout (fun k => f t k j) r c) i * o.v j ^ (p + 4)) * o.dv := by
  have h1 : (fun t => o.raw2 p (f t) r c) = fun t => ∑ j ∈ range o.nv, (8 * Real.pi / 15 * o.v j ^ (p + 4) * o.dv) * cartesianL2 o.layout (fun k => f t k j) r c := by
    funext t
    unfold Op.raw2
    rw [mul_sum, sum_mul]
    exact sum_congr rfl fun _ _ => by ring
  rw [h1, applyR_lin, mul_sum, sum_mul]
  exact sum_congr rfl fun _ _ => by ring

/-- What streaming does to `f1` at one speed, with the hidden gradient. -/
theorem streaming_flux (o : Op) (hl : 1 ≤ o.layout.lMax) (hm : 1 ≤ o.layout.mMax) (hX : RealD o.dX nx) (hY : RealD o.dY ny) (f : Flm nx ny)
    (hr : ∀ x y j, RealZero o.layout fun k => f x y k j) (z : Scal nx ny) (x : ZMod nx) (y : ZMod ny) (j : ℕ) :
    let F := fun (x : ZMod nx) (y : ZMod ny) (r c : ℕ) => cartesianL2 o.layout (fun k => f x y k j) r c
    let f0 := fun (x : ZMod nx) (y : ZMod ny) => (f x y (o.layout.index 0 0).toNat j).re
    let d2 := fun r => ddx o.dX (fun x y => F x y r 0) x y + ddy o.dY (fun x y => F x y r 1) x y + z x y * F x y r 2
    flux o.layout (fun k => o.streaming f (fun x y i j => (z x y : ℂ) * f x y i j) x y k j)
      = ⟨-o.speed j * (ddx o.dX f0 x y + 2 / 5 * d2 0), -o.speed j * (ddy o.dY f0 x y + 2 / 5 * d2 1), -o.speed j * (z x y * f0 x y + 2 / 5 * d2 2)⟩ := by
  intro F f0 d2
  have hy0 : ∀ l : ℕ, (o.layout.get (fun k => o.dY.apply (fun y' => f x y' k j) y) l 0).im = 0 := by
    intro l
    rw [get_dY, im_apply hY]
    have : (fun y' => (o.layout.get (fun k => f x y' k j) l 0).im) = fun _ => (0 : ℝ) := by
      funext y'; exact hr x y' j l
    rw [this, applyR_const]
  have hz0 : ∀ l : ℕ, (o.layout.get (fun k => (z x y : ℂ) * f x y k j) l 0).im = 0 := by
    intro l
    have : o.layout.get (fun k => (z x y : ℂ) * f x y k j) l 0 = (z x y : ℂ) * o.layout.get (fun k => f x y k j) l 0 := by
      unfold Layout.get; split <;> simp
    rw [this, im_ofReal_mul, show (o.layout.get (fun k => f x y k j) l 0).im = 0 from hr x y j l, mul_zero]
  have h := streaming_momentum o.layout (o.speed j) (fun k => o.dX.apply (fun x' => f x' y k j) x) (fun k => o.dY.apply (fun y' => f x y' k j) y)
    (fun k => (z x y : ℂ) * f x y k j) hl hm fun l => ⟨hy0 l, hz0 l⟩
  have s10 := streaming_get o f (fun x y i j => (z x y : ℂ) * f x y i j) x y j 1 0
  have s11 := streaming_get o f (fun x y i j => (z x y : ℂ) * f x y i j) x y j 1 1
  rw [if_pos (by omega)] at s10 s11
  unfold flux
  rw [show o.layout.get (fun k => o.streaming f (fun x y i j => (z x y : ℂ) * f x y i j) x y k j) 1 0 = _ from s10,
    show o.layout.get (fun k => o.streaming f (fun x y i j => (z x y : ℂ) * f x y i j) x y k j) 1 1 = _ from s11]
  dsimp only at h
  obtain ⟨h1, h2, h3⟩ := h
  have c1 : ∀ r < 3, cartesianL2 o.layout (fun k => o.dX.apply (fun x' => f x' y k j) x) r 0 = ddx o.dX (fun x y => F x y r 0) x y :=
    fun r hr' => cartesian_deriv hX o.layout (fun x' k => f x' y k j) x r 0 hr' (by norm_num)
  have c2 : ∀ r < 3, cartesianL2 o.layout (fun k => o.dY.apply (fun y' => f x y' k j) y) r 1 = ddy o.dY (fun x y => F x y r 1) x y :=
    fun r hr' => cartesian_deriv hY o.layout (fun y' k => f x y' k j) y r 1 hr' (by norm_num)
  have c3 : ∀ r < 3, cartesianL2 o.layout (fun k => (z x y : ℂ) * f x y k j) r 2 = z x y * F x y r 2 :=
    fun r hr' => cartesian_smul o.layout (z x y) (fun k => f x y k j) r 2 hr' (by norm_num)
  have g0 : ∀ a : ℕ → ℂ, o.layout.get a 0 0 = a (o.layout.index 0 0).toNat := fun a => get_zero_zero o.layout a
  rw [g0, c1 0 (by norm_num), c2 0 (by norm_num), c3 0 (by norm_num), re_apply hX] at h1
  rw [g0, c1 1 (by norm_num), c2 1 (by norm_num), c3 1 (by norm_num), re_apply hY] at h2
  rw [g0, c1 2 (by norm_num), c2 2 (by norm_num), c3 2 (by norm_num), re_ofReal_mul] at h3
  ext
  · exact h1
  · exact h2
  · exact h3

/-- C85: the two pressure terms of the Ohm law are the force that balances transport: the `v⁶`
moment of what streaming (with the hidden gradient) does to `f1`, over `2 n ⟨v³⟩`. -/
theorem ohm_pressure (o : Op) (hl : 1 ≤ o.layout.lMax) (hm : 1 ≤ o.layout.mMax) (hs : o.speed = o.v) (hX : RealD o.dX nx) (hY : RealD o.dY ny)
    (tiny eta : ℝ) (ht : 0 < tiny) (f : Flm nx ny) (hr : ∀ x y j, RealZero o.layout fun k => f x y k j)
    (hn : ∀ x y, tiny ≤ o.density (f x y)) (b j : Field nx ny) (hidden : Scal nx ny) (x : ZMod nx) (y : ZMod ny) (h3 : tiny ≤ o.scalarMoment tiny 3 (f x y)) :
    let T := ohmTerms o tiny eta f b j hidden
    (T.scalar x y).add (T.tensor x y)
      = (o.vector (fun k => o.v k ^ 6) (o.streaming f (fun x y i j => ((hidden x y / o.density (f x y) : ℝ) : ℂ) * f x y i j) x y)).smul
          (1 / (2 * (o.density (f x y) * o.scalarMoment tiny 3 (f x y)))) := by
  intro T
  obtain ⟨n, hnn⟩ : ∃ n, n = o.density (f x y) := ⟨_, rfl⟩
  obtain ⟨v3, hv3⟩ : ∃ n, n = o.scalarMoment tiny 3 (f x y) := ⟨_, rfl⟩
  have n0 : n ≠ 0 := by rw [hnn]; exact (ht.trans_le (hn x y)).ne'
  have v0 : v3 ≠ 0 := by rw [hv3]; exact (ht.trans_le h3).ne'
  have e5 : (fun x y => o.density (f x y) * o.scalarMoment tiny 5 (f x y)) = fun x y => o.raw 5 (f x y) := by
    funext x y; exact n_scalar o tiny ht 5 _ (hn x y)
  have e3 : ∀ r c, (fun x y => o.density (f x y) * o.tensorMoment tiny 3 (f x y) r c) = fun x y => o.raw2 3 (f x y) r c := by
    intro r c; funext x y; exact n_tensor o tiny ht 3 _ (hn x y) r c
  have z5 : hidden x y * o.scalarMoment tiny 5 (f x y) = hidden x y / n * o.raw 5 (f x y) := by
    rw [← n_scalar o tiny ht 5 _ (hn x y), ← hnn]; field_simp
  have z3 : ∀ r, hidden x y * o.tensorMoment tiny 3 (f x y) r 2 = hidden x y / n * o.raw2 3 (f x y) r 2 := by
    intro r
    rw [← n_tensor o tiny ht 3 _ (hn x y), ← hnn]; field_simp
  have hvec := vector_flux o hl (fun k => o.v k ^ 6) (o.streaming f (fun x y i j => ((hidden x y / o.density (f x y) : ℝ) : ℂ) * f x y i j) x y)
  have hfl := fun j => streaming_flux o hl hm hX hY f hr (fun x y => hidden x y / o.density (f x y)) x y j
  simp only [hfl, hs] at hvec
  rw [hvec]
  have lhs : ∀ (g t : ℝ), -1 / (6 * max n tiny * max v3 tiny) * g + -1 / (2 * max n tiny * max v3 tiny) * t = 1 / (2 * (n * v3)) * (-(g / 3) - t) := by
    intro g t
    rw [max_eq_left (by rw [hnn]; exact hn x y), max_eq_left (by rw [hv3]; exact h3)]
    field_simp
    ring
  have dx5 : ddx o.dX (fun x y => o.raw 5 (f x y)) x y = _ := applyR_raw o o.dX 5 (fun x' => f x' y) x
  have dy5 : ddy o.dY (fun x y => o.raw 5 (f x y)) x y = _ := applyR_raw o o.dY 5 (fun y' => f x y') y
  have dx3 : ∀ r, ddx o.dX (fun x y => o.raw2 3 (f x y) r 0) x y = _ := fun r => applyR_raw2 o o.dX 3 (fun x' => f x' y) x r 0
  have dy3 : ∀ r, ddy o.dY (fun x y => o.raw2 3 (f x y) r 1) x y = _ := fun r => applyR_raw2 o o.dY 3 (fun y' => f x y') y r 1
  have fin : ∀ (A : ℕ → ℝ) (B C D : ℕ → ℝ) (c : ℝ),
      4 * Real.pi / 3 * ((∑ j ∈ range o.nv, -o.v j * (A j + 2 / 5 * (B j + C j + c * D j)) * o.v j ^ 6) * o.dv)
      = -((4 * Real.pi * (∑ j ∈ range o.nv, A j * o.v j ^ (5 + 2)) * o.dv) / 3)
        - (8 * Real.pi / 15 * (∑ j ∈ range o.nv, B j * o.v j ^ (3 + 4)) * o.dv + 8 * Real.pi / 15 * (∑ j ∈ range o.nv, C j * o.v j ^ (3 + 4)) * o.dv
          + c * (8 * Real.pi / 15 * (∑ j ∈ range o.nv, D j * o.v j ^ (3 + 4)) * o.dv)) := by
    intro A B C D c
    have : (∑ j ∈ range o.nv, -o.v j * (A j + 2 / 5 * (B j + C j + c * D j)) * o.v j ^ 6)
        = -(∑ j ∈ range o.nv, A j * o.v j ^ (5 + 2)) - 2 / 5 * ((∑ j ∈ range o.nv, B j * o.v j ^ (3 + 4)) + (∑ j ∈ range o.nv, C j * o.v j ^ (3 + 4))
          + c * ∑ j ∈ range o.nv, D j * o.v j ^ (3 + 4)) := by
      rw [mul_sum (a := c), ← sum_add_distrib, ← sum_add_distrib, mul_sum, ← sum_neg_distrib, ← sum_sub_distrib]
      exact sum_congr rfl fun j _ => by ring
    rw [this]
    ring
  ext
  · simp only [T, ohmTerms, Vec.add, Vec.smul, e5, e3, z3, ← hnn, ← hv3]
    rw [lhs, dx5, dx3, dy3, fin]
    unfold Op.raw2 ddx ddy
    ring
  · simp only [T, ohmTerms, Vec.add, Vec.smul, e5, e3, z3, ← hnn, ← hv3]
    rw [lhs, dy5, dx3, dy3, fin]
    unfold Op.raw2 ddx ddy
    ring
  · simp only [T, ohmTerms, Vec.add, Vec.smul, e3, z3, z5, ← hnn, ← hv3]
    rw [lhs, dx3, dy3]
    have h2 := fin (fun j => hidden x y / n * (f x y (o.layout.index 0 0).toNat j).re)
      (fun j => ddx o.dX (fun x y => cartesianL2 o.layout (fun k => f x y k j) 2 0) x y) (fun j => ddy o.dY (fun x y => cartesianL2 o.layout (fun k => f x y k j) 2 1) x y)
      (fun j => cartesianL2 o.layout (fun k => f x y k j) 2 2) (hidden x y / n)
    rw [h2]
    unfold Op.raw Op.raw2 ddx ddy
    have h4 : (∑ j ∈ range o.nv, hidden x y / n * (f x y (o.layout.index 0 0).toNat j).re * o.v j ^ (5 + 2))
        = hidden x y / n * ∑ j ∈ range o.nv, (f x y (o.layout.index 0 0).toNat j).re * o.v j ^ (5 + 2) := by
      rw [mul_sum]; exact sum_congr rfl fun _ _ => by ring
    rw [h4]
    ring

/-- C85: the Hall and the Nernst term together do not depend on the current: they are the force
`B × V6 / (2 n ⟨v³⟩)` on the `v⁶` moment `V6` of `f1`. -/
theorem ohm_magnetic (o : Op) (tiny eta : ℝ) (ht : 0 < tiny) (f : Flm nx ny) (b j : Field nx ny) (hidden : Scal nx ny) (x : ZMod nx) (y : ZMod ny)
    (hn : tiny ≤ o.density (f x y)) (h3 : tiny ≤ o.scalarMoment tiny 3 (f x y)) :
    let T := ohmTerms o tiny eta f b j hidden
    (T.hall x y).add (T.nernst x y)
      = ((b x y).cross (o.vector (fun k => o.v k ^ 6) (f x y))).smul (1 / (2 * (o.density (f x y) * o.scalarMoment tiny 3 (f x y)))) := by
  intro T
  have n0 : o.density (f x y) ≠ 0 := (ht.trans_le hn).ne'
  have v0 : o.scalarMoment tiny 3 (f x y) ≠ 0 := (ht.trans_le h3).ne'
  ext <;> simp only [T, ohmTerms, Op.nernst, Op.vectorMoment, Vec.add, Vec.smul, Vec.cross, max_eq_left hn, max_eq_left h3,
    show 3 + 3 = 6 from rfl] <;> field_simp <;> ring

/-- C85: these are the `v⁶` moment of what the magnetic operator does to `f1` when the field lies
along `x`; in general they are that of the operator with `By` and `Bz` reversed. -/
theorem ohm_magnetic_operator (o : Op) (hl : 1 ≤ o.layout.lMax) (hm : 1 ≤ o.layout.mMax) (f : Local) (b : Vec) (hr : ∀ j, RealZero o.layout fun k => f k j) :
    o.vector (fun k => o.v k ^ 6) (o.magnetic f ⟨b.x, -b.y, -b.z⟩) = b.cross (o.vector (fun k => o.v k ^ 6) f) := by
  have h := fun j => magnetic_flux o hl hm f ⟨b.x, -b.y, -b.z⟩ j (hr j)
  have hl' : ∀ (c d : ℝ) (u w : ℕ → ℝ), 4 * Real.pi / 3 * ((∑ j ∈ range o.nv, (u j * c - w j * d) * o.v j ^ 6) * o.dv)
      = c * (4 * Real.pi / 3 * ((∑ j ∈ range o.nv, u j * o.v j ^ 6) * o.dv)) - d * (4 * Real.pi / 3 * ((∑ j ∈ range o.nv, w j * o.v j ^ 6) * o.dv)) := by
    intro c d u w
    have : (∑ j ∈ range o.nv, (u j * c - w j * d) * o.v j ^ 6) = c * (∑ j ∈ range o.nv, u j * o.v j ^ 6) - d * ∑ j ∈ range o.nv, w j * o.v j ^ 6 := by
      rw [mul_sum, mul_sum, ← sum_sub_distrib]
      exact sum_congr rfl fun _ _ => by ring
    rw [this]; ring
  rw [vector_flux o hl, vector_flux o hl]
  simp only [h]
  ext <;> simp only [Vec.cross, hl'] <;> ring

/-- C85: the current is not accelerated by the Hall term, and the resistive term heats. -/
theorem ohm_work (o : Op) (tiny eta : ℝ) (ht : 0 < tiny) (he : 0 ≤ eta) (f : Flm nx ny) (b j : Field nx ny) (hidden : Scal nx ny) (x : ZMod nx) (y : ZMod ny) :
    let T := ohmTerms o tiny eta f b j hidden
    (T.hall x y).dot (j x y) = 0 ∧ 0 ≤ (T.resistive x y).dot (j x y)
    ∧ (eta = 0 → T.resistive x y = ⟨0, 0, 0⟩) := by
  intro T
  refine ⟨?_, ?_, ?_⟩
  · simp only [T, ohmTerms, Vec.dot, Vec.smul, Vec.cross]; ring
  · have h3 : 0 < max (o.scalarMoment tiny 3 (f x y)) tiny := lt_max_of_lt_right ht
    simp only [T, ohmTerms, Vec.dot, Vec.smul]
    have : eta / max (o.scalarMoment tiny 3 (f x y)) tiny * (j x y).x * (j x y).x + eta / max (o.scalarMoment tiny 3 (f x y)) tiny * (j x y).y * (j x y).y
        + eta / max (o.scalarMoment tiny 3 (f x y)) tiny * (j x y).z * (j x y).z
        = eta / max (o.scalarMoment tiny 3 (f x y)) tiny * ((j x y).x ^ 2 + (j x y).y ^ 2 + (j x y).z ^ 2) := by ring
    rw [this]
    positivity
  · intro h
    simp only [T, ohmTerms, h, Vec.smul]
    simp

/-- C85: a uniform plasma has no pressure terms, whatever its anisotropy, if there is no hidden
gradient; and an isotropic one with a hidden gradient `g` along `z` and no current and no magnetic
field has the field `-g ⟨v⁵⟩ / (6 n ⟨v³⟩)` along `z`. -/
theorem ohm_uniform (o : Op) (tiny eta : ℝ) (f : Local) (b j : Field nx ny) (x : ZMod nx) (y : ZMod ny) :
    let T := ohmTerms o tiny eta (fun (_ : ZMod nx) (_ : ZMod ny) => f) b j (fun _ _ => 0)
    T.scalar x y = ⟨0, 0, 0⟩ ∧ T.tensor x y = ⟨0, 0, 0⟩ := by
  intro T
  have a1 : ∀ (c : ℝ) (i : ZMod nx), o.dX.applyR (fun _ => c) i = 0 := fun c i => applyR_const _ c i
  have a2 : ∀ (c : ℝ) (i : ZMod ny), o.dY.applyR (fun _ => c) i = 0 := fun c i => applyR_const _ c i
  constructor
  · simp only [T, ohmTerms, ddx, ddy, a1, a2, Vec.smul]
    simp
  · simp only [T, ohmTerms, ddx, ddy, a1, a2, Vec.smul]
    simp

/-- An isotropic distribution. -/
def Isotropic (L : Layout) (f : Local) : Prop := ∀ i j, i ≠ (L.index 0 0).toNat → f i j = 0

theorem isotropic_get (L : Layout) (f : Local) (h : Isotropic L f) (j : ℕ) (l : ℕ) (m : ℕ) (hl : 1 ≤ l) : L.get (fun k => f k j) l m = 0 := by
  by_cases hv : l ≤ L.lMax ∧ m ≤ l ∧ m ≤ L.mMax
  · have hi := index_valid L hv
    have h0 := index_valid L (l := 0) (m := 0) (by omega)
    unfold Layout.get
    rw [hi.1, if_pos (by positivity), Int.toNat_natCast]
    refine h _ _ fun hc => ?_
    rw [show L.index 0 0 = _ from h0.1, Int.toNat_natCast] at hc
    have := hi.2.2
    rw [hc, h0.2.2] at this
    simp only [Prod.mk.injEq] at this
    omega
  · exact get_invalid _ _ (by omega)

theorem isotropic_vector (o : Op) (f : Local) (h : Isotropic o.layout f) (W : ℕ → ℝ) : o.vector W f = ⟨0, 0, 0⟩ := by
  by_cases hl : 1 ≤ o.layout.lMax
  · rw [vector_flux o hl]
    have h0 : ∀ j, o.layout.get (fun k => f k j) 1 0 = 0 := fun j => isotropic_get o.layout f h j 1 0 le_rfl
    have h1 : ∀ j, o.layout.get (fun k => f k j) 1 1 = 0 := fun j => isotropic_get o.layout f h j 1 1 le_rfl
    simp only [flux, h0, h1]
    simp
  · unfold Op.vector
    rw [index_invalid o.layout (l := 1) (m := 0) (by omega), if_pos (by norm_num)]

theorem isotropic_tensor (o : Op) (f : Local) (h : Isotropic o.layout f) (tiny : ℝ) (p r c : ℕ) (hr : r < 3) (hc : c < 3) : o.tensorMoment tiny p f r c = 0 := by
  have h0 : ∀ j, o.layout.get (fun k => f k j) 2 0 = 0 := fun j => isotropic_get o.layout f h j 2 0 (by norm_num)
  have h1 : ∀ j, o.layout.get (fun k => f k j) 2 1 = 0 := fun j => isotropic_get o.layout f h j 2 1 (by norm_num)
  have h2 : ∀ j, o.layout.get (fun k => f k j) 2 2 = 0 := fun j => isotropic_get o.layout f h j 2 2 (by norm_num)
  have : ∀ j, cartesianL2 o.layout (fun k => f k j) r c = 0 := by
    intro j
    interval_cases r <;> interval_cases c <;>
      simp [cartesian_00, cartesian_01, cartesian_02, cartesian_10, cartesian_11, cartesian_12, cartesian_20, cartesian_21, cartesian_22, h0, h1, h2]
  unfold Op.tensorMoment
  simp [this]

theorem ohm_isotropic (o : Op) (tiny eta : ℝ) (f : Local) (h : Isotropic o.layout f) (b : Field nx ny) (g : Scal nx ny) (x : ZMod nx) (y : ZMod ny) :
    (ohmTerms o tiny eta (fun (_ : ZMod nx) (_ : ZMod ny) => f) b (fun _ _ => ⟨0, 0, 0⟩) g).total x y
      = ⟨0, 0, -(g x y * o.scalarMoment tiny 5 f) / (6 * max (o.density f) tiny * max (o.scalarMoment tiny 3 f) tiny)⟩ := by
  have a1 : ∀ (c : ℝ) (i : ZMod nx), o.dX.applyR (fun _ => c) i = 0 := fun c i => applyR_const _ c i
  have a2 : ∀ (c : ℝ) (i : ZMod ny), o.dY.applyR (fun _ => c) i = 0 := fun c i => applyR_const _ c i
  have hv := isotropic_vector o f h
  have ht := fun r => isotropic_tensor o f h tiny 3 r 2
  ext
  · simp only [OhmTerms.total, ohmTerms, ddx, ddy, a1, a2, Vec.smul, Vec.add, Vec.cross, Op.nernst, Op.vectorMoment, hv]
    rw [ht 0 (by norm_num) (by norm_num)]
    simp
  · simp only [OhmTerms.total, ohmTerms, ddx, ddy, a1, a2, Vec.smul, Vec.add, Vec.cross, Op.nernst, Op.vectorMoment, hv]
    rw [ht 1 (by norm_num) (by norm_num)]
    simp
  · simp only [OhmTerms.total, ohmTerms, ddx, ddy, a1, a2, Vec.smul, Vec.add, Vec.cross, Op.nernst, Op.vectorMoment, hv]
    rw [ht 2 (by norm_num) (by norm_num)]
    simp
    ring

end
end Verif.Vfp2d

namespace Verif.Vfp2d
open Finset Complex Verif.Spectral

/-- The hypotheses of `ohm_pressure` and `project_spec` on a distribution with every harmonic. -/
example : RealD exOp.dX 3 ∧ RealD exOp.dY 4 ∧ exOp.speed = exOp.v ∧ (∀ x y, 1 ≤ exOp.density (exF x y)) ∧
    (∀ x y, 1 ≤ exOp.scalarMoment 1 3 (exF x y)) ∧ ∀ x y, 1 ≤ exOp.response (exF x y) := by
  have hpi := Real.pi_gt_three
  have i0 : (exOp.layout.index 0 0).toNat = 0 := by decide
  have e0 : ∀ x y j, (exF x y 0 j).re = (x.val : ℝ) + y.val + j := by
    intro x y j
    unfold exF
    rw [if_neg (by decide), ofReal_re]
    push_cast
    ring
  have hn : ∀ x y, 1 ≤ exOp.density (exF x y) := by
    intro x y
    unfold Op.density
    simp only [i0, e0]
    simp only [exOp, sum_range_succ, range_zero, sum_empty]
    have h1 : (0 : ℝ) ≤ x.val + y.val := by positivity
    obtain ⟨c, hc⟩ : ∃ c : ℝ, c = (x.val : ℝ) + y.val := ⟨_, rfl⟩
    rw [← hc] at h1 ⊢
    norm_num
    nlinarith [mul_nonneg h1 (by linarith : (0 : ℝ) ≤ Real.pi)]
  refine ⟨(deriv_real_iff (N := 3) (.spectral 1) (fun d h => by cases h; norm_num)).2 (fun _ => rfl),
    (deriv_real_iff (N := 4) (.central 4 1) (fun d h => by simp [Deriv.central] at h)).2 (fun h => by simp [Deriv.central] at h), rfl, hn, fun x y => ?_, fun x y => ?_⟩
  · unfold Op.scalarMoment
    rw [max_eq_left (hn x y), le_div_iff₀ (by linarith [hn x y]), one_mul]
    unfold Op.density
    simp only [i0, e0]
    simp only [exOp, sum_range_succ, range_zero, sum_empty]
    have h1 : (0 : ℝ) ≤ x.val + y.val := by positivity
    obtain ⟨c, hc⟩ : ∃ c : ℝ, c = (x.val : ℝ) + y.val := ⟨_, rfl⟩
    rw [← hc] at h1 ⊢
    norm_num
    nlinarith [mul_nonneg h1 (by linarith : (0 : ℝ) ≤ Real.pi)]
  · unfold Op.response
    simp only [i0, e0]
    simp only [exOp, sum_range_succ, range_zero, sum_empty]
    have h1 : (0 : ℝ) ≤ x.val + y.val := by positivity
    obtain ⟨c, hc⟩ : ∃ c : ℝ, c = (x.val : ℝ) + y.val := ⟨_, rfl⟩
    rw [← hc] at h1 ⊢
    norm_num
    nlinarith [mul_nonneg h1 (by linarith : (0 : ℝ) ≤ Real.pi)]

end Verif.Vfp2d

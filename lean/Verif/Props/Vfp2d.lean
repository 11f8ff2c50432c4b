import Verif.Lemmas.Vfp2d
import Mathlib.Data.Nat.Choose.Sum
import Mathlib.Tactic.LinearCombination
import Mathlib.Algebra.BigOperators.Field
import Mathlib.Analysis.Real.Pi.Bounds

/-! VFP-2D: C79 (harmonic layout), C80 (streaming), C81 (magnetic rotation), C82 (electric force). -/
namespace Verif.Vfp2d
open Finset Complex Verif.Spectral ComplexConjugate

/-! ### Layout (C79) -/

/-- C79: a layout exists exactly for `0 ≤ m_max ≤ l_max`, `m_max` defaulting to `l_max`. -/
theorem layout_iff (lMax : ℤ) (mMax : Option ℤ) :
    (∃ L, mkLayout lMax mMax = .ok L ∧ (L.lMax : ℤ) = lMax ∧ (L.mMax : ℤ) = mMax.getD lMax) ↔
      0 ≤ mMax.getD lMax ∧ mMax.getD lMax ≤ lMax := by
  unfold mkLayout
  constructor
  · rintro ⟨L, h, h1, h2⟩
    split at h
    · exact absurd h (by simp)
    · split at h
      · assumption
      · exact absurd h (by simp)
  · intro h
    rw [if_neg (by omega), if_pos h]
    exact ⟨_, rfl, by simp; omega, by simp; omega⟩

/-- C79: the harmonics stored are exactly those with `m ≤ l`, `l ≤ l_max`, `m ≤ m_max`, each once and
at the position `index` reports; every other harmonic, negative orders included, reports `-1`. -/
theorem layout_index (L : Layout) :
    (∀ l m : ℕ, l ≤ L.lMax → m ≤ l → m ≤ L.mMax →
      ∃ i, i < L.size ∧ L.index l m = i ∧ L.pairs[i]? = some (l, m)) ∧
    (∀ i < L.size, ∃ l m : ℕ, l ≤ L.lMax ∧ m ≤ l ∧ m ≤ L.mMax ∧ L.pairs[i]? = some (l, m) ∧ L.index l m = i) ∧
    (∀ l m : ℤ, L.index l m = -1 ↔ ¬ (0 ≤ l ∧ l ≤ L.lMax ∧ 0 ≤ m ∧ m ≤ l ∧ m ≤ L.mMax)) := by
  refine ⟨fun l m h1 h2 h3 => ?_, fun i hi => ?_, fun l m => ⟨fun h hv => ?_, index_invalid L⟩⟩
  · obtain ⟨e1, e2, e3⟩ := index_valid L ⟨h1, h2, h3⟩
    refine ⟨_, e2, e1, ?_⟩
    rw [List.getD_eq_getElem _ _ e2] at e3
    rw [List.getElem?_eq_getElem e2, e3]
  · obtain ⟨⟨l, m⟩, hp⟩ : ∃ p, L.pairs.getD i (0, 0) = p := ⟨_, rfl⟩
    have hg := index_getD L hi
    rw [hp] at hg
    rw [List.getD_eq_getElem _ _ hi] at hp
    have hmem : (l, m) ∈ L.pairs := hp ▸ List.getElem_mem hi
    obtain ⟨a, b, c⟩ := (mem_pairs L l m).1 hmem
    exact ⟨l, m, a, b, c, by rw [List.getElem?_eq_getElem hi, hp], hg⟩
  · obtain ⟨a, ha⟩ := Int.eq_ofNat_of_zero_le hv.1
    obtain ⟨b, hb⟩ := Int.eq_ofNat_of_zero_le hv.2.2.1
    subst ha hb
    rw [(index_valid L (l := a) (m := b) (by omega)).1] at h
    omega

/-- C79: how many there are. -/
theorem layout_size (L : Layout) (h : L.mMax ≤ L.lMax) : 2 * L.size = (L.mMax + 1) * (2 * L.lMax + 2 - L.mMax) := by
  have h1 : L.size = ∑ l ∈ range (L.lMax + 1), (min l L.mMax + 1) := by
    unfold Layout.size Layout.pairs
    rw [List.length_flatMap, ← List.sum_toFinset _ List.nodup_range, List.toFinset_range]
    simp
  have h2 : ∀ d, 2 * ∑ l ∈ range (L.mMax + d + 1), (min l L.mMax + 1) = (L.mMax + 1) * (L.mMax + 2 + 2 * d) := by
    intro d
    induction d with
    | zero =>
      have : ∑ l ∈ range (L.mMax + 0 + 1), (min l L.mMax + 1) = ∑ l ∈ range (L.mMax + 1), (l + 1) :=
        sum_congr rfl fun l hl => by have := mem_range.1 hl; rw [min_eq_left (by omega)]
      rw [this]
      have hs : ∀ n : ℕ, 2 * ∑ l ∈ range n, (l + 1) = n * (n + 1) := by
        intro n
        induction n with
        | zero => simp
        | succ n ih => rw [sum_range_succ, mul_add, ih]; ring
      rw [hs]
    | succ d ih =>
      rw [← add_assoc, sum_range_succ, mul_add, ih, min_eq_right (by omega)]
      ring
  have h3 := h2 (L.lMax - L.mMax)
  rw [h1]
  have e1 : L.mMax + (L.lMax - L.mMax) + 1 = L.lMax + 1 := by omega
  have e2 : L.mMax + 2 + 2 * (L.lMax - L.mMax) = 2 * L.lMax + 2 - L.mMax := by omega
  rw [e1, e2] at h3
  exact h3

/-! ### Reading harmonics -/

theorem get_zero_zero (L : Layout) (a : ℕ → ℂ) : L.get a 0 0 = a (L.index 0 0).toNat := by
  have h := (index_valid L (l := 0) (m := 0) (by omega)).1
  unfold Layout.get
  rw [if_pos]
  rw [show L.index 0 0 = _ from h]; omega

/-- Reading commutes with anything done to the harmonics one by one that keeps zero. -/
theorem get_apply (L : Layout) {ι : Type*} (F : (ι → ℂ) → ℂ) (hF : F (fun _ => 0) = 0) (a : ι → ℕ → ℂ) (l m : ℤ) :
    L.get (fun k => F fun t => a t k) l m = F fun t => L.get (a t) l m := by
  unfold Layout.get
  by_cases h : 0 ≤ L.index l m
  · simp only [if_pos h]
  · simp only [if_neg h, hF]

/-- The current carried by the particles of one speed: `f1` as a vector,
`f = f00 + f1 · v / |v| + …`, in the convention of `current` (harmonics.py:435-458). -/
noncomputable def flux (L : Layout) (a : ℕ → ℂ) : Vec := ⟨(L.get a 1 0).re, 2 * (L.get a 1 1).re, -2 * (L.get a 1 1).im⟩

/-! ### Streaming (C80) -/

/-- C80: at every speed the isotropic part obeys `∂f00/∂t = -(v/3) ∇·f1`. -/
theorem streaming_continuity (L : Layout) (v : ℝ) (ax ay az : ℕ → ℂ) :
    (streamTerm L v ax (fun k => ay k - I * az k) (fun k => ay k + I * az k) 0 0).re
      = -(v / 3) * ((flux L ax).x + (flux L ay).y + (flux L az).z) := by
  have hm : L.get (fun k => ay k + I * az k) 1 1 = L.get ay 1 1 + I * L.get az 1 1 := by
    unfold Layout.get; split <;> simp
  have h0 : L.get ax (-1) 0 = 0 := get_invalid L ax (by omega)
  unfold streamTerm flux
  rw [if_neg (lt_irrefl 0)]
  simp only [Nat.cast_zero, zero_sub, zero_add, Nat.cast_zero, h0, hm, mul_zero, zero_mul, sub_zero, neg_zero, zero_div]
  simp [Complex.div_ofNat_re]
  ring

/-! The entries of the tensor of the second harmonics. -/

theorem no_second (L : Layout) (a : ℕ → ℂ) (h2 : L.index 2 0 < 0) (m : ℤ) : L.get a 2 m = 0 := by
  have hv : L.lMax < 2 := by
    by_contra hge
    have := (index_valid L (l := 2) (m := 0) (by omega)).1
    rw [show L.index 2 0 = _ from this] at h2
    omega
  exact get_invalid L a (by omega)

theorem second_zero (L : Layout) (a : ℕ → ℂ) (h2 : ¬ L.index 2 0 < 0) : L.get a 2 0 = a (L.index 2 0).toNat := if_pos (by omega)

theorem cartesian_00 (L : Layout) (a : ℕ → ℂ) : cartesianL2 L a 0 0 = (L.get a 2 0).re := by
  unfold cartesianL2
  by_cases h2 : L.index 2 0 < 0
  · simp [h2, no_second L a h2]
  · simp [h2, second_zero L a h2]

theorem cartesian_01 (L : Layout) (a : ℕ → ℂ) : cartesianL2 L a 0 1 = 3 * (L.get a 2 1).re := by
  unfold cartesianL2
  by_cases h2 : L.index 2 0 < 0
  · simp [h2, no_second L a h2]
  · simp [h2, second_zero L a h2]

theorem cartesian_02 (L : Layout) (a : ℕ → ℂ) : cartesianL2 L a 0 2 = -3 * (L.get a 2 1).im := by
  unfold cartesianL2
  by_cases h2 : L.index 2 0 < 0
  · simp [h2, no_second L a h2]
  · simp [h2, second_zero L a h2]

theorem cartesian_10 (L : Layout) (a : ℕ → ℂ) : cartesianL2 L a 1 0 = 3 * (L.get a 2 1).re := by
  unfold cartesianL2
  by_cases h2 : L.index 2 0 < 0
  · simp [h2, no_second L a h2]
  · simp [h2, second_zero L a h2]

theorem cartesian_11 (L : Layout) (a : ℕ → ℂ) : cartesianL2 L a 1 1 = -0.5 * (L.get a 2 0).re + 6 * (L.get a 2 2).re := by
  unfold cartesianL2
  by_cases h2 : L.index 2 0 < 0
  · simp [h2, no_second L a h2]
  · simp [h2, second_zero L a h2]

theorem cartesian_12 (L : Layout) (a : ℕ → ℂ) : cartesianL2 L a 1 2 = -6 * (L.get a 2 2).im := by
  unfold cartesianL2
  by_cases h2 : L.index 2 0 < 0
  · simp [h2, no_second L a h2]
  · simp [h2, second_zero L a h2]

theorem cartesian_20 (L : Layout) (a : ℕ → ℂ) : cartesianL2 L a 2 0 = -3 * (L.get a 2 1).im := by
  unfold cartesianL2
  by_cases h2 : L.index 2 0 < 0
  · simp [h2, no_second L a h2]
  · simp [h2, second_zero L a h2]

theorem cartesian_21 (L : Layout) (a : ℕ → ℂ) : cartesianL2 L a 2 1 = -6 * (L.get a 2 2).im := by
  unfold cartesianL2
  by_cases h2 : L.index 2 0 < 0
  · simp [h2, no_second L a h2]
  · simp [h2, second_zero L a h2]

theorem cartesian_22 (L : Layout) (a : ℕ → ℂ) : cartesianL2 L a 2 2 = -0.5 * (L.get a 2 0).re - 6 * (L.get a 2 2).re := by
  unfold cartesianL2
  by_cases h2 : L.index 2 0 < 0
  · simp [h2, no_second L a h2]
  · simp [h2, second_zero L a h2]

/-- C80: and the vector part `∂f1/∂t = -v (∇f00 + (2/5) ∇·F2)`, `F2` the symmetric traceless tensor of the
`l = 2` harmonics, when `f1` has all three components. -/
theorem streaming_momentum (L : Layout) (v : ℝ) (ax ay az : ℕ → ℂ) (hl : 1 ≤ L.lMax) (hm : 1 ≤ L.mMax)
    (hr : ∀ l : ℕ, (L.get ay l 0).im = 0 ∧ (L.get az l 0).im = 0) :
    let out := fun l m : ℕ => streamTerm L v ax (fun k => ay k - I * az k) (fun k => ay k + I * az k) l m
    let div2 := fun r => cartesianL2 L ax r 0 + cartesianL2 L ay r 1 + cartesianL2 L az r 2
    (out 1 0).re = -v * ((L.get ax 0 0).re + 2 / 5 * div2 0) ∧
    2 * (out 1 1).re = -v * ((L.get ay 0 0).re + 2 / 5 * div2 1) ∧
    -2 * (out 1 1).im = -v * ((L.get az 0 0).re + 2 / 5 * div2 2) := by
  have hp : ∀ l m : ℤ, L.get (fun k => ay k + I * az k) l m = L.get ay l m + I * L.get az l m := by
    intro l m; unfold Layout.get; split <;> simp
  have hq : ∀ l m : ℤ, L.get (fun k => ay k - I * az k) l m = L.get ay l m - I * L.get az l m := by
    intro l m; unfold Layout.get; split <;> simp
  have h0 : ∀ a : ℕ → ℂ, L.get a 0 1 = 0 := fun a => get_invalid L a (by omega)
  have h02 : ∀ a : ℕ → ℂ, L.get a 0 2 = 0 := fun a => get_invalid L a (by omega)
  have r0y := (hr 0).1
  have r0z := (hr 0).2
  have r2y := (hr 2).1
  have r2z := (hr 2).2
  intro out div2
  simp only [div2, cartesian_00, cartesian_01, cartesian_02, cartesian_10, cartesian_11, cartesian_12, cartesian_20, cartesian_21, cartesian_22, out, streamTerm]
  simp only [Nat.cast_one, Nat.cast_zero, sub_self, lt_irrefl, if_false, Nat.zero_lt_one, if_true, hp, hq, h0, h02,
    show (1 : ℤ) + 1 = 2 by norm_num]
  norm_num at r0y r0z r2y r2z
  refine ⟨?_, ?_, ?_⟩
  · norm_num [Complex.div_ofNat_re, Complex.div_ofNat_im]
    ring
  · norm_num [Complex.div_ofNat_re, Complex.div_ofNat_im, r0y, r0z, r2y, r2z]
    ring
  · norm_num [Complex.div_ofNat_re, Complex.div_ofNat_im, r0y, r0z, r2y, r2z]
    ring

variable {nx ny : ℕ} [NeZero nx] [NeZero ny]

/-- No hidden gradient. -/
def noZ : Flm nx ny := fun _ _ _ _ => 0

theorem streaming_get (o : Op) (f dz : Flm nx ny) (x : ZMod nx) (y : ZMod ny) (j : ℕ) (l m : ℕ) :
    o.layout.get (fun k => o.streaming f dz x y k j) l m = if l ≤ o.layout.lMax ∧ m ≤ l ∧ m ≤ o.layout.mMax then
      streamTerm o.layout (o.speed j) (fun k => o.dX.apply (fun x' => f x' y k j) x)
        (fun k => o.dY.apply (fun y' => f x y' k j) y - I * dz x y k j)
        (fun k => o.dY.apply (fun y' => f x y' k j) y + I * dz x y k j) l m else 0 :=
  get_map o.layout (fun l m => streamTerm o.layout (o.speed j) (fun k => o.dX.apply (fun x' => f x' y k j) x)
        (fun k => o.dY.apply (fun y' => f x y' k j) y - I * dz x y k j)
        (fun k => o.dY.apply (fun y' => f x y' k j) y + I * dz x y k j) l m) l m

theorem get_dX (o : Op) (f : Flm nx ny) (x : ZMod nx) (y : ZMod ny) (j : ℕ) (l m : ℤ) :
    o.layout.get (fun k => o.dX.apply (fun x' => f x' y k j) x) l m = o.dX.apply (fun x' => o.layout.get (fun k => f x' y k j) l m) x :=
  get_apply o.layout (fun g => o.dX.apply g x) (deriv_zero _ _) (fun x' k => f x' y k j) l m

theorem get_dY (o : Op) (f : Flm nx ny) (x : ZMod nx) (y : ZMod ny) (j : ℕ) (l m : ℤ) :
    o.layout.get (fun k => o.dY.apply (fun y' => f x y' k j) y) l m = o.dY.apply (fun y' => o.layout.get (fun k => f x y' k j) l m) y :=
  get_apply o.layout (fun g => o.dY.apply g y) (deriv_zero _ _) (fun y' k => f x y' k j) l m

/-- C80: streaming keeps the number of particles of every speed. -/
theorem streaming_shell (o : Op) (f : Flm nx ny) (j : ℕ) :
    ∑ x, ∑ y, (o.streaming f noZ x y (o.layout.index 0 0).toNat j).re = 0 := by
  have h1 : ∀ x y, (o.streaming f noZ x y (o.layout.index 0 0).toNat j).re
      = -(o.speed j / 3) * ((o.dX.apply (fun x' => o.layout.get (fun k => f x' y k j) 1 0) x).re
        + 2 * (o.dY.apply (fun y' => o.layout.get (fun k => f x y' k j) 1 1) y).re) := by
    intro x y
    have := streaming_get o f noZ x y j 0 0
    rw [if_pos (by omega)] at this
    have hz : o.layout.get (fun k => (noZ : Flm nx ny) x y k j) 1 1 = 0 := by unfold Layout.get noZ; simp
    rw [← get_zero_zero o.layout (fun k => o.streaming f noZ x y k j)]
    rw [show o.layout.get (fun k => o.streaming f noZ x y k j) 0 0 = _ from this, streaming_continuity]
    simp only [flux, hz, get_dX, get_dY]
    simp
  simp only [h1, ← mul_sum, sum_add_distrib]
  have hx : ∑ x : ZMod nx, ∑ y : ZMod ny, (o.dX.apply (fun x' => o.layout.get (fun k => f x' y k j) 1 0) x).re = 0 := by
    rw [sum_comm]
    refine sum_eq_zero fun y _ => ?_
    have := deriv_sum o.dX (fun x' => o.layout.get (fun k => f x' y k j) 1 0)
    rw [← Complex.re_sum, this, zero_re]
  have hy : ∑ x : ZMod nx, ∑ y : ZMod ny, (o.dY.apply (fun y' => o.layout.get (fun k => f x y' k j) 1 1) y).re = 0 := by
    refine sum_eq_zero fun x _ => ?_
    have := deriv_sum o.dY (fun y' => o.layout.get (fun k => f x y' k j) 1 1)
    rw [← Complex.re_sum, this, zero_re]
  rw [hx, hy]; ring

/-- C80: and the total number. -/
theorem streaming_number (o : Op) (f : Flm nx ny) : ∑ x, ∑ y, o.density (o.streaming f noZ x y) = 0 := by
  have : ∀ x y, o.density (o.streaming f noZ x y)
      = ∑ j ∈ range o.nv, 4 * Real.pi * o.v j ^ 2 * o.dv * (o.streaming f noZ x y (o.layout.index 0 0).toNat j).re := by
    intro x y
    unfold Op.density
    rw [mul_sum, sum_mul]
    exact sum_congr rfl fun j _ => by ring
  simp only [this]
  have e : ∀ x : ZMod nx, ∑ y : ZMod ny, ∑ j ∈ range o.nv, 4 * Real.pi * o.v j ^ 2 * o.dv * (o.streaming f noZ x y (o.layout.index 0 0).toNat j).re
      = ∑ j ∈ range o.nv, 4 * Real.pi * o.v j ^ 2 * o.dv * ∑ y : ZMod ny, (o.streaming f noZ x y (o.layout.index 0 0).toNat j).re := by
    intro x
    rw [sum_comm]
    exact sum_congr rfl fun j _ => by rw [mul_sum]
  simp only [e]
  rw [sum_comm]
  refine sum_eq_zero fun j _ => ?_
  rw [← mul_sum, streaming_shell, mul_zero]

/-! The square of the distribution -/

/-- The weight of `|f_lm|²` in the square of the distribution averaged over directions: the
normalisation of the unnormalised spherical harmonics, doubled for `m > 0` since `f_{l,-m}` is not
stored. -/
noncomputable def weight (l m : ℕ) : ℝ := (if m = 0 then 1 else 2) * ((l + m).factorial / ((l - m).factorial * (2 * l + 1)))

/-- The `m = 0` harmonics are real. -/
def RealZero (L : Layout) (a : ℕ → ℂ) : Prop := ∀ l : ℕ, (L.get a l 0).im = 0

/-- `⟨p, D q⟩`: real part of the lattice sum of `conj p · q`. -/
noncomputable def pair (p q : ZMod nx → ZMod ny → ℂ) : ℝ := ∑ x, ∑ y, (conj (p x y) * q x y).re

theorem pair_zero_left (q : ZMod nx → ZMod ny → ℂ) : pair (fun _ _ => 0) q = 0 := by simp [pair]
theorem pair_zero_right (q : ZMod nx → ZMod ny → ℂ) : pair q (fun _ _ => 0) = 0 := by simp [pair]

theorem pair_dX (D : Deriv) (p q : ZMod nx → ZMod ny → ℂ) :
    pair p (fun x y => D.apply (fun x' => q x' y) x) = -pair q (fun x y => D.apply (fun x' => p x' y) x) := by
  unfold pair
  rw [sum_comm, sum_comm (f := fun x y => (conj (q x y) * D.apply (fun x' => p x' y) x).re), ← sum_neg_distrib]
  refine sum_congr rfl fun y _ => ?_
  have h := congrArg Complex.re (deriv_skew D (fun x => p x y) (fun x => q x y))
  rw [neg_re, Complex.re_sum, Complex.re_sum] at h
  rw [h]
  congr 1
  refine sum_congr rfl fun x _ => ?_
  simp only [mul_re, conj_re, conj_im]; ring

theorem pair_dY (D : Deriv) (p q : ZMod nx → ZMod ny → ℂ) :
    pair p (fun x y => D.apply (fun y' => q x y') y) = -pair q (fun x y => D.apply (fun y' => p x y') y) := by
  unfold pair
  rw [← sum_neg_distrib]
  refine sum_congr rfl fun x _ => ?_
  have h := congrArg Complex.re (deriv_skew D (fun y => p x y) (fun y => q x y))
  rw [neg_re, Complex.re_sum, Complex.re_sum] at h
  rw [h]
  congr 1
  refine sum_congr rfl fun y _ => ?_
  simp only [mul_re, conj_re, conj_im]; ring

theorem fact_x (l m : ℕ) (h : m ≤ l) : weight (l + 1) m * ((l + 1 : ℝ) - m) / (2 * l + 1) = weight l m * (l + m + 1) / (2 * l + 3) := by
  unfold weight
  obtain ⟨d, rfl⟩ := Nat.exists_eq_add_of_le h
  rw [show m + d + 1 + m = (m + d + m) + 1 by ring, show m + d + 1 - m = d + 1 by omega, show m + d - m = d by omega,
    Nat.factorial_succ, Nat.factorial_succ]
  have h1 := Nat.factorial_pos (m + d + m)
  have h2 := Nat.factorial_pos d
  push_cast
  field_simp
  ring

theorem fact_plus (l m : ℕ) (h : m ≤ l) :
    weight (l + 1) (m + 1) * (1 / 2) / (2 * l + 1) = weight l m * (if m = 0 then 1 else 1 / 2) * (l + m + 1) * (l + m + 2) / (2 * l + 3) := by
  unfold weight
  obtain ⟨d, rfl⟩ := Nat.exists_eq_add_of_le h
  rw [show m + d + 1 + (m + 1) = (m + d + m) + 1 + 1 by ring, show m + d + 1 - (m + 1) = d by omega, show m + d - m = d by omega,
    Nat.factorial_succ, Nat.factorial_succ, if_neg (by omega)]
  have h1 := Nat.factorial_pos (m + d + m)
  have h2 := Nat.factorial_pos d
  push_cast
  split <;> field_simp <;> ring

theorem fact_minus (l m : ℕ) (h : m + 1 ≤ l) :
    weight l (m + 1) * (1 / 2) / (2 * l + 3) = weight (l + 1) m * (if m = 0 then 1 else 1 / 2) * ((l + 1 : ℝ) - m) * ((l : ℝ) - m) / (2 * l + 1) := by
  unfold weight
  obtain ⟨d, rfl⟩ := Nat.exists_eq_add_of_le h
  rw [show m + 1 + d + (m + 1) = m + 1 + d + 1 + m by ring, show m + 1 + d - (m + 1) = d by omega, show m + 1 + d + 1 - m = d + 1 + 1 by omega,
    Nat.factorial_succ (d + 1), Nat.factorial_succ d, if_neg (by omega)]
  have h1 := Nat.factorial_pos (m + 1 + d + 1 + m)
  have h2 := Nat.factorial_pos d
  push_cast
  split <;> field_simp <;> ring

theorem fact_b (l m : ℕ) (h : m + 1 ≤ l) :
    weight l m * (if m = 0 then 1 else 1 / 2) * ((l : ℝ) - m) * (l + m + 1) = weight l (m + 1) * (1 / 2) := by
  unfold weight
  obtain ⟨d, rfl⟩ := Nat.exists_eq_add_of_le h
  rw [show m + 1 + d + (m + 1) = m + 1 + d + m + 1 by ring, show m + 1 + d - (m + 1) = d by omega, show m + 1 + d - m = d + 1 by omega,
    Nat.factorial_succ (m + 1 + d + m), Nat.factorial_succ d, if_neg (by omega : ¬ m + 1 = 0)]
  have h1 := Nat.factorial_pos (m + 1 + d + m)
  have h2 := Nat.factorial_pos d
  push_cast
  split <;> field_simp <;> ring

/-- Sums over the box of harmonics, shifted. -/
theorem box_shift_l (N : ℕ) (F G : ℕ → ℕ → ℝ) (hF : ∀ m, F 0 m = 0) (hG : ∀ m, G N m = 0) (h : ∀ l m, F (l + 1) m + G l m = 0) :
    ∑ l ∈ range (N + 1), ∑ m ∈ range (N + 1), (F l m + G l m) = 0 := by
  simp only [sum_add_distrib]
  rw [sum_range_succ' (fun l => ∑ m ∈ range (N + 1), F l m), sum_range_succ (fun l => ∑ m ∈ range (N + 1), G l m)]
  simp only [hF, hG, sum_const_zero, add_zero]
  rw [← sum_add_distrib]
  refine sum_eq_zero fun l _ => ?_
  rw [← sum_add_distrib]
  exact sum_eq_zero fun m _ => h l m

theorem box_shift_plus (N : ℕ) (F G : ℕ → ℕ → ℝ) (hF : ∀ m, F 0 m = 0) (hF' : ∀ l, F l 0 = 0) (hG : ∀ m, G N m = 0) (hG' : ∀ l, G l N = 0)
    (h : ∀ l m, F (l + 1) (m + 1) + G l m = 0) :
    ∑ l ∈ range (N + 1), ∑ m ∈ range (N + 1), (F l m + G l m) = 0 := by
  simp only [sum_add_distrib]
  rw [sum_range_succ' (fun l => ∑ m ∈ range (N + 1), F l m), sum_range_succ (fun l => ∑ m ∈ range (N + 1), G l m)]
  simp only [hF, hG, sum_const_zero, add_zero]
  rw [← sum_add_distrib]
  refine sum_eq_zero fun l _ => ?_
  rw [sum_range_succ', sum_range_succ, hF', hG', add_zero, add_zero, ← sum_add_distrib]
  exact sum_eq_zero fun m _ => h l m

theorem box_shift_minus (N : ℕ) (F G : ℕ → ℕ → ℝ) (hF : ∀ m, F N m = 0) (hF' : ∀ l, F l 0 = 0) (hG : ∀ m, G 0 m = 0) (hG' : ∀ l, G l N = 0)
    (h : ∀ l m, F l (m + 1) + G (l + 1) m = 0) :
    ∑ l ∈ range (N + 1), ∑ m ∈ range (N + 1), (F l m + G l m) = 0 := by
  simp only [sum_add_distrib]
  rw [sum_range_succ (fun l => ∑ m ∈ range (N + 1), F l m), sum_range_succ' (fun l => ∑ m ∈ range (N + 1), G l m)]
  simp only [hF, hG, sum_const_zero, add_zero]
  rw [← sum_add_distrib]
  refine sum_eq_zero fun l _ => ?_
  rw [sum_range_succ', sum_range_succ, hF', hG', add_zero, add_zero, ← sum_add_distrib]
  exact sum_eq_zero fun m _ => h l m

/-- The sum over the stored harmonics as a sum over a box. -/
theorem sum_box (L : Layout) (hML : L.mMax ≤ L.lMax) (φ : ℕ → ℕ → ℝ) (hφ : ∀ l m, ¬ (l ≤ L.lMax ∧ m ≤ l ∧ m ≤ L.mMax) → φ l m = 0) :
    ∑ i ∈ range L.size, φ (L.pairs.getD i (0, 0)).1 (L.pairs.getD i (0, 0)).2
      = ∑ l ∈ range (L.lMax + 1 + 1), ∑ m ∈ range (L.lMax + 1 + 1), φ l m := by
  rw [sum_pairs, sum_range_succ (n := L.lMax + 1)]
  have hlast : ∑ m ∈ range (L.lMax + 1 + 1), φ (L.lMax + 1) m = 0 := sum_eq_zero fun m _ => hφ _ _ (by omega)
  rw [hlast, add_zero]
  refine sum_congr rfl fun l hl => ?_
  have hl := mem_range.1 hl
  rw [← Finset.sum_subset (s₁ := range (L.mMax + 1)) (s₂ := range (L.lMax + 1 + 1))]
  · refine sum_congr rfl fun m hm => ?_
    split
    · rfl
    · exact (hφ _ _ (by omega)).symm
  · intro m hm; have := mem_range.1 hm; exact mem_range.2 (by omega)
  · intro m _ hm
    have : ¬ m < L.mMax + 1 := fun h => hm (mem_range.2 h)
    exact hφ _ _ (by omega)

/-- C80: streaming neither creates nor destroys the square of the distribution at any speed, whatever
the truncation: `Σ_{xy} Σ_{lm} w_lm Re(conj f_lm · (df/dt)_lm) = 0`. -/
theorem streaming_norm (o : Op) (hML : o.layout.mMax ≤ o.layout.lMax) (f : Flm nx ny) (j : ℕ) (hr : ∀ x y, RealZero o.layout fun k => f x y k j) :
    ∑ x, ∑ y, ∑ i ∈ range o.layout.size, weight (o.layout.pairs.getD i (0, 0)).1 (o.layout.pairs.getD i (0, 0)).2 *
      (conj (f x y i j) * o.streaming f noZ x y i j).re = 0 := by
  obtain ⟨A, hA⟩ : ∃ A : ℤ → ℤ → ZMod nx → ZMod ny → ℂ, A = fun l m x y => o.layout.get (fun k => f x y k j) l m := ⟨_, rfl⟩
  have hA0 : ∀ l m : ℤ, ¬ (0 ≤ l ∧ l ≤ o.layout.lMax ∧ 0 ≤ m ∧ m ≤ l ∧ m ≤ o.layout.mMax) → A l m = fun _ _ => 0 := by
    intro l m h
    rw [hA]; funext x y; exact get_invalid o.layout _ h
  obtain ⟨PX, hPX⟩ : ∃ PX : ℤ → ℤ → ℤ → ℤ → ℝ, PX = fun l m l' m' => pair (A l m) (fun x y => o.dX.apply (fun x' => A l' m' x' y) x) := ⟨_, rfl⟩
  obtain ⟨PY, hPY⟩ : ∃ PY : ℤ → ℤ → ℤ → ℤ → ℝ, PY = fun l m l' m' => pair (A l m) (fun x y => o.dY.apply (fun y' => A l' m' x y') y) := ⟨_, rfl⟩
  have aX : ∀ l m l' m', PX l m l' m' = -PX l' m' l m := by intro l m l' m'; rw [hPX]; exact pair_dX _ _ _
  have aY : ∀ l m l' m', PY l m l' m' = -PY l' m' l m := by intro l m l' m'; rw [hPY]; exact pair_dY _ _ _
  have zX : ∀ l m l' m' : ℤ, ¬ (0 ≤ l ∧ l ≤ o.layout.lMax ∧ 0 ≤ m ∧ m ≤ l ∧ m ≤ o.layout.mMax) → PX l m l' m' = 0 := by
    intro l m l' m' h; rw [hPX]; dsimp only; rw [hA0 l m h]; exact pair_zero_left _
  have zY : ∀ l m l' m' : ℤ, ¬ (0 ≤ l ∧ l ≤ o.layout.lMax ∧ 0 ≤ m ∧ m ≤ l ∧ m ≤ o.layout.mMax) → PY l m l' m' = 0 := by
    intro l m l' m' h; rw [hPY]; dsimp only; rw [hA0 l m h]; exact pair_zero_left _
  -- one harmonic, one point
  have hterm : ∀ x y (l m : ℕ), (conj (A l m x y) * streamTerm o.layout (o.speed j)
        (fun k => o.dX.apply (fun x' => f x' y k j) x) (fun k => o.dY.apply (fun y' => f x y' k j) y - I * noZ x y k j)
        (fun k => o.dY.apply (fun y' => f x y' k j) y + I * noZ x y k j) l m).re
      = -o.speed j * (((l : ℝ) - m) / (2 * l - 1)) * (conj (A l m x y) * o.dX.apply (fun x' => A (l - 1) m x' y) x).re
        - o.speed j * (((l : ℝ) + m + 1) / (2 * l + 3)) * (conj (A l m x y) * o.dX.apply (fun x' => A (l + 1) m x' y) x).re
        - o.speed j * ((1 / 2) / (2 * l - 1)) * (conj (A l m x y) * o.dY.apply (fun y' => A (l - 1) (m - 1) x y') y).re
        + o.speed j * ((if m = 0 then 1 else 1 / 2) * ((l : ℝ) - m) * (l - m - 1) / (2 * l - 1)) * (conj (A l m x y) * o.dY.apply (fun y' => A (l - 1) (m + 1) x y') y).re
        + o.speed j * ((1 / 2) / (2 * l + 3)) * (conj (A l m x y) * o.dY.apply (fun y' => A (l + 1) (m - 1) x y') y).re
        - o.speed j * ((if m = 0 then 1 else 1 / 2) * ((l : ℝ) + m + 1) * (l + m + 2) / (2 * l + 3)) * (conj (A l m x y) * o.dY.apply (fun y' => A (l + 1) (m + 1) x y') y).re := by
    intro x y l m
    have hz1 : (fun k => o.dY.apply (fun y' => f x y' k j) y - I * (noZ : Flm nx ny) x y k j) = fun k => o.dY.apply (fun y' => f x y' k j) y := by
      funext k; simp [noZ]
    have hz2 : (fun k => o.dY.apply (fun y' => f x y' k j) y + I * (noZ : Flm nx ny) x y k j) = fun k => o.dY.apply (fun y' => f x y' k j) y := by
      funext k; simp [noZ]
    have eA : ∀ l m x y, o.layout.get (fun k => f x y k j) l m = A l m x y := fun l m x y => by rw [hA]
    rw [hz1, hz2]
    unfold streamTerm
    simp only [get_dX, get_dY, eA]
    have cast : ∀ (r : ℝ) (z w : ℂ), (conj z * ((r : ℂ) * w)).re = r * (conj z * w).re := by
      intro r z w
      rw [show conj z * ((r : ℂ) * w) = (r : ℂ) * (conj z * w) by ring, re_ofReal_mul]
    rcases Nat.eq_zero_or_pos m with h0 | hm
    · subst h0
      rw [if_neg (lt_irrefl 0)]
      have zz : ∀ l' : ℤ, A l' (((0 : ℕ) : ℤ) - 1) = fun _ _ => 0 := fun l' => hA0 _ _ (by omega)
      have zz' : ∀ l' : ℤ, A l' ((0 : ℤ) - 1) = fun _ _ => 0 := fun l' => hA0 _ _ (by omega)
      have him : (A l ((0 : ℕ) : ℤ) x y).im = 0 := by rw [hA]; exact_mod_cast hr x y l
      have real : ∀ w : ℂ, (conj (A l ((0 : ℕ) : ℤ) x y) * (w.re : ℂ)).re = (conj (A l ((0 : ℕ) : ℤ) x y) * w).re := by
        intro w; simp only [mul_re, conj_re, conj_im, ofReal_re, ofReal_im, him]; ring
      simp only [zz', deriv_zero, mul_zero, zero_re, Nat.cast_zero, sub_zero, add_zero, if_true, zero_add] at real ⊢
      obtain ⟨a, ha⟩ : ∃ a, a = A l 0 x y := ⟨_, rfl⟩
      obtain ⟨p, hp⟩ : ∃ p, p = o.dX.apply (fun x' => A (l - 1) 0 x' y) x := ⟨_, rfl⟩
      obtain ⟨q, hq⟩ : ∃ q, q = o.dX.apply (fun x' => A (l + 1) 0 x' y) x := ⟨_, rfl⟩
      obtain ⟨r, hr'⟩ : ∃ r, r = o.dY.apply (fun y' => A (l - 1) 1 x y') y := ⟨_, rfl⟩
      obtain ⟨t, ht⟩ : ∃ t, t = o.dY.apply (fun y' => A (l + 1) 1 x y') y := ⟨_, rfl⟩
      rw [← ha] at real
      rw [← ha, ← hp, ← hq, ← hr', ← ht]
      have e : conj a * (-(o.speed j : ℂ) * (l : ℂ) / (2 * l - 1) * p - (o.speed j : ℂ) * ((l : ℂ) + 1) / (2 * l + 3) * q
            + -(o.speed j : ℂ) * ((-((l : ℂ) * (l - 1) / (2 * l - 1) * r) + ((l : ℂ) + 1) * (l + 2) / (2 * l + 3) * t).re : ℂ))
          = conj a * (((-o.speed j * ((l : ℝ) / (2 * l - 1)) : ℝ) : ℂ) * p) + conj a * (((-(o.speed j * (((l : ℝ) + 1) / (2 * l + 3))) : ℝ) : ℂ) * q)
            + conj a * (((-o.speed j : ℝ) : ℂ) * ((-((l : ℂ) * (l - 1) / (2 * l - 1) * r) + ((l : ℂ) + 1) * (l + 2) / (2 * l + 3) * t).re : ℂ)) := by
        push_cast; ring
      rw [e, add_re, add_re, cast, cast, cast, real]
      have e2 : conj a * (-((l : ℂ) * (l - 1) / (2 * l - 1) * r) + ((l : ℂ) + 1) * (l + 2) / (2 * l + 3) * t)
          = conj a * (((-((l : ℝ) * (l - 1) / (2 * l - 1)) : ℝ) : ℂ) * r) + conj a * (((((l : ℝ) + 1) * (l + 2) / (2 * l + 3) : ℝ) : ℂ) * t) := by
        push_cast; ring
      rw [e2, add_re, cast, cast]
      ring
    · rw [if_pos hm]
      simp only [if_neg (by omega : ¬ m = 0)]
      obtain ⟨a, ha⟩ : ∃ a, a = A l m x y := ⟨_, rfl⟩
      obtain ⟨p, hp⟩ : ∃ p, p = o.dX.apply (fun x' => A (l - 1) m x' y) x := ⟨_, rfl⟩
      obtain ⟨q, hq⟩ : ∃ q, q = o.dX.apply (fun x' => A (l + 1) m x' y) x := ⟨_, rfl⟩
      obtain ⟨r, hr'⟩ : ∃ r, r = o.dY.apply (fun y' => A (l - 1) (m - 1) x y') y := ⟨_, rfl⟩
      obtain ⟨t, ht⟩ : ∃ t, t = o.dY.apply (fun y' => A (l - 1) (m + 1) x y') y := ⟨_, rfl⟩
      obtain ⟨u, hu⟩ : ∃ u, u = o.dY.apply (fun y' => A (l + 1) (m - 1) x y') y := ⟨_, rfl⟩
      obtain ⟨w, hw⟩ : ∃ w, w = o.dY.apply (fun y' => A (l + 1) (m + 1) x y') y := ⟨_, rfl⟩
      rw [← ha, ← hp, ← hq, ← hr', ← ht, ← hu, ← hw]
      have e : conj a * (-(o.speed j : ℂ) * ((l : ℂ) - m) / (2 * l - 1) * p - (o.speed j : ℂ) * ((l : ℂ) + m + 1) / (2 * l + 3) * q
            + (-0.5 * (o.speed j : ℂ) / (2 * l - 1) * r + 0.5 * (o.speed j : ℂ) * ((l : ℂ) - m) * ((l : ℂ) - m - 1) / (2 * l - 1) * t
              + 0.5 * (o.speed j : ℂ) / (2 * l + 3) * u - 0.5 * (o.speed j : ℂ) * ((l : ℂ) + m + 1) * ((l : ℂ) + m + 2) / (2 * l + 3) * w))
          = conj a * (((-o.speed j * (((l : ℝ) - m) / (2 * l - 1)) : ℝ) : ℂ) * p) + conj a * (((-(o.speed j * (((l : ℝ) + m + 1) / (2 * l + 3))) : ℝ) : ℂ) * q)
            + conj a * (((-(o.speed j * ((1 / 2) / (2 * l - 1))) : ℝ) : ℂ) * r)
            + conj a * (((o.speed j * (1 / 2 * ((l : ℝ) - m) * (l - m - 1) / (2 * l - 1)) : ℝ) : ℂ) * t)
            + conj a * (((o.speed j * ((1 / 2) / (2 * l + 3)) : ℝ) : ℂ) * u)
            + conj a * (((-(o.speed j * (1 / 2 * ((l : ℝ) + m + 1) * (l + m + 2) / (2 * l + 3))) : ℝ) : ℂ) * w) := by
        push_cast; ring
      rw [e]
      simp only [add_re, cast]
      ring
  -- the sum over harmonics is a sum over the box, and the lattice sums are pairings
  have hbox : ∀ x y, ∑ i ∈ range o.layout.size, weight (o.layout.pairs.getD i (0, 0)).1 (o.layout.pairs.getD i (0, 0)).2 *
        (conj (f x y i j) * o.streaming f noZ x y i j).re
      = ∑ l ∈ range (o.layout.lMax + 1 + 1), ∑ m ∈ range (o.layout.lMax + 1 + 1), weight l m *
        (conj (A l m x y) * streamTerm o.layout (o.speed j)
        (fun k => o.dX.apply (fun x' => f x' y k j) x) (fun k => o.dY.apply (fun y' => f x y' k j) y - I * noZ x y k j)
        (fun k => o.dY.apply (fun y' => f x y' k j) y + I * noZ x y k j) l m).re := by
    intro x y
    rw [← sum_box o.layout hML]
    · refine sum_congr rfl fun i hi => ?_
      have hi := mem_range.1 hi
      have hg : A ((o.layout.pairs.getD i (0, 0)).1 : ℕ) ((o.layout.pairs.getD i (0, 0)).2 : ℕ) x y = f x y i j := by
        have hi' := index_getD o.layout hi
        simp only [hA, Layout.get, hi']
        rw [if_pos (by omega)]; rfl
      rw [hg]; rfl
    · intro l m h
      rw [hA0 l m (by omega)]; simp
  simp only [hbox]
  have swap : ∀ F : ZMod nx → ZMod ny → ℕ → ℕ → ℝ, ∑ x, ∑ y, ∑ l ∈ range (o.layout.lMax + 1 + 1), ∑ m ∈ range (o.layout.lMax + 1 + 1), F x y l m
      = ∑ l ∈ range (o.layout.lMax + 1 + 1), ∑ m ∈ range (o.layout.lMax + 1 + 1), ∑ x, ∑ y, F x y l m := by
    intro F
    have : ∀ x, ∑ y, ∑ l ∈ range (o.layout.lMax + 1 + 1), ∑ m ∈ range (o.layout.lMax + 1 + 1), F x y l m
        = ∑ l ∈ range (o.layout.lMax + 1 + 1), ∑ m ∈ range (o.layout.lMax + 1 + 1), ∑ y, F x y l m := by
      intro x
      rw [sum_comm]
      exact sum_congr rfl fun l _ => by rw [sum_comm]
    simp only [this]
    rw [sum_comm]
    exact sum_congr rfl fun l _ => by rw [sum_comm]
  rw [swap]
  have hpt : ∀ l m : ℕ, ∑ x, ∑ y, weight l m * (conj (A l m x y) * streamTerm o.layout (o.speed j)
        (fun k => o.dX.apply (fun x' => f x' y k j) x) (fun k => o.dY.apply (fun y' => f x y' k j) y - I * noZ x y k j)
        (fun k => o.dY.apply (fun y' => f x y' k j) y + I * noZ x y k j) l m).re
      = (weight l m * (-o.speed j * (((l : ℝ) - m) / (2 * l - 1))) * PX l m (l - 1) m
          + weight l m * (-o.speed j * (((l : ℝ) + m + 1) / (2 * l + 3))) * PX l m (l + 1) m)
        + ((weight l m * (-o.speed j * ((1 / 2) / (2 * l - 1))) * PY l m (l - 1) (m - 1)
          + weight l m * (-o.speed j * ((if m = 0 then 1 else 1 / 2) * ((l : ℝ) + m + 1) * (l + m + 2) / (2 * l + 3))) * PY l m (l + 1) (m + 1))
        + (weight l m * (o.speed j * ((1 / 2) / (2 * l + 3))) * PY l m (l + 1) (m - 1)
          + weight l m * (o.speed j * ((if m = 0 then 1 else 1 / 2) * ((l : ℝ) - m) * (l - m - 1) / (2 * l - 1))) * PY l m (l - 1) (m + 1))) := by
    intro l m
    simp only [hterm, hPX, hPY, pair, mul_sum]
    simp only [← sum_add_distrib]
    refine sum_congr rfl fun x _ => sum_congr rfl fun y _ => ?_
    ring
  simp only [hpt]
  have split3 : ∀ U V W : ℕ → ℕ → ℝ, ∀ N : ℕ, ∑ l ∈ range (N + 1), ∑ m ∈ range (N + 1), (U l m + (V l m + W l m))
      = ∑ l ∈ range (N + 1), ∑ m ∈ range (N + 1), U l m + (∑ l ∈ range (N + 1), ∑ m ∈ range (N + 1), V l m + ∑ l ∈ range (N + 1), ∑ m ∈ range (N + 1), W l m) := by
    intro U V W N
    simp only [sum_add_distrib]
  rw [split3]
  have hx := box_shift_l (o.layout.lMax + 1)
    (fun l m => weight l m * (-o.speed j * (((l : ℝ) - m) / (2 * l - 1))) * PX l m (l - 1) m)
    (fun l m => weight l m * (-o.speed j * (((l : ℝ) + m + 1) / (2 * l + 3))) * PX l m (l + 1) m)
    (fun m => by rw [aX, zX _ _ _ _ (by omega)]; ring)
    (fun m => by rw [zX _ _ _ _ (by push_cast; omega)]; ring)
    (fun l m => by
      by_cases h : m ≤ l
      · have hf := fact_x l m h
        have e1 : (((l + 1 : ℕ) : ℤ) - 1) = l := by push_cast; ring
        have e2 : ((l + 1 : ℕ) : ℤ) = l + 1 := by push_cast; ring
        rw [e1, aX, e2]
        push_cast
        have e3 : (2 * ((l : ℝ) + 1) - 1) = 2 * l + 1 := by ring
        rw [e3]
        linear_combination (o.speed j * PX l m (l + 1) m) * hf
      · have e1 : (((l + 1 : ℕ) : ℤ) - 1) = l := by push_cast; ring
        rw [e1, aX, zX _ _ _ _ (by omega), zX _ _ _ _ (by omega)]; ring)
  have hp := box_shift_plus (o.layout.lMax + 1)
    (fun l m => weight l m * (-o.speed j * ((1 / 2) / (2 * l - 1))) * PY l m (l - 1) (m - 1))
    (fun l m => weight l m * (-o.speed j * ((if m = 0 then 1 else 1 / 2) * ((l : ℝ) + m + 1) * (l + m + 2) / (2 * l + 3))) * PY l m (l + 1) (m + 1))
    (fun m => by rw [aY, zY _ _ _ _ (by omega)]; ring)
    (fun m => by rw [aY, zY _ _ _ _ (by omega)]; ring)
    (fun m => by rw [zY _ _ _ _ (by push_cast; omega)]; ring)
    (fun m => by rw [zY _ _ _ _ (by push_cast; omega)]; ring)
    (fun l m => by
      have e1 : (((l + 1 : ℕ) : ℤ) - 1) = l := by push_cast; ring
      have e1' : (((m + 1 : ℕ) : ℤ) - 1) = m := by push_cast; ring
      have e2 : ((l + 1 : ℕ) : ℤ) = l + 1 := by push_cast; ring
      have e2' : ((m + 1 : ℕ) : ℤ) = m + 1 := by push_cast; ring
      rw [e1, e1', aY, e2, e2']
      by_cases h : m ≤ l
      · have hf := fact_plus l m h
        push_cast
        have e3 : (2 * ((l : ℝ) + 1) - 1) = 2 * l + 1 := by ring
        rw [e3]
        linear_combination (o.speed j * PY l m (l + 1) (m + 1)) * hf
      · rw [zY _ _ _ _ (by omega)]; ring)
  have hm := box_shift_minus (o.layout.lMax + 1)
    (fun l m => weight l m * (o.speed j * ((1 / 2) / (2 * l + 3))) * PY l m (l + 1) (m - 1))
    (fun l m => weight l m * (o.speed j * ((if m = 0 then 1 else 1 / 2) * ((l : ℝ) - m) * (l - m - 1) / (2 * l - 1))) * PY l m (l - 1) (m + 1))
    (fun m => by rw [zY _ _ _ _ (by push_cast; omega)]; ring)
    (fun m => by rw [aY, zY _ _ _ _ (by omega)]; ring)
    (fun m => by rw [aY, zY _ _ _ _ (by omega)]; ring)
    (fun m => by rw [zY _ _ _ _ (by push_cast; omega)]; ring)
    (fun l m => by
      have e1 : (((l + 1 : ℕ) : ℤ) - 1) = l := by push_cast; ring
      have e1' : (((m + 1 : ℕ) : ℤ) - 1) = m := by push_cast; ring
      have e2 : ((l + 1 : ℕ) : ℤ) = l + 1 := by push_cast; ring
      have e2' : ((m + 1 : ℕ) : ℤ) = m + 1 := by push_cast; ring
      rw [e1, e1', aY, e2, e2']
      by_cases h : m + 1 ≤ l
      · have hf := fact_minus l m h
        push_cast
        have e3 : (2 * ((l : ℝ) + 1) - 1) = 2 * l + 1 := by ring
        have e4 : ((l : ℝ) + 1 - m - 1) = l - m := by ring
        rw [e3, e4]
        linear_combination (-o.speed j * PY (l + 1) m l (m + 1)) * hf
      · rw [aY, zY _ _ _ _ (by omega)]; ring)
  rw [hx, hp, hm]
  ring

/-! ### Magnetic rotation (C81) -/

def Vec.dot (a b : Vec) : ℝ := a.x * b.x + a.y * b.y + a.z * b.z

theorem magnetic_get (o : Op) (f : Local) (b : Vec) (j l m : ℕ) :
    o.layout.get (fun k => o.magnetic f b k j) l m
      = if l ≤ o.layout.lMax ∧ m ≤ l ∧ m ≤ o.layout.mMax then magneticTerm o.layout b (fun k => f k j) l m else 0 :=
  get_map o.layout (fun l m => magneticTerm o.layout b (fun k => f k j) l m) l m

/-- C81: the magnetic field leaves the isotropic part alone, hence density and energy. -/
theorem magnetic_isotropic (o : Op) (f : Local) (b : Vec) (j : ℕ) : o.magnetic f b (o.layout.index 0 0).toNat j = 0 ∧ o.density (o.magnetic f b) = 0 := by
  have h : ∀ j, o.magnetic f b (o.layout.index 0 0).toNat j = 0 := by
    intro j
    rw [← get_zero_zero o.layout (fun k => o.magnetic f b k j)]
    have := magnetic_get o f b j 0 0
    rw [if_pos (by omega)] at this
    rw [show o.layout.get (fun k => o.magnetic f b k j) 0 0 = _ from this]
    unfold magneticTerm
    simp
  exact ⟨h j, by unfold Op.density; simp [h]⟩

/-- C81: it only redistributes within each order `l` at each speed and position: the square of the
order is constant, whatever the field and the truncation. -/
theorem magnetic_norm (o : Op) (f : Local) (b : Vec) (j : ℕ) (hr : RealZero o.layout fun k => f k j) (l : ℕ) (hl : l ≤ o.layout.lMax) :
    ∑ m ∈ range (min l o.layout.mMax + 1), weight l m *
      (conj (o.layout.get (fun k => f k j) l m) * o.layout.get (fun k => o.magnetic f b k j) l m).re = 0 := by
  obtain ⟨A, hA⟩ : ∃ A : ℤ → ℂ, A = fun m => o.layout.get (fun k => f k j) l m := ⟨_, rfl⟩
  have hA0 : ∀ m : ℤ, ¬ (0 ≤ m ∧ m ≤ l ∧ m ≤ o.layout.mMax) → A m = 0 := by
    intro m h; rw [hA]; exact get_invalid o.layout _ (by omega)
  obtain ⟨n, hn⟩ : ∃ n, n = min l o.layout.mMax := ⟨_, rfl⟩
  obtain ⟨q, hq⟩ : ∃ q : ℂ, q = (b.z : ℂ) - I * b.y := ⟨_, rfl⟩
  have hq' : conj q = (b.z : ℂ) + I * b.y := by rw [hq]; simp
  rw [← hn]
  -- the exchange between `m` and `m + 1`
  obtain ⟨X, hX⟩ : ∃ X : ℕ → ℝ, X = fun m => weight l m * (if m = 0 then 1 else 1 / 2) * ((l : ℝ) - m) * (l + m + 1) * (conj (A m) * q * A (m + 1)).re := ⟨_, rfl⟩
  have hterm : ∀ m ≤ n, weight l m * (conj (o.layout.get (fun k => f k j) l m) * o.layout.get (fun k => o.magnetic f b k j) l m).re
      = X m - (if m = 0 then 0 else X (m - 1)) := by
    intro m hm
    rw [magnetic_get, if_pos (by omega)]
    have eA : ∀ m : ℤ, o.layout.get (fun k => f k j) l m = A m := fun m => by rw [hA]
    unfold magneticTerm
    simp only [eA, ← hq, ← hq']
    rcases Nat.eq_zero_or_pos m with h0 | hpos
    · subst h0
      have him : (A ((0 : ℕ) : ℤ)).im = 0 := by rw [hA]; exact_mod_cast hr l
      simp only [lt_irrefl, if_false, if_true, hX, Nat.cast_zero, sub_zero, add_zero, zero_add] at him ⊢
      have him' : (A 0).im = 0 := him
      by_cases hl0 : 0 < l
      · rw [if_pos hl0]
        simp only [mul_re, mul_im, conj_re, conj_im, ofReal_re, ofReal_im, him', add_re, add_im, natCast_re, natCast_im, one_re, one_im]
        ring
      · have : l = 0 := by omega
        subst this
        simp
    · rw [if_pos hpos, if_neg (by omega)]
      obtain ⟨k, rfl⟩ : ∃ k, m = k + 1 := ⟨m - 1, by omega⟩
      have hf := fact_b l k (by omega)
      have e1 : (((k + 1 : ℕ) : ℤ) - 1) = k := by push_cast; ring
      have e2 : ((k + 1 : ℕ) : ℤ) = (k : ℤ) + 1 := by push_cast; ring
      have e3 : k + 1 - 1 = k := rfl
      simp only [hX, e1, e2, e3, add_sub_cancel_right]
      rw [hf, if_neg (by omega)]
      obtain ⟨a, ha⟩ : ∃ a, a = A ((k : ℤ) + 1) := ⟨_, rfl⟩
      obtain ⟨c, hc⟩ : ∃ c, c = A ((k : ℤ) + 1 + 1) := ⟨_, rfl⟩
      obtain ⟨d, hd⟩ : ∃ d, d = A (k : ℤ) := ⟨_, rfl⟩
      rw [← ha, ← hc, ← hd]
      have t1 : conj a * (-I * b.x * ((k + 1 : ℕ) : ℂ) * a + 0.5 * ((l : ℂ) - ((k + 1 : ℕ) : ℂ)) * ((l : ℂ) + ((k + 1 : ℕ) : ℂ) + 1) * q * c - 0.5 * conj q * d)
          = ((b.x * (k + 1) : ℝ) : ℂ) * (-I * (conj a * a)) + ((1 / 2 * ((l : ℝ) - (k + 1)) * (l + (k + 1) + 1) : ℝ) : ℂ) * (conj a * q * c)
            - ((1 / 2 : ℝ) : ℂ) * (conj a * conj q * d) := by
        push_cast; ring
      have t2 : (-I * (conj a * a)).re = 0 := by simp only [mul_re, neg_re, neg_im, I_re, I_im, conj_re, conj_im, mul_im]; ring
      have t3 : (conj a * conj q * d).re = (conj d * q * a).re := by
        simp only [mul_re, mul_im, conj_re, conj_im]; ring
      rw [t1, sub_re, add_re, re_ofReal_mul, re_ofReal_mul, re_ofReal_mul, t2, t3]
      push_cast
      ring
  have htel : ∀ k, ∑ m ∈ range (k + 1), (X m - (if m = 0 then 0 else X (m - 1))) = X k := by
    intro k
    induction k with
    | zero => simp
    | succ k ih => rw [sum_range_succ, ih, if_neg (by omega), Nat.add_sub_cancel]; ring
  rw [sum_congr rfl fun m hm => hterm m (by have := mem_range.1 hm; omega), htel, hX]
  have : A ((n : ℤ) + 1) = 0 ∨ (l : ℝ) - n = 0 := by
    by_cases h : l = n
    · right; rw [h]; ring
    · left; exact hA0 _ (by omega)
  rcases this with h | h
  · simp [h]
  · simp [h]

/-- C81: what the magnetic field does to the current of one speed: a rotation, but about
`(-Bx, By, Bz)`. -/
theorem magnetic_flux (o : Op) (hl : 1 ≤ o.layout.lMax) (hm : 1 ≤ o.layout.mMax) (f : Local) (b : Vec) (j : ℕ) (hr : RealZero o.layout fun k => f k j) :
    flux o.layout (fun k => o.magnetic f b k j) = (flux o.layout fun k => f k j).cross ⟨-b.x, b.y, b.z⟩ := by
  have h0 := magnetic_get o f b j 1 0
  have h1 := magnetic_get o f b j 1 1
  rw [if_pos (by omega)] at h0 h1
  have r := hr 1
  have h12 : o.layout.get (fun k => f k j) 1 2 = 0 := get_invalid _ _ (by omega)
  unfold flux
  rw [show o.layout.get (fun k => o.magnetic f b k j) 1 0 = _ from h0, show o.layout.get (fun k => o.magnetic f b k j) 1 1 = _ from h1]
  unfold magneticTerm
  have r' : (o.layout.get (fun k => f k j) 1 0).im = 0 := r
  rw [if_neg (lt_irrefl 0), if_pos (by norm_num), if_pos (by norm_num)]
  ext
  · norm_num [Vec.cross]
    ring
  · norm_num [Vec.cross, h12, r']
    ring
  · norm_num [Vec.cross, h12, r']
    ring

/-- C81: an electron in a magnetic field is accelerated by `-v × B`, so `f1` must change at the rate `B × f1`
(the sign with which the code treats `E` and the Hall term of its Ohm law).  That is what happens
exactly when the components `By`, `Bz` exert no force: they rotate the wrong way. -/
theorem magnetic_lorentz_iff (o : Op) (hl : 1 ≤ o.layout.lMax) (hm : 1 ≤ o.layout.mMax) (f : Local) (b : Vec) (j : ℕ) (hr : RealZero o.layout fun k => f k j) :
    flux o.layout (fun k => o.magnetic f b k j) = b.cross (flux o.layout fun k => f k j) ↔
      (flux o.layout fun k => f k j).cross ⟨0, b.y, b.z⟩ = ⟨0, 0, 0⟩ := by
  rw [magnetic_flux o hl hm f b j hr]
  obtain ⟨u, hu⟩ : ∃ u, u = flux o.layout fun k => f k j := ⟨_, rfl⟩
  rw [← hu]
  simp only [Vec.cross, Vec.mk.injEq]
  constructor
  · rintro ⟨h1, h2, h3⟩
    refine ⟨?_, ?_, ?_⟩ <;> linarith
  · rintro ⟨h1, h2, h3⟩
    refine ⟨?_, ?_, ?_⟩ <;> linarith

/-- C81, the part that holds: a field along `x` turns the current as it should. -/
theorem magnetic_lorentz_partial (o : Op) (hl : 1 ≤ o.layout.lMax) (hm : 1 ≤ o.layout.mMax) (f : Local) (bx : ℝ) (j : ℕ) (hr : RealZero o.layout fun k => f k j) :
    flux o.layout (fun k => o.magnetic f ⟨bx, 0, 0⟩ k j) = Vec.cross ⟨bx, 0, 0⟩ (flux o.layout fun k => f k j) :=
  (magnetic_lorentz_iff o hl hm f _ j hr).2 (by simp [Vec.cross])

/-! ### Electric force (C82) -/

theorem electric_get (o : Op) (f : Local) (e : Vec) (j l m : ℕ) :
    o.layout.get (fun k => o.electric f e k j) l m
      = if l ≤ o.layout.lMax ∧ m ≤ l ∧ m ≤ o.layout.mMax then
        electricTerm o.layout e (fun k => o.g f k j) (fun k => o.h f k j) l m else 0 :=
  get_map o.layout (fun l m => electricTerm o.layout e (fun k => o.g f k j) (fun k => o.h f k j) l m) l m

/-- The radial operators read harmonic by harmonic. -/
theorem g_get (o : Op) (f : Local) (j l m : ℕ) :
    o.layout.get (fun k => o.g f k j) l m
      = ddvRow o.nv o.dv l (fun i => o.layout.get (fun k => f k i) l m) j - l * (1 / (o.v j : ℂ)) * o.layout.get (fun k => f k j) l m := by
  by_cases h : l ≤ o.layout.lMax ∧ m ≤ l ∧ m ≤ o.layout.mMax
  · obtain ⟨h1, -, h3⟩ := index_valid o.layout h
    unfold Layout.get
    rw [h1, if_pos (by positivity), Int.toNat_natCast]
    simp only [if_pos (Int.natCast_nonneg _), Op.g, h3]
  · have z : ∀ a : ℕ → ℂ, o.layout.get a l m = 0 := fun a => get_invalid _ _ (by omega)
    simp only [z, ddvRow]
    simp

theorem h_get (o : Op) (f : Local) (j l m : ℕ) :
    o.layout.get (fun k => o.h f k j) l m
      = ddvRow o.nv o.dv l (fun i => o.layout.get (fun k => f k i) l m) j + (l + 1) * (1 / (o.v j : ℂ)) * o.layout.get (fun k => f k j) l m := by
  by_cases h : l ≤ o.layout.lMax ∧ m ≤ l ∧ m ≤ o.layout.mMax
  · obtain ⟨h1, -, h3⟩ := index_valid o.layout h
    unfold Layout.get
    rw [h1, if_pos (by positivity), Int.toNat_natCast]
    simp only [if_pos (Int.natCast_nonneg _), Op.h, h3]
  · have z : ∀ a : ℕ → ℂ, o.layout.get a l m = 0 := fun a => get_invalid _ _ (by omega)
    simp only [z, ddvRow]
    simp

/-- The speed derivative of a real row: `ddvRow` on a component. -/
noncomputable def ddvReal (nv : ℕ) (dv : ℝ) (l : ℕ) (f : ℕ → ℝ) (j : ℕ) : ℝ :=
  ((if j + 1 < nv then f (j + 1) else 0) - (if j = 0 then (-1) ^ l * f 0 else f (j - 1))) / (2 * dv)

theorem ddv_linear (nv : ℕ) (dv : ℝ) (l : ℕ) (f : ℕ → ℂ) (φ : ℂ →ₗ[ℝ] ℝ) (j : ℕ) :
    φ (ddvRow nv dv l f j) = ddvReal nv dv l (fun i => φ (f i)) j := by
  have e : ddvRow nv dv l f j = (1 / (2 * dv) : ℝ) • ((if j + 1 < nv then f (j + 1) else 0) - (if j = 0 then ((-1) ^ l : ℝ) • f 0 else f (j - 1))) := by
    unfold ddvRow
    rw [Complex.real_smul]
    split <;> split <;> (try rw [Complex.real_smul]) <;> push_cast <;> ring
  rw [e, map_smul, map_sub]
  unfold ddvReal
  have e1 : φ (if j + 1 < nv then f (j + 1) else 0) = if j + 1 < nv then φ (f (j + 1)) else 0 := by split <;> simp
  have e2 : φ (if j = 0 then ((-1) ^ l : ℝ) • f 0 else f (j - 1)) = if j = 0 then (-1) ^ l * φ (f 0) else φ (f (j - 1)) := by
    split
    · rw [map_smul, smul_eq_mul]
    · rfl
  rw [e1, e2, smul_eq_mul]
  ring

theorem ddv_re (nv : ℕ) (dv : ℝ) (l : ℕ) (f : ℕ → ℂ) (j : ℕ) : (ddvRow nv dv l f j).re = ddvReal nv dv l (fun i => (f i).re) j :=
  ddv_linear nv dv l f Complex.reLm j
theorem ddv_im (nv : ℕ) (dv : ℝ) (l : ℕ) (f : ℕ → ℂ) (j : ℕ) : (ddvRow nv dv l f j).im = ddvReal nv dv l (fun i => (f i).im) j :=
  ddv_linear nv dv l f Complex.imLm j

theorem ddvReal_zero (nv : ℕ) (dv : ℝ) (l j : ℕ) : ddvReal nv dv l (fun _ => 0) j = 0 := by unfold ddvReal; simp

theorem ddvReal_add (nv : ℕ) (dv : ℝ) (l j : ℕ) (a b : ℝ) (f g : ℕ → ℝ) :
    ddvReal nv dv l (fun i => a * f i + b * g i) j = a * ddvReal nv dv l f j + b * ddvReal nv dv l g j := by
  unfold ddvReal; split <;> split <;> ring

/-- Summation by parts on the speed axis: against the weight `W` the speed derivative is minus the
centred difference of the weight, continued below the origin with the opposite parity, up to the value
at the top of the grid. -/
theorem ddv_parts (l : ℕ) (dv : ℝ) (f W : ℕ → ℝ) (n : ℕ) :
    ∑ j ∈ range (n + 1), W j * ddvReal (n + 1) dv l f j
      = -(∑ j ∈ range (n + 1), f j * ((W (j + 1) - (if j = 0 then -((-1) ^ l * W 0) else W (j - 1))) / (2 * dv))) + W (n + 1) * f n / (2 * dv) := by
  have key : ∀ k, k ≤ n → ∑ j ∈ range (k + 1), W j * ((if j + 1 < n + 1 then f (j + 1) else 0) - (if j = 0 then (-1) ^ l * f 0 else f (j - 1)))
      = -(∑ j ∈ range (k + 1), f j * (W (j + 1) - (if j = 0 then -((-1) ^ l * W 0) else W (j - 1)))) + W (k + 1) * f k
        + W k * (if k + 1 < n + 1 then f (k + 1) else 0) := by
    intro k hk
    induction k with
    | zero => simp only [zero_add, sum_range_one, if_true]; ring
    | succ k ih =>
      rw [sum_range_succ, ih (by omega), sum_range_succ _ (k + 1), if_pos (by omega : k + 1 < n + 1), if_neg (by omega : ¬ k + 1 = 0), if_neg (by omega : ¬ k + 1 = 0),
        Nat.add_sub_cancel]
      ring
  have e : ∀ j, W j * ddvReal (n + 1) dv l f j = W j * ((if j + 1 < n + 1 then f (j + 1) else 0) - (if j = 0 then (-1) ^ l * f 0 else f (j - 1))) / (2 * dv) := by
    intro j; unfold ddvReal; ring
  simp only [e]
  rw [← sum_div, key n le_rfl, if_neg (lt_irrefl _)]
  simp only [mul_div_assoc']
  rw [← sum_div]
  ring

/-- The speed grid of the solver: cell centres of equal cells starting at zero (grid.py:60, 77). -/
def Op.Uniform (o : Op) : Prop := 0 < o.dv ∧ ∀ j, o.v j = o.dv / 2 + j * o.dv

theorem Op.Uniform.pos {o : Op} (h : o.Uniform) (j : ℕ) : 0 < o.v j := by
  rw [h.2]; have := h.1; positivity

/-- The weights `v²`, `v⁴` against an odd harmonic, `v³` against an even one. -/
theorem parts_sq {o : Op} (h : o.Uniform) (f : ℕ → ℝ) (n : ℕ) :
    ∑ j ∈ range (n + 1), o.v j ^ 2 * (ddvReal (n + 1) o.dv 1 f j + 2 / o.v j * f j) = o.v (n + 1) ^ 2 * f n / (2 * o.dv) := by
  have hd := h.1
  simp only [mul_add, sum_add_distrib]
  rw [ddv_parts]
  have : ∑ j ∈ range (n + 1), o.v j ^ 2 * (2 / o.v j * f j) = ∑ j ∈ range (n + 1), f j * ((o.v (j + 1) ^ 2 - (if j = 0 then -((-1) ^ 1 * o.v 0 ^ 2) else o.v (j - 1) ^ 2)) / (2 * o.dv)) := by
    refine sum_congr rfl fun j _ => ?_
    have hp := (h.pos j).ne'
    have e1 : o.v j ^ 2 * (2 / o.v j * f j) = 2 * o.v j * f j := by field_simp
    rw [e1]
    cases j with
    | zero => rw [if_pos rfl, h.2, h.2]; push_cast; field_simp; ring
    | succ j => rw [if_neg (by omega), Nat.add_sub_cancel, h.2, h.2, h.2]; push_cast; field_simp; ring
  rw [this]; ring

theorem parts_four {o : Op} (h : o.Uniform) (f : ℕ → ℝ) (n : ℕ) :
    ∑ j ∈ range (n + 1), o.v j ^ 4 * (ddvReal (n + 1) o.dv 1 f j + 2 / o.v j * f j)
      = -(∑ j ∈ range (n + 1), (2 * o.v j ^ 3 + 4 * o.dv ^ 2 * o.v j) * f j) + o.v (n + 1) ^ 4 * f n / (2 * o.dv) := by
  have hd := h.1
  simp only [mul_add, sum_add_distrib]
  rw [ddv_parts]
  have : ∑ j ∈ range (n + 1), o.v j ^ 4 * (2 / o.v j * f j) = ∑ j ∈ range (n + 1), f j * ((o.v (j + 1) ^ 4 - (if j = 0 then -((-1) ^ 1 * o.v 0 ^ 4) else o.v (j - 1) ^ 4)) / (2 * o.dv))
      - ∑ j ∈ range (n + 1), (2 * o.v j ^ 3 + 4 * o.dv ^ 2 * o.v j) * f j := by
    rw [← sum_sub_distrib]
    refine sum_congr rfl fun j _ => ?_
    have hp := (h.pos j).ne'
    have e1 : o.v j ^ 4 * (2 / o.v j * f j) = 2 * o.v j ^ 3 * f j := by field_simp
    rw [e1]
    cases j with
    | zero => rw [if_pos rfl, h.2, h.2]; push_cast; field_simp; ring
    | succ j => rw [if_neg (by omega), Nat.add_sub_cancel, h.2, h.2, h.2]; push_cast; field_simp; ring
  rw [this]; ring

theorem parts_three {o : Op} (h : o.Uniform) (f : ℕ → ℝ) (n : ℕ) (l : ℕ) (hl : Even l) :
    ∑ j ∈ range (n + 1), o.v j ^ 3 * ddvReal (n + 1) o.dv l f j
      = -(∑ j ∈ range (n + 1), (3 * o.v j ^ 2 + o.dv ^ 2) * f j) + o.v (n + 1) ^ 3 * f n / (2 * o.dv) := by
  have hd := h.1
  rw [ddv_parts, hl.neg_one_pow]
  congr 2
  refine sum_congr rfl fun j _ => ?_
  cases j with
  | zero => rw [if_pos rfl, h.2, h.2]; push_cast; field_simp; ring
  | succ j => rw [if_neg (by omega), Nat.add_sub_cancel, h.2, h.2, h.2]; push_cast; field_simp; ring

/-- At one speed: `∂f00/∂t = E · (∂f1/∂v + 2 f1 / v) / 3`. -/
theorem electric_isotropic (o : Op) (f : Local) (e : Vec) (j : ℕ) :
    (o.electric f e (o.layout.index 0 0).toNat j).re = 1 / 3 * e.dot (flux o.layout fun k => o.h f k j) := by
  rw [← get_zero_zero o.layout (fun k => o.electric f e k j)]
  have := electric_get o f e j 0 0
  rw [if_pos (by omega)] at this
  rw [show o.layout.get (fun k => o.electric f e k j) 0 0 = _ from this]
  have h0 : o.layout.get (fun k => o.g f k j) (-1) 0 = 0 := get_invalid _ _ (by omega)
  unfold electricTerm flux Vec.dot
  dsimp only
  rw [if_neg (lt_irrefl 0)]
  simp only [Nat.cast_zero, zero_sub, zero_add, h0, mul_zero, zero_mul, sub_zero, neg_zero, zero_div]
  norm_num [Complex.div_ofNat_re, Complex.div_ofNat_im]
  ring

/-- The radial operator on the vector part. -/
theorem flux_h (o : Op) (f : Local) (e : Vec) (j : ℕ) :
    e.dot (flux o.layout fun k => o.h f k j)
      = ddvReal o.nv o.dv 1 (fun i => e.dot (flux o.layout fun k => f k i)) j + 2 / o.v j * e.dot (flux o.layout fun k => f k j) := by
  have h0 := h_get o f j 1 0
  have h1 := h_get o f j 1 1
  unfold flux
  rw [show o.layout.get (fun k => o.h f k j) 1 0 = _ from h0, show o.layout.get (fun k => o.h f k j) 1 1 = _ from h1]
  have hv : (1 / (o.v j : ℂ)) = ((1 / o.v j : ℝ) : ℂ) := by push_cast; ring
  simp only [Vec.dot, add_re, add_im, ddv_re, ddv_im, hv]
  have e1 : ∀ z : ℂ, (((1 : ℕ) : ℂ) + 1) * ((1 / o.v j : ℝ) : ℂ) * z = ((2 / o.v j : ℝ) : ℂ) * z := by intro z; push_cast; ring
  simp only [e1, re_ofReal_mul, im_ofReal_mul]
  have e2 : (fun i => e.x * (o.layout.get (fun k => f k i) 1 0).re + e.y * (2 * (o.layout.get (fun k => f k i) 1 1).re) + e.z * (-2 * (o.layout.get (fun k => f k i) 1 1).im))
      = fun i => e.x * (o.layout.get (fun k => f k i) 1 0).re + 1 * ((2 * e.y) * (o.layout.get (fun k => f k i) 1 1).re + (-2 * e.z) * (o.layout.get (fun k => f k i) 1 1).im) := by
    funext i; ring
  rw [e2, ddvReal_add, ddvReal_add]
  push_cast
  ring

/-- C82: the electric force creates no particles; the only loss is what is pushed over the top of
the speed grid. -/
theorem electric_density (o : Op) (h : o.Uniform) (f : Local) (e : Vec) (n : ℕ) (hn : o.nv = n + 1) :
    o.density (o.electric f e) = 4 * Real.pi / 3 * (o.v (n + 1) ^ 2 / 2) * e.dot (flux o.layout fun k => f k n) := by
  have hd := h.1.ne'
  unfold Op.density
  simp only [electric_isotropic, flux_h]
  rw [hn]
  have := parts_sq h (fun i => e.dot (flux o.layout fun k => f k i)) n
  have e1 : ∑ j ∈ range (n + 1), 1 / 3 * (ddvReal (n + 1) o.dv 1 (fun i => e.dot (flux o.layout fun k => f k i)) j + 2 / o.v j * e.dot (flux o.layout fun k => f k j)) * o.v j ^ 2
      = 1 / 3 * ∑ j ∈ range (n + 1), o.v j ^ 2 * (ddvReal (n + 1) o.dv 1 (fun i => e.dot (flux o.layout fun k => f k i)) j + 2 / o.v j * e.dot (flux o.layout fun k => f k j)) := by
    rw [mul_sum]; exact sum_congr rfl fun j _ => by ring
  rw [e1, this]
  field_simp

/-- Kinetic energy density. -/
noncomputable def Op.energy (o : Op) (f : Local) : ℝ := 4 * Real.pi * (∑ j ∈ range o.nv, (f (o.layout.index 0 0).toNat j).re * (o.v j ^ 4 / 2)) * o.dv

/-- `current` as a sum of fluxes. -/
theorem vector_flux (o : Op) (hl : 1 ≤ o.layout.lMax) (W : ℕ → ℝ) (f : Local) :
    o.vector W f = ⟨4 * Real.pi / 3 * ((∑ j ∈ range o.nv, (flux o.layout fun k => f k j).x * W j) * o.dv),
      4 * Real.pi / 3 * ((∑ j ∈ range o.nv, (flux o.layout fun k => f k j).y * W j) * o.dv),
      4 * Real.pi / 3 * ((∑ j ∈ range o.nv, (flux o.layout fun k => f k j).z * W j) * o.dv)⟩ := by
  have h10 := (index_valid o.layout (l := 1) (m := 0) (by omega)).1
  have hi : ¬ o.layout.index 1 0 < 0 := by rw [show o.layout.index 1 0 = _ from h10]; omega
  unfold Op.vector
  rw [if_neg hi]
  have e0 : ∀ a : ℕ → ℂ, a (o.layout.index 1 0).toNat = o.layout.get a 1 0 := fun a => by unfold Layout.get; rw [if_pos (by omega)]
  have e1 : (if 0 ≤ o.layout.index 1 1 then (∑ j ∈ range o.nv, f (o.layout.index 1 1).toNat j * (W j : ℂ)) * o.dv else 0)
      = (∑ j ∈ range o.nv, o.layout.get (fun k => f k j) 1 1 * (W j : ℂ)) * o.dv := by
    unfold Layout.get
    by_cases hc : 0 ≤ o.layout.index 1 1
    · simp only [if_pos hc]
    · simp only [if_neg hc]; simp
  dsimp only
  rw [e1]
  have er : ((∑ j ∈ range o.nv, o.layout.get (fun k => f k j) 1 1 * (W j : ℂ)) * (o.dv : ℂ)).re = (∑ j ∈ range o.nv, (o.layout.get (fun k => f k j) 1 1).re * W j) * o.dv := by
    rw [mul_comm, re_ofReal_mul, Complex.re_sum, mul_comm]
    congr 1
    exact sum_congr rfl fun j _ => by rw [mul_comm, re_ofReal_mul, mul_comm]
  have ei : ((∑ j ∈ range o.nv, o.layout.get (fun k => f k j) 1 1 * (W j : ℂ)) * (o.dv : ℂ)).im = (∑ j ∈ range o.nv, (o.layout.get (fun k => f k j) 1 1).im * W j) * o.dv := by
    rw [mul_comm, im_ofReal_mul, Complex.im_sum, mul_comm]
    congr 1
    exact sum_congr rfl fun j _ => by rw [mul_comm, im_ofReal_mul, mul_comm]
  rw [er, ei]
  have e0' : ∀ j, f (o.layout.index 1 0).toNat j = o.layout.get (fun k => f k j) 1 0 := fun j => e0 (fun k => f k j)
  simp only [e0']
  have m1 : ∀ (c : ℝ) (F : ℕ → ℝ), c * ((∑ j ∈ range o.nv, F j * W j) * o.dv) = (∑ j ∈ range o.nv, c * F j * W j) * o.dv := by
    intro c F; rw [← mul_assoc, mul_sum]; congr 1; exact sum_congr rfl fun j _ => by ring
  ext
  · simp only [flux]
  · simp only [flux]; rw [← m1 2]
  · simp only [flux]; rw [← m1 (-2)]

/-- C82: the energy it gives is the work `E · J` on the electron current (charge `-1`), with a
discretisation error of second order in the speed step and the loss over the top. -/
theorem electric_energy (o : Op) (h : o.Uniform) (hl : 1 ≤ o.layout.lMax) (f : Local) (e : Vec) (n : ℕ) (hn : o.nv = n + 1) :
    o.energy (o.electric f e) = e.dot (o.current (-1) o.v f)
      - 8 * Real.pi / 3 * o.dv ^ 2 * ((∑ j ∈ range o.nv, e.dot (flux o.layout fun k => f k j) * o.v j) * o.dv)
      + 4 * Real.pi / 3 * (o.v (n + 1) ^ 4 / 4) * e.dot (flux o.layout fun k => f k n) := by
  have hd := h.1.ne'
  have hJ : e.dot (o.current (-1) o.v f) = -(4 * Real.pi / 3) * ((∑ j ∈ range o.nv, e.dot (flux o.layout fun k => f k j) * o.v j ^ 3) * o.dv) := by
    unfold Op.current
    rw [vector_flux o hl]
    simp only [Vec.dot]
    have : ∀ j, o.v j ^ 2 * o.v j = o.v j ^ 3 := fun j => by ring
    simp only [this]
    have split : ∑ j ∈ range o.nv, (e.x * (flux o.layout fun k => f k j).x + e.y * (flux o.layout fun k => f k j).y + e.z * (flux o.layout fun k => f k j).z) * o.v j ^ 3
        = e.x * ∑ j ∈ range o.nv, (flux o.layout fun k => f k j).x * o.v j ^ 3 + e.y * ∑ j ∈ range o.nv, (flux o.layout fun k => f k j).y * o.v j ^ 3
          + e.z * ∑ j ∈ range o.nv, (flux o.layout fun k => f k j).z * o.v j ^ 3 := by
      rw [mul_sum, mul_sum, mul_sum, ← sum_add_distrib, ← sum_add_distrib]
      exact sum_congr rfl fun j _ => by ring
    rw [split]
    ring
  rw [hJ]
  unfold Op.energy
  simp only [electric_isotropic, flux_h]
  rw [hn]
  have := parts_four h (fun i => e.dot (flux o.layout fun k => f k i)) n
  have e1 : ∑ j ∈ range (n + 1), 1 / 3 * (ddvReal (n + 1) o.dv 1 (fun i => e.dot (flux o.layout fun k => f k i)) j + 2 / o.v j * e.dot (flux o.layout fun k => f k j)) * (o.v j ^ 4 / 2)
      = 1 / 6 * ∑ j ∈ range (n + 1), o.v j ^ 4 * (ddvReal (n + 1) o.dv 1 (fun i => e.dot (flux o.layout fun k => f k i)) j + 2 / o.v j * e.dot (flux o.layout fun k => f k j)) := by
    rw [mul_sum]; exact sum_congr rfl fun j _ => by ring
  rw [e1, this]
  have e2 : ∑ j ∈ range (n + 1), (2 * o.v j ^ 3 + 4 * o.dv ^ 2 * o.v j) * e.dot (flux o.layout fun k => f k j)
      = 2 * ∑ j ∈ range (n + 1), e.dot (flux o.layout fun k => f k j) * o.v j ^ 3 + 4 * o.dv ^ 2 * ∑ j ∈ range (n + 1), e.dot (flux o.layout fun k => f k j) * o.v j := by
    rw [mul_sum, mul_sum, ← sum_add_distrib]; exact sum_congr rfl fun j _ => by ring
  rw [e2]
  field_simp
  ring

/-- The radial operators on the second harmonics and on the isotropic part. -/
theorem tensor_h (o : Op) (f : Local) (j r c : ℕ) (hr : r < 3) (hc : c < 3) :
    cartesianL2 o.layout (fun k => o.h f k j) r c
      = ddvReal o.nv o.dv 2 (fun i => cartesianL2 o.layout (fun k => f k i) r c) j + 3 / o.v j * cartesianL2 o.layout (fun k => f k j) r c := by
  have h0 : o.layout.get (fun k => o.h f k j) 2 0 = _ := h_get o f j 2 0
  have h1 : o.layout.get (fun k => o.h f k j) 2 1 = _ := h_get o f j 2 1
  have h2 : o.layout.get (fun k => o.h f k j) 2 2 = _ := h_get o f j 2 2
  have hv : (1 / (o.v j : ℂ)) = ((1 / o.v j : ℝ) : ℂ) := by push_cast; ring
  have e1 : ∀ z : ℂ, (((2 : ℕ) : ℂ) + 1) * (1 / (o.v j : ℂ)) * z = ((3 / o.v j : ℝ) : ℂ) * z := by intro z; push_cast; ring
  simp only [e1] at h0 h1 h2
  have sc : ∀ (a : ℝ) (F : ℕ → ℝ), ddvReal o.nv o.dv 2 (fun i => a * F i) j = a * ddvReal o.nv o.dv 2 F j := by
    intro a F
    have := ddvReal_add o.nv o.dv 2 j a 0 F (fun _ => 0)
    simpa using this
  have ad := ddvReal_add o.nv o.dv 2 j
  have sb : ∀ (a b : ℝ) (F G : ℕ → ℝ), ddvReal o.nv o.dv 2 (fun i => a * F i - b * G i) j = a * ddvReal o.nv o.dv 2 F j - b * ddvReal o.nv o.dv 2 G j := by
    intro a b F G
    have := ad a (-b) F G
    have e : (fun i => a * F i + -b * G i) = fun i => a * F i - b * G i := by funext i; ring
    rw [e] at this; rw [this]; ring
  interval_cases r <;> interval_cases c <;>
    simp only [cartesian_00, cartesian_01, cartesian_02, cartesian_10, cartesian_11, cartesian_12, cartesian_20, cartesian_21, cartesian_22,
      h0, h1, h2, add_re, add_im, re_ofReal_mul, im_ofReal_mul, ddv_re, ddv_im, sc, ad, sb, Nat.cast_ofNat, Nat.cast_zero, Nat.cast_one] <;> ring

theorem iso_g (o : Op) (f : Local) (j : ℕ) :
    (o.layout.get (fun k => o.g f k j) 0 0).re = ddvReal o.nv o.dv 0 (fun i => (f (o.layout.index 0 0).toNat i).re) j := by
  have h0 : o.layout.get (fun k => o.g f k j) 0 0 = _ := g_get o f j 0 0
  rw [h0, sub_re, ddv_re]
  have e : ∀ i, o.layout.get (fun k => f k i) ((0 : ℕ) : ℤ) ((0 : ℕ) : ℤ) = f (o.layout.index 0 0).toNat i := fun i => get_zero_zero o.layout (fun k => f k i)
  simp only [e]
  simp

/-- At one speed: `∂f1/∂t = E ∂f00/∂v + (2/5) (∂/∂v + 3/v) F2 · E`. -/
theorem electric_vector (o : Op) (hl : 1 ≤ o.layout.lMax) (hm : 1 ≤ o.layout.mMax) (f : Local) (e : Vec) (j : ℕ) (hr : ∀ j, RealZero o.layout fun k => f k j) :
    let g := (o.layout.get (fun k => o.g f k j) 0 0).re
    let H := fun r => cartesianL2 o.layout (fun k => o.h f k j) r 0 * e.x + cartesianL2 o.layout (fun k => o.h f k j) r 1 * e.y
      + cartesianL2 o.layout (fun k => o.h f k j) r 2 * e.z
    flux o.layout (fun k => o.electric f e k j) = ⟨e.x * g + 2 / 5 * H 0, e.y * g + 2 / 5 * H 1, e.z * g + 2 / 5 * H 2⟩ := by
  intro g H
  have h0 : o.layout.get (fun k => o.electric f e k j) 1 0 = _ := electric_get o f e j 1 0
  have h1 : o.layout.get (fun k => o.electric f e k j) 1 1 = _ := electric_get o f e j 1 1
  rw [if_pos (by omega)] at h0 h1
  have z01 : o.layout.get (fun k => o.g f k j) 0 1 = 0 := get_invalid _ _ (by omega)
  have z02 : o.layout.get (fun k => o.g f k j) 0 2 = 0 := get_invalid _ _ (by omega)
  have hv : (1 / (o.v j : ℂ)) = ((1 / o.v j : ℝ) : ℂ) := by push_cast; ring
  have r0 : (o.layout.get (fun k => o.g f k j) 0 0).im = 0 := by
    have h0 : o.layout.get (fun k => o.g f k j) 0 0 = _ := g_get o f j 0 0
    have : (fun i => (o.layout.get (fun k => f k i) ((0 : ℕ) : ℤ) ((0 : ℕ) : ℤ)).im) = fun _ => 0 := by funext i; exact_mod_cast hr i 0
    rw [h0, sub_im, ddv_im, this, ddvReal_zero]
    simp
  have r2 : (o.layout.get (fun k => o.h f k j) 2 0).im = 0 := by
    have h0 : o.layout.get (fun k => o.h f k j) 2 0 = _ := h_get o f j 2 0
    have : (fun i => (o.layout.get (fun k => f k i) ((2 : ℕ) : ℤ) ((0 : ℕ) : ℤ)).im) = fun _ => 0 := by funext i; exact_mod_cast hr i 2
    have e1 : ∀ z : ℂ, (((2 : ℕ) : ℂ) + 1) * (1 / (o.v j : ℂ)) * z = ((3 / o.v j : ℝ) : ℂ) * z := by intro z; push_cast; ring
    have hz := congrFun this j
    rw [h0, add_im, ddv_im, this, ddvReal_zero, e1, im_ofReal_mul, hz]
    ring
  unfold flux
  rw [h0, h1]
  simp only [H, g, cartesian_00, cartesian_01, cartesian_02, cartesian_10, cartesian_11, cartesian_12, cartesian_20, cartesian_21, cartesian_22, electricTerm]
  simp only [Nat.cast_one, Nat.cast_zero, sub_self, lt_irrefl, if_false, Nat.zero_lt_one, if_true, z01, z02,
    show (1 : ℤ) + 1 = 2 by norm_num]
  ext
  · norm_num [Complex.div_ofNat_re, Complex.div_ofNat_im]
    ring
  · norm_num [Complex.div_ofNat_re, Complex.div_ofNat_im, r0, r2]
    ring
  · norm_num [Complex.div_ofNat_re, Complex.div_ofNat_im, r0, r2]
    ring

/-- The product of the `l = 2` tensor at one speed with a vector. -/
noncomputable def stress (L : Layout) (a : ℕ → ℂ) (e : Vec) : Vec :=
  ⟨cartesianL2 L a 0 0 * e.x + cartesianL2 L a 0 1 * e.y + cartesianL2 L a 0 2 * e.z,
   cartesianL2 L a 1 0 * e.x + cartesianL2 L a 1 1 * e.y + cartesianL2 L a 1 2 * e.z,
   cartesianL2 L a 2 0 * e.x + cartesianL2 L a 2 1 * e.y + cartesianL2 L a 2 2 * e.z⟩

/-- C82: each component of the particle flux `(4π/3) ∫ f1 v³ dv` is accelerated by `-E n`, with an error of second
order in the speed step and the loss over the top of the grid. -/
theorem electric_momentum (o : Op) (h : o.Uniform) (hl : 1 ≤ o.layout.lMax) (hm : 1 ≤ o.layout.mMax) (f : Local) (e : Vec) (n : ℕ) (hn : o.nv = n + 1)
    (hr : ∀ j, RealZero o.layout fun k => f k j) (comp : Vec → ℝ) (hc : comp = Vec.x ∨ comp = Vec.y ∨ comp = Vec.z) :
    comp (o.vector (fun j => o.v j ^ 3) (o.electric f e)) = -comp e * o.density f
      - 4 * Real.pi / 3 * o.dv ^ 2 * ((∑ j ∈ range o.nv, (comp e * (f (o.layout.index 0 0).toNat j).re + 2 / 5 * comp (stress o.layout (fun k => f k j) e))) * o.dv)
      + 4 * Real.pi / 3 * (o.v (n + 1) ^ 3 / 2) * (comp e * (f (o.layout.index 0 0).toNat n).re + 2 / 5 * comp (stress o.layout (fun k => f k n) e)) := by
  have hd := h.1.ne'
  -- one component at one speed
  have hone : ∀ j, comp (flux o.layout fun k => o.electric f e k j)
      = comp e * ddvReal o.nv o.dv 0 (fun i => (f (o.layout.index 0 0).toNat i).re) j
        + 2 / 5 * (ddvReal o.nv o.dv 2 (fun i => comp (stress o.layout (fun k => f k i) e)) j + 3 / o.v j * comp (stress o.layout (fun k => f k j) e)) := by
    intro j
    have hv := electric_vector o hl hm f e j hr
    dsimp only at hv
    rw [iso_g] at hv
    have ex : ∀ (a b c : ℝ) (F G K : ℕ → ℝ), ddvReal o.nv o.dv 2 (fun i => F i * a + G i * b + K i * c) j
        = ddvReal o.nv o.dv 2 F j * a + ddvReal o.nv o.dv 2 G j * b + ddvReal o.nv o.dv 2 K j * c := by
      intro a b c F G K
      unfold ddvReal; split <;> split <;> ring
    rcases hc with rfl | rfl | rfl
    all_goals
      rw [hv]
      simp only [stress, ex]
      rw [tensor_h o f j _ 0 (by norm_num) (by norm_num), tensor_h o f j _ 1 (by norm_num) (by norm_num), tensor_h o f j _ 2 (by norm_num) (by norm_num)]
      ring
  have hvec : comp (o.vector (fun j => o.v j ^ 3) (o.electric f e))
      = 4 * Real.pi / 3 * ((∑ j ∈ range o.nv, comp (flux o.layout fun k => o.electric f e k j) * o.v j ^ 3) * o.dv) := by
    rw [vector_flux o hl]
    rcases hc with rfl | rfl | rfl <;> rfl
  obtain ⟨F0, hF0⟩ : ∃ F0 : ℕ → ℝ, F0 = fun i => (f (o.layout.index 0 0).toNat i).re := ⟨_, rfl⟩
  obtain ⟨S, hS⟩ : ∃ S : ℕ → ℝ, S = fun i => comp (stress o.layout (fun k => f k i) e) := ⟨_, rfl⟩
  have eF : ∀ i, (f (o.layout.index 0 0).toNat i).re = F0 i := fun i => by rw [hF0]
  have eS : ∀ i, comp (stress o.layout (fun k => f k i) e) = S i := fun i => by rw [hS]
  rw [hvec]
  unfold Op.density
  simp only [hone, eF, eS]
  rw [hn]
  have p0 := parts_three h F0 n 0 (by decide)
  have p2 := parts_three h S n 2 (by decide)
  have e1 : ∑ j ∈ range (n + 1), (comp e * ddvReal (n + 1) o.dv 0 (fun i => F0 i) j + 2 / 5 * (ddvReal (n + 1) o.dv 2 (fun i => S i) j + 3 / o.v j * S j)) * o.v j ^ 3
      = comp e * ∑ j ∈ range (n + 1), o.v j ^ 3 * ddvReal (n + 1) o.dv 0 F0 j
        + 2 / 5 * (∑ j ∈ range (n + 1), o.v j ^ 3 * ddvReal (n + 1) o.dv 2 S j + ∑ j ∈ range (n + 1), 3 * o.v j ^ 2 * S j) := by
    rw [mul_sum, ← sum_add_distrib, mul_sum, ← sum_add_distrib]
    refine sum_congr rfl fun j _ => ?_
    have hp := (h.pos j).ne'
    field_simp
  rw [e1, p0, p2]
  have s1 : ∀ F : ℕ → ℝ, ∑ j ∈ range (n + 1), (3 * o.v j ^ 2 + o.dv ^ 2) * F j = 3 * ∑ j ∈ range (n + 1), F j * o.v j ^ 2 + o.dv ^ 2 * ∑ j ∈ range (n + 1), F j := by
    intro F; rw [mul_sum, mul_sum, ← sum_add_distrib]; exact sum_congr rfl fun j _ => by ring
  have s2 : ∑ j ∈ range (n + 1), 3 * o.v j ^ 2 * S j = 3 * ∑ j ∈ range (n + 1), S j * o.v j ^ 2 := by
    rw [mul_sum]; exact sum_congr rfl fun j _ => by ring
  rw [s1, s1, s2, sum_add_distrib, ← mul_sum, ← mul_sum]
  field_simp
  ring

/-! ### Examples -/

noncomputable def exOp : Op := ⟨⟨2, 2⟩, 3, fun j => 1 / 2 + j, 1, fun j => 1 / 2 + j, .spectral 1, .central 4 1⟩
/-- A distribution with every harmonic up to `l = 2`. -/
noncomputable def exF : Flm 3 4 := fun x y i j => if i = 2 ∨ i = 4 ∨ i = 5 then (x.val : ℂ) + I * (y.val + j) else ((x.val : ℝ) + y.val + j + i : ℝ)

theorem exOp_uniform : exOp.Uniform := ⟨by norm_num [exOp], fun j => by norm_num [exOp]⟩

theorem exF_real (x : ZMod 3) (y : ZMod 4) (j : ℕ) : RealZero exOp.layout fun k => exF x y k j := by
  intro l
  by_cases h : l ≤ 2
  · interval_cases l
    · have : exOp.layout.get (fun k => exF x y k j) 0 0 = exF x y 0 j := by
        have h : exOp.layout.index 0 0 = 0 := by decide
        unfold Layout.get; rw [h]; rfl
      have h2 : (exF x y 0 j).im = 0 := by unfold exF; rw [if_neg (by decide)]; exact ofReal_im _
      rw [← h2, ← this]; rfl
    · have : exOp.layout.get (fun k => exF x y k j) 1 0 = exF x y 1 j := by
        have h : exOp.layout.index 1 0 = 1 := by decide
        unfold Layout.get; rw [h]; rfl
      have h2 : (exF x y 1 j).im = 0 := by unfold exF; rw [if_neg (by decide)]; exact ofReal_im _
      rw [← h2, ← this]; rfl
    · have : exOp.layout.get (fun k => exF x y k j) 2 0 = exF x y 3 j := by
        have h : exOp.layout.index 2 0 = 3 := by decide
        unfold Layout.get; rw [h]; rfl
      have h2 : (exF x y 3 j).im = 0 := by unfold exF; rw [if_neg (by decide)]; exact ofReal_im _
      rw [← h2, ← this]; rfl
  · have : exOp.layout.get (fun k => exF x y k j) l 0 = 0 := get_invalid _ _ (by simp [exOp]; omega)
    rw [this]; rfl

example : 1 ≤ exOp.layout.lMax ∧ 1 ≤ exOp.layout.mMax ∧ exOp.layout.mMax ≤ exOp.layout.lMax ∧ exOp.nv = 2 + 1 :=
  ⟨by decide, by decide, by decide, rfl⟩

/-- An electron stream along `x` in a field along `z`: turned the wrong way. -/
example : flux exOp.layout (fun k => exOp.magnetic (exF 1 0) ⟨0, 0, 1⟩ k 0) ≠ Vec.cross ⟨0, 0, 1⟩ (flux exOp.layout fun k => exF 1 0 k 0) := by
  intro h
  have := (magnetic_lorentz_iff exOp (by decide) (by decide) (exF 1 0) ⟨0, 0, 1⟩ 0 (exF_real 1 0 0)).1 h
  have i1 : exOp.layout.index 1 0 = 1 := by decide
  have h2 := congrArg Vec.y this
  have hx : ((1 : ZMod 3).val : ℝ) = 1 := by rw [show (1 : ZMod 3).val = 1 from rfl]; norm_num
  have hy : ((0 : ZMod 4).val : ℝ) = 0 := by rw [show (0 : ZMod 4).val = 0 from rfl]; norm_num
  norm_num [Vec.cross, flux, Layout.get, i1, exF, hx, hy] at h2

end Verif.Vfp2d

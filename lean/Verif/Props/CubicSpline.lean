import Verif.Model.CubicSpline
import Mathlib.Tactic.Linarith
import Mathlib.Order.Interval.Finset.Defs
import Mathlib.Data.Int.Interval
import Mathlib.Tactic.FieldSimp
import Mathlib.Tactic.Positivity
import Mathlib.Tactic.Ring
import Mathlib.Tactic.NormNum

/-! C67: the cubic-spline velocity push. -/
namespace Verif.CubicSpline
open Finset

/-- C67: a grid of fewer than two cells is refused, any other accepted. -/
theorem shiftChecked_iff (nv : ℕ) (f : ℤ → ℝ) (shift dv : ℝ) :
    (∃ g, shiftChecked nv f shift dv = .ok g) ↔ 2 ≤ nv := by
  unfold shiftChecked
  split
  case isTrue h => simp; omega
  case isFalse h => simp; omega

/-- C67: the push shifts each row by `dt` times the acceleration of the cell, `(q/m) E + (q/m)² F`. -/
theorem push_shift (nv : ℕ) (h : 2 ≤ nv) (q m e pond dt dv : ℝ) (f : ℤ → ℝ) :
    push nv q m e pond dt dv f = .ok (shiftRow nv f ((q / m * e + (q / m) ^ 2 * pond) * dt) dv) := by
  unfold push shiftChecked
  simp only
  rw [if_neg (by omega)]
  congr 3
  rw [add_div, div_pow]
  ring

/-- A query inside the grid, at fraction `t` of segment `l`: the four-point formula is applied
there. -/
theorem shiftRow_inside (nv : ℕ) (hnv : 2 ≤ nv) (f : ℤ → ℝ) (shift dv : ℝ) (j : ℕ) (l : ℤ) (t : ℝ)
    (hq : (j : ℝ) - shift / dv = l + t) (h0 : 0 ≤ l) (h1 : l ≤ nv - 2) (ht0 : 0 ≤ t) (ht1 : t < 1) :
    shiftRow nv f shift dv j = hermite (f (clip (l - 1) 0 (nv - 1))) (f l) (f (l + 1)) (f (clip (l + 2) 0 (nv - 1)))
      (decide (l = 0)) (decide (l = nv - 2)) t := by
  have hrow : (j : ℤ) + ⌊-(shift / dv)⌋ = l := by
    have : -(shift / dv) = ((l - j : ℤ) : ℝ) + t := by push_cast; linarith
    rw [this, Int.floor_intCast_add, Int.floor_eq_zero_iff.2 ⟨ht0, ht1⟩]; ring
  have hl0 : (0 : ℝ) ≤ l := by exact_mod_cast h0
  have hl1 : (l : ℝ) ≤ nv - 2 := by exact_mod_cast h1
  unfold shiftRow
  simp only
  rw [hrow, hq]
  have hc : clip l 0 (nv - 2) = l := by unfold clip; omega
  rw [hc, if_neg (by rw [not_or]; constructor <;> linarith), add_sub_cancel_left, max_eq_left ht0, min_eq_left ht1.le]

/-- The last grid point itself. -/
theorem shiftRow_last (nv : ℕ) (hnv : 2 ≤ nv) (f : ℤ → ℝ) (shift dv : ℝ) (j : ℕ) (hq : (j : ℝ) - shift / dv = nv - 1) :
    shiftRow nv f shift dv j = f (nv - 1) := by
  have hrow : (j : ℤ) + ⌊-(shift / dv)⌋ = nv - 1 := by
    have : -(shift / dv) = ((nv - 1 - j : ℤ) : ℝ) := by push_cast; linarith
    rw [this, Int.floor_intCast]; ring
  have hnv' : (2 : ℝ) ≤ nv := by exact_mod_cast hnv
  unfold shiftRow
  simp only
  rw [hrow, hq]
  have hc : clip (nv - 1) 0 (nv - 2) = (nv : ℤ) - 2 := by unfold clip; omega
  rw [hc, if_neg (by rw [not_or]; constructor <;> linarith)]
  have ht : min (max ((nv : ℝ) - 1 - ((nv - 2 : ℤ) : ℝ)) 0) 1 = 1 := by
    push_cast
    rw [show (nv : ℝ) - 1 - (nv - 2) = 1 by ring]
    simp
  rw [ht]
  unfold hermite
  rw [show (nv : ℤ) - 2 + 1 = nv - 1 by ring]
  ring

/-- C67: velocities coming from outside the grid bring in the floor value only. -/
theorem shiftRow_outside (nv : ℕ) (f : ℤ → ℝ) (shift dv : ℝ) (j : ℕ)
    (h : (j : ℝ) - shift / dv < 0 ∨ (nv : ℝ) - 1 < (j : ℝ) - shift / dv) : shiftRow nv f shift dv j = 1 / 10 ^ 30 := by
  unfold shiftRow; simp only; rw [if_pos h]

/-- C67: a shift by a whole number of cells moves the row exactly. -/
theorem shiftRow_cells (nv : ℕ) (hnv : 2 ≤ nv) (f : ℤ → ℝ) (dv : ℝ) (hdv : dv ≠ 0) (k : ℤ) (j : ℕ) :
    shiftRow nv f (k * dv) dv j = if 0 ≤ (j : ℤ) - k ∧ (j : ℤ) - k ≤ nv - 1 then f (j - k) else 1 / 10 ^ 30 := by
  have hs : (k : ℝ) * dv / dv = k := by field_simp
  have hq : (j : ℝ) - k * dv / dv = ((j - k : ℤ) : ℝ) := by rw [hs]; push_cast; ring
  split
  case isTrue h =>
    by_cases hl : (j : ℤ) - k = nv - 1
    · rw [shiftRow_last nv hnv f _ dv j (by rw [hq, hl]; push_cast; ring), hl]
    · rw [shiftRow_inside nv hnv f _ dv j (j - k) 0 (by rw [hq]; ring) h.1 (by omega) le_rfl one_pos]
      unfold hermite
      ring
  case isFalse h =>
    rw [shiftRow_outside]
    rw [hq]
    by_cases h0 : 0 ≤ (j : ℤ) - k
    · right
      have : (nv : ℤ) - 1 < j - k := by
        by_contra hc
        exact h ⟨h0, by omega⟩
      exact_mod_cast this
    · left
      exact_mod_cast not_le.1 h0

/-- C67: without acceleration nothing changes. -/
theorem shiftRow_zero (nv : ℕ) (hnv : 2 ≤ nv) (f : ℤ → ℝ) (dv : ℝ) (hdv : dv ≠ 0) (j : ℕ) (hj : j < nv) : shiftRow nv f 0 dv j = f j := by
  have := shiftRow_cells nv hnv f dv hdv 0 j
  rw [Int.cast_zero, zero_mul, if_pos (by omega), sub_zero] at this
  exact this

/-- C67: a linear profile is shifted exactly wherever the query is on the grid, including the end
segments. -/
theorem shiftRow_linear (nv : ℕ) (hnv : 2 ≤ nv) (α β shift dv : ℝ) (f : ℤ → ℝ) (hf : ∀ i : ℤ, 0 ≤ i → i ≤ nv - 1 → f i = α + β * i)
    (j : ℕ) (h0 : 0 ≤ (j : ℝ) - shift / dv) (h1 : (j : ℝ) - shift / dv ≤ nv - 1) :
    shiftRow nv f shift dv j = α + β * (j - shift / dv) := by
  rcases h1.lt_or_eq with h1 | h1
  · set l := ⌊(j : ℝ) - shift / dv⌋ with hl
    have hl0 : 0 ≤ l := Int.floor_nonneg.2 h0
    have hl1 : l ≤ nv - 2 := by
      have : l < nv - 1 := Int.floor_lt.2 (by push_cast; exact h1)
      omega
    obtain ⟨t, ht⟩ : ∃ t, t = Int.fract ((j : ℝ) - shift / dv) := ⟨_, rfl⟩
    have hq : (j : ℝ) - shift / dv = l + t := by rw [ht, hl]; exact (Int.floor_add_fract _).symm
    rw [shiftRow_inside nv hnv f shift dv j l t hq hl0 hl1 (by rw [ht]; exact Int.fract_nonneg _) (by rw [ht]; exact Int.fract_lt_one _), hq]
    have e0 := hf l hl0 (by omega)
    have e1 := hf (l + 1) (by omega) (by omega)
    unfold hermite
    simp only [decide_eq_true_eq, e0, e1]
    have half : (0.5 : ℝ) = 1 / 2 := by norm_num
    rw [half]
    have m0 : (if l = 0 then α + β * ((l + 1 : ℤ) : ℝ) - (α + β * l) else 1 / 2 * (α + β * ((l + 1 : ℤ) : ℝ) - f (clip (l - 1) 0 (nv - 1)))) = β := by
      split
      · push_cast; ring
      case isFalse h =>
        have hc : clip (l - 1) 0 (nv - 1) = l - 1 := by unfold clip; omega
        rw [hc, hf (l - 1) (by omega) (by omega)]; push_cast; ring
    have m1 : (if l = nv - 2 then α + β * ((l + 1 : ℤ) : ℝ) - (α + β * l) else 1 / 2 * (f (clip (l + 2) 0 (nv - 1)) - (α + β * l))) = β := by
      split
      · push_cast; ring
      case isFalse h =>
        have hc : clip (l + 2) 0 (nv - 1) = l + 2 := by unfold clip; omega
        rw [hc, hf (l + 2) (by omega) (by omega)]; push_cast; ring
    rw [m0, m1]
    push_cast
    ring
  · rw [shiftRow_last nv hnv f shift dv j h1, hf _ (by omega) le_rfl, h1]; push_cast; ring

/-- C67: a parabola is shifted exactly away from the two end segments. -/
theorem shiftRow_parabola (nv : ℕ) (hnv : 2 ≤ nv) (α β γ shift dv : ℝ) (f : ℤ → ℝ) (hf : ∀ i : ℤ, f i = α + β * i + γ * (i : ℝ) ^ 2)
    (j : ℕ) (h0 : 1 ≤ (j : ℝ) - shift / dv) (h1 : (j : ℝ) - shift / dv < nv - 2) :
    shiftRow nv f shift dv j = α + β * (j - shift / dv) + γ * (j - shift / dv) ^ 2 := by
  set l := ⌊(j : ℝ) - shift / dv⌋ with hl
  have hl0 : 1 ≤ l := Int.le_floor.2 (by exact_mod_cast h0)
  have hl1 : l < nv - 2 := Int.floor_lt.2 (by push_cast; exact h1)
  obtain ⟨t, ht⟩ : ∃ t, t = Int.fract ((j : ℝ) - shift / dv) := ⟨_, rfl⟩
  have hq : (j : ℝ) - shift / dv = l + t := by rw [ht, hl]; exact (Int.floor_add_fract _).symm
  rw [shiftRow_inside nv hnv f shift dv j l t hq (by omega) (by omega) (by rw [ht]; exact Int.fract_nonneg _) (by rw [ht]; exact Int.fract_lt_one _), hq]
  unfold hermite
  have c1 : clip (l - 1) 0 (nv - 1) = l - 1 := by unfold clip; omega
  have c2 : clip (l + 2) 0 (nv - 1) = l + 2 := by unfold clip; omega
  have d1 : ¬(l = 0) := by omega
  have d2 : ¬(l = nv - 2) := by omega
  have half : (0.5 : ℝ) = 1 / 2 := by norm_num
  simp only [c1, c2, d1, d2, decide_false, Bool.false_eq_true, if_false, hf, half]
  push_cast
  ring

/-! ### Number of particles -/

theorem finsum_shift (F : ℤ → ℝ) (k : ℤ) : ∑ᶠ i : ℤ, F (i + k) = ∑ᶠ i : ℤ, F i :=
  finsum_comp_equiv (Equiv.addRight k)

/-- C67: a distribution that stays away from the ends of the grid keeps its number of particles and
its mean velocity changes by exactly the shift: with `F` the row continued by zero, both before and
after the shift. -/
theorem interior_moments (F : ℤ → ℝ) (hF : (Function.support F).Finite) (t : ℝ) (r : ℤ) :
    let G := fun j : ℤ => hermite (F (j + r - 1)) (F (j + r)) (F (j + r + 1)) (F (j + r + 2)) false false t
    ∑ᶠ j : ℤ, G j = ∑ᶠ i : ℤ, F i ∧ ∑ᶠ j : ℤ, (j : ℝ) * G j = ∑ᶠ i : ℤ, ((i : ℝ) - r - t) * F i := by
  intro G
  have hfin : ∀ (c : ℤ → ℝ) (k : ℤ), (Function.support fun j : ℤ => c j * F (j + k)).Finite := by
    intro c k
    refine Set.Finite.subset (hF.preimage (f := fun j : ℤ => j + k) (add_left_injective k).injOn) fun j hj => ?_
    simp only [Set.mem_preimage, Function.mem_support] at hj ⊢
    exact fun h => hj (by rw [h, mul_zero])
  have half : (0.5 : ℝ) = 1 / 2 := by norm_num
  set w0 : ℝ := -(1 / 2) * (t ^ 3 - 2 * t ^ 2 + t) with hw0
  set w1 : ℝ := 2 * t ^ 3 - 3 * t ^ 2 + 1 - 1 / 2 * (t ^ 3 - t ^ 2) with hw1
  set w2 : ℝ := -2 * t ^ 3 + 3 * t ^ 2 + 1 / 2 * (t ^ 3 - 2 * t ^ 2 + t) with hw2
  set w3 : ℝ := 1 / 2 * (t ^ 3 - t ^ 2) with hw3
  have hG : ∀ j, G j = w0 * F (j + (r - 1)) + w1 * F (j + r) + w2 * F (j + (r + 1)) + w3 * F (j + (r + 2)) := by
    intro j
    simp only [G, hermite, Bool.false_eq_true, if_false, half]
    rw [show j + r - 1 = j + (r - 1) by ring, show j + r + 1 = j + (r + 1) by ring, show j + r + 2 = j + (r + 2) by ring]
    ring
  have comb : ∀ (c0 c1 c2 c3 : ℤ → ℝ), ∑ᶠ j : ℤ, (c0 j * F (j + (r - 1)) + c1 j * F (j + r) + c2 j * F (j + (r + 1)) + c3 j * F (j + (r + 2))) =
      ∑ᶠ i : ℤ, (c0 (i - (r - 1)) + c1 (i - r) + c2 (i - (r + 1)) + c3 (i - (r + 2))) * F i := by
    intro c0 c1 c2 c3
    have sh : ∀ (c : ℤ → ℝ) (k : ℤ), ∑ᶠ j : ℤ, c j * F (j + k) = ∑ᶠ i : ℤ, c (i - k) * F i := by
      intro c k
      rw [← finsum_shift (fun i => c (i - k) * F i) k]
      exact finsum_congr fun j => by simp
    have hfin' : ∀ c : ℤ → ℝ, (Function.support fun j : ℤ => c j * F j).Finite := by
      intro c
      have := hfin c 0
      simpa using this
    rw [finsum_add_distrib, finsum_add_distrib, finsum_add_distrib, sh, sh, sh, sh,
      ← finsum_add_distrib (hfin' _) (hfin' _), ← finsum_add_distrib, ← finsum_add_distrib]
    · exact finsum_congr fun i => by ring
    · exact ((hfin' _).union (hfin' _)).subset (Function.support_add _ _) |>.union (hfin' _) |>.subset (Function.support_add _ _)
    · exact hfin' _
    · exact ((hfin' _).union (hfin' _)).subset (Function.support_add _ _)
    · exact hfin' _
    · exact hfin _ _
    · exact hfin _ _
    · exact ((hfin _ _).union (hfin _ _)).subset (Function.support_add _ _)
    · exact hfin _ _
    · exact ((hfin _ _).union (hfin _ _)).subset (Function.support_add _ _) |>.union (hfin _ _) |>.subset (Function.support_add _ _)
    · exact hfin _ _
  constructor
  · simp only [hG]
    rw [comb (fun _ => w0) (fun _ => w1) (fun _ => w2) (fun _ => w3)]
    exact finsum_congr fun i => by rw [hw0, hw1, hw2, hw3]; ring
  · have : ∀ j : ℤ, (j : ℝ) * G j = (j * w0) * F (j + (r - 1)) + (j * w1) * F (j + r) + (j * w2) * F (j + (r + 1)) + (j * w3) * F (j + (r + 2)) := by
      intro j; rw [hG]; ring
    simp only [this]
    rw [comb (fun j => j * w0) (fun j => j * w1) (fun j => j * w2) (fun j => j * w3)]
    exact finsum_congr fun i => by rw [hw0, hw1, hw2, hw3]; push_cast; ring

/-- The row continued by zero. -/
noncomputable def ext (nv : ℕ) (f : ℤ → ℝ) (i : ℤ) : ℝ := if 0 ≤ i ∧ i ≤ nv - 1 then f i else 0

/-- With nothing in the boundary cells the one-sided slopes are the central ones. -/
theorem hermite_flags (fm1 fm1' f0 f1 f2 f2' : ℝ) (first last : Bool) (t : ℝ)
    (h0 : first = true → f0 = 0 ∧ f1 = 0 ∧ fm1' = 0) (h0' : first = false → fm1 = fm1')
    (h1 : last = true → f0 = 0 ∧ f1 = 0 ∧ f2' = 0) (h1' : last = false → f2 = f2') :
    hermite fm1 f0 f1 f2 first last t = hermite fm1' f0 f1 f2' false false t := by
  unfold hermite
  cases first <;> cases last <;> simp_all

/-- C67: what one shift does to a row whose first and last two cells are empty, with room for the
shift: particles and mean velocity. Cells with queries off the grid carry the floor value, all
others the shifted row. -/
theorem shiftRow_moments (nv : ℕ) (hnv : 2 ≤ nv) (f : ℤ → ℝ) (shift dv : ℝ) (r : ℤ) (t : ℝ) (hs : -(shift / dv) = r + t) (ht0 : 0 ≤ t) (ht1 : t < 1)
    (hf : ∀ i : ℤ, 0 ≤ i → i ≤ nv - 1 → f i ≠ 0 → 2 ≤ i ∧ i ≤ nv - 3 ∧ 2 ≤ i - r ∧ i - r ≤ nv - 2) :
    ∃ g : ℕ → ℝ, (∀ j < nv, shiftRow nv f shift dv j = if 0 ≤ (j : ℝ) - shift / dv ∧ (j : ℝ) - shift / dv ≤ nv - 1 then g j else 1 / 10 ^ 30) ∧
      (∀ j < nv, ¬(0 ≤ (j : ℝ) - shift / dv ∧ (j : ℝ) - shift / dv ≤ nv - 1) → g j = 0) ∧
      ∑ j ∈ range nv, g j = ∑ i ∈ range nv, f i ∧
      ∑ j ∈ range nv, (j : ℝ) * g j = ∑ i ∈ range nv, ((i : ℝ) + shift / dv) * f i := by
  set F := ext nv f with hFdef
  have hsupp : ∀ i, F i ≠ 0 → 2 ≤ i ∧ i ≤ nv - 3 ∧ 2 ≤ i - r ∧ i - r ≤ nv - 2 := by
    intro i hi
    simp only [hFdef, ext] at hi
    split at hi
    case isTrue h => exact hf i h.1 h.2 hi
    case isFalse h => exact absurd rfl hi
  have hfinF : (Function.support F).Finite := Set.Finite.subset (Set.finite_Icc (2 : ℤ) (nv - 3)) fun i hi => by
    have := hsupp i hi; exact ⟨this.1, this.2.1⟩
  set G := fun j : ℤ => hermite (F (j + r - 1)) (F (j + r)) (F (j + r + 1)) (F (j + r + 2)) false false t with hG
  have hz : ∀ i : ℤ, ¬(2 ≤ i ∧ i ≤ nv - 3 ∧ 2 ≤ i - r ∧ i - r ≤ nv - 2) → F i = 0 := fun i hi => by_contra fun h => hi (hsupp i h)
  have hG0 : ∀ j : ℤ, ¬(0 ≤ j + r ∧ j + r ≤ nv - 2 ∧ 0 ≤ j ∧ j ≤ nv - 1) → G j = 0 := by
    intro j hj
    simp only [hG]
    rw [hz (j + r - 1) (by omega), hz (j + r) (by omega), hz (j + r + 1) (by omega), hz (j + r + 2) (by omega)]
    unfold hermite; norm_num
  have hmom := interior_moments F hfinF t r
  simp only at hmom
  have tosum : ∀ H : ℤ → ℝ, (∀ j : ℤ, ¬(0 ≤ j ∧ j ≤ nv - 1) → H j = 0) → ∑ᶠ j : ℤ, H j = ∑ j ∈ range nv, H (j : ℕ) := by
    intro H hH
    have : Function.support H ⊆ ((range nv).map Nat.castEmbedding : Finset ℤ) := by
      intro j hj
      have h2 : 0 ≤ j ∧ j ≤ nv - 1 := by_contra fun h => hj (hH j h)
      simp only [Finset.coe_map, Set.mem_image, Finset.coe_range, Set.mem_Iio]
      exact ⟨j.toNat, by omega, by simp [h2.1]⟩
    rw [finsum_eq_sum_of_support_subset _ this, sum_map]
    rfl
  have hq : ∀ j : ℕ, (j : ℝ) - shift / dv = ((j + r : ℤ) : ℝ) + t := by intro j; push_cast; linarith
  have hout : ∀ j : ℕ, ¬(0 ≤ (j : ℝ) - shift / dv ∧ (j : ℝ) - shift / dv ≤ nv - 1) → ¬(0 ≤ (j : ℤ) + r ∧ (j : ℤ) + r ≤ nv - 2) := by
    intro j hj h
    apply hj
    rw [hq]
    have a1 : (0 : ℝ) ≤ ((j + r : ℤ) : ℝ) := by exact_mod_cast h.1
    have a2 : ((j + r : ℤ) : ℝ) ≤ nv - 2 := by exact_mod_cast h.2
    constructor <;> linarith
  refine ⟨fun j => G j, fun j hj => ?_, fun j hj hn => ?_, ?_, ?_⟩
  · split
    case isTrue h =>
      rw [hq] at h
      have b0 : 0 ≤ (j : ℤ) + r := by
        by_contra hc
        have : ((j + r : ℤ) : ℝ) ≤ -1 := by exact_mod_cast (by omega : (j : ℤ) + r ≤ -1)
        linarith [h.1]
      have b1 : (j : ℤ) + r ≤ nv - 1 := by
        have : ((j + r : ℤ) : ℝ) ≤ ((nv - 1 : ℤ) : ℝ) := by push_cast; push_cast at h; linarith [h.2]
        exact_mod_cast this
      by_cases b2 : (j : ℤ) + r = nv - 1
      · have ht : t = 0 := by
          have := h.2
          rw [b2] at this
          push_cast at this
          linarith
        rw [shiftRow_last nv hnv f shift dv j (by rw [hq, b2, ht]; push_cast; ring)]
        show _ = G (j : ℤ)
        rw [hG0 j (by omega)]
        by_contra hne
        have := hf (nv - 1) (by omega) le_rfl hne
        omega
      · rw [shiftRow_inside nv hnv f shift dv j (j + r) t (hq j) b0 (by omega) ht0 ht1]
        have hFf : ∀ i : ℤ, 0 ≤ i → i ≤ nv - 1 → F i = f i := by
          intro i h0 h1; simp only [hFdef, ext]; rw [if_pos ⟨h0, h1⟩]
        simp only [hG]
        rw [hFf (j + r) b0 (by omega), hFf (j + r + 1) (by omega) (by omega)]
        have fz : ∀ i : ℤ, 0 ≤ i → i ≤ nv - 1 → ¬(2 ≤ i ∧ i ≤ nv - 3) → f i = 0 := by
          intro i h0 h1 h2; by_contra hne; have := hf i h0 h1 hne; omega
        refine hermite_flags _ _ _ _ _ _ _ _ t ?_ ?_ ?_ ?_
        · intro e0
          have e0 : (j : ℤ) + r = 0 := by simpa using e0
          exact ⟨fz _ b0 (by omega) (by omega), fz _ (by omega) (by omega) (by omega), hz _ (by omega)⟩
        · intro e0
          have e0 : ¬ (j : ℤ) + r = 0 := by simpa using e0
          have c1 : clip (j + r - 1) 0 (nv - 1) = j + r - 1 := by unfold clip; omega
          rw [c1, hFf _ (by omega) (by omega)]
        · intro e0
          have e0 : (j : ℤ) + r = nv - 2 := by simpa using e0
          exact ⟨fz _ b0 (by omega) (by omega), fz _ (by omega) (by omega) (by omega), hz _ (by omega)⟩
        · intro e0
          have e0 : ¬ (j : ℤ) + r = nv - 2 := by simpa using e0
          have c2 : clip (j + r + 2) 0 (nv - 1) = j + r + 2 := by unfold clip; omega
          rw [c2, hFf _ (by omega) (by omega)]
    case isFalse h =>
      apply shiftRow_outside
      rw [not_and_or, not_le, not_le] at h
      exact h
  · exact hG0 j (by have := hout j hn; omega)
  · have h1 := hmom.1
    rw [tosum G (fun j hj => hG0 j (by omega)), tosum F (fun i hi => hz i (by omega))] at h1
    rw [h1]
    refine sum_congr rfl fun i hi => ?_
    simp only [hFdef, ext]
    rw [if_pos (by have := mem_range.1 hi; omega)]
  · have h2 := hmom.2
    rw [tosum (fun j => (j : ℝ) * G j) (fun j hj => by rw [hG0 j (by omega), mul_zero]),
      tosum (fun i => ((i : ℝ) - r - t) * F i) (fun i hi => by rw [hz i (by omega), mul_zero])] at h2
    simp only [Int.cast_natCast] at h2
    rw [h2]
    refine sum_congr rfl fun i hi => ?_
    simp only [hFdef, ext]
    rw [if_pos (by have := mem_range.1 hi; omega)]
    congr 1
    linarith

/-- C67, full statement: the push keeps a non-negative distribution non-negative.  False: half a
cell away from a single spike it is negative. -/
theorem shiftRow_negative : ∃ f : ℤ → ℝ, (∀ i, 0 ≤ f i) ∧ shiftRow 8 f (1 / 2) 1 6 < 0 := by
  refine ⟨fun i => if i = 4 then 1 else 0, fun i => by dsimp only; split <;> norm_num, ?_⟩
  rw [shiftRow_inside 8 (by norm_num) _ _ _ 6 5 (1 / 2) (by norm_num) (by norm_num) (by norm_num) (by norm_num) (by norm_num)]
  unfold hermite clip
  norm_num

/-- A row meeting the hypotheses: a spike on cell 4 of 10, moved by 1.3 cells. -/
example : ∃ (f : ℤ → ℝ) (r : ℤ) (t : ℝ), -((1.3 : ℝ) / 1) = r + t ∧ 0 ≤ t ∧ t < 1 ∧ (∃ i, f i ≠ 0) ∧
    ∀ i : ℤ, 0 ≤ i → i ≤ (10 : ℕ) - 1 → f i ≠ 0 → 2 ≤ i ∧ i ≤ (10 : ℕ) - 3 ∧ 2 ≤ i - r ∧ i - r ≤ (10 : ℕ) - 2 := by
  refine ⟨fun i => if i = 4 then 1 else 0, -2, 0.7, by norm_num, by norm_num, by norm_num, ⟨4, by norm_num⟩, fun i _ _ h => ?_⟩
  simp only [ne_eq, ite_eq_right_iff, one_ne_zero, imp_false, not_not] at h
  subst h
  norm_num

end Verif.CubicSpline

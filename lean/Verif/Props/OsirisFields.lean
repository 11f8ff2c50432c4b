import Verif.Model.OsirisPlot
import Mathlib.Algebra.Order.BigOperators.Ring.Finset
import Mathlib.Algebra.Order.Field.Basic
import Mathlib.Analysis.Calculus.Deriv.Add
import Mathlib.Analysis.Calculus.Deriv.Mul
import Mathlib.Tactic.FieldSimp
import Mathlib.Tactic.Linarith
import Mathlib.Tactic.Positivity
import Mathlib.Tactic.Ring

/-!
C201: density and temperature profiles of a species.  C202: left- and right-going fields.  C203: field energies.
-/
namespace Verif.OsirisPlot
open Finset

section
variable {K : Type} [Field K] [LinearOrder K] [IsStrictOrderedRing K]

/-! ### C201 -/

theorem chargeSign_sq (s : K) : chargeSign s * chargeSign s = 1 ∧ chargeSign s ≠ 0 := by
  unfold chargeSign
  split_ifs <;> constructor <;> norm_num

/-- C201: a charge density of one sign gives its absolute value, which is never negative. -/
theorem density_abs {T X : Type} [Fintype T] [Fintype X] (rho : T → X → K) (h : (∀ t x, 0 ≤ rho t x) ∨ ∀ t x, rho t x ≤ 0) (t : T) (x : X) :
    densityFromCharge rho t x = |rho t x| := by
  unfold densityFromCharge chargeSign
  rcases h with h | h
  · rw [if_neg (not_lt.2 (sum_nonneg fun t _ => sum_nonneg fun x _ => h t x)), div_one, abs_of_nonneg (h t x)]
  · rcases lt_or_eq_of_le (sum_nonpos fun t (_ : t ∈ (univ : Finset T)) => sum_nonpos fun x (_ : x ∈ (univ : Finset X)) => h t x) with h1 | h1
    · rw [if_pos h1, abs_of_nonpos (h t x), div_neg, div_one]
    · have h2 : rho t x = 0 := by
        have := (sum_eq_zero_iff_of_nonpos fun t (_ : t ∈ (univ : Finset T)) => sum_nonpos fun x (_ : x ∈ (univ : Finset X)) => h t x).1 h1 t (mem_univ _)
        exact (sum_eq_zero_iff_of_nonpos fun x (_ : x ∈ (univ : Finset X)) => h t x).1 this x (mem_univ _)
      rw [h2]; simp

/-- C201: for singly charged particles of either sign the profile is the number density. -/
theorem density_unit_charge {T X : Type} [Fintype T] [Fintype X] (n : T → X → K) (hn : ∀ t x, 0 ≤ n t x) (q : K) (hq : q = 1 ∨ q = -1) (t : T) (x : X) :
    densityFromCharge (fun t x => q * n t x) t x = n t x := by
  rcases hq with rfl | rfl
  · rw [density_abs _ (.inl fun t x => by rw [one_mul]; exact hn t x), one_mul, abs_of_nonneg (hn t x)]
  · rw [density_abs _ (.inr fun t x => by have := hn t x; linarith), neg_one_mul, abs_neg, abs_of_nonneg (hn t x)]

/-- C201: in general it is the charge number times the number density. -/
theorem density_charge {T X : Type} [Fintype T] [Fintype X] (n : T → X → K) (hn : ∀ t x, 0 ≤ n t x) (q : K) (t : T) (x : X) :
    densityFromCharge (fun t x => q * n t x) t x = |q| * n t x := by
  rw [density_abs, abs_mul, abs_of_nonneg (hn t x)]
  rcases le_total 0 q with h | h
  · exact .inl fun t x => mul_nonneg h (hn t x)
  · exact .inr fun t x => mul_nonpos_of_nonpos_of_nonneg h (hn t x)

/-- C201 fails for multiply charged ions: the profile labelled number density is the charge density. -/
theorem density_multiply_charged_partial : ∃ n : Unit → Unit → ℚ, (∀ t x, 0 ≤ n t x) ∧ densityFromCharge (fun t x => 2 * n t x) () () = 2 * n () () ∧ n () () ≠ 2 * n () () :=
  ⟨fun _ _ => 1, fun _ _ => by norm_num, by rw [density_charge _ fun _ _ => by norm_num]; norm_num, by norm_num⟩

variable {P : Type} [Fintype P]

/-- Specification: mean and mean square deviation of `p` with weights `w`. -/
def wmean (w p : P → K) : K := (∑ i, w i * p i) / ∑ i, w i
/-- See `wmean`. -/
def wvar (w p : P → K) : K := (∑ i, w i * (p i - wmean w p) ^ 2) / ∑ i, w i

/-- C201: with a phase-space density of the sign of the species, the temperature is the mean square deviation of the
momentum, whatever the sign and size of the charge, and is masked exactly where there are no particles. -/
theorem temperature_variance (q total : K) (p w : P → K) (hw : ∀ i, 0 ≤ w i) (hq : q ≠ 0) (ht : 0 < q * total) :
    temperature total p (fun i => q * w i) = if 0 < ∑ i, w i then some (wvar w p) else none := by
  have hs : ∀ i, max (q * w i / chargeSign total) 0 = |q| * w i := by
    intro i
    unfold chargeSign
    rcases lt_or_gt_of_ne hq with h | h
    · have : total < 0 := by
        by_contra hc
        have := mul_nonpos_of_nonpos_of_nonneg (le_of_lt h) (not_lt.1 hc)
        linarith
      rw [if_pos this, abs_of_neg h, div_neg, div_one, ← neg_mul]
      exact max_eq_left (mul_nonneg (by linarith) (hw i))
    · have : ¬ total < 0 := by
        intro hc
        have := mul_neg_of_pos_of_neg h hc
        linarith
      rw [if_neg this, abs_of_pos h, div_one]
      exact max_eq_left (mul_nonneg (le_of_lt h) (hw i))
  have hq' : 0 < |q| := abs_pos.2 hq
  unfold temperature
  dsimp only
  simp only [hs]
  rw [← mul_sum]
  simp only [mul_assoc, ← mul_sum]
  by_cases hpos : 0 < ∑ i, w i
  · rw [if_pos (mul_pos hq' hpos), if_pos hpos, mul_div_mul_left _ _ (ne_of_gt hq'), mul_div_mul_left _ _ (ne_of_gt hq')]
    rfl
  · rw [if_neg hpos, if_neg]
    intro h
    exact hpos (pos_of_mul_pos_right h (le_of_lt hq'))

/-- C201: a temperature is never negative, and is zero exactly if all particles of the cell have one momentum. -/
theorem temperature_nonneg (total : K) (p f : P → K) (T : K) (h : temperature total p f = some T) :
    0 ≤ T ∧ (T = 0 ↔ ∃ p0, ∀ i, 0 < f i / chargeSign total → p i = p0) := by
  unfold temperature at h
  dsimp only at h
  split at h
  · rename_i hpos
    cases h
    set w := fun i => max (f i / chargeSign total) 0 with hw
    have hw0 : ∀ i, 0 ≤ w i := fun i => le_max_right _ _
    set p0 := (∑ i, w i * p i) / ∑ i, w i with hp0
    have hterm : ∀ i ∈ (univ : Finset P), 0 ≤ w i * (p i - p0) ^ 2 := fun i _ => mul_nonneg (hw0 i) (sq_nonneg _)
    have hwpos : ∀ i, 0 < w i ↔ 0 < f i / chargeSign total := fun i => by rw [hw]; simp
    refine ⟨div_nonneg (sum_nonneg hterm) (le_of_lt hpos), ?_⟩
    rw [div_eq_zero_iff, or_iff_left (ne_of_gt hpos), sum_eq_zero_iff_of_nonneg hterm]
    constructor
    · intro h
      refine ⟨p0, fun i hi => ?_⟩
      rcases mul_eq_zero.1 (h i (mem_univ i)) with h1 | h1
      · exact absurd h1 (ne_of_gt ((hwpos i).2 hi))
      · exact sub_eq_zero.1 (pow_eq_zero_iff (by norm_num) |>.1 h1)
    · rintro ⟨c, hc⟩ i _
      rcases eq_or_lt_of_le (hw0 i) with h1 | h1
      · rw [← h1, zero_mul]
      · have e : p0 = c := by
          rw [hp0, div_eq_iff (ne_of_gt hpos), mul_sum]
          refine sum_congr rfl fun j _ => ?_
          rcases eq_or_lt_of_le (hw0 j) with h2 | h2
          · have h2' : max (f j / chargeSign total) 0 = 0 := h2.symm
            rw [← h2, zero_mul, h2', mul_zero]
          · rw [hc j ((hwpos j).1 h2)]; ring
        rw [e, hc i ((hwpos i).1 h1), sub_self]; ring
  · cases h

/-- C201: the temperature does not change when all momenta are shifted, scales with their square, and is at most the
mean square of the momentum about any value. -/
theorem temperature_shift (total a b : K) (p f : P → K) : temperature total (fun i => a * p i + b) f = (temperature total p f).map (a ^ 2 * ·) := by
  have key : ∀ w : P → K, ∑ i, w i ≠ 0 → (∑ i, w i * (a * p i + b - (∑ i, w i * (a * p i + b)) / ∑ i, w i) ^ 2) / ∑ i, w i
      = a ^ 2 * ((∑ i, w i * (p i - (∑ i, w i * p i) / ∑ i, w i) ^ 2) / ∑ i, w i) := by
    intro w hW
    have e : (∑ i, w i * (a * p i + b)) / ∑ i, w i = a * ((∑ i, w i * p i) / ∑ i, w i) + b := by
      rw [div_eq_iff hW, add_mul, mul_assoc, div_mul_cancel₀ _ hW, mul_sum, mul_sum, ← sum_add_distrib]
      exact sum_congr rfl fun i _ => by ring
    rw [e]
    generalize (∑ i, w i * p i) / ∑ i, w i = p0
    rw [← mul_div_assoc, mul_sum]
    congr 1
    exact sum_congr rfl fun i _ => by ring
  unfold temperature
  dsimp only
  split_ifs with h
  · rw [Option.map_some, key _ (ne_of_gt h)]
  · rfl

theorem temperature_least (total c : K) (p f : P → K) (T : K) (h : temperature total p f = some T) :
    T * ∑ i, max (f i / chargeSign total) 0 ≤ ∑ i, max (f i / chargeSign total) 0 * (p i - c) ^ 2 := by
  unfold temperature at h
  dsimp only at h
  split at h
  · rename_i hpos
    cases h
    set w := fun i => max (f i / chargeSign total) 0 with hw
    have hW : ∑ i, w i ≠ 0 := ne_of_gt hpos
    rw [div_mul_cancel₀ _ hW]
    set p0 := (∑ i, w i * p i) / ∑ i, w i with hp0
    have hm : ∑ i, w i * p i = p0 * ∑ i, w i := by rw [hp0, div_mul_cancel₀ _ hW]
    have e : ∑ i, w i * (p i - c) ^ 2 = ∑ i, w i * (p i - p0) ^ 2 + (p0 - c) ^ 2 * ∑ i, w i := by
      have : ∀ i, w i * (p i - c) ^ 2 = w i * (p i - p0) ^ 2 + (2 * (p0 - c) * (w i * p i) + (c ^ 2 - p0 ^ 2) * w i) := fun i => by ring
      simp only [this, sum_add_distrib, ← mul_sum]
      rw [hm]; ring
    rw [e]
    have := mul_nonneg (sq_nonneg (p0 - c)) (le_of_lt hpos)
    linarith
  · cases h

/-- Two beams of momentum ±1: temperature 1, also for electrons. -/
example : temperature (-2 : ℚ) (fun i : Fin 2 => if i = 0 then -1 else 1) (fun _ => -1) = some 1 := by
  unfold temperature chargeSign
  norm_num [Fin.sum_univ_two]

end

/-! ### C202 -/

section
variable {K : Type} [Field K] [CharZero K]

/-- C202: the two parts add up to the electric field, and their difference is the magnetic field (up to its sign); the
energy density is twice the sum of their squares and the flux the difference of their squares. -/
theorem split_parts (s e b : K) (hs : s ^ 2 = 1) : rightGoing s e b + leftGoing s e b = e ∧ rightGoing s e b - leftGoing s e b = s * b ∧
    (e ^ 2 + b ^ 2) / 2 = rightGoing s e b ^ 2 + leftGoing s e b ^ 2 ∧ s * (e * b) = rightGoing s e b ^ 2 - leftGoing s e b ^ 2 := by
  unfold rightGoing leftGoing
  refine ⟨by ring, by ring, ?_, by ring⟩
  have h : b ^ 2 = (s * b) ^ 2 := by rw [mul_pow, hs, one_mul]
  rw [h]; ring

/-- C202: in a pure wave to the right (`b = s e`) there is no left-going part, and conversely. -/
theorem pure_wave (s e b : K) (hs : s ^ 2 = 1) : (leftGoing s e b = 0 ↔ b = s * e) ∧ (rightGoing s e b = 0 ↔ b = -(s * e)) := by
  have hs0 : s ≠ 0 := by rintro rfl; norm_num at hs
  unfold rightGoing leftGoing
  constructor
  · rw [div_eq_zero_iff, or_iff_left (by norm_num), sub_eq_zero]
    constructor
    · rintro rfl; rw [← mul_assoc, ← sq, hs, one_mul]
    · rintro rfl; rw [← mul_assoc, ← sq, hs, one_mul]
  · rw [div_eq_zero_iff, or_iff_left (by norm_num), add_eq_zero_iff_eq_neg]
    constructor
    · rintro rfl; rw [mul_neg, neg_neg, ← mul_assoc, ← sq, hs, one_mul]
    · rintro rfl; rw [mul_neg, neg_neg, ← mul_assoc, ← sq, hs, one_mul]

end

/-- C202: under the vacuum Maxwell equations of the pair (`∂t e = -s ∂x b`, `∂t b = -s ∂x e`) the right-going part obeys
`∂t R = -∂x R` and the left-going part `∂t L = ∂x L`: they travel at the speed of light, each in its direction. -/
theorem parts_travel (s : ℝ) (hs : s ^ 2 = 1) (e b : ℝ → ℝ → ℝ) (t x et ex bt bx : ℝ)
    (het : HasDerivAt (fun t => e t x) et t) (hex : HasDerivAt (fun x => e t x) ex x) (hbt : HasDerivAt (fun t => b t x) bt t) (hbx : HasDerivAt (fun x => b t x) bx x)
    (h1 : et = -s * bx) (h2 : bt = -s * ex) :
    ∃ Rx Lx, HasDerivAt (fun x => rightGoing s (e t x) (b t x)) Rx x ∧ HasDerivAt (fun t => rightGoing s (e t x) (b t x)) (-Rx) t ∧
      HasDerivAt (fun x => leftGoing s (e t x) (b t x)) Lx x ∧ HasDerivAt (fun t => leftGoing s (e t x) (b t x)) Lx t := by
  refine ⟨(ex + s * bx) / 2, (ex - s * bx) / 2, ?_, ?_, ?_, ?_⟩
  · exact ((hex.add (hbx.const_mul s)).div_const 2)
  · refine ((het.add (hbt.const_mul s)).div_const 2).congr_deriv ?_
    rw [h1, h2, show s * (-s * ex) = -(s ^ 2 * ex) by ring, hs]; ring
  · exact ((hex.sub (hbx.const_mul s)).div_const 2)
  · refine ((het.sub (hbt.const_mul s)).div_const 2).congr_deriv ?_
    rw [h1, h2, show s * (-s * ex) = -(s ^ 2 * ex) by ring, hs]; ring

/-- C202: the equations of the two polarisations: for `e2`, `b3` the sign is +1 and for `e3`, `b2` it is -1 — Maxwell's
curl equations in one dimension, `∂t E = curl B`, `∂t B = -curl E` with `∂x` only. -/
theorem polarisations (bx2 bx3 ex2 ex3 : ℝ) :
    (let curlB : ℝ × ℝ := (-bx3, bx2)
     let curlE : ℝ × ℝ := (-ex3, ex2)
     curlB.1 = -(1 : ℝ) * bx3 ∧ -curlE.2 = -(1 : ℝ) * ex2 ∧ curlB.2 = -(-1 : ℝ) * bx2 ∧ -curlE.1 = -(-1 : ℝ) * ex3) := by
  dsimp only
  refine ⟨by ring, by ring, by ring, by ring⟩

/-! Slabs -/

theorem slab_fits (n g w : ℕ) : (slabSize n g w).1 + (slabSize n g w).2 ≤ n := by
  unfold slabSize
  split_ifs
  · simp
  · omega

/-- C202: each slab has the window's number of cells, the left one starting and the right one ending the guard cells
away from its edge: the right slab is the mirror image of the left one. -/
theorem slabs {α : Type} (l : List α) (g w : ℕ) :
    (leftSlab l g w).length = (slabSize l.length g w).2 ∧ (rightSlab l g w).length = (slabSize l.length g w).2 ∧
    rightSlab l g w = (leftSlab l.reverse g w).reverse := by
  have h := slab_fits l.length g w
  unfold leftSlab rightSlab
  simp only [List.length_reverse]
  refine ⟨?_, ?_, ?_⟩
  · rw [List.length_drop, List.length_take]; omega
  · rw [List.length_drop, List.length_take]; omega
  · rw [List.take_reverse, List.drop_reverse, List.reverse_reverse, List.length_drop]
    have e1 : l.length - (l.length - ((slabSize l.length g w).1 + (slabSize l.length g w).2)) - (slabSize l.length g w).1 = (slabSize l.length g w).2 := by omega
    rw [e1, List.drop_take]
    have e2 : l.length - (slabSize l.length g w).1 - (l.length - (slabSize l.length g w).1 - (slabSize l.length g w).2) = (slabSize l.length g w).2 := by omega
    have e3 : l.length - (slabSize l.length g w).1 - (slabSize l.length g w).2 = l.length - ((slabSize l.length g w).1 + (slabSize l.length g w).2) := by omega
    rw [e2, e3]

/-- C202: the requested guard and window are used whenever they fit. -/
theorem slab_requested (n g w : ℕ) (h : g + w ≤ n) : slabSize n g w = (g, w) := by
  unfold slabSize; rw [if_neg (by omega)]

/-- C202: splitting on the slab is the slab of the split. -/
theorem slab_local {K : Type} [Field K] (s : K) (eb : List (K × K)) (g w : ℕ) :
    (leftSlab eb g w).map (fun p => rightGoing s p.1 p.2) = leftSlab (eb.map fun p => rightGoing s p.1 p.2) g w ∧
    (rightSlab eb g w).map (fun p => rightGoing s p.1 p.2) = rightSlab (eb.map fun p => rightGoing s p.1 p.2) g w ∧
    (leftSlab eb g w).map (fun p => leftGoing s p.1 p.2) = leftSlab (eb.map fun p => leftGoing s p.1 p.2) g w ∧
    (rightSlab eb g w).map (fun p => leftGoing s p.1 p.2) = rightSlab (eb.map fun p => leftGoing s p.1 p.2) g w := by
  unfold leftSlab rightSlab
  simp only [List.length_map, List.map_drop, List.map_take, and_self]

example : leftSlab [0, 1, 2, 3, 4, 5, 6, 7] 1 3 = [1, 2, 3] ∧ rightSlab [0, 1, 2, 3, 4, 5, 6, 7] 1 3 = [4, 5, 6] := by decide
example : rightGoing (1 : ℚ) 3 3 = 3 ∧ leftGoing (1 : ℚ) 3 3 = 0 := by unfold rightGoing leftGoing; norm_num

/-! ### C203 -/

section
variable {K : Type} [Field K]

theorem insertIter_mem (it a : ℤ) (l : List ℤ) : a ∈ insertIter it l ↔ a = it ∨ a ∈ l := by
  induction l with
  | nil => simp [insertIter]
  | cons b l ih =>
    unfold insertIter
    split_ifs with h1 h2
    · simp
    · subst h2; simp
    · rw [List.mem_cons, ih, List.mem_cons]; tauto

theorem insertIter_sorted (it : ℤ) (l : List ℤ) (h : l.Pairwise (· < ·)) : (insertIter it l).Pairwise (· < ·) := by
  induction l with
  | nil => simp [insertIter]
  | cons b l ih =>
    rw [List.pairwise_cons] at h
    unfold insertIter
    split_ifs with h1 h2
    · rw [List.pairwise_cons, List.pairwise_cons]
      refine ⟨?_, h⟩
      intro a ha
      rcases List.mem_cons.1 ha with rfl | ha
      · exact h1
      · exact lt_trans h1 (h.1 a ha)
    · rw [List.pairwise_cons]; exact h
    · rw [List.pairwise_cons]
      refine ⟨?_, ih h.2⟩
      intro a ha
      rcases (insertIter_mem it a l).1 ha with rfl | ha
      · omega
      · exact h.1 a ha

theorem foldl_iter (xs l : List ℤ) : (∀ a, a ∈ xs.foldl (fun l it => insertIter it l) l ↔ a ∈ xs ∨ a ∈ l) ∧
    (l.Pairwise (· < ·) → (xs.foldl (fun l it => insertIter it l) l).Pairwise (· < ·)) := by
  induction xs generalizing l with
  | nil => simp
  | cons x xs ih =>
    rw [List.foldl_cons]
    refine ⟨fun a => ?_, fun h => (ih _).2 (insertIter_sorted x l h)⟩
    rw [(ih _).1 a, insertIter_mem, List.mem_cons]; tauto

/-- C203: the energy traces have one entry for each iteration at which any of the six components was dumped, in order. -/
theorem iterations (f : Comp → Option (Series K)) : (iters f).Pairwise (· < ·) ∧
    ∀ a, a ∈ iters f ↔ ∃ c s, f c = some s ∧ ∃ d ∈ s.dumps, d.1 = a := by
  unfold iters
  refine ⟨(foldl_iter _ _).2 List.Pairwise.nil, fun a => ?_⟩
  rw [(foldl_iter _ _).1 a, List.mem_flatMap]
  simp only [List.not_mem_nil, or_false]
  constructor
  · rintro ⟨c, _, hc⟩
    cases h : f c with
    | none => rw [h] at hc; simp at hc
    | some s =>
      rw [h] at hc
      obtain ⟨d, hd, rfl⟩ := List.mem_map.1 hc
      exact ⟨c, s, h, d, hd, rfl⟩
  · rintro ⟨c, s, h, d, hd, rfl⟩
    refine ⟨c, by cases c <;> decide, ?_⟩
    rw [h]
    exact List.mem_map.2 ⟨d, hd, rfl⟩

/-- C203: total energy is electric plus magnetic energy. -/
theorem total_split (f : Comp → Option (Series K)) (it : ℤ) : totalEnergy f it = electric f it + magnetic f it := rfl

/-- C203: at an iteration that every component dumped once, the total energy is half the integral of `E² + B²`. -/
theorem total_integral (f : Comp → Option (Series K)) (it : ℤ) (dvol : K) (vals : Comp → List K)
    (h : ∀ c, ∃ s t, f c = some s ∧ s.dvol = dvol ∧ (s.dumps.filter fun d => d.1 = it) = [(it, t, vals c)]) :
    totalEnergy f it = 1 / 2 * (((vals .e1).map (· ^ 2)).sum + ((vals .e2).map (· ^ 2)).sum + ((vals .e3).map (· ^ 2)).sum
      + ((vals .b1).map (· ^ 2)).sum + ((vals .b2).map (· ^ 2)).sum + ((vals .b3).map (· ^ 2)).sum) * dvol := by
  have hc : ∀ c, compEnergy (f c) it = 1 / 2 * ((vals c).map (· ^ 2)).sum * dvol := by
    intro c
    obtain ⟨s, t, h1, h2, h3⟩ := h c
    rw [h1]
    unfold compEnergy
    dsimp only
    rw [h3]
    simp [dumpEnergy, h2]
  unfold totalEnergy electric magnetic
  rw [hc, hc, hc, hc, hc, hc]
  ring

/-- C203: a component that was not dumped, or not at this iteration, counts as zero. -/
theorem missing_zero (f : Comp → Option (Series K)) (c : Comp) (it : ℤ) (h : ∀ s, f c = some s → ∀ d ∈ s.dumps, d.1 ≠ it) : compEnergy (f c) it = 0 := by
  unfold compEnergy
  cases hc : f c with
  | none => rfl
  | some s =>
    dsimp only
    have : (s.dumps.filter fun d => d.1 = it) = [] := by
      rw [List.filter_eq_nil_iff]
      intro d hd
      simpa using h s hc d hd
    rw [this]; rfl

end

/-- C203: energies are never negative. -/
theorem energy_nonneg {K : Type} [Field K] [LinearOrder K] [IsStrictOrderedRing K] (f : Comp → Option (Series K)) (it : ℤ)
    (hv : ∀ c s, f c = some s → 0 ≤ s.dvol) : 0 ≤ electric f it ∧ 0 ≤ magnetic f it := by
  have hc : ∀ c, 0 ≤ compEnergy (f c) it := by
    intro c
    unfold compEnergy
    cases h : f c with
    | none => exact le_rfl
    | some s =>
      refine List.sum_nonneg fun x hx => ?_
      obtain ⟨d, _, rfl⟩ := List.mem_map.1 hx
      unfold dumpEnergy
      refine mul_nonneg (mul_nonneg (by norm_num) (List.sum_nonneg fun y hy => ?_)) (hv c s h)
      obtain ⟨z, _, rfl⟩ := List.mem_map.1 hy
      exact sq_nonneg z
  unfold electric magnetic
  exact ⟨add_nonneg (add_nonneg (hc _) (hc _)) (hc _), add_nonneg (add_nonneg (hc _) (hc _)) (hc _)⟩

/-- C203 fails as a measure of the total field energy when the components are dumped at different cadences: at an
iteration with the electric field only, the total drops although no field changed. -/
theorem cadence_drop_partial : ∃ f : Comp → Option (Series ℚ), (∀ c s, f c = some s → ∀ d ∈ s.dumps, d.2.2 = [2]) ∧
    iters f = [0, 1, 2] ∧ totalEnergy f 0 = 4 ∧ totalEnergy f 1 = 2 ∧ totalEnergy f 2 = 4 := by
  refine ⟨fun c => match c with
    | .e1 => some ⟨[(0, 0, [2]), (1, 1, [2]), (2, 2, [2])], 1⟩
    | .b1 => some ⟨[(0, 0, [2]), (2, 2, [2])], 1⟩
    | _ => none, ?_, by decide, ?_, ?_, ?_⟩
  · intro c s h
    cases c <;> simp at h <;> subst h <;> simp
  all_goals
    unfold totalEnergy electric magnetic compEnergy dumpEnergy
    norm_num [List.filter]

end Verif.OsirisPlot

import Mathlib.Analysis.SpecialFunctions.Exp
import Mathlib.Analysis.SpecialFunctions.ExpDeriv
import Mathlib.Algebra.BigOperators.Field
import Mathlib.Algebra.Order.BigOperators.Group.Finset
import Mathlib.Topology.Order.IntermediateValue
import Mathlib.Analysis.Calculus.Deriv.Inv
import Mathlib.Algebra.BigOperators.Intervals

/-! Averages under exponential weights: monotone in the parameter, with limits the values at
the extremes of the exponent. -/
namespace Verif.Beta
open Finset

/-- The average of `q` with weights `a exp(-β p)`. -/
noncomputable def tilt (s : Finset ℕ) (a q p : ℕ → ℝ) (β : ℝ) : ℝ :=
  (∑ i ∈ s, a i * q i * Real.exp (-β * p i)) / ∑ i ∈ s, a i * Real.exp (-β * p i)

variable {s : Finset ℕ} {a q p : ℕ → ℝ}

theorem den_pos (ha : ∀ i ∈ s, 0 ≤ a i) {k : ℕ} (hk : k ∈ s) (hak : 0 < a k) (β : ℝ) :
    0 < ∑ i ∈ s, a i * Real.exp (-β * p i) :=
  sum_pos' (fun i hi => mul_nonneg (ha i hi) (Real.exp_pos _).le) ⟨k, hk, mul_pos hak (Real.exp_pos _)⟩

/-- Larger parameter, smaller average, when `q` and `p` grow together. -/
theorem tilt_strictAnti (ha : ∀ i ∈ s, 0 ≤ a i) (hco : ∀ i ∈ s, ∀ j ∈ s, p i < p j → q i < q j)
    (heq : ∀ i ∈ s, ∀ j ∈ s, p i = p j → q i = q j) {k l : ℕ} (hk : k ∈ s) (hl : l ∈ s) (hak : 0 < a k) (hal : 0 < a l)
    (hkl : p k < p l) : StrictAnti (tilt s a q p) := by
  intro x y hxy
  unfold tilt
  rw [div_lt_div_iff₀ (den_pos ha hk hak y) (den_pos ha hk hak x), ← sub_pos]
  let E : ℕ → ℕ → ℝ := fun i j => Real.exp (-x * p i) * Real.exp (-y * p j)
  have e1 : (∑ i ∈ s, a i * q i * Real.exp (-x * p i)) * (∑ j ∈ s, a j * Real.exp (-y * p j)) -
      (∑ i ∈ s, a i * q i * Real.exp (-y * p i)) * (∑ j ∈ s, a j * Real.exp (-x * p j)) =
      ∑ i ∈ s, ∑ j ∈ s, a i * a j * (q i * (E i j - E j i)) := by
    rw [sum_mul_sum, sum_mul_sum, ← sum_sub_distrib]
    refine sum_congr rfl fun i _ => ?_
    rw [← sum_sub_distrib]
    exact sum_congr rfl fun j _ => by simp only [E]; ring
  have e2 : ∑ i ∈ s, ∑ j ∈ s, a i * a j * (q i * (E i j - E j i)) =
      ∑ i ∈ s, ∑ j ∈ s, a i * a j * (-(q j) * (E i j - E j i)) := by
    rw [sum_comm]
    exact sum_congr rfl fun i _ => sum_congr rfl fun j _ => by ring
  have e3 : 2 * ∑ i ∈ s, ∑ j ∈ s, a i * a j * (q i * (E i j - E j i)) =
      ∑ i ∈ s, ∑ j ∈ s, a i * a j * ((q i - q j) * (E i j - E j i)) := by
    rw [two_mul]
    nth_rw 2 [e2]
    rw [← sum_add_distrib]
    refine sum_congr rfl fun i _ => ?_
    rw [← sum_add_distrib]
    exact sum_congr rfl fun j _ => by ring
  have hE : ∀ i j, p i < p j → E i j < E j i := by
    intro i j h
    simp only [E]
    rw [← Real.exp_add, ← Real.exp_add, Real.exp_lt_exp]
    nlinarith
  have hE' : ∀ i j, p i = p j → E i j = E j i := by
    intro i j h
    simp only [E, h]
  have key : ∀ i ∈ s, ∀ j ∈ s, p i ≠ p j → 0 < (q i - q j) * (E i j - E j i) := by
    intro i hi j hj h
    rcases lt_or_gt_of_ne h with h | h
    · exact mul_pos_of_neg_of_neg (sub_neg.2 (hco i hi j hj h)) (sub_neg.2 (hE i j h))
    · exact mul_pos (sub_pos.2 (hco j hj i hi h)) (sub_pos.2 (hE j i h))
  have nn : ∀ i ∈ s, ∀ j ∈ s, 0 ≤ a i * a j * ((q i - q j) * (E i j - E j i)) := by
    intro i hi j hj
    refine mul_nonneg (mul_nonneg (ha i hi) (ha j hj)) ?_
    by_cases h : p i = p j
    · rw [hE' i j h, sub_self, mul_zero]
    · exact (key i hi j hj h).le
  rw [e1]
  have : 0 < ∑ i ∈ s, ∑ j ∈ s, a i * a j * ((q i - q j) * (E i j - E j i)) :=
    sum_pos' (fun i hi => sum_nonneg (nn i hi)) ⟨k, hk, sum_pos' (nn k hk) ⟨l, hl,
      mul_pos (mul_pos hak hal) (key k hk l hl hkl.ne)⟩⟩
  linarith

/-- An average lies between bounds of the values that count. -/
theorem tilt_lt (ha : ∀ i ∈ s, 0 ≤ a i) (β M : ℝ) (hM : ∀ i ∈ s, 0 < a i → q i ≤ M) {k : ℕ} (hk : k ∈ s)
    (hak : 0 < a k) (hq : q k < M) : tilt s a q p β < M := by
  unfold tilt
  rw [div_lt_iff₀ (den_pos ha hk hak β), mul_sum]
  refine sum_lt_sum (fun i hi => ?_) ⟨k, hk, ?_⟩
  · rcases (ha i hi).eq_or_lt with h | h
    · simp [← h]
    · nlinarith [mul_le_mul_of_nonneg_right (hM i hi h) (mul_nonneg h.le (Real.exp_pos (-β * p i)).le)]
  · nlinarith [mul_lt_mul_of_pos_right hq (mul_pos hak (Real.exp_pos (-β * p k)))]

theorem lt_tilt (ha : ∀ i ∈ s, 0 ≤ a i) (β M : ℝ) (hM : ∀ i ∈ s, 0 < a i → M ≤ q i) {k : ℕ} (hk : k ∈ s)
    (hak : 0 < a k) (hq : M < q k) : M < tilt s a q p β := by
  have h := tilt_lt (p := p) ha β (-M) (q := fun i => -q i) (fun i hi h => neg_le_neg (hM i hi h)) hk hak (neg_lt_neg hq)
  have e : tilt s a (fun i => -q i) p β = -tilt s a q p β := by
    unfold tilt
    rw [← neg_div, ← sum_neg_distrib]
    congr 1
    exact sum_congr rfl fun i _ => by ring
  rw [e] at h
  linarith

theorem tilt_continuous (ha : ∀ i ∈ s, 0 ≤ a i) {k : ℕ} (hk : k ∈ s) (hak : 0 < a k) : Continuous (tilt s a q p) := by
  unfold tilt
  refine Continuous.div ?_ ?_ fun β => (den_pos ha hk hak β).ne'
  · fun_prop
  · fun_prop

/-- As the parameter grows the average tends to the value at the smallest exponent. -/
theorem tilt_tendsto {k : ℕ} (hk : k ∈ s) (hak : 0 < a k) (ha : ∀ i ∈ s, 0 ≤ a i)
    (hmin : ∀ i ∈ s, 0 < a i → p k ≤ p i) (heq : ∀ i ∈ s, p i = p k → q i = q k) :
    Filter.Tendsto (tilt s a q p) Filter.atTop (nhds (q k)) := by
  have e : ∀ β, tilt s a q p β = (∑ i ∈ s, a i * q i * Real.exp (-β * (p i - p k))) /
      ∑ i ∈ s, a i * Real.exp (-β * (p i - p k)) := by
    intro β
    unfold tilt
    have h1 : ∀ i, Real.exp (-β * p i) = Real.exp (-β * (p i - p k)) * Real.exp (-β * p k) := by
      intro i; rw [← Real.exp_add]; congr 1; ring
    have h2 : ∀ c : ℕ → ℝ, ∑ i ∈ s, c i * Real.exp (-β * p i) =
        (∑ i ∈ s, c i * Real.exp (-β * (p i - p k))) * Real.exp (-β * p k) := by
      intro c; rw [sum_mul]; exact sum_congr rfl fun i _ => by rw [h1 i]; ring
    rw [h2 fun i => a i * q i, h2 a, mul_div_mul_right _ _ (Real.exp_pos _).ne']
  rw [show tilt s a q p = _ from funext e]
  have t1 : ∀ i ∈ s, ∀ c : ℝ, Filter.Tendsto (fun β : ℝ => a i * c * Real.exp (-β * (p i - p k))) Filter.atTop
      (nhds (if p i = p k then a i * c else 0)) := by
    intro i hi c
    by_cases h : p i = p k
    · simp [h]
    · rw [if_neg h]
      rcases (ha i hi).eq_or_lt with h0 | h0
      · simp [← h0]
      · have hp : 0 < p i - p k := sub_pos.2 (lt_of_le_of_ne (hmin i hi h0) (Ne.symm h))
        have : Filter.Tendsto (fun β : ℝ => Real.exp (-β * (p i - p k))) Filter.atTop (nhds 0) := by
          refine Real.tendsto_exp_atBot.comp ?_
          exact Filter.Tendsto.atBot_mul_const hp Filter.tendsto_neg_atTop_atBot
        simpa using this.const_mul (a i * c)
  have t2 := tendsto_finsetSum s fun i hi => t1 i hi (q i)
  have t3 := tendsto_finsetSum s fun i hi => t1 i hi 1
  simp only [mul_one] at t3
  have hpos : 0 < ∑ i ∈ s, (if p i = p k then a i else 0) :=
    sum_pos' (fun i hi => by split_ifs <;> [exact ha i hi; exact le_rfl]) ⟨k, hk, by rw [if_pos rfl]; exact hak⟩
  have t4 := t2.div t3 hpos.ne'
  have e5 : ∑ i ∈ s, (if p i = p k then a i * q i else 0) = q k * ∑ i ∈ s, (if p i = p k then a i else 0) := by
    rw [mul_sum]
    refine sum_congr rfl fun i hi => ?_
    split_ifs with h
    · rw [heq i hi h]; ring
    · ring
  rw [e5, mul_div_assoc, div_self hpos.ne', mul_one] at t4
  exact t4

theorem tilt_neg (s : Finset ℕ) (a q p : ℕ → ℝ) (β : ℝ) : tilt s a q (fun i => -p i) (-β) = tilt s a q p β := by
  unfold tilt
  simp only [neg_neg]
  congr 1 <;> exact sum_congr rfl fun i _ => by rw [neg_mul, mul_neg]

/-- Every value strictly between those of two cells that count is taken. -/
theorem tilt_surj (ha : ∀ i ∈ s, 0 ≤ a i) (hco : ∀ i ∈ s, ∀ j ∈ s, p i < p j → q i < q j)
    (heq : ∀ i ∈ s, ∀ j ∈ s, p i = p j → q i = q j) {k l : ℕ} (hk : k ∈ s) (hl : l ∈ s) (hak : 0 < a k) (hal : 0 < a l)
    {T : ℝ} (h1 : q k < T) (h2 : T < q l) : ∃ β, tilt s a q p β = T := by
  have hne : (s.filter fun i => 0 < a i).Nonempty := ⟨k, mem_filter.2 ⟨hk, hak⟩⟩
  obtain ⟨u, hu, hmin⟩ := exists_min_image _ p hne
  obtain ⟨w, hw, hmax⟩ := exists_max_image _ p hne
  rw [mem_filter] at hu hw
  have qle : ∀ i ∈ s, ∀ j ∈ s, p i ≤ p j → q i ≤ q j := by
    intro i hi j hj h
    rcases h.eq_or_lt with h | h
    · exact (heq i hi j hj h).le
    · exact (hco i hi j hj h).le
  have hqu : q u < T := lt_of_le_of_lt (qle u hu.1 k hk (hmin k (mem_filter.2 ⟨hk, hak⟩))) h1
  have hqw : T < q w := lt_of_lt_of_le h2 (qle l hl w hw.1 (hmax l (mem_filter.2 ⟨hl, hal⟩)))
  have t1 := tilt_tendsto (p := p) (q := q) hu.1 hu.2 ha (fun i hi h => hmin i (mem_filter.2 ⟨hi, h⟩))
    (fun i hi h => heq i hi u hu.1 h)
  have t2 := tilt_tendsto (p := fun i => -p i) (q := q) hw.1 hw.2 ha
    (fun i hi h => neg_le_neg (hmax i (mem_filter.2 ⟨hi, h⟩))) (fun i hi h => heq i hi w hw.1 (by linarith))
  obtain ⟨x, hx⟩ := ((tendsto_order.1 t1).2 T hqu).exists
  obtain ⟨y, hy⟩ := ((tendsto_order.1 t2).1 T hqw).exists
  have hy' : T < tilt s a q p (-y) := by
    rw [← tilt_neg, neg_neg]; exact hy
  have hc := tilt_continuous (q := q) (p := p) ha hk hak
  obtain ⟨z, hz⟩ := mem_range_of_exists_le_of_exists_ge hc ⟨x, hx.le⟩ ⟨-y, hy'.le⟩
  exact ⟨z, hz⟩

/-- The derivative of the average is minus the covariance. -/
theorem tilt_hasDerivAt (ha : ∀ i ∈ s, 0 ≤ a i) {k : ℕ} (hk : k ∈ s) (hak : 0 < a k) (β : ℝ) :
    HasDerivAt (tilt s a q p) (tilt s a q p β * tilt s a p p β - tilt s a (fun i => q i * p i) p β) β := by
  have hd := den_pos (p := p) ha hk hak β
  have e : ∀ i, HasDerivAt (fun x : ℝ => Real.exp (-x * p i)) (-(p i) * Real.exp (-β * p i)) β := by
    intro i
    have h := ((hasDerivAt_id β).neg.mul_const (p i)).exp
    simp only [id, Pi.neg_apply] at h
    exact h.congr_deriv (by ring)
  have h1 : HasDerivAt (fun x : ℝ => ∑ i ∈ s, a i * q i * Real.exp (-x * p i))
      (∑ i ∈ s, a i * q i * (-(p i) * Real.exp (-β * p i))) β :=
    HasDerivAt.fun_sum fun i _ => (e i).const_mul _
  have h2 : HasDerivAt (fun x : ℝ => ∑ i ∈ s, a i * Real.exp (-x * p i))
      (∑ i ∈ s, a i * (-(p i) * Real.exp (-β * p i))) β :=
    HasDerivAt.fun_sum fun i _ => (e i).const_mul _
  have h3 := h1.div h2 hd.ne'
  refine h3.congr_deriv ?_
  unfold tilt
  have e1 : ∑ i ∈ s, a i * q i * (-(p i) * Real.exp (-β * p i)) = -∑ i ∈ s, a i * (q i * p i) * Real.exp (-β * p i) := by
    rw [← sum_neg_distrib]; exact sum_congr rfl fun i _ => by ring
  have e2 : ∑ i ∈ s, a i * (-(p i) * Real.exp (-β * p i)) = -∑ i ∈ s, a i * p i * Real.exp (-β * p i) := by
    rw [← sum_neg_distrib]; exact sum_congr rfl fun i _ => by ring
  rw [e1, e2]
  have r : ∀ A B C D : ℝ, D ≠ 0 → (-A * D - B * -C) / D ^ 2 = B / D * (C / D) - A / D := by
    intro A B C D hD; field_simp; ring
  exact r _ _ _ _ hd.ne'

end Verif.Beta

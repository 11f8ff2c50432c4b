import Verif.Props.HLInit

/-!
C127: what the mixed solver saves about a state.
-/
namespace Verif.HermiteLegendre
open Finset Complex Verif.Spectral Verif.Hermite
open scoped Matrix ComplexConjugate

variable {N : ℕ} [NeZero N] {nh nl : ℕ} [NeZero nh] [NeZero nl]

/-- A coefficient, zero where there is none. -/
def padded {n : ℕ} (C : Fin n → ℝ) (i : ℕ) : ℝ := if h : i < n then C ⟨i, h⟩ else 0

omit [NeZero nh] in
theorem padded_sum (C : Fin nh → ℝ) (F : ℕ → ℝ) (k : ℕ) : ∑ i : Fin (nh + k), padded C i.val * F i.val = ∑ i : Fin nh, C i * F i.val := by
  rw [Fin.sum_univ_add]
  have h1 : ∑ i : Fin k, padded C (Fin.natAdd nh i).val * F (Fin.natAdd nh i).val = 0 := by
    refine sum_eq_zero fun i _ => ?_
    rw [padded, dif_neg (by simp), zero_mul]
  rw [h1, add_zero]
  refine sum_congr rfl fun i _ => ?_
  rw [padded, dif_pos (by simp)]
  rfl

omit [NeZero nh] [NeZero nl] in
theorem padded_dist (alpha u a b : ℝ) (C : Fin nh → ℝ) (B : Fin nl → ℝ) (k : ℕ) :
    dist alpha u a b (fun i : Fin (nh + k) => padded C i.val) (fun i : Fin (nl + k) => padded B i.val) = dist alpha u a b C B := by
  funext v
  rw [dist, dist, padded_sum C (fun i => psi alpha u v i) k, padded_sum B (fun i => (xi a b i).eval v) k]

omit [NeZero nh] in
theorem padded_mean (L : ℝ) (C : Coef nh N) (n : ℕ) : L / N * ∑ x, padded (fun i => (toX (C i) x).re) n = intg L C n := by
  have hN : (N : ℝ) ≠ 0 := Nat.cast_ne_zero.mpr (NeZero.ne N)
  rw [intg]
  by_cases h : n < nh
  · simp only [padded, dif_pos h]
    have h1 : (toK (toX (C ⟨n, h⟩)) 0).re = (∑ x, (toX (C ⟨n, h⟩) x).re) / N := by rw [toK_mean, div_natCast_re, Complex.re_sum]
    rw [toK_toX] at h1
    rw [h1]; field_simp
  · simp [padded, h]

/-- The saved scalars are particle number, momentum and total energy of the distribution function in the box: integrals over the
velocity, sums over the cells times their length; the saved field is the state's.  Also with fewer than three modes. -/
theorem saved_totals (p : Setup nh nl N) (hb : Built p) (c : Cs nh nl N) :
    savedMass p.alpha (p.b - p.a) p.L c = p.L / N * ∑ x, densityInt (distAt p c x) ∧
    savedMomentum p.alpha p.u (p.b - p.a) (0.5 * (p.a + p.b)) p.L c = p.L / N * ∑ x, momentumInt (distAt p c x) ∧
    savedEnergy p.alpha p.u (p.b - p.a) (0.5 * (p.a + p.b)) p.L c (p.field c) = p.L / N * ∑ x, (energyInt (distAt p c x) + 1 / 2 * p.field c x ^ 2) := by
  have hm := fun x => moments_are_integrals (nh := nh + 3) (nl := nl + 3) (by omega) (by omega) hb.alpha p.u p.a p.b hb.window
    (fun i => padded (fun i => (toX (c.1 i) x).re) i.val) (fun i => padded (fun i => (toX (c.2 i) x).re) i.val)
  have hl := fun x => moments_low (nh := nh + 3) (nl := nl + 3) (by omega) (by omega) p.alpha p.u p.a p.b
    (fun i => padded (fun i => (toX (c.1 i) x).re) i.val) (fun i => padded (fun i => (toX (c.2 i) x).re) i.val)
  have hd : ∀ x, dist p.alpha p.u p.a p.b (fun i : Fin (nh + 3) => padded (fun i => (toX (c.1 i) x).re) i.val)
      (fun i : Fin (nl + 3) => padded (fun i => (toX (c.2 i) x).re) i.val) = distAt p c x := fun x => by
    rw [padded_dist]; rfl
  simp only [hd] at hm
  have s1 : sigma (p.b - p.a) 1 = (p.b - p.a) / (2 * Real.sqrt 3) := by rw [sigma_one]; ring
  have s2 : sigma (p.b - p.a) 2 = (p.b - p.a) / Real.sqrt 15 := by
    rw [sigma, if_neg (by omega)]; norm_num
  refine ⟨?_, ?_, ?_⟩
  · simp only [fun x => ((hm x).1.symm.trans (hl x).1), sum_add_distrib, ← mul_sum, mul_add]
    rw [savedMass, ← padded_mean, ← padded_mean]; ring
  · simp only [fun x => ((hm x).2.1.symm.trans (hl x).2.1), sum_add_distrib, ← mul_sum, mul_add]
    rw [savedMomentum, ← padded_mean, ← padded_mean, ← padded_mean, ← padded_mean, s1]; ring
  · simp only [fun x => ((hm x).2.2.symm.trans (hl x).2.2), sum_add_distrib, ← mul_sum, mul_add]
    rw [savedEnergy, ← padded_mean, ← padded_mean, ← padded_mean, ← padded_mean, ← padded_mean, ← padded_mean, s1, s2]
    have q2 : Real.sqrt 2 * Real.sqrt 2 = 2 := Real.mul_self_sqrt (by norm_num)
    have q0 : Real.sqrt 2 ≠ 0 := by positivity
    have q1 : Real.sqrt 2 = 2 / Real.sqrt 2 := by rw [eq_div_iff q0, q2]
    rw [show p.alpha / 2 * (p.alpha ^ 2 / Real.sqrt 2 * (p.L / ↑N * ∑ x, padded (fun i => (toX (c.1 i) x).re) 2) + Real.sqrt 2 * p.u * p.alpha * (p.L / ↑N * ∑ x, padded (fun i => (toX (c.1 i) x).re) 1) +
      (p.alpha ^ 2 / 2 + p.u ^ 2) * (p.L / ↑N * ∑ x, padded (fun i => (toX (c.1 i) x).re) 0)) =
      p.alpha / 2 * (p.alpha ^ 2 / Real.sqrt 2 * (p.L / ↑N * ∑ x, padded (fun i => (toX (c.1 i) x).re) 2) + (2 / Real.sqrt 2) * p.u * p.alpha * (p.L / ↑N * ∑ x, padded (fun i => (toX (c.1 i) x).re) 1) +
      (p.alpha ^ 2 / 2 + p.u ^ 2) * (p.L / ↑N * ∑ x, padded (fun i => (toX (c.1 i) x).re) 0)) from by rw [← q1]]
    ring

omit [NeZero nh] [NeZero nl] in
/-- The fraction of the Legendre energy above three quarters of the modes (and above the first three) is a fraction: none of the energy up there gives zero, all of it one. -/
theorem high_fraction (B : Coef nl N) : 0 ≤ highFraction B ∧ highFraction B ≤ 1 ∧
    ((∀ m : Fin nl, max 3 (3 * nl / 4) ≤ m.val → B m = 0) → highFraction B = 0) ∧
    ((∀ m : Fin nl, m.val < max 3 (3 * nl / 4) → B m = 0) → B ≠ 0 → highFraction B = 1) := by
  have hnn : ∀ m, 0 ≤ ∑ k, ‖B m k‖ ^ 2 := fun m => sum_nonneg fun k _ => by positivity
  have hle : (∑ m : Fin nl, if max 3 (3 * nl / 4) ≤ m.val then ∑ k, ‖B m k‖ ^ 2 else 0) ≤ ∑ m, ∑ k, ‖B m k‖ ^ 2 := by
    refine sum_le_sum fun m _ => ?_
    split_ifs
    · exact le_refl _
    · exact hnn m
  have hge : 0 ≤ ∑ m : Fin nl, if max 3 (3 * nl / 4) ≤ m.val then ∑ k, ‖B m k‖ ^ 2 else 0 := by
    refine sum_nonneg fun m _ => ?_
    split_ifs
    · exact hnn m
    · exact le_refl _
  rw [highFraction]
  refine ⟨?_, ?_, fun h => ?_, fun h hB => ?_⟩
  · split_ifs with h0
    · positivity
    · exact le_refl _
  · split_ifs with h0
    · exact (div_le_one h0).mpr hle
    · exact zero_le_one
  · have : (∑ m : Fin nl, if max 3 (3 * nl / 4) ≤ m.val then ∑ k, ‖B m k‖ ^ 2 else 0) = 0 := by
      refine sum_eq_zero fun m _ => ?_
      split_ifs with hm
      · rw [h m hm]; simp
      · rfl
    rw [this]; simp
  · have hpos : 0 < ∑ m, ∑ k, ‖B m k‖ ^ 2 := by
      obtain ⟨m, hm⟩ := Function.ne_iff.mp hB
      obtain ⟨k, hk⟩ := Function.ne_iff.mp hm
      refine lt_of_lt_of_le ?_ ((single_le_sum (fun k _ => by positivity) (mem_univ k)).trans (single_le_sum (f := fun m => ∑ k, ‖B m k‖ ^ 2) (fun m _ => hnn m) (mem_univ m)))
      have : B m k ≠ 0 := hk
      positivity
    have : (∑ m : Fin nl, if max 3 (3 * nl / 4) ≤ m.val then ∑ k, ‖B m k‖ ^ 2 else 0) = ∑ m, ∑ k, ‖B m k‖ ^ 2 := by
      refine sum_congr rfl fun m _ => ?_
      split_ifs with hm
      · rfl
      · rw [h m (by omega)]; simp
    rw [if_pos hpos, this, div_self hpos.ne']

omit [NeZero nh] [NeZero nl] in
/-- The boundary occupancies are the largest values of the Legendre part of the distribution at the ends of the window. -/
theorem boundary (a b : ℝ) (h : a < b) (B : Coef nl N) :
    (∀ x, ‖∑ m : Fin nl, (((xi a b m.val).eval a : ℝ) : ℂ) * toX (B m) x‖ ≤ boundaryA B) ∧ (∃ x, ‖∑ m : Fin nl, (((xi a b m.val).eval a : ℝ) : ℂ) * toX (B m) x‖ = boundaryA B) ∧
    (∀ x, ‖∑ m : Fin nl, (((xi a b m.val).eval b : ℝ) : ℂ) * toX (B m) x‖ ≤ boundaryB B) ∧ (∃ x, ‖∑ m : Fin nl, (((xi a b m.val).eval b : ℝ) : ℂ) * toX (B m) x‖ = boundaryB B) := by
  simp only [← (end_values a b h _).1, ← (end_values a b h _).2]
  refine ⟨fun x => ?_, ?_, fun x => ?_, ?_⟩
  · exact Finset.le_sup' (fun x => ‖∑ m : Fin nl, (xiA m.val : ℂ) * toX (B m) x‖) (mem_univ x)
  · obtain ⟨x, _, hx⟩ := Finset.exists_mem_eq_sup' ⟨(0 : ZMod N), mem_univ _⟩ fun x => ‖∑ m : Fin nl, (xiA m.val : ℂ) * toX (B m) x‖
    exact ⟨x, hx.symm⟩
  · exact Finset.le_sup' (fun x => ‖∑ m : Fin nl, (xiB m.val : ℂ) * toX (B m) x‖) (mem_univ x)
  · obtain ⟨x, _, hx⟩ := Finset.exists_mem_eq_sup' ⟨(0 : ZMod N), mem_univ _⟩ fun x => ‖∑ m : Fin nl, (xiB m.val : ℂ) * toX (B m) x‖
    exact ⟨x, hx.symm⟩

omit [NeZero nh] [NeZero nl] in
/-- The driver: nothing without pulses, else the sum over the pulses of travelling waves in their windows. -/
theorem ex_driver (L : ℝ) (qs : List Pulse) :
    (exDriver (N := N) L qs = none ↔ qs = []) ∧ ∀ f, exDriver (N := N) L qs = some f → ∀ t x, f t x =
      (qs.map fun q => window q.tRise (q.tCenter - q.tHalf) (q.tCenter + q.tHalf) t * window q.xRise (q.xCenter - q.xHalf) (q.xCenter + q.xHalf) (x.val * (L / N)) *
        q.w * q.a0 * Real.sin (q.k0 * (x.val * (L / N)) - q.w * t)).sum := by
  rw [exDriver]
  rcases qs with _ | ⟨q, qs⟩
  · simp
  · refine ⟨by simp, fun f hf t x => ?_⟩
    have e : f = fun t x => longitudinal (q :: qs) (x.val * (L / N)) t := by
      have : (some fun t (x : ZMod N) => longitudinal (q :: qs) (x.val * (L / N)) t) = some f := by rw [← hf]; rfl
      exact (Option.some.inj this).symm
    rw [e]; simp only [longitudinal, foldl_sum, zero_add]

example (N : ℕ) [NeZero N] (y : State 4 5 N) (n : ℕ) : ∃ p : Setup 4 5 N, savedEnergy p.alpha p.u (p.b - p.a) (0.5 * (p.a + p.b)) p.L (p.run y n).c (p.field (p.run y n).c) =
    savedEnergy p.alpha p.u (p.b - p.a) (0.5 * (p.a + p.b)) p.L y.c (p.field y.c) := by
  obtain ⟨p, hb, _, hi, he, hd, _⟩ := setup_exists N none
  have h := (split_conserves p hb (by norm_num) (by norm_num) hi he hd y n).2.2
  refine ⟨p, ?_⟩
  rw [(saved_totals p hb _).2.2, (saved_totals p hb _).2.2]
  exact congrArg _ h

end Verif.HermiteLegendre

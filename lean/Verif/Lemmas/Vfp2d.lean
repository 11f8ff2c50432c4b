import Verif.Model.Vfp2d
import Verif.Lemmas.Spectral
import Verif.Props.Spectral
import Mathlib.Data.List.GetD
import Mathlib.Data.List.Flatten
import Mathlib.Algebra.BigOperators.Group.List.Basic
import Mathlib.Algebra.BigOperators.Ring.Finset
import Mathlib.Data.Nat.Factorial.Basic
import Mathlib.Tactic.FieldSimp
import Mathlib.Tactic.Ring
import Mathlib.Tactic.Linarith

/-! Helper lemmas for VFP-2D. -/
namespace Verif.Vfp2d
open Finset Complex Verif.Spectral ComplexConjugate

theorem mem_pairs (L : Layout) (l m : ℕ) : (l, m) ∈ L.pairs ↔ l ≤ L.lMax ∧ m ≤ l ∧ m ≤ L.mMax := by
  simp only [Layout.pairs, List.mem_flatMap, List.mem_range, List.mem_map, Prod.mk.injEq]
  constructor
  · rintro ⟨a, ha, b, hb, rfl, rfl⟩
    omega
  · rintro ⟨h1, h2, h3⟩
    exact ⟨l, by omega, m, by omega, rfl, rfl⟩

theorem pairs_nodup (L : Layout) : L.pairs.Nodup := by
  unfold Layout.pairs
  rw [List.nodup_flatMap]
  constructor
  · intro l _
    refine List.Nodup.map (fun a b h => (Prod.mk.inj h).2) List.nodup_range
  · refine List.Pairwise.imp_of_mem ?_ (List.nodup_range (n := L.lMax + 1))
    intro a b _ _ hab
    simp only [Function.onFun, List.disjoint_left, List.mem_map, not_exists, not_and]
    rintro ⟨x, y⟩ ⟨m, _, h⟩ n _ h'
    rw [← h, Prod.mk.injEq] at h'
    exact hab h'.1.symm

theorem index_valid (L : Layout) {l m : ℕ} (h : l ≤ L.lMax ∧ m ≤ l ∧ m ≤ L.mMax) :
    L.index l m = (L.pairs.idxOf (l, m) : ℤ) ∧ L.pairs.idxOf (l, m) < L.size ∧
      L.pairs.getD (L.pairs.idxOf (l, m)) (0, 0) = (l, m) := by
  have hm := (mem_pairs L l m).2 h
  have hlt := List.idxOf_lt_length_of_mem hm
  refine ⟨?_, hlt, ?_⟩
  · unfold Layout.index
    rw [if_neg (by omega)]
    simp only [Int.toNat_natCast]
    have : L.pairs.idxOf? (l, m) = some (L.pairs.idxOf (l, m)) := by
      rw [List.idxOf?_eq_some_iff]
      refine ⟨hlt, ?_, ?_⟩
      · simp
      · intro j hj
        have := List.not_of_lt_findIdx (p := fun x => x == (l, m)) (xs := L.pairs) (i := j) hj
        simpa using this
    rw [this]
  · rw [List.getD_eq_getElem _ _ hlt]; simp

theorem index_invalid (L : Layout) {l m : ℤ} (h : ¬ (0 ≤ l ∧ l ≤ L.lMax ∧ 0 ≤ m ∧ m ≤ l ∧ m ≤ L.mMax)) : L.index l m = -1 := by
  unfold Layout.index
  split
  · rfl
  · next hc =>
    have : L.pairs.idxOf? (l.toNat, m.toNat) = none := by
      rw [List.idxOf?_eq_none_iff, mem_pairs]
      omega
    rw [this]

theorem index_getD (L : Layout) {i : ℕ} (hi : i < L.size) :
    L.index (L.pairs.getD i (0, 0)).1 (L.pairs.getD i (0, 0)).2 = i := by
  have hmem : L.pairs.getD i (0, 0) ∈ L.pairs := by rw [List.getD_eq_getElem _ _ hi]; exact List.getElem_mem _
  obtain ⟨⟨l, m⟩, hp⟩ : ∃ p, L.pairs.getD i (0, 0) = p := ⟨_, rfl⟩
  rw [hp]
  rw [hp] at hmem
  have h := (mem_pairs L l m).1 hmem
  rw [(index_valid L h).1]
  have : L.pairs.idxOf (l, m) = i := by
    rw [← hp, List.getD_eq_getElem _ _ hi]
    exact (pairs_nodup L).idxOf_getElem i hi
  rw [this]

/-- Reading a harmonic of an array written harmonic by harmonic. -/
theorem get_map (L : Layout) (T : ℕ → ℕ → ℂ) (l m : ℕ) :
    L.get (fun i => T (L.pairs.getD i (0, 0)).1 (L.pairs.getD i (0, 0)).2) l m
      = if l ≤ L.lMax ∧ m ≤ l ∧ m ≤ L.mMax then T l m else 0 := by
  unfold Layout.get
  by_cases h : l ≤ L.lMax ∧ m ≤ l ∧ m ≤ L.mMax
  · obtain ⟨h1, -, h3⟩ := index_valid L h
    rw [if_pos h, h1, if_pos (by positivity), Int.toNat_natCast]
    simp only [h3]
  · rw [if_neg h, if_neg]
    rw [index_invalid L (by omega)]; norm_num

theorem get_invalid (L : Layout) (a : ℕ → ℂ) {l m : ℤ} (h : ¬ (0 ≤ l ∧ l ≤ L.lMax ∧ 0 ≤ m ∧ m ≤ l ∧ m ≤ L.mMax)) : L.get a l m = 0 := by
  unfold Layout.get
  rw [index_invalid L h, if_neg (by norm_num)]

/-- A sum over the packed index is a sum over the harmonics. -/
theorem sum_pairs {α : Type*} [AddCommMonoid α] (L : Layout) (φ : ℕ → ℕ → α) :
    ∑ i ∈ range L.size, φ (L.pairs.getD i (0, 0)).1 (L.pairs.getD i (0, 0)).2
      = ∑ l ∈ range (L.lMax + 1), ∑ m ∈ range (L.mMax + 1), if m ≤ l then φ l m else 0 := by
  have h1 : ∑ i ∈ range L.size, φ (L.pairs.getD i (0, 0)).1 (L.pairs.getD i (0, 0)).2
      = (L.pairs.map fun p => φ p.1 p.2).sum := by
    rw [Finset.sum_range, ← List.sum_ofFn]
    congr 1
    refine List.ext_getElem (by simp [Layout.size]) fun i h1 h2 => ?_
    simp [List.getD_eq_getElem?_getD]
    have : i < L.pairs.length := by simpa using h2
    simp [this]
  rw [h1]
  unfold Layout.pairs
  rw [List.map_flatMap, List.flatMap_def, List.sum_flatten, List.map_map, ← List.sum_toFinset _ List.nodup_range]
  rw [List.toFinset_range]
  refine Finset.sum_congr rfl fun l _ => ?_
  simp only [Function.comp, List.map_map]
  rw [← List.sum_toFinset _ List.nodup_range, List.toFinset_range, ← Finset.sum_filter]
  refine Finset.sum_congr ?_ fun _ _ => rfl
  ext m
  simp only [mem_range, mem_filter]
  omega

/-! ### Derivatives -/

variable {N : ℕ} [NeZero N]

theorem fft_specDeriv (d : ℝ) (a : ZMod N → ℂ) (k : ZMod N) :
    fft ((Deriv.spectral d).apply a) k = I * (kfull d k : ℂ) * fft a k := by
  have : (Deriv.spectral d).apply a = ifft (fun k => I * (kfull d k : ℂ) * fft a k) := rfl
  rw [this, fft_ifft]

/-- Every derivative is skew-Hermitian. -/
theorem deriv_skew (D : Deriv) (a b : ZMod N → ℂ) :
    ∑ i, conj (a i) * D.apply b i = -∑ i, conj (D.apply a i) * b i := by
  cases D with
  | spectral d =>
    have hN : (N : ℂ) ≠ 0 := by exact_mod_cast NeZero.ne N
    have h1 := parseval a ((Deriv.spectral d).apply b)
    have h2 := parseval ((Deriv.spectral d).apply a) b
    have : ∑ k, conj (fft a k) * fft ((Deriv.spectral d).apply b) k = -∑ k, conj (fft ((Deriv.spectral d).apply a) k) * fft b k := by
      rw [← Finset.sum_neg_distrib]
      refine Finset.sum_congr rfl fun k _ => ?_
      rw [fft_specDeriv, fft_specDeriv, map_mul, map_mul, conj_I, conj_ofReal]
      ring
    rw [h1, h2, ← mul_neg] at this
    exact mul_left_cancel₀ hN this
  | second h =>
    have e1 : ∑ i, conj (a i) * b (i + 1) = ∑ i, conj (a (i - 1)) * b i := by
      rw [← Equiv.sum_comp (Equiv.subRight (1 : ZMod N))]; simp
    have e2 : ∑ i, conj (a i) * b (i - 1) = ∑ i, conj (a (i + 1)) * b i := by
      rw [← Equiv.sum_comp (Equiv.addRight (1 : ZMod N))]; simp
    have l1 : ∑ i, conj (a i) * (Deriv.second h).apply b i = (∑ i, conj (a i) * b (i + 1) - ∑ i, conj (a i) * b (i - 1)) / (2 * (h : ℂ)) := by
      rw [← Finset.sum_sub_distrib, Finset.sum_div]
      refine Finset.sum_congr rfl fun i _ => ?_
      simp only [Deriv.apply]; ring
    have l2 : ∑ i, conj ((Deriv.second h).apply a i) * b i = (∑ i, conj (a (i + 1)) * b i - ∑ i, conj (a (i - 1)) * b i) / (2 * (h : ℂ)) := by
      rw [← Finset.sum_sub_distrib, Finset.sum_div]
      refine Finset.sum_congr rfl fun i _ => ?_
      simp only [Deriv.apply, map_div₀, map_sub, map_mul, conj_ofReal, map_ofNat]; ring
    rw [l1, l2, e1, e2]; ring
  | fourth h =>
    have e1 : ∀ c : ZMod N, ∑ i, conj (a i) * b (i + c) = ∑ i, conj (a (i - c)) * b i := by
      intro c
      rw [← Equiv.sum_comp (Equiv.subRight c)]; simp
    have e2 : ∀ c : ZMod N, ∑ i, conj (a i) * b (i - c) = ∑ i, conj (a (i + c)) * b i := by
      intro c
      rw [← Equiv.sum_comp (Equiv.addRight c)]; simp
    have l1 : ∑ i, conj (a i) * (Deriv.fourth h).apply b i
        = (∑ i, conj (a i) * b (i - 2) - 8 * ∑ i, conj (a i) * b (i - 1) + 8 * ∑ i, conj (a i) * b (i + 1)
          - ∑ i, conj (a i) * b (i + 2)) / (12 * (h : ℂ)) := by
      rw [Finset.mul_sum, Finset.mul_sum, ← Finset.sum_sub_distrib, ← Finset.sum_add_distrib, ← Finset.sum_sub_distrib, Finset.sum_div]
      refine Finset.sum_congr rfl fun i _ => ?_
      simp only [Deriv.apply]; ring
    have l2 : ∑ i, conj ((Deriv.fourth h).apply a i) * b i
        = (∑ i, conj (a (i - 2)) * b i - 8 * ∑ i, conj (a (i - 1)) * b i + 8 * ∑ i, conj (a (i + 1)) * b i
          - ∑ i, conj (a (i + 2)) * b i) / (12 * (h : ℂ)) := by
      rw [Finset.mul_sum, Finset.mul_sum, ← Finset.sum_sub_distrib, ← Finset.sum_add_distrib, ← Finset.sum_sub_distrib, Finset.sum_div]
      refine Finset.sum_congr rfl fun i _ => ?_
      simp only [Deriv.apply, map_div₀, map_sub, map_add, map_mul, conj_ofReal, map_ofNat]; ring
    rw [l1, l2, e1, e1, e2, e2]; ring

/-- A derivative of a constant vanishes. -/
theorem deriv_const (D : Deriv) (c : ℂ) (i : ZMod N) : D.apply (fun _ => c) i = 0 := by
  cases D with
  | spectral d =>
    have : (Deriv.spectral d).apply (fun _ : ZMod N => c) = fun _ => 0 := by
      rw [← ifft_fft ((Deriv.spectral d).apply fun _ => c)]
      have hz : fft ((Deriv.spectral d).apply fun _ : ZMod N => c) = fun _ => 0 := by
        funext k
        rw [fft_specDeriv]
        by_cases hk : k = 0
        · rw [hk, kfull_zero]; simp
        · have : fft (fun _ : ZMod N => c) k = 0 := by
            unfold fft
            rw [ZMod.dft_apply]
            simp only [smul_eq_mul]
            rw [← Finset.sum_mul]
            have hs : ∑ j : ZMod N, (ZMod.stdAddChar (-(j * k)) : ℂ) = 0 := by
              have := AddChar.sum_mulShift (R := ZMod N) (ψ := ZMod.stdAddChar) (-k) (ZMod.isPrimitive_stdAddChar N)
              rw [if_neg (by simpa using hk)] at this
              rw [Nat.cast_zero] at this
              rw [← this]
              refine Finset.sum_congr rfl fun j _ => ?_
              congr 1; ring
            rw [hs, zero_mul]
          rw [this, mul_zero]
      rw [hz]
      funext j
      exact congrFun (map_zero (ZMod.dft (N := N) (E := ℂ)).symm) j
    rw [this]
  | second h => simp [Deriv.apply]
  | fourth h =>
    simp only [Deriv.apply]
    rw [show c - 8 * c + 8 * c - c = 0 by ring, zero_div]

/-- A derivative sums to zero over the period. -/
theorem deriv_sum (D : Deriv) (a : ZMod N → ℂ) : ∑ i, D.apply a i = 0 := by
  have := deriv_skew D (fun _ => 1) a
  simp only [map_one, one_mul] at this
  rw [this]
  simp [deriv_const]

theorem deriv_zero (D : Deriv) (i : ZMod N) : D.apply (fun _ => 0) i = 0 := deriv_const D 0 i

end Verif.Vfp2d

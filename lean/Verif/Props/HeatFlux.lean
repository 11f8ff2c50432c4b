import Verif.Model.HeatFlux
import Verif.Props.FokkerPlanck
import Verif.Props.PicLoad
import Mathlib.Analysis.SpecialFunctions.ExpDeriv
import Mathlib.Analysis.Calculus.Deriv.MeanValue
import Mathlib.Analysis.Calculus.Deriv.Pow
import Mathlib.Algebra.BigOperators.Field

/-! C78: the reduced heat fluxes of VFP-1D. -/
namespace Verif.HeatFlux
open Finset Verif.FP

/-- A physical plasma on a proper grid: positive profiles and coefficients, cells of width `dx`
starting at `xmin` (not negative in spherical geometry). -/
structure Physical (p : Plasma) : Prop where
  nx : 0 < p.nx
  dx : 0 < p.dx
  n : ∀ i < p.nx, 0 < p.n i
  T : ∀ i < p.nx, 0 < p.T i
  Z : ∀ i < p.nx, 0 < p.Z i
  ni : ∀ i < p.nx, 0 < p.ni i
  nRef : 0 < p.nRef
  TRef : 0 < p.TRef
  ZRef : 0 < p.ZRef
  nueiRef : 0 < p.nueiRef
  nuee : 0 < p.nuee
  logRatio : 0 < p.logRatio
  ngroups : 0 < p.ngroups
  betaMax : 0 < p.betaMax
  r : 0 < p.r
  x : ∃ xmin, (p.spherical = true → 0 ≤ xmin) ∧ ∀ i < p.nx, p.x i = xmin + (i + 1 / 2) * p.dx

/-- The finite-volume divergence of an edge flux. -/
noncomputable def div (p : Plasma) (q : ℕ → ℝ) (i : ℕ) : ℝ := (p.area (i + 1) * q (i + 1) - p.area i * q i) / p.vol i

variable {p : Plasma}

theorem c2e_pos (h : Physical p) {f : ℕ → ℝ} (hf : ∀ i < p.nx, 0 < f i) (e : ℕ) : 0 < p.c2e f e := by
  have := h.nx
  unfold Plasma.c2e
  split
  · exact hf 0 this
  · split
    · have h1 := hf e (by omega)
      have h2 := hf (e - 1) (by omega)
      linarith
    · exact hf _ (by omega)

theorem xEdge_eq {xmin : ℝ} (hx : ∀ i < p.nx, p.x i = xmin + (i + 1 / 2) * p.dx) (hn : 0 < p.nx) {e : ℕ} (he : e ≤ p.nx) :
    p.xEdge e = xmin + e * p.dx := by
  unfold Plasma.xEdge
  split
  · next h => rw [h, hx 0 hn]; push_cast; ring
  · next h =>
    obtain ⟨k, rfl⟩ : ∃ k, e = k + 1 := ⟨e - 1, by omega⟩
    simp only [Nat.add_sub_cancel]
    split
    · next h2 => rw [hx _ h2, hx k (by omega)]; push_cast; ring
    · next h2 =>
      have : p.nx - 1 = k := by omega
      rw [this, hx k (by omega)]; push_cast; ring

theorem vol_pos (h : Physical p) {i : ℕ} (hi : i < p.nx) : 0 < p.vol i := by
  obtain ⟨xmin, h0, hx⟩ := h.x
  unfold Plasma.vol
  split
  · next hs =>
    rw [xEdge_eq hx h.nx (by omega : i + 1 ≤ p.nx), xEdge_eq hx h.nx (by omega : i ≤ p.nx)]
    have := h0 hs
    have hd := h.dx
    have ha : 0 ≤ xmin + i * p.dx := by positivity
    have : xmin + ((i + 1 : ℕ) : ℝ) * p.dx = (xmin + i * p.dx) + p.dx := by push_cast; ring
    rw [this]
    obtain ⟨a, rfl⟩ : ∃ a, a = xmin + i * p.dx := ⟨_, rfl⟩
    have : (xmin + i * p.dx + p.dx) ^ 3 - (xmin + i * p.dx) ^ 3
        = 3 * (xmin + i * p.dx) ^ 2 * p.dx + 3 * (xmin + i * p.dx) * p.dx ^ 2 + p.dx ^ 3 := by ring
    rw [this]
    positivity
  · exact h.dx

theorem area_nonneg (e : ℕ) : 0 ≤ p.area e := by
  unfold Plasma.area; split <;> positivity

/-! ### The Spitzer-Härm flux -/

/-- C78: the transport coefficient always lies in the range spanned by the tabulated values. -/
theorem eh_range (Z : ℝ) : 6.18 / 1.93 ≤ calcEH Z ∧ calcEH Z ≤ 10.2 / 0.457 := by
  have hg := PicLoad.interp_range (6.18 : ℝ) 10.2 Z (tableZ.zip tableG) (by simp [tableZ, tableG]) (by
    intro q hq
    simp only [tableZ, tableG, List.zip_cons_cons, List.zip_nil_right, List.mem_cons, List.not_mem_nil, or_false] at hq
    rcases hq with rfl | rfl | rfl | rfl | rfl | rfl | rfl | rfl | rfl | rfl | rfl | rfl | rfl | rfl | rfl <;> norm_num)
  have hc := PicLoad.interp_range (0.457 : ℝ) 1.93 Z (tableZ.zip tableC) (by simp [tableZ, tableC]) (by
    intro q hq
    simp only [tableZ, tableC, List.zip_cons_cons, List.zip_nil_right, List.mem_cons, List.not_mem_nil, or_false] at hq
    rcases hq with rfl | rfl | rfl | rfl | rfl | rfl | rfl | rfl | rfl | rfl | rfl | rfl | rfl | rfl | rfl <;> norm_num)
  unfold calcEH
  have hc0 : (0 : ℝ) < PicLoad.interp Z (tableZ.zip tableC) := lt_of_lt_of_le (by norm_num) hc.1
  constructor
  · rw [le_div_iff₀ hc0, div_mul_eq_mul_div, div_le_iff₀ (by norm_num)]
    nlinarith [hg.1, hc.2]
  · rw [div_le_iff₀ hc0, div_mul_eq_mul_div, le_div_iff₀ (by norm_num)]
    nlinarith [hg.2, hc.1]

/-- The table is met exactly: hydrogen and the Lorentz limit. -/
theorem eh_values : calcEH 1 = 6.18 / 1.93 ∧ calcEH 4 = 9.14 / 1.31 ∧ ∀ Z, 1000001 ≤ Z → calcEH Z = 6.21 / 0.457 := by
  refine ⟨?_, ?_, fun Z hZ => ?_⟩ <;> simp only [calcEH, tableZ, tableG, tableC, List.zip_cons_cons, List.zip_nil_right, PicLoad.interp]
  · norm_num
  · norm_num
  · have k : ∀ a : ℝ, a < 1000001 → ¬ Z ≤ a := fun a ha h => by linarith
    have k' : ∀ a : ℝ, a ≤ 1000001 → ¬ Z < a := fun a ha h => by linarith
    rw [if_neg (k 1 (by norm_num)), if_neg (k' 2 (by norm_num)), if_neg (k 2 (by norm_num)), if_neg (k' 3 (by norm_num)),
      if_neg (k 3 (by norm_num)), if_neg (k' 4 (by norm_num)), if_neg (k 4 (by norm_num)), if_neg (k' 5 (by norm_num)),
      if_neg (k 5 (by norm_num)), if_neg (k' 6 (by norm_num)), if_neg (k 6 (by norm_num)), if_neg (k' 7 (by norm_num)),
      if_neg (k 7 (by norm_num)), if_neg (k' 8 (by norm_num)), if_neg (k 8 (by norm_num)), if_neg (k' 10 (by norm_num)),
      if_neg (k 10 (by norm_num)), if_neg (k' 12 (by norm_num)), if_neg (k 12 (by norm_num)), if_neg (k' 14 (by norm_num)),
      if_neg (k 14 (by norm_num)), if_neg (k' 20 (by norm_num)), if_neg (k 20 (by norm_num)), if_neg (k' 30 (by norm_num)),
      if_neg (k 30 (by norm_num)), if_neg (k' 60 (by norm_num)), if_neg (k 60 (by norm_num)), if_neg (k' 1000001 le_rfl)]
    repeat rw [if_neg (k _ (by norm_num)), if_neg (k' _ (by norm_num))]

theorem kappa_pos (h : Physical p) {i : ℕ} (hi : i < p.nx) : 0 < calcEH (p.Z i) * p.n i * p.T i / p.nuEi i := by
  have h1 : 0 < calcEH (p.Z i) := lt_of_lt_of_le (by norm_num) (eh_range (p.Z i)).1
  have h2 := h.n i hi
  have h3 := h.T i hi
  have h4 := h.Z i hi
  have h5 := h.nRef
  have h6 := h.TRef
  have h7 := h.ZRef
  have h8 := h.nueiRef
  have h9 : 0 < (p.T i / p.TRef) ^ (-1.5 : ℝ) := Real.rpow_pos_of_pos (by positivity) _
  unfold Plasma.nuEi
  positivity

/-- C78: the Spitzer-Härm flux runs down the temperature gradient, and it vanishes exactly where
the neighbouring temperatures agree. -/
theorem sh_down_gradient (h : Physical p) {e : ℕ} (h0 : 0 < e) (he : e < p.nx) :
    (p.T (e - 1) < p.T e → p.qSH e < 0) ∧ (p.T e < p.T (e - 1) → 0 < p.qSH e) ∧ (p.T e = p.T (e - 1) → p.qSH e = 0) := by
  have hk := c2e_pos h (fun i hi => kappa_pos h hi) e
  have hd := h.dx
  have hdd : p.ddx p.T e = (p.T e - p.T (e - 1)) / p.dx := by
    unfold Plasma.ddx; rw [if_neg (by omega), if_pos he]
  unfold Plasma.qSH
  rw [hdd]
  refine ⟨fun hT => ?_, fun hT => ?_, fun hT => ?_⟩
  · have : 0 < (p.T e - p.T (e - 1)) / p.dx := div_pos (by linarith) hd
    nlinarith
  · have : (p.T e - p.T (e - 1)) / p.dx < 0 := div_neg_of_neg_of_pos (by linarith) hd
    nlinarith
  · rw [hT]; simp

/-- At the reference conditions the flux is the tabulated coefficient times `n T / nu`, as the
`kappa` diagnostic assumes. -/
theorem sh_reference (h : Physical p) {e : ℕ} (h0 : 0 < e) (he : e < p.nx)
    (hn : p.n e = p.nRef ∧ p.n (e - 1) = p.nRef) (hT : p.T e = p.TRef ∧ p.Z e = p.ZRef ∧ p.Z (e - 1) = p.ZRef) :
    p.qSH e = -(0.5 * (calcEH p.ZRef * p.nRef * p.TRef / p.nueiRef + calcEH p.ZRef * p.nRef * p.T (e - 1) /
      (p.nueiRef * (p.T (e - 1) / p.TRef) ^ (-1.5 : ℝ)))) * ((p.TRef - p.T (e - 1)) / p.dx) := by
  have h5 := h.nRef.ne'
  have h6 := h.TRef.ne'
  have h7 := h.ZRef.ne'
  unfold Plasma.qSH Plasma.ddx Plasma.c2e Plasma.nuEi
  simp only [if_neg (by omega : ¬ e = 0), if_pos he, hn.1, hn.2, hT.1, hT.2.1, hT.2.2, div_self h5, div_self h6, div_self h7, mul_one,
    Real.one_rpow]

/-! ### The multigroup correction -/

/-- C78: no heat leaves the box: both fluxes vanish at the two ends, for every solution. -/
theorem flux_ends (p : Plasma) (H : ℕ → ℕ → ℝ) :
    p.qSH 0 = 0 ∧ p.qSH p.nx = 0 ∧ p.qSNB H 0 = 0 ∧ p.qSNB H p.nx = 0 := by
  have h0 : ∀ f, p.ddx f 0 = 0 := fun f => by unfold Plasma.ddx; simp
  have h1 : ∀ f, p.ddx f p.nx = 0 := fun f => by unfold Plasma.ddx; simp
  unfold Plasma.qSNB Plasma.qSH
  simp [h0, h1]

theorem sum_div (h : Physical p) (q : ℕ → ℝ) :
    ∑ i ∈ range p.nx, p.vol i * div p q i = p.area p.nx * q p.nx - p.area 0 * q 0 := by
  rw [← Finset.sum_range_sub (fun i => p.area i * q i)]
  refine Finset.sum_congr rfl fun i hi => ?_
  unfold div
  rw [mul_div_cancel₀ _ (vol_pos h (mem_range.1 hi)).ne']

/-- C78: the heat carried by either flux is only moved around, in planar and in spherical
geometry. -/
theorem heat_conserved (h : Physical p) (H : ℕ → ℕ → ℝ) :
    ∑ i ∈ range p.nx, p.vol i * div p p.qSH i = 0 ∧ ∑ i ∈ range p.nx, p.vol i * div p (p.qSNB H) i = 0 := by
  obtain ⟨h1, h2, h3, h4⟩ := flux_ends p H
  rw [sum_div h, sum_div h, h1, h2, h3, h4]
  simp

/-- The banded matrix is the diffusion operator with zero flux through the ends. -/
theorem matrix_mv (h : Physical p) (g : ℕ) (H : ℕ → ℝ) {i : ℕ} (hi : i < p.nx) :
    (p.matrix g).mv p.nx H i = p.r / p.lamEe g i * H i - div p (fun e => p.D g e * p.ddx H e) i := by
  have hv := (vol_pos h hi).ne'
  have hd := h.dx.ne'
  unfold Tri.mv Plasma.matrix Plasma.w div Plasma.ddx
  by_cases h1 : i + 1 < p.nx <;> by_cases h2 : 0 < i
  · obtain ⟨k, rfl⟩ : ∃ k, i = k + 1 := ⟨i - 1, by omega⟩
    simp only [h1, h2, hi, if_true, Nat.add_sub_cancel, Nat.succ_ne_zero, if_false]
    field_simp
    ring
  · obtain rfl : i = 0 := by omega
    simp only [zero_add] at h1
    simp only [h1, if_true, lt_irrefl, if_false, zero_add, one_ne_zero, Nat.sub_self]
    field_simp
    ring
  · obtain ⟨k, rfl⟩ : ∃ k, i = k + 1 := ⟨i - 1, by omega⟩
    simp only [h1, h2, hi, if_true, Nat.add_sub_cancel, Nat.succ_ne_zero, if_false]
    field_simp
    ring
  · obtain rfl : i = 0 := by omega
    simp only [h1, if_true, lt_irrefl, if_false, zero_add, one_ne_zero]
    simp only [zero_add] at h1
    simp [h1]

/-- C78: every group obeys its discrete diffusion equation
`H / (λee / r) - div (D ∇H) = -div (W q_SH)`. -/
theorem group_equation (h : Physical p) (H : ℕ → ℕ → ℝ) :
    p.Solved H ↔ ∀ g < p.ngroups, ∀ i < p.nx,
      H g i / (p.lamEe g i / p.r) - div p (fun e => p.D g e * p.ddx (H g) e) i = -div p (fun e => p.weight g e * p.qSH e) i := by
  unfold Plasma.Solved
  refine forall₄_congr fun g _ i hi => ?_
  rw [matrix_mv h g (H g) hi]
  have : p.src g i = -div p (fun e => p.weight g e * p.qSH e) i := by unfold Plasma.src div; ring
  rw [this, div_div_eq_mul_div, mul_comm (H g i), mul_div_right_comm]

theorem lamEe_pos (h : Physical p) (g : ℕ) {i : ℕ} (hi : i < p.nx) : 0 < p.lamEe g i := by
  have h1 := h.n i hi
  have h2 := h.nuee
  have hT : 0 < p.TMax := by
    have : p.T 0 ≤ p.TMax := by
      unfold Plasma.TMax
      generalize List.range p.nx = l
      generalize p.T 0 = a
      induction l generalizing a with
      | nil => simp
      | cons x l ih => exact le_trans (le_max_left _ _) (ih _)
    exact lt_of_lt_of_le (h.T 0 h.nx) this
  have h3 := h.betaMax
  have h4 : (0 : ℝ) < p.ngroups := by exact_mod_cast h.ngroups
  have he : 0 < p.epsC g := by
    unfold Plasma.epsC Plasma.epsEdge
    have : 0 < p.betaMax * p.TMax / p.ngroups := by positivity
    push_cast
    nlinarith [Nat.cast_nonneg (α := ℝ) g]
  unfold Plasma.lamEe
  positivity

theorem D_pos (h : Physical p) (g : ℕ) (e : ℕ) : 0 < p.D g e := by
  have h2 := h.nuee
  have h5 := h.logRatio
  have hl := lamEe_pos h g h.nx
  have he : (2 * p.epsC g) ^ 2 ≠ 0 := fun h0 => by unfold Plasma.lamEe at hl; rw [h0] at hl; simp at hl
  have he' : 0 < (2 * p.epsC g) ^ 2 := lt_of_le_of_ne (sq_nonneg _) (Ne.symm he)
  have h6 := c2e_pos h (f := fun i => p.Z i ^ 2 * p.ni i) (fun i hi => by have := h.Z i hi; have := h.ni i hi; positivity) e
  have h7 := c2e_pos h (f := fun i => (p.Z i + 0.24) / (p.Z i + 4.2)) (fun i hi => by have := h.Z i hi; positivity) e
  unfold Plasma.D Plasma.lamEi
  positivity

theorem w_nonneg (h : Physical p) (g i : ℕ) : 0 ≤ p.w g i := by
  have := area_nonneg (p := p) (i + 1)
  have := D_pos h g (i + 1)
  have := h.dx
  unfold Plasma.w; positivity

/-- The discrete maximum principle of one group. -/
theorem group_max (h : Physical p) (g : ℕ) (H s : ℕ → ℝ) (M : ℝ) (hs : ∀ i < p.nx, (p.matrix g).mv p.nx H i = s i)
    (hM : ∀ i < p.nx, p.lamEe g i * s i ≤ M) : ∀ i < p.nx, H i ≤ M / p.r := by
  obtain ⟨j, hj, hmax⟩ := Finset.exists_max_image (range p.nx) H ⟨0, mem_range.2 h.nx⟩
  have hj' := mem_range.1 hj
  have hv := vol_pos h hj'
  have hl := lamEe_pos h g hj'
  have hr := h.r
  have e := hs j hj'
  have hrow : p.r / p.lamEe g j * H j ≤ s j := by
    rw [← e]
    unfold Tri.mv Plasma.matrix
    have a1 : 0 ≤ p.w g j / p.vol j := div_nonneg (w_nonneg h g j) hv.le
    have a2 : 0 ≤ p.w g (j - 1) / p.vol j := div_nonneg (w_nonneg h g _) hv.le
    by_cases h1 : j + 1 < p.nx <;> by_cases h2 : 0 < j
    · obtain ⟨k, rfl⟩ : ∃ k, j = k + 1 := ⟨j - 1, by omega⟩
      simp only [if_pos h1, if_pos h2, Nat.add_sub_cancel] at a1 a2 ⊢
      have b1 := hmax (k + 1 + 1) (mem_range.2 h1)
      have b2 := hmax k (mem_range.2 (by omega))
      rw [neg_div, neg_div]
      nlinarith
    · obtain rfl : j = 0 := by omega
      simp only [if_pos h1, lt_irrefl, if_false] at a1 a2 ⊢
      have b1 := hmax (0 + 1) (mem_range.2 h1)
      rw [neg_div]
      nlinarith
    · obtain ⟨k, rfl⟩ : ∃ k, j = k + 1 := ⟨j - 1, by omega⟩
      simp only [if_neg h1, if_pos h2, Nat.add_sub_cancel] at a1 a2 ⊢
      have b2 := hmax k (mem_range.2 (by omega))
      rw [neg_div]
      nlinarith
    · simp [h1, h2]
  have hj2 : H j ≤ M / p.r := by
    rw [le_div_iff₀ hr]
    have := hM j hj'
    have : p.lamEe g j * (p.r / p.lamEe g j * H j) ≤ M := le_trans (mul_le_mul_of_nonneg_left hrow hl.le) this
    have e2 : p.lamEe g j * (p.r / p.lamEe g j * H j) = H j * p.r := by field_simp
    linarith
  exact fun i hi => le_trans (hmax i (mem_range.2 hi)) hj2

theorem mv_neg (n : ℕ) (op : Tri) (f : ℕ → ℝ) (i : ℕ) : op.mv n (fun j => -f j) i = -op.mv n f i := by
  unfold Tri.mv; split <;> split <;> ring

/-- C78: the correction is local: a group is bounded by its mean free path times its source, so
it disappears with the mean free path, whatever the diffusion coefficient. -/
theorem group_bound (h : Physical p) {H : ℕ → ℕ → ℝ} (hH : p.Solved H) {g : ℕ} (hg : g < p.ngroups) {M : ℝ}
    (hM : ∀ i < p.nx, p.lamEe g i * |div p (fun e => p.weight g e * p.qSH e) i| ≤ M) : ∀ i < p.nx, |H g i| ≤ M / p.r := by
  have hsrc : ∀ i, p.src g i = -div p (fun e => p.weight g e * p.qSH e) i := fun i => by unfold Plasma.src div; ring
  intro i hi
  rw [abs_le']
  constructor
  · refine group_max h g (H g) (p.src g) M (hH g hg) (fun j hj => ?_) i hi
    refine le_trans (mul_le_mul_of_nonneg_left ?_ (lamEe_pos h g hj).le) (hM j hj)
    rw [hsrc]; exact neg_le_abs _
  · refine group_max h g (fun j => -H g j) (fun j => -p.src g j) M (fun j hj => by rw [mv_neg, hH g hg j hj]) (fun j hj => ?_) i hi
    refine le_trans (mul_le_mul_of_nonneg_left ?_ (lamEe_pos h g hj).le) (hM j hj)
    rw [hsrc, neg_neg]; exact le_abs_self _

/-- C78: the groups are determined: there is exactly one solution, so `solve_banded` cannot
fail or choose. -/
theorem snb_unique (h : Physical p) :
    (∃ H, p.Solved H) ∧ ∀ H H', p.Solved H → p.Solved H' → ∀ g < p.ngroups, ∀ i < p.nx, H g i = H' g i := by
  have key : ∀ g, ∀ x : ℕ → ℝ, (∀ i < p.nx, (p.matrix g).mv p.nx x i = 0) → ∀ i < p.nx, x i = 0 := by
    intro g x hx i hi
    have h1 := group_max h g x (fun _ => 0) 0 hx (by simp) i hi
    have h2 := group_max h g (fun j => -x j) (fun _ => 0) 0 (fun j hj => by rw [mv_neg, hx j hj, neg_zero]) (by simp) i hi
    simp only [zero_div] at h1 h2
    linarith
  constructor
  · have : ∀ g, ∃ f : ℕ → ℝ, ∀ i < p.nx, (p.matrix g).mv p.nx f i = p.src g i := fun g => by
      obtain ⟨f, hf⟩ := (unique_of_kernel p.nx (p.matrix g) (key g) (p.src g)).1
      exact ⟨f, (solve_iff ..).1 hf⟩
    choose H hH using this
    exact ⟨H, fun g _ => hH g⟩
  · intro H H' h1 h2 g hg i hi
    exact (unique_of_kernel p.nx (p.matrix g) (key g) (p.src g)).2 _ _ ((solve_iff ..).2 (h1 g hg)) ((solve_iff ..).2 (h2 g hg)) i hi

/-- C78: with a uniform temperature there is no heat flux in either model. -/
theorem uniform_no_flux (h : Physical p) {H : ℕ → ℕ → ℝ} (hH : p.Solved H) (hT : ∀ i < p.nx, p.T i = p.T 0) (e : ℕ) :
    p.qSH e = 0 ∧ p.qSNB H e = 0 := by
  have hd : ∀ e, p.ddx p.T e = 0 := by
    intro e
    unfold Plasma.ddx
    split
    · rfl
    · split
      · next h1 h2 => rw [hT e h2, hT (e - 1) (by omega), sub_self, zero_div]
      · rfl
  have hq : ∀ e, p.qSH e = 0 := fun e => by unfold Plasma.qSH; rw [hd, mul_zero]
  refine ⟨hq e, ?_⟩
  have hz : ∀ g < p.ngroups, ∀ i < p.nx, H g i = 0 := by
    intro g hg i hi
    have := group_bound h hH hg (M := 0) (fun j hj => by unfold div; simp [hq]) i hi
    simp only [zero_div] at this
    exact abs_nonpos_iff.1 this
  unfold Plasma.qSNB
  rw [hq, Finset.sum_eq_zero, sub_zero]
  intro g hg
  have : p.ddx (H g) e = 0 := by
    unfold Plasma.ddx
    split
    · rfl
    · split
      · rw [hz g (mem_range.1 hg) e (by omega), hz g (mem_range.1 hg) (e - 1) (by omega), sub_zero, zero_div]
      · rfl
  rw [this, mul_zero]

/-! ### The spectrum -/

/-- C78: the weight function is the integral of the Spitzer-Härm spectrum `β⁴ exp(-β) / 24`. -/
theorem cdf_spectrum (b : ℝ) : cdf 0 = 0 ∧ HasDerivAt cdf (b ^ 4 * Real.exp (-b) / 24) b := by
  constructor
  · simp [cdf]
  · have he : HasDerivAt (fun b : ℝ => Real.exp (-b)) (-Real.exp (-b)) b := by
      simpa using (hasDerivAt_neg b).exp
    have hp : HasDerivAt (fun b : ℝ => 1 + b + b ^ 2 / 2 + b ^ 3 / 6 + b ^ 4 / 24) (1 + b + b ^ 2 / 2 + b ^ 3 / 6) b := by
      have h1 := (((((hasDerivAt_const b (1 : ℝ)).add (hasDerivAt_id b)).add ((hasDerivAt_pow 2 b).div_const 2)).add
        ((hasDerivAt_pow 3 b).div_const 6)).add ((hasDerivAt_pow 4 b).div_const 24))
      refine HasDerivAt.congr_deriv (f := fun b : ℝ => 1 + b + b ^ 2 / 2 + b ^ 3 / 6 + b ^ 4 / 24) h1 ?_
      norm_num
      ring
    have := ((hasDerivAt_const b (1 : ℝ)).sub (he.mul hp))
    refine HasDerivAt.congr_deriv (f := cdf) this ?_
    ring

theorem cdf_mono : MonotoneOn cdf (Set.Ici 0) := by
  refine monotoneOn_of_deriv_nonneg (convex_Ici 0) (fun b _ => ((cdf_spectrum b).2.continuousAt).continuousWithinAt)
    (fun b _ => (cdf_spectrum b).2.differentiableAt.differentiableWithinAt) fun b _ => ?_
  rw [(cdf_spectrum b).2.deriv]; positivity

theorem cdf_range {b : ℝ} (hb : 0 ≤ b) : 0 ≤ cdf b ∧ cdf b < 1 := by
  constructor
  · rw [← (cdf_spectrum 0).1]; exact cdf_mono (Set.mem_Ici.2 le_rfl) (Set.mem_Ici.2 hb) hb
  · unfold cdf
    have : 0 < Real.exp (-b) * (1 + b + b ^ 2 / 2 + b ^ 3 / 6 + b ^ 4 / 24) := by positivity
    linarith

theorem T_le_max (i : ℕ) (hi : i < p.nx) : p.T i ≤ p.TMax := by
  unfold Plasma.TMax
  have : ∀ (l : List ℕ) (a : ℝ), (a ≤ l.foldl (fun a i => max a (p.T i)) a) ∧
      (i ∈ l → p.T i ≤ l.foldl (fun a i => max a (p.T i)) a) := by
    intro l
    induction l with
    | nil => intro a; simp
    | cons x l ih =>
      intro a
      simp only [List.foldl_cons]
      refine ⟨le_trans (le_max_left _ _) (ih _).1, fun hm => ?_⟩
      rcases List.mem_cons.1 hm with rfl | hm
      · exact le_trans (le_max_right _ _) (ih _).1
      · exact (ih _).2 hm
  exact (this _ _).2 (List.mem_range.2 hi)

theorem c2e_le (h : Physical p) {f : ℕ → ℝ} {M : ℝ} (hf : ∀ i < p.nx, f i ≤ M) (e : ℕ) : p.c2e f e ≤ M := by
  have := h.nx
  unfold Plasma.c2e
  split
  · exact hf 0 this
  · split
    · have h1 := hf e (by omega)
      have h2 := hf (e - 1) (by omega)
      linarith
    · exact hf _ (by omega)

/-- C78: the group weights are shares of the flux: not negative, and together at least the part
of the spectrum below `beta_max` and less than all of it. -/
theorem weights_share (h : Physical p) (e : ℕ) :
    (∀ g, 0 ≤ p.weight g e) ∧ cdf p.betaMax ≤ ∑ g ∈ range p.ngroups, p.weight g e ∧
    ∑ g ∈ range p.ngroups, p.weight g e < 1 := by
  have hTe := c2e_pos h h.T e
  have hTm := c2e_le h (fun i hi => T_le_max i hi) e
  have hTM : 0 < p.TMax := lt_of_lt_of_le hTe hTm
  have hb := h.betaMax
  have hn : (0 : ℝ) < p.ngroups := by exact_mod_cast h.ngroups
  have hstep : 0 < p.betaMax * p.TMax / p.ngroups := by positivity
  have hsum : ∑ g ∈ range p.ngroups, p.weight g e = cdf (p.betaMax * (p.TMax / p.c2e p.T e)) := by
    unfold Plasma.weight
    rw [Finset.sum_range_sub (fun g => cdf (p.epsEdge g / p.c2e p.T e))]
    unfold Plasma.epsEdge
    rw [Nat.cast_zero, zero_mul, zero_div, (cdf_spectrum 0).1, sub_zero]
    congr 1
    field_simp
  refine ⟨fun g => ?_, ?_, ?_⟩
  · unfold Plasma.weight
    rw [sub_nonneg]
    have hg : (0 : ℝ) ≤ g := Nat.cast_nonneg g
    refine cdf_mono (Set.mem_Ici.2 ?_) (Set.mem_Ici.2 ?_) ?_
    · unfold Plasma.epsEdge; positivity
    · unfold Plasma.epsEdge; positivity
    · refine div_le_div_of_nonneg_right ?_ hTe.le
      unfold Plasma.epsEdge
      push_cast
      nlinarith
  · rw [hsum]
    have h1 : 1 ≤ p.TMax / p.c2e p.T e := (one_le_div hTe).2 hTm
    refine cdf_mono (Set.mem_Ici.2 hb.le) (Set.mem_Ici.2 (by positivity)) ?_
    nlinarith
  · rw [hsum]
    exact (cdf_range (by positivity)).2

theorem div_sub (q q' : ℕ → ℝ) (i : ℕ) : div p (fun e => q e - q' e) i = div p q i - div p q' i := by
  unfold div; ring

theorem div_sum (n : ℕ) (q : ℕ → ℕ → ℝ) (i : ℕ) : div p (fun e => ∑ g ∈ range n, q g e) i = ∑ g ∈ range n, div p (q g) i := by
  unfold div
  rw [mul_sum, mul_sum, ← sum_sub_distrib, Finset.sum_div]

/-- C78: what heats a cell.  The divergence of the SNB flux is that of the share of the
Spitzer-Härm flux outside all groups, minus what the groups deposit by collisions. -/
theorem snb_balance (h : Physical p) {H : ℕ → ℕ → ℝ} (hH : p.Solved H) {i : ℕ} (hi : i < p.nx) :
    div p (p.qSNB H) i = div p (fun e => (1 - ∑ g ∈ range p.ngroups, p.weight g e) * p.qSH e) i
      - ∑ g ∈ range p.ngroups, H g i / (p.lamEe g i / p.r) := by
  have hq : p.qSNB H = fun e => p.qSH e - ∑ g ∈ range p.ngroups, p.D g e * p.ddx (H g) e := rfl
  have hw : (fun e => (1 - ∑ g ∈ range p.ngroups, p.weight g e) * p.qSH e)
      = fun e => p.qSH e - ∑ g ∈ range p.ngroups, p.weight g e * p.qSH e := by
    funext e; rw [sub_mul, one_mul, sum_mul]
  rw [hq, hw, div_sub, div_sub, div_sum, div_sum, sub_sub, ← sum_add_distrib]
  congr 1
  refine sum_congr rfl fun g hg => ?_
  have := (group_equation h H).1 hH g (mem_range.1 hg) i hi
  linarith

/-- C78: collisions only redistribute: what a group deposits in some cells it takes from
others. -/
theorem group_exchange (h : Physical p) {H : ℕ → ℕ → ℝ} (hH : p.Solved H) {g : ℕ} (hg : g < p.ngroups) :
    ∑ i ∈ range p.nx, p.vol i * (H g i / (p.lamEe g i / p.r)) = 0 := by
  have h0 : ∀ f, p.ddx f 0 = 0 := fun f => by unfold Plasma.ddx; simp
  have h1 : ∀ f, p.ddx f p.nx = 0 := fun f => by unfold Plasma.ddx; simp
  have e1 := sum_div h (fun e => p.D g e * p.ddx (H g) e)
  have e2 := sum_div h (fun e => p.weight g e * p.qSH e)
  obtain ⟨h3, h4, -, -⟩ := flux_ends p H
  simp only [h0, h1, h3, h4, mul_zero, sub_zero] at e1 e2
  rw [← sub_zero (0 : ℝ)]
  nth_rewrite 1 [← e1]
  rw [← e2, ← sum_sub_distrib]
  refine sum_congr rfl fun i hi => ?_
  have := (group_equation h H).1 hH g hg i (mem_range.1 hi)
  rw [← mul_sub]
  congr 1
  linarith

/-- C78: the cells fill the box: their volumes add up to the length of the slab, or to a third of
the difference of the cubes of the two radii (the volume per solid angle). -/
theorem vol_total (h : Physical p) {xmin : ℝ} (hx : ∀ i < p.nx, p.x i = xmin + (i + 1 / 2) * p.dx) :
    ∑ i ∈ range p.nx, p.vol i
      = if p.spherical then ((xmin + p.nx * p.dx) ^ 3 - xmin ^ 3) / 3 else p.nx * p.dx := by
  unfold Plasma.vol
  cases p.spherical
  · simp
  · simp only [if_true]
    rw [← Finset.sum_div, Finset.sum_range_sub (fun i => p.xEdge i ^ 3), xEdge_eq hx h.nx le_rfl, xEdge_eq hx h.nx (Nat.zero_le _)]
    simp

/-- C78: the Spitzer-Härm flux does not depend on the density: `n T / nu` has no density left. -/
theorem sh_density_free (h : Physical p) (n' : ℕ → ℝ) (hn' : ∀ i < p.nx, 0 < n' i) (e : ℕ) :
    Plasma.qSH { p with n := n' } e = p.qSH e := by
  have k : ∀ i < p.nx, calcEH (p.Z i) * n' i * p.T i / Plasma.nuEi { p with n := n' } i
      = calcEH (p.Z i) * p.n i * p.T i / p.nuEi i := fun i hi => by
    have h2 := (h.n i hi).ne'
    have h2' := (hn' i hi).ne'
    have h4 := (h.Z i hi).ne'
    have h5 := h.nRef.ne'
    have h7 := h.ZRef.ne'
    have h8 := h.nueiRef.ne'
    have h9 : (p.T i / p.TRef) ^ (-1.5 : ℝ) ≠ 0 := (Real.rpow_pos_of_pos (div_pos (h.T i hi) h.TRef) _).ne'
    unfold Plasma.nuEi
    field_simp
  have hn := h.nx
  have c : Plasma.c2e { p with n := n' } (fun i => calcEH (p.Z i) * n' i * p.T i / Plasma.nuEi { p with n := n' } i) e
      = p.c2e (fun i => calcEH (p.Z i) * p.n i * p.T i / p.nuEi i) e := by
    unfold Plasma.c2e
    dsimp only
    split
    · exact k 0 hn
    · split
      · rw [k e (by omega), k (e - 1) (by omega)]
      · exact k _ (by omega)
  unfold Plasma.qSH
  rw [← c]
  rfl

/-- C78: the mean free paths of a group are those of an electron of the group's middle energy:
path times rate is the fourth power of its speed, for electrons and for ions. -/
theorem paths (h : Physical p) (g : ℕ) :
    p.epsC g = (g + 1 / 2) * (p.betaMax * p.TMax / p.ngroups)
    ∧ (∀ i < p.nx, p.lamEe g i * (p.nuee * p.n i) = (2 * p.epsC g) ^ 2)
    ∧ (∀ i < p.nx, (∀ k < p.nx, p.Z k = p.Z i ∧ p.ni k = p.ni i) → ∀ e,
        p.lamEi g e * (p.nuee * p.logRatio * (p.Z i ^ 2 * p.ni i)) = (2 * p.epsC g) ^ 2
        ∧ p.D g e = (p.Z i + 0.24) / (p.Z i + 4.2) * p.lamEi g e / 3) := by
  refine ⟨?_, fun i hi => ?_, fun i hi hk e => ?_⟩
  · unfold Plasma.epsC Plasma.epsEdge; push_cast; ring
  · unfold Plasma.lamEe
    exact div_mul_cancel₀ _ (mul_pos h.nuee (h.n i hi)).ne'
  · have hn := h.nx
    have c : ∀ f : ℕ → ℝ, (∀ k < p.nx, f k = f i) → p.c2e f e = f i := fun f hf => by
      unfold Plasma.c2e
      split
      · exact hf 0 hn
      · split
        · rw [hf e (by omega), hf (e - 1) (by omega)]; ring
        · exact hf _ (by omega)
    constructor
    · unfold Plasma.lamEi
      rw [c (fun i => p.Z i ^ 2 * p.ni i) (fun k hk' => by simp only [(hk k hk').1, (hk k hk').2])]
      have h1 := h.Z i hi
      have h2 := h.ni i hi
      exact div_mul_cancel₀ _ (mul_pos (mul_pos h.nuee h.logRatio) (by positivity)).ne'
    · unfold Plasma.D
      rw [c (fun i => (p.Z i + 0.24) / (p.Z i + 4.2)) (fun k hk' => by simp only [(hk k hk').1])]

/-- A hot and a cold cell in spherical geometry meet the premises of the theorems above. -/
noncomputable def exPlasma : Plasma where
  nx := 2
  x i := (i + 1 / 2) * 1
  dx := 1
  spherical := true
  n _ := 1
  T i := 1 + i
  Z _ := 4
  ni _ := 1 / 4
  nRef := 1
  TRef := 1
  ZRef := 4
  nueiRef := 1
  nuee := 1
  logRatio := 1
  ngroups := 300
  betaMax := 20
  r := 2

example : Physical exPlasma where
  nx := by norm_num [exPlasma]
  dx := by norm_num [exPlasma]
  n i _ := by norm_num [exPlasma]
  T i _ := by simp only [exPlasma]; positivity
  Z i _ := by norm_num [exPlasma]
  ni i _ := by norm_num [exPlasma]
  nRef := by norm_num [exPlasma]
  TRef := by norm_num [exPlasma]
  ZRef := by norm_num [exPlasma]
  nueiRef := by norm_num [exPlasma]
  nuee := by norm_num [exPlasma]
  logRatio := by norm_num [exPlasma]
  ngroups := by norm_num [exPlasma]
  betaMax := by norm_num [exPlasma]
  r := by norm_num [exPlasma]
  x := ⟨0, fun _ => le_rfl, fun i _ => by simp [exPlasma]⟩

end Verif.HeatFlux

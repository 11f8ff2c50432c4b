import Verif.Props.Vfp2dPotential

/-!
Reconnection diagnostics of VFP-2D runs (C210).
-/
namespace Verif.Vfp2d.Recon
open Finset

/-! ### `argmax` -/

theorem foldl_better (f : ℕ → ℝ) : ∀ (l : List ℕ) (b : ℕ),
    (l.foldl (better f) b = b ∨ l.foldl (better f) b ∈ l) ∧ f b ≤ f (l.foldl (better f) b) ∧ ∀ i ∈ l, f i ≤ f (l.foldl (better f) b)
  | [], b => ⟨.inl rfl, le_refl _, fun i h => absurd h List.not_mem_nil⟩
  | c :: l, b => by
    have h := foldl_better f l (better f b c)
    have hb : f b ≤ f (better f b c) ∧ f c ≤ f (better f b c) ∧ (better f b c = b ∨ better f b c = c) := by
      unfold better
      split
      · rename_i h; exact ⟨h.le, le_refl _, .inr rfl⟩
      · rename_i h; exact ⟨le_refl _, not_lt.1 h, .inl rfl⟩
    simp only [List.foldl_cons]
    refine ⟨?_, hb.1.trans h.2.1, ?_⟩
    · rcases h.1 with e | e
      · rw [e]
        rcases hb.2.2 with e | e
        · exact .inl e
        · rw [e]; exact .inr List.mem_cons_self
      · exact .inr (List.mem_cons_of_mem _ e)
    · intro i hi
      rcases List.mem_cons.1 hi with rfl | hi
      · exact hb.2.1.trans h.2.1
      · exact h.2.2 i hi

theorem argmax_spec (f : ℕ → ℝ) (l : List ℕ) (h : l ≠ []) : argmax f l ∈ l ∧ ∀ i ∈ l, f i ≤ f (argmax f l) := by
  obtain ⟨b, l, rfl⟩ := List.exists_cons_of_ne_nil h
  have := foldl_better f l b
  have e : argmax f (b :: l) = l.foldl (better f) b := rfl
  rw [e]
  refine ⟨?_, ?_⟩
  · rcases this.1 with e | e
    · rw [e]; exact List.mem_cons_self
    · exact List.mem_cons_of_mem _ e
  · intro i hi
    rcases List.mem_cons.1 hi with rfl | hi
    · exact this.2.1
    · exact this.2.2 i hi

/-- Among equal values the first of an increasing list is taken. -/
theorem argmax_first (f : ℕ → ℝ) (l : List ℕ) (hl : l.Pairwise (· < ·)) (i : ℕ) (hi : i ∈ l) (h : f i = f (argmax f l)) : argmax f l ≤ i := by
  have key : ∀ (l : List ℕ) (b : ℕ), (b :: l).Pairwise (· < ·) → ∀ i ∈ b :: l, f i = f (l.foldl (better f) b) → l.foldl (better f) b ≤ i := by
    intro l
    induction l with
    | nil => intro b _ i hi _; simp only [List.mem_singleton] at hi; simp [hi]
    | cons c l ih =>
      intro b hp i hi h
      simp only [List.foldl_cons] at h ⊢
      have hbc : b < c := (List.pairwise_cons.1 hp).1 c List.mem_cons_self
      have hp2 := (List.pairwise_cons.1 hp).2
      by_cases hfc : f b < f c
      · have e : better f b c = c := if_pos hfc
        rw [e] at h ⊢
        rcases List.mem_cons.1 hi with rfl | hi
        · exfalso
          have := (foldl_better f l c).2.1
          linarith
        · exact ih c hp2 i hi h
      · have e : better f b c = b := if_neg hfc
        rw [e] at h ⊢
        have hpb : (b :: l).Pairwise (· < ·) :=
          List.pairwise_cons.2 ⟨fun a ha => (List.pairwise_cons.1 hp).1 a (List.mem_cons_of_mem _ ha), (List.pairwise_cons.1 hp2).2⟩
        rcases List.mem_cons.1 hi with rfl | hi
        · exact ih _ hpb _ List.mem_cons_self h
        · rcases List.mem_cons.1 hi with rfl | hi
          · have hb := ih b hpb b List.mem_cons_self (le_antisymm (foldl_better f l b).2.1 (by rw [← h]; exact not_lt.1 hfc))
            omega
          · exact ih b hpb i (List.mem_cons_of_mem _ hi) h
  cases l with
  | nil => exact absurd hi List.not_mem_nil
  | cons b l => exact key l b hl i hi h

theorem mem_lower (a : Axes) (j : ℕ) : j ∈ lower a ↔ j < a.ny ∧ a.y j < centre a.ny a.y := by
  unfold lower; simp
theorem mem_upper (a : Axes) (j : ℕ) : j ∈ upper a ↔ j < a.ny ∧ centre a.ny a.y < a.y j := by
  unfold upper; simp

/-- C210: the X-point is taken at the cell next to the centre of the box (the origin when the box contains it), the first one of two at the same distance. -/
theorem xpoint_cell (n : ℕ) (x : ℕ → ℝ) (hn : 0 < n) :
    nearest n x < n ∧ (∀ i < n, |x (nearest n x) - centre n x| ≤ |x i - centre n x|)
    ∧ (∀ i < n, |x i - centre n x| = |x (nearest n x) - centre n x| → nearest n x ≤ i)
    ∧ (x 0 ≤ 0 ∧ 0 ≤ x (n - 1) → centre n x = 0) ∧ (¬ (x 0 ≤ 0 ∧ 0 ≤ x (n - 1)) → centre n x = (x 0 + x (n - 1)) / 2) := by
  have hne : List.range n ≠ [] := by simp; omega
  have h := argmax_spec (fun i => -|x i - centre n x|) (List.range n) hne
  refine ⟨List.mem_range.1 h.1, fun i hi => neg_le_neg_iff.1 (h.2 i (List.mem_range.2 hi)), fun i hi e => ?_, fun hc => if_pos hc, fun hc => ?_⟩
  · refine argmax_first (fun i => -|x i - centre n x|) (List.range n) List.pairwise_lt_range i (List.mem_range.2 hi) ?_
    beta_reduce
    rw [e]; rfl
  · unfold centre; rw [if_neg hc]; ring

/-- C210: the upstream points of a slice are the cells of largest field along x on either side of the sheet, above the X-point column. -/
theorem upstream_points (a : Axes) (s : Slice) (hl : lower a ≠ []) (hu : upper a ≠ []) :
    (lowerIy a s < a.ny ∧ a.y (lowerIy a s) < centre a.ny a.y ∧ ∀ j < a.ny, a.y j < centre a.ny a.y → |s.bx (ix a) j| ≤ |bxLower a s|)
    ∧ (upperIy a s < a.ny ∧ centre a.ny a.y < a.y (upperIy a s) ∧ ∀ j < a.ny, centre a.ny a.y < a.y j → |s.bx (ix a) j| ≤ |bxUpper a s|) := by
  have h1 := argmax_spec (fun j => |s.bx (ix a) j|) (lower a) hl
  have h2 := argmax_spec (fun j => |s.bx (ix a) j|) (upper a) hu
  have m1 := (mem_lower a _).1 h1.1
  have m2 := (mem_upper a _).1 h2.1
  exact ⟨⟨m1.1, m1.2, fun j hj hy => h1.2 j ((mem_lower a j).2 ⟨hj, hy⟩)⟩, ⟨m2.1, m2.2, fun j hj hy => h2.2 j ((mem_upper a j).2 ⟨hj, hy⟩)⟩⟩

/-! ### Bounds -/

theorem tiny_pos : 0 < tiny := by unfold tiny; positivity

theorem balance_bounds (a : Axes) (s : Slice) : 0 ≤ balance a s ∧ balance a s ≤ 1 := by
  unfold balance
  split
  · rename_i h
    have hp := tiny_pos.trans h
    have h1 := abs_nonneg (bxLower a s)
    have h2 := abs_nonneg (bxUpper a s)
    refine ⟨by positivity, ?_⟩
    rw [div_le_one hp]
    have := min_le_left |bxLower a s| |bxUpper a s|
    have := min_le_right |bxLower a s| |bxUpper a s|
    linarith
  · norm_num

theorem sgn_abs (v : ℝ) : |sgn v| ≤ 1 := by
  unfold sgn; split
  · norm_num
  · split <;> norm_num

theorem purity_bounds (a : Axes) (s : Slice) : 0 ≤ purity a s ∧ purity a s ≤ 1 := by
  unfold purity
  split
  · rename_i h
    have hp := tiny_pos.trans h
    refine ⟨by positivity, ?_⟩
    rw [div_le_one hp]
    unfold signedSum localL1
    refine (abs_sum_le_sum_abs _ _).trans (sum_le_sum fun c _ => ?_)
    rw [abs_mul]
    exact mul_le_of_le_one_right (abs_nonneg _) (sgn_abs _)
  · norm_num

theorem central_bounds (a : Axes) (s : Slice) : 0 ≤ centralFraction a s ∧ centralFraction a s ≤ 1 := by
  unfold centralFraction
  split
  · rename_i h
    have hp := tiny_pos.trans h
    have hle : localL1 a s ≤ ∑ c ∈ range a.nx ×ˢ range a.ny, |s.bz c.1 c.2| :=
      sum_le_sum_of_subset_of_nonneg (filter_subset _ _) fun _ _ _ => abs_nonneg _
    refine ⟨by have := hp.le; have := hp.le.trans hle; positivity, ?_⟩
    rw [div_le_one (hp.trans_le hle)]
    exact hle
  · norm_num

theorem fold_max_ge {α : Type*} (t : Finset α) (f : α → ℝ) : 0 ≤ t.fold max 0 f ∧ ∀ c ∈ t, f c ≤ t.fold max 0 f := by
  refine ⟨?_, fun c hc => ?_⟩
  · rw [Finset.le_fold_max]; exact .inl le_rfl
  · rw [Finset.le_fold_max]; exact .inr ⟨c, hc, le_rfl⟩

theorem fold_max_le {α : Type*} (t : Finset α) (f : α → ℝ) (m : ℝ) (hm : 0 ≤ m) (h : ∀ c ∈ t, f c ≤ m) : t.fold max 0 f ≤ m := by
  rw [Finset.fold_max_le]; exact ⟨hm, h⟩

/-- The peak of the current over the box. -/
theorem peak_spec (a : Axes) (s : Slice) : 0 ≤ globalPeak a s ∧ (∀ i < a.nx, ∀ j < a.ny, |s.jz i j| ≤ globalPeak a s)
    ∧ ∀ m, 0 ≤ m → (∀ i < a.nx, ∀ j < a.ny, |s.jz i j| ≤ m) → globalPeak a s ≤ m := by
  unfold globalPeak
  refine ⟨(fold_max_ge _ _).1, fun i hi j hj => ?_, fun m hm h => fold_max_le _ _ m hm fun i hi => fold_max_le _ _ m hm fun j hj => h i (mem_range.1 hi) j (mem_range.1 hj)⟩
  refine le_trans ?_ ((fold_max_ge (range a.nx) (fun i => (range a.ny).fold max 0 fun j => |s.jz i j|)).2 i (mem_range.2 hi))
  exact (fold_max_ge (range a.ny) (fun j => |s.jz i j|)).2 j (mem_range.2 hj)

theorem dominance_bounds (a : Axes) (s : Slice) (hn : 0 < a.nx) : 0 ≤ dominance a s ∧ dominance a s ≤ 1 := by
  unfold dominance
  have hi : ix a < a.nx := (xpoint_cell a.nx a.x hn).1
  split
  · rename_i h
    have hp := tiny_pos.trans h
    have h0 := (fold_max_ge (sheetCells a s) (fun j => |s.jz (ix a) j|)).1
    refine ⟨by positivity, ?_⟩
    rw [div_le_one hp]
    refine fold_max_le _ _ _ hp.le fun j hj => (peak_spec a s).2.1 _ hi j ?_
    unfold sheetCells at hj
    exact mem_range.1 (mem_filter.1 hj).1
  · norm_num

/-- C210: the fractions reported for every slice are between zero and one and the inflow speed is not negative. -/
theorem fractions_bounded (a : Axes) (s : Slice) (hn : 0 < a.nx) :
    (0 ≤ balance a s ∧ balance a s ≤ 1) ∧ (0 ≤ purity a s ∧ purity a s ≤ 1) ∧ (0 ≤ centralFraction a s ∧ centralFraction a s ≤ 1)
    ∧ (0 ≤ dominance a s ∧ dominance a s ≤ 1) ∧ 0 ≤ upstreamVn a s ∧ 0 ≤ upstreamBx a s := by
  refine ⟨balance_bounds a s, purity_bounds a s, central_bounds a s, dominance_bounds a s hn, ?_, ?_⟩
  · unfold upstreamVn
    have := le_max_right (s.vy (ix a) (lowerIy a s)) 0
    have := le_max_right (-s.vy (ix a) (upperIy a s)) 0
    linarith
  · unfold upstreamBx; positivity

/-- C210: the width of the current sheet is at most the half width of the window it is measured in, for every current. -/
theorem width_bound (a : Axes) (s : Slice) (w : ℝ) (h : sheetWidth a s = some w) : 0 ≤ w ∧ w ≤ sheetHalf a s := by
  unfold sheetWidth at h
  split at h
  · rename_i ht
    have hp := tiny_pos.trans ht
    simp only [Option.some.injEq] at h
    subst h
    refine ⟨Real.sqrt_nonneg _, ?_⟩
    by_cases he : sheetCells a s = ∅
    · rw [he] at hp; simp at hp
    obtain ⟨j0, hj0⟩ := Finset.nonempty_iff_ne_empty.2 he
    have hh : 0 ≤ sheetHalf a s := (abs_nonneg _).trans (mem_filter.1 hj0).2
    rw [Real.sqrt_le_left hh, div_le_iff₀ hp, mul_sum]
    refine sum_le_sum fun j hj => ?_
    have h1 := (mem_filter.1 hj).2
    have h2 : fromSheet a j ^ 2 ≤ sheetHalf a s ^ 2 := by
      rw [← sq_abs (fromSheet a j)]
      exact pow_le_pow_left₀ (abs_nonneg _) h1 2
    rw [mul_comm (sheetHalf a s ^ 2)]
    exact mul_le_mul_of_nonneg_left h2 (abs_nonneg _)
  · exact absurd h (by simp)

/-- C210: a current concentrated in one row at distance `r` of the X-point row gives the width `r`. -/
theorem width_exact (a : Axes) (s : Slice) (j0 : ℕ) (hj : j0 ∈ sheetCells a s) (hz : ∀ j ∈ sheetCells a s, j ≠ j0 → s.jz (ix a) j = 0)
    (ht : tiny < |s.jz (ix a) j0|) : sheetWidth a s = some |a.y j0 - a.y (iy a)| := by
  have e1 : ∑ j ∈ sheetCells a s, |s.jz (ix a) j| = |s.jz (ix a) j0| :=
    sum_eq_single_of_mem j0 hj fun j hj hne => by rw [hz j hj hne, abs_zero]
  have e2 : ∑ j ∈ sheetCells a s, |s.jz (ix a) j| * fromSheet a j ^ 2 = |s.jz (ix a) j0| * fromSheet a j0 ^ 2 :=
    sum_eq_single_of_mem j0 hj fun j hj hne => by rw [hz j hj hne, abs_zero, zero_mul]
  unfold sheetWidth
  rw [e1, e2, if_pos ht, mul_div_cancel_left₀ _ (tiny_pos.trans ht).ne', Real.sqrt_sq_eq_abs]
  rfl

/-! ### Gauge and Hessian -/

/-- C210: a constant added to the potential changes neither the reconnected flux nor the Hessian of the X-point. -/
theorem gauge_free (a : Axes) (s : Slice) (c : ℝ) :
    rawFlux a { s with az := fun i j => s.az i j + c } = rawFlux a s ∧ hessian a { s with az := fun i j => s.az i j + c } = hessian a s := by
  have g : ∀ n d (f : ℕ → ℝ) i, gradient n d (fun i => f i + c) i = gradient n d f i := by
    intro n d f i
    unfold gradient
    simp only [add_sub_add_right_eq_sub]
  constructor
  · unfold rawFlux
    have e1 : lowerIy a { s with az := fun i j => s.az i j + c } = lowerIy a s := rfl
    have e2 : upperIy a { s with az := fun i j => s.az i j + c } = upperIy a s := rfl
    rw [e1, e2]
    ring
  · unfold hessian azxx azyy azxy
    simp only [g]

/-- A quadratic in the coordinates of a uniform grid. -/
noncomputable def quadratic (c p q A B C : ℝ) (x y : ℝ) : ℝ := c + p * x + q * y + A * x ^ 2 / 2 + B * x * y + C * y ^ 2 / 2

/-- C210: the Hessian is exact for a quadratic potential around an X-point two cells away from the edges. -/
theorem hessian_exact (a : Axes) (s : Slice) (c p q A B C : ℝ) (hx : 2 ≤ ix a ∧ ix a + 2 < a.nx) (hy : 2 ≤ iy a ∧ iy a + 2 < a.ny)
    (ux : ∀ i, a.x i = a.x 0 + i * spacing a.nx a.x) (uy : ∀ j, a.y j = a.y 0 + j * spacing a.ny a.y)
    (dx : spacing a.nx a.x ≠ 0) (dy : spacing a.ny a.y ≠ 0)
    (h : ∀ i j, s.az i j = quadratic c p q A B C (a.x i) (a.y j)) : hessian a s = A * C - B ^ 2 := by
  obtain ⟨m, hm⟩ : ∃ m, ix a = m + 2 := ⟨ix a - 2, by omega⟩
  obtain ⟨n, hn⟩ : ∃ n, iy a = n + 2 := ⟨iy a - 2, by omega⟩
  rw [hm] at hx
  rw [hn] at hy
  unfold hessian azxx azyy azxy
  simp only [h]
  rw [hm, hn]
  generalize spacing a.nx a.x = d at *
  generalize spacing a.ny a.y = e at *
  have g : ∀ (N : ℕ) (d : ℝ) (f : ℕ → ℝ) (k : ℕ), k + 2 < N → gradient N d f (k + 1) = (f (k + 2) - f k) / (2 * d) := by
    intro N d f k hk
    unfold gradient
    rw [if_neg (by omega), if_neg (by omega)]
    rfl
  have gg : ∀ (N : ℕ) (d : ℝ) (f : ℕ → ℝ) (k : ℕ), k + 4 < N →
      gradient N d (fun i => gradient N d f i) (k + 2) = ((f (k + 4) - f (k + 2)) / (2 * d) - (f (k + 2) - f k) / (2 * d)) / (2 * d) := by
    intro N d f k hk
    rw [g N d _ (k + 1) (by omega)]
    rw [g N d f k (by omega), g N d f (k + 2) (by omega)]
  rw [gg a.nx d _ m (by omega), gg a.ny e _ n (by omega), g a.ny e _ (n + 1) (by omega), g a.nx d _ (m + 1) (by omega), g a.nx d _ (m + 1) (by omega)]
  unfold quadratic
  rw [ux (m + 4), ux (m + 2), ux m, ux (m + 1 + 2), ux (m + 1), uy (n + 4), uy (n + 2), uy n, uy (n + 1 + 2), uy (n + 1)]
  push_cast
  generalize a.x 0 = x0
  generalize a.y 0 = y0
  field_simp
  ring

/-- C210: a maximum or minimum of the potential (an O-point) is never called reconnection. -/
theorem opoint_never_valid (a : Axes) (s : Slice) (c p q A B C : ℝ) (hx : 2 ≤ ix a ∧ ix a + 2 < a.nx) (hy : 2 ≤ iy a ∧ iy a + 2 < a.ny)
    (ux : ∀ i, a.x i = a.x 0 + i * spacing a.nx a.x) (uy : ∀ j, a.y j = a.y 0 + j * spacing a.ny a.y)
    (dx : spacing a.nx a.x ≠ 0) (dy : spacing a.ny a.y ≠ 0)
    (h : ∀ i j, s.az i j = quadratic c p q A B C (a.x i) (a.y j)) (hO : B ^ 2 ≤ A * C) : ¬ Valid a s ∧ flux a s = none ∧ ∀ run, rate a run s = none := by
  have hv : ¬ Valid a s := fun hv => by
    have := hv.2.2.2.1
    rw [hessian_exact a s c p q A B C hx hy ux uy dx dy h] at this
    linarith
  exact ⟨hv, if_neg hv, fun run => if_neg fun hr => hv hr.1.1⟩

/-! ### What a valid slice means -/

/-- C210: a slice called reconnection has fields of opposite directions on the two sides, neither more than seven times the other,
a field at the X-point at most half of their mean, a saddle of the potential and a current peak in the sheet of at least a quarter of the largest. -/
theorem valid_meaning (a : Axes) (s : Slice) (h : Valid a s) :
    bxLower a s * bxUpper a s < 0 ∧ |bxLower a s| ≤ 7 * |bxUpper a s| ∧ |bxUpper a s| ≤ 7 * |bxLower a s|
    ∧ Real.sqrt (s.bx (ix a) (iy a) ^ 2 + s.by' (ix a) (iy a) ^ 2) ≤ (|bxLower a s| + |bxUpper a s|) / 4
    ∧ hessian a s < 0
    ∧ ∃ j ∈ sheetCells a s, ∀ i' < a.nx, ∀ j' < a.ny, |s.jz i' j'| ≤ 4 * |s.jz (ix a) j| := by
  obtain ⟨h1, h2, ⟨r, hr, hr2⟩, h4, h5⟩ := h
  have hb : |bxLower a s| ≤ 7 * |bxUpper a s| ∧ |bxUpper a s| ≤ 7 * |bxLower a s| := by
    unfold balance at h2
    split at h2
    · rename_i ht
      rw [le_div_iff₀ (tiny_pos.trans ht)] at h2
      have m1 := min_le_left |bxLower a s| |bxUpper a s|
      have m2 := min_le_right |bxLower a s| |bxUpper a s|
      constructor <;> linarith
    · norm_num at h2
  refine ⟨h1, hb.1, hb.2, ?_, h4, ?_⟩
  · unfold nullRatio at hr
    split at hr
    · rename_i ht
      simp only [Option.some.injEq] at hr
      rw [← hr, div_le_iff₀ (tiny_pos.trans ht)] at hr2
      unfold upstreamBx at hr2
      linarith
    · exact absurd hr (by simp)
  · unfold dominance at h5
    split at h5
    · rename_i ht
      have hp := tiny_pos.trans ht
      rw [le_div_iff₀ hp, Finset.le_fold_max] at h5
      rcases h5 with h5 | ⟨j, hj, h5⟩
      · linarith
      · refine ⟨j, hj, fun i' hi' j' hj' => ?_⟩
        have := (peak_spec a s).2.1 i' hi' j' hj'
        linarith
    · norm_num at h5

/-- C210: what the balance gate asks: upstream fields above the floor and within a factor seven; equal ones are in perfect balance. -/
theorem balance_gate (a : Axes) (s : Slice) :
    (0.25 ≤ balance a s ↔ tiny < |bxLower a s| + |bxUpper a s| ∧ |bxLower a s| ≤ 7 * |bxUpper a s| ∧ |bxUpper a s| ≤ 7 * |bxLower a s|)
    ∧ (|bxLower a s| = |bxUpper a s| → tiny < |bxLower a s| + |bxUpper a s| → balance a s = 1) := by
  refine ⟨⟨fun h => ?_, ?_⟩, fun e ht => ?_⟩
  · unfold balance at h
    split at h
    · rename_i ht
      rw [le_div_iff₀ (tiny_pos.trans ht)] at h
      have m1 := min_le_left |bxLower a s| |bxUpper a s|
      have m2 := min_le_right |bxLower a s| |bxUpper a s|
      exact ⟨ht, by linarith, by linarith⟩
    · norm_num at h
  · rintro ⟨ht, h1, h2⟩
    unfold balance
    rw [if_pos ht, le_div_iff₀ (tiny_pos.trans ht)]
    rcases min_choice |bxLower a s| |bxUpper a s| with m | m <;> rw [m] <;> linarith
  · have hp := tiny_pos.trans ht
    unfold balance
    rw [if_pos ht, e, min_self, div_eq_one_iff_eq (by rw [← e]; rw [e] at hp ⊢; linarith)]
    ring

/-- C210: the projection is an average over the window: never larger than the largest field in it. -/
theorem projection_bound (a : Axes) (s : Slice) (B : ℝ) (hB : 0 ≤ B) (h : ∀ i < a.nx, ∀ j < a.ny, |s.bz i j| ≤ B) : |projection a s| ≤ B := by
  unfold projection
  split
  · have e : |signedSum a s| ≤ (window a s).card * B := by
      unfold signedSum
      refine (abs_sum_le_sum_abs _ _).trans ((sum_le_card_nsmul _ _ B fun c hc => ?_).trans (by rw [nsmul_eq_mul]))
      have hm := mem_product.1 (mem_filter.1 hc).1
      have hb := h _ (mem_range.1 hm.1) _ (mem_range.1 hm.2)
      rw [abs_mul]
      have := sgn_abs (a.x c.1 * a.y c.2)
      nlinarith [abs_nonneg (s.bz c.1 c.2), abs_nonneg (sgn (a.x c.1 * a.y c.2))]
    rw [abs_div, Nat.abs_cast]
    rcases Nat.eq_zero_or_pos (window a s).card with z | z
    · rw [z]; simpa using hB
    · rw [div_le_iff₀ (by exact_mod_cast z)]
      linarith
  · simpa using hB

theorem foldl_max_ge (f : Slice → ℝ) : ∀ (l : List Slice) (b : ℝ), b ≤ l.foldl (fun m s => max m (f s)) b ∧ ∀ s ∈ l, f s ≤ l.foldl (fun m s => max m (f s)) b
  | [], b => ⟨le_refl _, fun s h => absurd h List.not_mem_nil⟩
  | c :: l, b => by
    have h := foldl_max_ge f l (max b (f c))
    refine ⟨(le_max_left _ _).trans h.1, fun s hs => ?_⟩
    rcases List.mem_cons.1 hs with rfl | hs
    · exact (le_max_right _ _).trans h.1
    · exact h.2 s hs

/-- C210: a reported rate is the field at the X-point over the product of the upstream field and inflow speed; it is reported only for
a valid slice whose inflow is at least a tenth of that of every slice of the run. -/
theorem rate_meaning (a : Axes) (run : List Slice) (s : Slice) (r : ℝ) (h : rate a run s = some r) :
    Valid a s ∧ r * (upstreamBx a s * upstreamVn a s) = s.ez (ix a) (iy a) ∧ 0 < upstreamVn a s ∧ ∀ s' ∈ run, upstreamVn a s' ≤ 10 * upstreamVn a s := by
  unfold rate at h
  split at h
  · rename_i hc
    have hp := tiny_pos.trans hc.2
    simp only [Option.some.injEq] at h
    refine ⟨hc.1.1, ?_, ?_, fun s' hs' => ?_⟩
    · rw [← h, div_mul_cancel₀ _ hp.ne']
    · have hb : 0 ≤ upstreamBx a s := by unfold upstreamBx; positivity
      by_contra hn
      nlinarith
    · have := (foldl_max_ge (upstreamVn a) run 0).2 s' hs'
      have h2 := hc.1.2
      unfold peakVn at h2
      linarith
  · exact absurd h (by simp)

/-- C210: a valid slice with the strongest inflow of the run has a rate, if its scale is not tiny. -/
theorem rate_exists (a : Axes) (run : List Slice) (s : Slice) (hv : Valid a s) (hs : ∀ s' ∈ run, upstreamVn a s' ≤ upstreamVn a s)
    (ht : tiny < upstreamBx a s * upstreamVn a s) : rate a run s = some (s.ez (ix a) (iy a) / (upstreamBx a s * upstreamVn a s)) := by
  have hb : 0 ≤ upstreamVn a s := by
    unfold upstreamVn
    have := le_max_right (s.vy (ix a) (lowerIy a s)) 0
    have := le_max_right (-s.vy (ix a) (upperIy a s)) 0
    linarith
  have key : ∀ (l : List Slice) (b : ℝ), b ≤ upstreamVn a s → (∀ s' ∈ l, upstreamVn a s' ≤ upstreamVn a s) →
      l.foldl (fun m s => max m (upstreamVn a s)) b ≤ upstreamVn a s := by
    intro l
    induction l with
    | nil => intro b hb _; exact hb
    | cons c l ih => exact fun b hb h => ih _ (max_le hb (h c List.mem_cons_self)) fun s' hs' => h s' (List.mem_cons_of_mem _ hs')
  have := key run 0 hb hs
  refine if_pos ⟨⟨hv, ?_⟩, ht⟩
  unfold peakVn
  linarith

/-- C210: Faraday's law on the reported flux: between two saved fields that differ by the curl of an electric field, with the same
upstream points, the flux changes by the difference of the fields along z at the X-point and upstream. -/
theorem flux_faraday {nx ny : ℕ} [NeZero nx] [NeZero ny] (a : Axes) (s s' : Slice) (dt : ℝ) (hdx : spacing a.nx a.x ≠ 0) (hdy : spacing a.ny a.y ≠ 0)
    (bx by' ez : Scal nx ny) (hx : Smooth bx) (hy : Smooth by') (hz : Smooth ez)
    (h : ∀ i j : ℕ, s.az i j = potential (spacing a.nx a.x) (spacing a.ny a.y) bx by' i j)
    (h' : ∀ i j : ℕ, s'.az i j = potential (spacing a.nx a.x) (spacing a.ny a.y)
      (fun x y => bx x y - dt * ddy (.spectral (spacing a.ny a.y)) ez x y) (fun x y => by' x y + dt * ddx (.spectral (spacing a.nx a.x)) ez x y) i j)
    (hl : lowerIy a s' = lowerIy a s) (hu : upperIy a s' = upperIy a s) :
    rawFlux a s' - rawFlux a s = -dt * (ez (ix a) (iy a) - (ez (ix a) (lowerIy a s) + ez (ix a) (upperIy a s)) / 2) := by
  unfold rawFlux
  rw [hl, hu]
  simp only [h, h', potential_faraday _ _ dt hdx hdy bx by' ez hx hy hz]
  ring

/-! ### Quadrupole -/

theorem sgn_mul_self (v : ℝ) : sgn v * v = |v| := by
  unfold sgn
  split
  · rename_i h; rw [abs_of_pos h, one_mul]
  · split
    · rename_i h; rw [abs_of_neg h]; ring
    · rename_i h1 h2; rw [le_antisymm (not_lt.1 h1) (not_lt.1 h2)]; simp

theorem sgn_sq (v : ℝ) (h : v ≠ 0) : sgn v * sgn v = 1 ∧ |sgn v| = 1 := by
  unfold sgn
  split
  · norm_num
  · split
    · norm_num
    · rename_i h1 h2; exact absurd (le_antisymm (not_lt.1 h1) (not_lt.1 h2)) h

/-- C210: a field with the sign of x times y (or the opposite sign) has purity one. -/
theorem purity_one (a : Axes) (s : Slice) (g : ℕ → ℕ → ℝ) (hg : ∀ i j, 0 ≤ g i j) (σ : ℝ) (hσ : σ = 1 ∨ σ = -1)
    (h : ∀ i j, s.bz i j = σ * (g i j * sgn (a.x i * a.y j))) (ht : tiny < localL1 a s) : purity a s = 1 := by
  have hσ1 : |σ| = 1 := by rcases hσ with e | e <;> rw [e] <;> norm_num
  have e : |signedSum a s| = localL1 a s := by
    have e1 : signedSum a s = σ * localL1 a s := by
      unfold signedSum localL1
      rw [mul_sum]
      refine sum_congr rfl fun c _ => ?_
      rw [h]
      by_cases hz : a.x c.1 * a.y c.2 = 0
      · rw [hz]; unfold sgn; simp
      · have := sgn_sq _ hz
        rw [abs_mul, abs_mul, hσ1, this.2, abs_of_nonneg (hg _ _)]
        linear_combination (σ * g c.1 c.2) * this.1
    rw [e1, abs_mul, hσ1, one_mul, abs_of_pos (tiny_pos.trans ht)]
  unfold purity
  rw [if_pos ht, e, div_self (tiny_pos.trans ht).ne']

/-- C210: a quadrupole of uniform strength, on a grid without cells on the axes, has that strength as projection. -/
theorem projection_exact (a : Axes) (s : Slice) (B : ℝ) (hne : ∀ i < a.nx, ∀ j < a.ny, a.x i * a.y j ≠ 0)
    (h : ∀ i < a.nx, ∀ j < a.ny, s.bz i j = B * sgn (a.x i * a.y j)) (ht : tiny < localL1 a s) : projection a s = B := by
  have e : signedSum a s = (window a s).card * B := by
    unfold signedSum
    rw [sum_congr rfl (g := fun _ => B), sum_const, nsmul_eq_mul]
    intro c hc
    have hm := mem_product.1 (mem_filter.1 hc).1
    rw [h _ (mem_range.1 hm.1) _ (mem_range.1 hm.2)]
    have := (sgn_sq _ (hne _ (mem_range.1 hm.1) _ (mem_range.1 hm.2))).1
    linear_combination B * this
  have z : ((window a s).card : ℝ) ≠ 0 := by
    intro hz
    have : window a s = ∅ := card_eq_zero.1 (by exact_mod_cast hz)
    unfold localL1 at ht
    rw [this, sum_empty] at ht
    linarith [tiny_pos]
  unfold projection
  rw [if_pos ht, e, mul_div_cancel_left₀ _ z]

theorem sgn_neg (v : ℝ) : sgn (-v) = -sgn v := by
  unfold sgn
  by_cases h1 : 0 < v
  · rw [if_pos h1, if_neg (by linarith), if_pos (by linarith)]
  · by_cases h2 : v < 0
    · rw [if_neg h1, if_pos h2, if_pos (by linarith)]; ring
    · rw [if_neg h1, if_neg h2, if_neg (by linarith), if_neg (by linarith)]; ring

/-- C210: a field symmetric about the column of the X-point (such as a pair of Biermann rings of equal sign, or a uniform field) on a symmetric axis has purity zero. -/
theorem purity_zero (a : Axes) (s : Slice) (hx : ∀ i < a.nx, a.x (a.nx - 1 - i) = -a.x i) (h : ∀ i < a.nx, ∀ j < a.ny, s.bz (a.nx - 1 - i) j = s.bz i j) :
    purity a s = 0 ∧ projection a s = 0 := by
  have e : signedSum a s = 0 := by
    have key : signedSum a s = -signedSum a s := by
      unfold signedSum
      rw [← sum_neg_distrib]
      refine Finset.sum_nbij' (fun c => (a.nx - 1 - c.1, c.2)) (fun c => (a.nx - 1 - c.1, c.2)) ?_ ?_ ?_ ?_ ?_
      · intro c hc
        simp only [window, mem_filter, mem_product, mem_range] at hc ⊢
        refine ⟨⟨by omega, hc.1.2⟩, ?_, hc.2.2⟩
        rw [hx _ hc.1.1, abs_neg]
        exact hc.2.1
      · intro c hc
        simp only [window, mem_filter, mem_product, mem_range] at hc ⊢
        refine ⟨⟨by omega, hc.1.2⟩, ?_, hc.2.2⟩
        rw [hx _ hc.1.1, abs_neg]
        exact hc.2.1
      · intro c hc
        simp only [window, mem_filter, mem_product, mem_range] at hc
        exact Prod.ext (by dsimp only; omega) rfl
      · intro c hc
        simp only [window, mem_filter, mem_product, mem_range] at hc
        exact Prod.ext (by dsimp only; omega) rfl
      · intro c hc
        simp only [window, mem_filter, mem_product, mem_range] at hc
        dsimp only
        rw [hx _ hc.1.1, h _ hc.1.1 _ hc.1.2, neg_mul, sgn_neg]
        ring
    linarith
  unfold purity projection
  rw [e]
  simp

/-! ### Failures -/

/-- C210 fails on a box that does not contain the origin: the X-point is moved to the middle of the box, the quadrupole is not. With all
coordinates positive a uniform field along z is a perfect quadrupole, and no cell above the sheet is ever looked at. -/
theorem quadrupole_offset_partial (a : Axes) (s : Slice) (c : ℝ) (hx : ∀ i < a.nx, 0 < a.x i) (hy : ∀ j < a.ny, 0 < a.y j)
    (hb : ∀ i j, s.bz i j = c) (hl : lower a ≠ []) (hu : upper a ≠ []) (ht : tiny < localL1 a s) :
    purity a s = 1 ∧ ∀ cell ∈ window a s, a.y cell.2 < centre a.ny a.y := by
  constructor
  · have e : |signedSum a s| = localL1 a s := by
      have e1 : ∀ cell ∈ window a s, s.bz cell.1 cell.2 * sgn (a.x cell.1 * a.y cell.2) = c := fun cell hc => by
        simp only [window, mem_filter, mem_product, mem_range] at hc
        have := mul_pos (hx _ hc.1.1) (hy _ hc.1.2)
        rw [hb]; unfold sgn; rw [if_pos this, mul_one]
      unfold signedSum localL1
      rw [sum_congr rfl e1]
      simp only [hb, sum_const, nsmul_eq_mul, abs_mul, Nat.abs_cast]
    unfold purity
    rw [if_pos ht, e, div_self (tiny_pos.trans ht).ne']
  · intro cell hc
    simp only [window, mem_filter, mem_product, mem_range] at hc
    have hp := (upstream_points a s hl hu).1
    have h1 : upstreamDistance a s ≤ a.y (lowerIy a s) := by
      unfold upstreamDistance
      exact (min_le_left _ _).trans (le_of_eq (abs_of_pos (hy _ hp.1)))
    exact ((le_abs_self _).trans hc.2.2).trans_lt (h1.trans_lt hp.2.1)

/-- C210 fails without inflow: when no slice of the run has any inflow, the normalisation of every valid slice is reported as valid, although no rate exists. -/
theorem no_inflow_partial (a : Axes) (run : List Slice) (h : ∀ s ∈ run, upstreamVn a s = 0) (s : Slice) (hs : s ∈ run) (hv : Valid a s) :
    RateValid a run s ∧ rate a run s = none := by
  have key : ∀ (l : List Slice), (∀ s ∈ l, upstreamVn a s = 0) → l.foldl (fun m s => max m (upstreamVn a s)) 0 = 0 := by
    intro l
    induction l with
    | nil => intro _; rfl
    | cons c l ih =>
      intro h
      rw [List.foldl_cons, h c List.mem_cons_self, max_self]
      exact ih fun s hs => h s (List.mem_cons_of_mem _ hs)
  refine ⟨⟨hv, ?_⟩, if_neg fun hc => ?_⟩
  · unfold peakVn; rw [key run h, h s hs]; norm_num
  · have := hc.2
    rw [h s hs, mul_zero] at this
    exact absurd this (not_lt.2 tiny_pos.le)

/-- C210 fails for runs with one cell along a direction: the diagnostics raise, after the run, before anything is written. -/
theorem one_cell_partial (a : Axes) (h : a.nx = 1 ∨ a.ny = 1) : ∃ m, accepts a = .error m := by
  unfold accepts
  split
  · exact ⟨_, rfl⟩
  · rw [if_pos (by omega)]
    exact ⟨_, rfl⟩

/-- The accepted boxes: two cells or more in x and cells on both sides of the centre in y. -/
theorem accepts_iff (a : Axes) : accepts a = .ok () ↔ 2 ≤ a.nx ∧ (∃ j < a.ny, a.y j < centre a.ny a.y) ∧ ∃ j < a.ny, centre a.ny a.y < a.y j := by
  have n1 : lower a ≠ [] ↔ ∃ j < a.ny, a.y j < centre a.ny a.y := by
    refine ⟨fun h => ?_, fun ⟨j, hj⟩ h => ?_⟩
    · obtain ⟨j, hj⟩ := List.exists_mem_of_ne_nil _ h
      exact ⟨j, (mem_lower a j).1 hj⟩
    · have := (mem_lower a j).2 hj
      rw [h] at this
      exact absurd this List.not_mem_nil
  have n2 : upper a ≠ [] ↔ ∃ j < a.ny, centre a.ny a.y < a.y j := by
    refine ⟨fun h => ?_, fun ⟨j, hj⟩ h => ?_⟩
    · obtain ⟨j, hj⟩ := List.exists_mem_of_ne_nil _ h
      exact ⟨j, (mem_upper a j).1 hj⟩
    · have := (mem_upper a j).2 hj
      rw [h] at this
      exact absurd this List.not_mem_nil
  unfold accepts
  by_cases h : lower a = [] ∨ upper a = []
  · rw [if_pos h]
    refine ⟨fun h => (by cases h), fun hh => ?_⟩
    rcases h with h | h
    · exact absurd h (n1.2 hh.2.1)
    · exact absurd h (n2.2 hh.2.2)
  · rw [if_neg h]
    push Not at h
    have g1 := n1.1 h.1
    have g2 := n2.1 h.2
    have hny : 2 ≤ a.ny := by
      obtain ⟨j, hj, h1⟩ := g1
      obtain ⟨j', hj', h2⟩ := g2
      by_contra hn
      have e1 : j = j' := by omega
      rw [e1] at h1
      exact absurd h1 (not_lt.2 h2.le)
    split
    · rename_i hh
      exact ⟨fun h => (by cases h), fun hc => by omega⟩
    · exact ⟨fun _ => ⟨by omega, g1, g2⟩, fun _ => rfl⟩

/-- Cells on both sides of the centre exist whenever the coordinates increase and there are three cells or more around the origin, or two or more away from it. -/
theorem accepts_usual (a : Axes) (hx : 2 ≤ a.nx) (hy : 2 ≤ a.ny) (h : a.y 0 < 0 ∧ 0 < a.y (a.ny - 1)) : accepts a = .ok () := by
  refine (accepts_iff a).2 ⟨hx, ⟨0, by omega, ?_⟩, ⟨a.ny - 1, by omega, ?_⟩⟩ <;>
  · unfold centre; rw [if_pos ⟨h.1.le, h.2.le⟩]
    first | exact h.1 | exact h.2

/-! ### A valid slice -/

/-- Five by five cells around the origin. -/
noncomputable def box5 : Axes := ⟨5, 5, fun i => (i : ℝ) - 2, fun j => (j : ℝ) - 2⟩

/-- An X-point: antiparallel fields and a saddle. -/
noncomputable def saddle : Slice :=
  { bx := fun _ j => (j : ℝ) - 2, by' := fun i _ => (i : ℝ) - 2, bz := fun i j => ((i : ℝ) - 2) * ((j : ℝ) - 2), ez := fun _ _ => 3,
    vy := fun _ j => 2 - (j : ℝ), jz := fun _ j => if j = 2 then 1 else 0, az := fun i j => quadratic 0 0 0 (-1) 0 1 ((i : ℝ) - 2) ((j : ℝ) - 2) }

theorem box5_ix : ix box5 = 2 ∧ iy box5 = 2 := by
  have c : centre 5 (fun i : ℕ => (i : ℝ) - 2) = 0 := by unfold centre; rw [if_pos]; norm_num
  have h := xpoint_cell 5 (fun i : ℕ => (i : ℝ) - 2) (by norm_num)
  have h1 := h.2.1 2 (by norm_num)
  rw [c] at h1
  norm_num at h1
  have h2 : ((nearest 5 fun i : ℕ => (i : ℝ) - 2 : ℕ) : ℝ) = 2 := by linarith
  have h3 : (nearest 5 fun i : ℕ => (i : ℝ) - 2) = 2 := by exact_mod_cast h2
  exact ⟨h3, h3⟩

theorem box5_spacing : spacing 5 (fun i : ℕ => (i : ℝ) - 2) = 1 := by
  unfold spacing
  norm_num [Finset.sum_range_succ]

theorem box5_lower : lower box5 = [0, 1] ∧ upper box5 = [3, 4] := by
  have c : centre 5 (fun i : ℕ => (i : ℝ) - 2) = 0 := by unfold centre; rw [if_pos]; norm_num
  have r : List.range 5 = [0, 1, 2, 3, 4] := rfl
  unfold lower upper box5
  simp only [c, r]
  constructor <;> simp [List.filter] <;> norm_num

theorem saddle_points : lowerIy box5 saddle = 0 ∧ upperIy box5 saddle = 4 := by
  unfold lowerIy upperIy
  rw [box5_lower.1, box5_lower.2, box5_ix.1]
  unfold argmax better saddle
  constructor <;> simp <;> norm_num

/-- The hypotheses of the theorems above are met by a saddle on five by five cells: it is valid, with a rate. -/
theorem saddle_valid : Valid box5 saddle ∧ rate box5 [saddle] saddle = some (3 / 4) := by
  have bl : bxLower box5 saddle = -2 := by unfold bxLower; rw [saddle_points.1]; simp [saddle]
  have bu : bxUpper box5 saddle = 2 := by unfold bxUpper; rw [saddle_points.2]; norm_num [saddle]
  have ht : tiny < 1 := by unfold tiny; norm_num
  have ub : upstreamBx box5 saddle = 2 := by unfold upstreamBx; rw [bl, bu]; norm_num
  have uv : upstreamVn box5 saddle = 2 := by
    unfold upstreamVn; rw [saddle_points.1, saddle_points.2]; norm_num [saddle]
  have hs : hessian box5 saddle < 0 := by
    rw [hessian_exact box5 saddle 0 0 0 (-1) 0 1]
    · norm_num
    · rw [box5_ix.1]; decide
    · rw [box5_ix.2]; decide
    · intro i; show (i : ℝ) - 2 = ((0 : ℕ) : ℝ) - 2 + i * spacing 5 (fun i : ℕ => (i : ℝ) - 2); rw [box5_spacing]; push_cast; ring
    · intro i; show (i : ℝ) - 2 = ((0 : ℕ) : ℝ) - 2 + i * spacing 5 (fun i : ℕ => (i : ℝ) - 2); rw [box5_spacing]; push_cast; ring
    · show spacing 5 (fun i : ℕ => (i : ℝ) - 2) ≠ 0; rw [box5_spacing]; norm_num
    · show spacing 5 (fun i : ℕ => (i : ℝ) - 2) ≠ 0; rw [box5_spacing]; norm_num
    · intro i j; rfl
  have hd : 0.25 ≤ dominance box5 saddle := by
    have hp : globalPeak box5 saddle = 1 := by
      refine le_antisymm ((peak_spec box5 saddle).2.2 1 (by norm_num) fun i _ j _ => ?_) ?_
      · simp only [saddle]; split <;> norm_num
      · have := (peak_spec box5 saddle).2.1 0 (by norm_num [box5]) 2 (by norm_num [box5])
        simpa [saddle] using this
    have hj : 2 ∈ sheetCells box5 saddle := by
      unfold sheetCells
      rw [mem_filter, mem_range]
      refine ⟨by decide, ?_⟩
      unfold fromSheet
      rw [box5_ix.2]
      simp only [sub_self, abs_zero]
      unfold sheetHalf
      refine le_trans ?_ (le_max_left _ _)
      show 0 ≤ 2 * spacing 5 (fun i : ℕ => (i : ℝ) - 2)
      rw [box5_spacing]; norm_num
    unfold dominance
    rw [hp, if_pos ht, div_one]
    have := (fold_max_ge (sheetCells box5 saddle) (fun j => |saddle.jz (ix box5) j|)).2 2 hj
    have e : |saddle.jz (ix box5) 2| = 1 := by simp [saddle]
    beta_reduce at this
    rw [e] at this
    linarith
  have hv : Valid box5 saddle := by
    refine ⟨by rw [bl, bu]; norm_num, ?_, ⟨0, ?_, by norm_num⟩, hs, hd⟩
    · unfold balance; rw [bl, bu, if_pos (by norm_num; linarith)]; norm_num
    · unfold nullRatio
      rw [ub, if_pos (by linarith), box5_ix.1, box5_ix.2]
      norm_num [saddle]
  refine ⟨hv, ?_⟩
  rw [rate_exists box5 [saddle] saddle hv (by simp) (by rw [ub, uv]; linarith), ub, uv]
  norm_num [saddle]

end Verif.Vfp2d.Recon

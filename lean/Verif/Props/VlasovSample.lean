import Verif.Props.VlasovSave

/-! C194: distributions saved on a coarser grid. -/
namespace Verif.VlasovSave
open Finset Verif.Spectral

/-- The first `n` points increase. -/
def Increasing (ax : ℕ → ℝ) (n : ℕ) : Prop := ∀ i j, i < j → j < n → ax i < ax j

theorem Increasing.le {ax : ℕ → ℝ} {n : ℕ} (h : Increasing ax n) {i j : ℕ} (hij : i ≤ j) (hj : j < n) : ax i ≤ ax j := by
  rcases hij.lt_or_eq with hl | rfl
  · exact (h i j hl hj).le
  · exact le_rfl

theorem mem_lower {ax : ℕ → ℝ} {n : ℕ} (h : Increasing ax n) (q : ℝ) (k : ℕ) (hk : k < n) :
    ax k ≤ q ↔ k < ((range n).filter fun k => ax k ≤ q).card := by
  set S := (range n).filter fun k => ax k ≤ q with hS
  have down : ∀ m ∈ S, ∀ l ≤ m, l ∈ S := fun m hm l hl => by
    rw [hS, mem_filter, mem_range] at hm ⊢
    exact ⟨by omega, (h.le hl hm.1).trans hm.2⟩
  constructor
  · intro hq
    have hm : k ∈ S := by rw [hS, mem_filter, mem_range]; exact ⟨hk, hq⟩
    have : range (k + 1) ⊆ S := fun l hl => down k hm l (by have := mem_range.1 hl; omega)
    have := card_le_card this
    rw [card_range] at this
    omega
  · intro hc
    by_contra hq
    have : S ⊆ range k := by
      intro m hm
      rw [mem_range]
      by_contra hlt
      have := down m hm k (by omega)
      rw [hS, mem_filter] at this
      exact hq this.2
    have := card_le_card this
    rw [card_range] at this
    omega

/-- C194: the point is bracketed by the neighbours used. -/
theorem locate_spec {ax : ℕ → ℝ} {n : ℕ} (h : Increasing ax n) (hn : 2 ≤ n) (q : ℝ) (h0 : ax 0 ≤ q) (h1 : q ≤ ax (n - 1)) :
    1 ≤ locate ax n q ∧ locate ax n q < n ∧ ax (locate ax n q - 1) ≤ q ∧ q ≤ ax (locate ax n q) := by
  unfold locate
  set c := ((range n).filter fun k => ax k ≤ q).card with hc
  have hcn : c ≤ n := by
    rw [hc]
    exact (card_filter_le _ _).trans (by rw [card_range])
  have c1 : 1 ≤ c := (mem_lower h q 0 (by omega)).1 h0
  rcases Nat.lt_or_ge c n with hlt | hge
  · have e : max 1 (min c (n - 1)) = c := by omega
    rw [e]
    refine ⟨c1, hlt, (mem_lower h q (c - 1) (by omega)).2 (by omega), ?_⟩
    by_contra hq
    have := (mem_lower h q c hlt).1 (by linarith)
    omega
  · have e : max 1 (min c (n - 1)) = n - 1 := by omega
    rw [e]
    refine ⟨by omega, by omega, ?_, h1⟩
    exact (mem_lower h q (n - 1 - 1) (by omega)).2 (by omega)

theorem weight_range {ax : ℕ → ℝ} {n : ℕ} (h : Increasing ax n) (hn : 2 ≤ n) (q : ℝ) (h0 : ax 0 ≤ q) (h1 : q ≤ ax (n - 1)) :
    0 ≤ weight ax n q ∧ weight ax n q ≤ 1 ∧
      (1 - weight ax n q) * ax (locate ax n q - 1) + weight ax n q * ax (locate ax n q) = q := by
  obtain ⟨a, b, c, d⟩ := locate_spec h hn q h0 h1
  have lt := h (locate ax n q - 1) (locate ax n q) (by omega) b
  unfold weight
  dsimp only
  generalize locate ax n q = i at *
  have pos : 0 < ax i - ax (i - 1) := by linarith
  refine ⟨div_nonneg (by linarith) pos.le, (div_le_one pos).2 (by linarith), ?_⟩
  field_simp
  ring

/-- C194: a sample has a value exactly if it lies between the first and last grid points. -/
theorem sample_defined (x : ℕ → ℝ) (nx : ℕ) (v : ℕ → ℝ) (nv : ℕ) (f : ℕ → ℕ → ℝ) (xq vq : ℝ) :
    (interp2 x nx v nv f xq vq).isSome ↔ (x 0 ≤ xq ∧ xq ≤ x (nx - 1)) ∧ v 0 ≤ vq ∧ vq ≤ v (nv - 1) := by
  unfold interp2
  split
  · next h =>
    simp only [Option.isSome_none, Bool.false_eq_true, false_iff]
    rintro ⟨⟨a, b⟩, c, d⟩
    rcases h with h | h | h | h <;> linarith
  · next h =>
    push Not at h
    simp only [Option.isSome_some, true_iff]
    exact ⟨⟨h.1, h.2.1⟩, h.2.2.1, h.2.2.2⟩

/-- The value of a sample inside. -/
theorem sample_value (x : ℕ → ℝ) (nx : ℕ) (v : ℕ → ℝ) (nv : ℕ) (f : ℕ → ℕ → ℝ) (xq vq : ℝ)
    (hx : x 0 ≤ xq ∧ xq ≤ x (nx - 1)) (hv : v 0 ≤ vq ∧ vq ≤ v (nv - 1)) :
    interp2 x nx v nv f xq vq = some (
      (1 - weight x nx xq) * ((1 - weight v nv vq) * f (locate x nx xq - 1) (locate v nv vq - 1) + weight v nv vq * f (locate x nx xq - 1) (locate v nv vq)) +
        weight x nx xq * ((1 - weight v nv vq) * f (locate x nx xq) (locate v nv vq - 1) + weight v nv vq * f (locate x nx xq) (locate v nv vq))) := by
  unfold interp2
  rw [if_neg]
  rintro (h | h | h | h)
  · linarith [hx.1]
  · linarith [hx.2]
  · linarith [hv.1]
  · linarith [hv.2]

/-- C194: a sample never leaves the range of the distribution: no new extrema, no negative values. -/
theorem sample_range {x : ℕ → ℝ} {nx : ℕ} {v : ℕ → ℝ} {nv : ℕ} (ix : Increasing x nx) (iv : Increasing v nv) (hnx : 2 ≤ nx) (hnv : 2 ≤ nv)
    (f : ℕ → ℕ → ℝ) (lo hi : ℝ) (hf : ∀ i < nx, ∀ j < nv, lo ≤ f i j ∧ f i j ≤ hi) (xq vq r : ℝ) (h : interp2 x nx v nv f xq vq = some r) :
    lo ≤ r ∧ r ≤ hi := by
  have hs := (sample_defined x nx v nv f xq vq).1 (by rw [h]; rfl)
  rw [sample_value x nx v nv f xq vq hs.1 hs.2] at h
  injection h with h
  obtain ⟨a1, a2, -, -⟩ := locate_spec ix hnx xq hs.1.1 hs.1.2
  obtain ⟨b1, b2, -, -⟩ := locate_spec iv hnv vq hs.2.1 hs.2.2
  obtain ⟨w0, w1, -⟩ := weight_range ix hnx xq hs.1.1 hs.1.2
  obtain ⟨u0, u1, -⟩ := weight_range iv hnv vq hs.2.1 hs.2.2
  have f00 := hf (locate x nx xq - 1) (by omega) (locate v nv vq - 1) (by omega)
  have f01 := hf (locate x nx xq - 1) (by omega) (locate v nv vq) b2
  have f10 := hf (locate x nx xq) a2 (locate v nv vq - 1) (by omega)
  have f11 := hf (locate x nx xq) a2 (locate v nv vq) b2
  rw [← h]
  generalize weight x nx xq = w at *
  generalize weight v nv vq = u at *
  generalize f (locate x nx xq - 1) (locate v nv vq - 1) = p at *
  generalize f (locate x nx xq - 1) (locate v nv vq) = q at *
  generalize f (locate x nx xq) (locate v nv vq - 1) = s at *
  generalize f (locate x nx xq) (locate v nv vq) = t at *
  have conv : ∀ a b w : ℝ, 0 ≤ w → w ≤ 1 → lo ≤ a → a ≤ hi → lo ≤ b → b ≤ hi → lo ≤ (1 - w) * a + w * b ∧ (1 - w) * a + w * b ≤ hi := by
    intro a b w h0 h1 ha ha' hb hb'
    constructor <;> nlinarith
  obtain ⟨l1, l2⟩ := conv p q u u0 u1 f00.1 f00.2 f01.1 f01.2
  obtain ⟨m1, m2⟩ := conv s t u u0 u1 f10.1 f10.2 f11.1 f11.2
  exact conv _ _ w w0 w1 l1 l2 m1 m2

/-- C194: samples of a bilinear distribution are exact. -/
theorem sample_bilinear {x : ℕ → ℝ} {nx : ℕ} {v : ℕ → ℝ} {nv : ℕ} (ix : Increasing x nx) (iv : Increasing v nv) (hnx : 2 ≤ nx) (hnv : 2 ≤ nv)
    (a b c d : ℝ) (f : ℕ → ℕ → ℝ) (hf : ∀ i j, f i j = a + b * x i + c * v j + d * (x i * v j)) (xq vq : ℝ)
    (hx : x 0 ≤ xq ∧ xq ≤ x (nx - 1)) (hv : v 0 ≤ vq ∧ vq ≤ v (nv - 1)) :
    interp2 x nx v nv f xq vq = some (a + b * xq + c * vq + d * (xq * vq)) := by
  rw [sample_value x nx v nv f xq vq hx hv]
  congr 1
  obtain ⟨-, -, ex⟩ := weight_range ix hnx xq hx.1 hx.2
  obtain ⟨-, -, ev⟩ := weight_range iv hnv vq hv.1 hv.2
  rw [hf, hf, hf, hf]
  generalize weight x nx xq = w at *
  generalize weight v nv vq = u at *
  generalize x (locate x nx xq - 1) = x0 at *
  generalize x (locate x nx xq) = x1 at *
  generalize v (locate v nv vq - 1) = v0 at *
  generalize v (locate v nv vq) = v1 at *
  rw [← ex, ← ev]
  ring

/-- At a grid point the weight points to it. -/
theorem weight_node {ax : ℕ → ℝ} {n : ℕ} (h : Increasing ax n) (hn : 2 ≤ n) (k : ℕ) (hk : k < n) :
    (locate ax n (ax k) = k + 1 ∧ weight ax n (ax k) = 0) ∨ (locate ax n (ax k) = k ∧ weight ax n (ax k) = 1) := by
  obtain ⟨a, b, c, d⟩ := locate_spec h hn (ax k) (h.le (Nat.zero_le k) hk) (h.le (by omega) (by omega))
  have hle : locate ax n (ax k) ≤ k + 1 := by
    by_contra hc
    have := h k (locate ax n (ax k) - 1) (by omega) (by omega)
    linarith
  have hge : k ≤ locate ax n (ax k) := by
    by_contra hc
    have := h (locate ax n (ax k)) k (by omega) hk
    linarith
  rcases Nat.lt_or_ge k (locate ax n (ax k)) with hl | hl
  · have e : locate ax n (ax k) = k + 1 := by omega
    left
    refine ⟨e, ?_⟩
    unfold weight
    dsimp only
    rw [e, Nat.add_sub_cancel, sub_self, zero_div]
  · have e : locate ax n (ax k) = k := by omega
    right
    refine ⟨e, ?_⟩
    unfold weight
    dsimp only
    rw [e]
    have := h (k - 1) k (by omega) hk
    exact div_self (by linarith)

/-- C194: at the grid points the samples are the distribution itself. -/
theorem sample_node {x : ℕ → ℝ} {nx : ℕ} {v : ℕ → ℝ} {nv : ℕ} (ix : Increasing x nx) (iv : Increasing v nv) (hnx : 2 ≤ nx) (hnv : 2 ≤ nv)
    (f : ℕ → ℕ → ℝ) (i j : ℕ) (hi : i < nx) (hj : j < nv) : interp2 x nx v nv f (x i) (v j) = some (f i j) := by
  rw [sample_value x nx v nv f _ _ ⟨ix.le (Nat.zero_le i) hi, ix.le (by omega) (by omega)⟩ ⟨iv.le (Nat.zero_le j) hj, iv.le (by omega) (by omega)⟩]
  congr 1
  rcases weight_node ix hnx i hi with ⟨e1, e2⟩ | ⟨e1, e2⟩ <;> rcases weight_node iv hnv j hj with ⟨g1, g2⟩ | ⟨g1, g2⟩ <;>
    rw [e1, e2, g1, g2] <;> simp

/-! ### The axes -/

theorem cells_increasing (lo hi : ℝ) (h : lo < hi) (n : ℕ) : Increasing (VlasovInit.vax lo hi n) n := by
  intro i j hij hj
  rw [VlasovInit.vax_eq _ _ _ _ hj, VlasovInit.vax_eq _ _ _ _ (by omega)]
  have := VlasovInit.dv_pos lo hi h n (by omega)
  have hc : (i : ℝ) < j := by exact_mod_cast hij
  nlinarith

/-- C194: the positions of a save are the centres of its cells; velocities and wave numbers are spread from end to end. -/
theorem save_axes (lo hi : ℝ) (n : ℕ) (i : ℕ) :
    saveAxis true lo hi n i = VlasovInit.vax lo hi n i ∧ (2 ≤ n → saveAxis false lo hi n 0 = lo ∧ saveAxis false lo hi n (n - 1) = hi) := by
  refine ⟨rfl, fun hn => ?_⟩
  have hn' : ¬ n ≤ 1 := by omega
  have h1 : (n : ℝ) - 1 ≠ 0 := by
    have : (2 : ℝ) ≤ n := by exact_mod_cast hn
    intro hc; linarith
  unfold saveAxis Grid.linspaceAt
  simp only [hn', if_false]
  constructor
  · simp
  · rw [Nat.cast_sub (by omega)]
    push_cast
    field_simp
    simp

/-- C194: positions saved over the whole box lie inside the grid exactly if the save is not finer than the grid. -/
theorem positions_inside (lo hi : ℝ) (h : lo < hi) (nx n : ℕ) (hnx : 0 < nx) (hn : 0 < n) :
    (∀ i < n, VlasovInit.vax lo hi nx 0 ≤ saveAxis true lo hi n i ∧ saveAxis true lo hi n i ≤ VlasovInit.vax lo hi nx (nx - 1)) ↔ n ≤ nx := by
  have px : (0 : ℝ) < nx := by exact_mod_cast hnx
  have pn : (0 : ℝ) < n := by exact_mod_cast hn
  have first : VlasovInit.vax lo hi nx 0 = lo + 1 / 2 * ((hi - lo) / nx) := by
    rw [VlasovInit.vax_eq _ _ _ _ hnx]; unfold VlasovInit.dv; push_cast; ring
  have last : VlasovInit.vax lo hi nx (nx - 1) = hi - 1 / 2 * ((hi - lo) / nx) := by
    have := (VlasovInit.grid_ends lo hi nx hnx).2
    unfold VlasovInit.dv at this
    linarith
  constructor
  · intro hall
    have h0 := (hall 0 hn).1
    rw [first, (save_axes lo hi n 0).1, VlasovInit.vax_eq _ _ _ _ hn] at h0
    unfold VlasovInit.dv at h0
    have : (hi - lo) / nx ≤ (hi - lo) / n := by push_cast at h0; linarith
    rw [div_le_div_iff₀ px pn] at this
    have : (n : ℝ) ≤ nx := by nlinarith
    exact_mod_cast this
  · intro hle i hi'
    have hle' : (n : ℝ) ≤ nx := by exact_mod_cast hle
    have hw : (hi - lo) / nx ≤ (hi - lo) / n := div_le_div_of_nonneg_left (by linarith) pn hle'
    have f0 : VlasovInit.vax lo hi n 0 = lo + 1 / 2 * ((hi - lo) / n) := by
      rw [VlasovInit.vax_eq _ _ _ _ hn]; unfold VlasovInit.dv; push_cast; ring
    have l0 : VlasovInit.vax lo hi n (n - 1) = hi - 1 / 2 * ((hi - lo) / n) := by
      have := (VlasovInit.grid_ends lo hi n hn).2
      unfold VlasovInit.dv at this
      linarith
    have inc := cells_increasing lo hi h n
    rw [first, last, (save_axes lo hi n i).1]
    have a := inc.le (Nat.zero_le i) hi'
    have b := inc.le (show i ≤ n - 1 by omega) (by omega)
    constructor <;> linarith

/-- C194: a save on the cells of the grid and the velocities of the grid is an exact copy. -/
theorem sample_copy (lo hi vmin vmax : ℝ) (hx : lo < hi) (hv : vmin < vmax) (nx nv : ℕ) (hnx : 2 ≤ nx) (hnv : 2 ≤ nv) (f : ℕ → ℕ → ℝ) (i j : ℕ)
    (hi' : i < nx) (hj : j < nv) :
    interp2 (VlasovInit.vax lo hi nx) nx (VlasovInit.vax vmin vmax nv) nv f (saveAxis true lo hi nx i)
      (saveAxis false (VlasovInit.vax vmin vmax nv 0) (VlasovInit.vax vmin vmax nv (nv - 1)) nv j) = some (f i j) := by
  have e : saveAxis false (VlasovInit.vax vmin vmax nv 0) (VlasovInit.vax vmin vmax nv (nv - 1)) nv j = VlasovInit.vax vmin vmax nv j := by
    have hn' : ¬ nv ≤ 1 := by omega
    have h1 : (nv : ℝ) - 1 ≠ 0 := by
      have : (2 : ℝ) ≤ nv := by exact_mod_cast hnv
      intro hc; linarith
    rw [VlasovInit.vax_eq _ _ _ _ hj, VlasovInit.vax_eq _ _ _ _ (show 0 < nv by omega), VlasovInit.vax_eq _ _ _ _ (show nv - 1 < nv by omega)]
    unfold saveAxis Grid.linspaceAt
    simp only [hn', if_false]
    rw [Nat.cast_sub (by omega)]
    push_cast
    field_simp
    simp
    ring
  rw [(save_axes lo hi nx i).1, e]
  exact sample_node (cells_increasing lo hi hx nx) (cells_increasing vmin vmax hv nv) hnx hnv f i j hi' hj

/-- A save over the whole velocity range has no value at its first and last velocity: they lie half a cell outside the grid. -/
theorem velocity_ends_missing_partial (x : ℕ → ℝ) (nx : ℕ) (vmin vmax : ℝ) (hv : vmin < vmax) (nv : ℕ) (hnv : 0 < nv) (f : ℕ → ℕ → ℝ) (xq : ℝ)
    (n : ℕ) (hn : 2 ≤ n) :
    interp2 x nx (VlasovInit.vax vmin vmax nv) nv f xq (saveAxis false vmin vmax n 0) = none ∧
      interp2 x nx (VlasovInit.vax vmin vmax nv) nv f xq (saveAxis false vmin vmax n (n - 1)) = none := by
  obtain ⟨e0, e1⟩ := (save_axes vmin vmax n 0).2 hn
  have hd := VlasovInit.dv_pos vmin vmax hv nv hnv
  obtain ⟨g0, g1⟩ := VlasovInit.grid_ends vmin vmax nv hnv
  constructor
  · rw [← Option.not_isSome_iff_eq_none, sample_defined, e0]
    rintro ⟨-, h, -⟩
    linarith
  · rw [← Option.not_isSome_iff_eq_none, sample_defined, e1]
    rintro ⟨-, -, h⟩
    linarith

/-- C194 in full would be that every sample of a save over the box and the velocity range has a value; what holds is that every
sample between the first and last velocity of the grid has, and none of the others. -/
theorem samples_partial (lo hi vmin vmax : ℝ) (hx : lo < hi) (nx nv n : ℕ) (hnx : 0 < nx) (hn : 0 < n) (hle : n ≤ nx)
    (f : ℕ → ℕ → ℝ) (i : ℕ) (hi' : i < n) (vq : ℝ) :
    (interp2 (VlasovInit.vax lo hi nx) nx (VlasovInit.vax vmin vmax nv) nv f (saveAxis true lo hi n i) vq).isSome ↔
      VlasovInit.vax vmin vmax nv 0 ≤ vq ∧ vq ≤ VlasovInit.vax vmin vmax nv (nv - 1) := by
  rw [sample_defined]
  exact ⟨fun h => h.2, fun h => ⟨(positions_inside lo hi hx nx n hnx hn).2 hle i hi', h⟩⟩

/-- A case: two cells, two velocities. -/
example (f : ℕ → ℕ → ℝ) : interp2 (VlasovInit.vax 0 4 2) 2 (VlasovInit.vax (-2) 2 2) 2 f 1 1 = some (f 0 1) ∧
    interp2 (VlasovInit.vax 0 4 2) 2 (VlasovInit.vax (-2) 2 2) 2 f 1 2 = none := by
  have e0 : VlasovInit.vax 0 4 2 0 = 1 := by rw [VlasovInit.vax_eq _ _ _ _ (by norm_num)]; unfold VlasovInit.dv; norm_num
  have e1 : VlasovInit.vax (-2) 2 2 1 = 1 := by rw [VlasovInit.vax_eq _ _ _ _ (by norm_num)]; unfold VlasovInit.dv; norm_num
  constructor
  · have := sample_node (cells_increasing 0 4 (by norm_num) 2) (cells_increasing (-2) 2 (by norm_num) 2) le_rfl le_rfl f 0 1 (by norm_num) (by norm_num)
    rw [e0, e1] at this
    exact this
  · rw [← Option.not_isSome_iff_eq_none, sample_defined]
    rintro ⟨-, -, h⟩
    rw [show 2 - 1 = 1 from rfl, e1] at h
    norm_num at h

end Verif.VlasovSave

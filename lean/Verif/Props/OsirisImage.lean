import Verif.Model.OsirisPlot
import Mathlib.Algebra.Order.BigOperators.Group.Finset
import Mathlib.Algebra.Order.Floor.Ring
import Mathlib.Algebra.BigOperators.Intervals
import Mathlib.Tactic.FieldSimp
import Mathlib.Tactic.Linarith
import Mathlib.Tactic.Positivity
import Mathlib.Tactic.Ring

/-!
C197: images are decimated without distortion.  C198: the time slices of the panels.  C199: cropping to the box.
-/
namespace Verif.OsirisPlot
open Finset

/-! ### C197 -/

theorem factor_pos (n : ℕ) (t : ℤ) : 1 ≤ factor n t := le_max_left _ _

/-- C197: the size of the drawn image along one axis: never more than the data, at least the target (or all the data if
they are fewer), and less than twice the target. -/
theorem drawn_size (n : ℕ) (t : ℕ) (ht : 1 ≤ t) :
    n / factor n t ≤ n ∧ min n t ≤ n / factor n t ∧ n / factor n t < 2 * t ∧ (n ≤ t → n / factor n t = n) := by
  have e : (max (t : ℤ) 1).toNat = t := by omega
  unfold factor
  rw [e]
  have hd := Nat.div_add_mod n t
  have hm := Nat.mod_lt n (show 0 < t by omega)
  rcases Nat.lt_or_ge n t with h | h
  · have h0 : n / t = 0 := Nat.div_eq_of_lt h
    rw [h0, show max 1 0 = 1 from rfl, Nat.div_one]
    omega
  · have h1 : 1 ≤ n / t := Nat.div_pos h (by omega)
    rw [max_eq_right h1]
    refine ⟨Nat.div_le_self _ _, ?_, ?_, ?_⟩
    · rw [min_eq_right h, Nat.le_div_iff_mul_le (by omega)]
      exact Nat.mul_div_le n t
    · rw [Nat.div_lt_iff_lt_mul (by omega)]
      nlinarith
    · intro h'
      have : n = t := le_antisymm h' h
      subst this
      rw [Nat.div_self (by omega), Nat.div_one]

/-- A target below one counts as one. -/
theorem factor_small (n : ℕ) (t : ℤ) (ht : t ≤ 1) : factor n t = factor n (1 : ℕ) := by
  unfold factor
  rw [max_eq_right ht]
  rfl

section
variable {K : Type} [Field K]

/-- C197: data that already fit are drawn as they are. -/
theorem untouched (m : Mesh K) (tr tc : ℕ) (hr : m.rows < 2 * tr) (hc : m.cols < 2 * tc) : downsample m tr tc = m := by
  have aux : ∀ n t : ℕ, n < 2 * t → factor n t = 1 := by
    intro n t h
    unfold factor
    have e : (max (t : ℤ) 1).toNat = t := by omega
    rw [e]
    have : n / t < 2 := by rw [Nat.div_lt_iff_lt_mul (by omega)]; exact h
    omega
  unfold downsample
  simp only [aux _ _ hr, aux _ _ hc, and_self, if_true]

theorem blockMean_one (x : ℕ → K) : blockMean 1 x = x := by
  funext i
  unfold blockMean
  simp

theorem blockMean2_one (x : ℕ → ℕ → K) : blockMean2 1 1 x = x := by
  funext i j
  unfold blockMean2
  simp

/-- The result in one form, whether anything had to be averaged or not. -/
theorem downsample_eq (m : Mesh K) (tr tc : ℤ) : downsample m tr tc =
    ⟨m.rows / factor m.rows tr, m.cols / factor m.cols tc, blockMean2 (factor m.rows tr) (factor m.cols tc) m.data,
      blockMean (factor m.rows tr) m.r, blockMean (factor m.cols tc) m.c⟩ := by
  unfold downsample
  dsimp only
  split_ifs with h
  · rw [h.1, h.2, blockMean_one, blockMean_one, blockMean2_one, Nat.div_one, Nat.div_one]
  · rfl

theorem sum_blocks (n f : ℕ) (x : ℕ → K) : ∑ i ∈ range n, ∑ a ∈ range f, x (i * f + a) = ∑ k ∈ range (n * f), x k := by
  induction n with
  | zero => simp
  | succ n ih => rw [sum_range_succ, ih, Nat.succ_mul, sum_range_add]

/-- The cells that are used: whole blocks. -/
def kept (n : ℕ) (t : ℤ) : ℕ := n / factor n t * factor n t

/-- C197: the mean of the image is the mean of the data it stands for, and fewer cells than one block are left out at the
end of each axis. -/
theorem mean_kept [CharZero K] (m : Mesh K) (tr tc : ℤ) :
    (∑ i ∈ range (downsample m tr tc).rows, ∑ j ∈ range (downsample m tr tc).cols, (downsample m tr tc).data i j)
        * ((factor m.rows tr : K) * (factor m.cols tc : K))
      = ∑ i ∈ range (kept m.rows tr), ∑ j ∈ range (kept m.cols tc), m.data i j := by
  have h1 : (factor m.rows tr : K) ≠ 0 := Nat.cast_ne_zero.2 (by have := factor_pos m.rows tr; omega)
  have h2 : (factor m.cols tc : K) ≠ 0 := Nat.cast_ne_zero.2 (by have := factor_pos m.cols tc; omega)
  rw [downsample_eq]
  dsimp only
  unfold kept
  rw [← sum_blocks]
  simp only [← sum_blocks (m.cols / factor m.cols tc)]
  simp only [sum_mul]
  refine sum_congr rfl fun i _ => ?_
  rw [sum_comm]
  refine sum_congr rfl fun j _ => ?_
  unfold blockMean2
  rw [div_mul_cancel₀ _ (mul_ne_zero h1 h2)]

theorem few_dropped (n : ℕ) (t : ℤ) : kept n t ≤ n ∧ n - kept n t < factor n t := by
  have := Nat.div_add_mod n (factor n t)
  have h2 := Nat.mod_lt n (factor_pos n t)
  unfold kept
  have e : n / factor n t * factor n t = factor n t * (n / factor n t) := Nat.mul_comm _ _
  omega

/-- C197: an evenly spaced axis stays evenly spaced and every coordinate is the centre of its block. -/
theorem centres [CharZero K] (f : ℕ) (hf : 1 ≤ f) (x0 d : K) (i : ℕ) :
    blockMean f (fun k => x0 + (k : K) * d) i = ((x0 + ((i * f : ℕ) : K) * d) + (x0 + ((i * f + (f - 1) : ℕ) : K) * d)) / 2 := by
  have hf0 : (f : K) ≠ 0 := Nat.cast_ne_zero.2 (by omega)
  unfold blockMean
  have h : ∀ g : ℕ, 2 * ∑ a ∈ range g, (x0 + ((i * f + a : ℕ) : K) * d) = (g : K) * (2 * x0 + (2 * ((i * f : ℕ) : K) + ((g : K) - 1)) * d) := by
    intro g
    induction g with
    | zero => simp
    | succ g ih => rw [sum_range_succ, mul_add, ih]; push_cast; ring
  have h2 := h f
  have e : ((i * f + (f - 1) : ℕ) : K) = ((i * f : ℕ) : K) + ((f : K) - 1) := by
    rw [Nat.cast_add, Nat.cast_sub hf]; simp
  rw [e]
  have h2' : ∑ a ∈ range f, (x0 + ((i * f + a : ℕ) : K) * d) = (f : K) * (2 * x0 + (2 * ((i * f : ℕ) : K) + ((f : K) - 1)) * d) / 2 := by
    rw [← h2]; ring
  rw [h2']
  field_simp
  ring

/-- C197: a uniform image is drawn uniform. -/
theorem uniform_kept [CharZero K] (m : Mesh K) (tr tc : ℤ) (v : K) (h : ∀ i j, m.data i j = v) (i j : ℕ) : (downsample m tr tc).data i j = v := by
  have h1 : (factor m.rows tr : K) ≠ 0 := Nat.cast_ne_zero.2 (by have := factor_pos m.rows tr; omega)
  have h2 : (factor m.cols tc : K) ≠ 0 := Nat.cast_ne_zero.2 (by have := factor_pos m.cols tc; omega)
  rw [downsample_eq]
  dsimp only
  unfold blockMean2
  simp only [h, sum_const, card_range, nsmul_eq_mul]
  field_simp

/-- C197: the averages are linear in the data. -/
theorem linear (fr fc : ℕ) (a b : K) (x y : ℕ → ℕ → K) (i j : ℕ) :
    blockMean2 fr fc (fun i j => a * x i j + b * y i j) i j = a * blockMean2 fr fc x i j + b * blockMean2 fr fc y i j := by
  unfold blockMean2
  simp only [sum_add_distrib, ← mul_sum]
  ring

end

/-- C197: a drawn cell lies between the bounds of the data of its own block, wherever the other data are. -/
theorem within_block {K : Type} [Field K] [LinearOrder K] [IsStrictOrderedRing K] (m : Mesh K) (tr tc : ℤ) (i j : ℕ) (lo hi : K)
    (hi' : i < (downsample m tr tc).rows) (hj' : j < (downsample m tr tc).cols)
    (h : ∀ a < m.rows, ∀ b < m.cols, a / factor m.rows tr = i → b / factor m.cols tc = j → lo ≤ m.data a b ∧ m.data a b ≤ hi) :
    lo ≤ (downsample m tr tc).data i j ∧ (downsample m tr tc).data i j ≤ hi := by
  have h1 := factor_pos m.rows tr
  have h2 := factor_pos m.cols tc
  rw [downsample_eq] at hi' hj' ⊢
  dsimp only at hi' hj' ⊢
  generalize factor m.rows tr = fr at *
  generalize factor m.cols tc = fc at *
  have p1 : (0 : K) < fr := Nat.cast_pos.2 (by omega)
  have p2 : (0 : K) < fc := Nat.cast_pos.2 (by omega)
  have key : ∀ a ∈ range fr, ∀ b ∈ range fc, lo ≤ m.data (i * fr + a) (j * fc + b) ∧ m.data (i * fr + a) (j * fc + b) ≤ hi := by
    intro a ha b hb
    have ha := mem_range.1 ha
    have hb := mem_range.1 hb
    have q : ∀ n f i a : ℕ, i < n / f → a < f → i * f + a < n ∧ (i * f + a) / f = i := by
      intro n f i a h ha
      have : (i + 1) * f ≤ n := (Nat.le_div_iff_mul_le (by omega)).1 h
      refine ⟨by rw [Nat.succ_mul] at this; omega, ?_⟩
      rw [Nat.mul_comm, Nat.mul_add_div (by omega), Nat.div_eq_of_lt ha, Nat.add_zero]
    exact h _ (q _ _ _ _ hi' ha).1 _ (q _ _ _ _ hj' hb).1 (q _ _ _ _ hi' ha).2 (q _ _ _ _ hj' hb).2
  have cnt : ∀ v : K, ∑ _a ∈ range fr, ∑ _b ∈ range fc, v = v * ((fr : K) * (fc : K)) := fun v => by
    simp only [sum_const, card_range, nsmul_eq_mul]; ring
  unfold blockMean2
  rw [le_div_iff₀ (mul_pos p1 p2), div_le_iff₀ (mul_pos p1 p2), ← cnt, ← cnt]
  exact ⟨sum_le_sum fun a ha => sum_le_sum fun b hb => (key a ha b hb).1, sum_le_sum fun a ha => sum_le_sum fun b hb => (key a ha b hb).2⟩

/-- C197: the requested number of cells gives every visible pixel its `oversample` cells unless the cap forbids it, and
is always between one and the cap. -/
theorem pixels_covered (size dpi o vis : ℝ) (cap : ℤ) (hcap : 1 ≤ cap) (hs : 0 ≤ size * dpi * o) (hv : 0 < vis) :
    1 ≤ renderCells size dpi o vis cap ∧ renderCells size dpi o vis cap ≤ cap
      ∧ (renderCells size dpi o vis cap < cap → 1 / 1000 ≤ vis → size * dpi * o ≤ renderCells size dpi o vis cap * vis) := by
  unfold renderCells
  refine ⟨le_min (le_max_right _ _) hcap, min_le_right _ _, ?_⟩
  intro hlt h1
  rw [max_eq_left h1] at hlt ⊢
  have : (⌈size * dpi * o / vis⌉ : ℤ) ≤ min (max ⌈size * dpi * o / vis⌉ 1) cap := by
    rcases min_lt_iff.1 hlt with h | h
    · exact le_min (le_max_left _ _) (le_trans (le_max_left _ _) (le_of_lt h))
    · exact absurd h (lt_irrefl _)
  have h2 : size * dpi * o / vis ≤ ((min (max ⌈size * dpi * o / vis⌉ 1) cap : ℤ) : ℝ) := le_trans (Int.le_ceil _) (by exact_mod_cast this)
  rwa [div_le_iff₀ hv] at h2

/-- 7 columns drawn in 3: blocks of two, the last column left out. -/
example : (downsample (K := ℚ) ⟨1, 7, fun _ j => j, fun _ => 0, fun j => j⟩ 1 3).cols = 3 ∧
    (downsample (K := ℚ) ⟨1, 7, fun _ j => j, fun _ => 0, fun j => j⟩ 1 3).data 0 1 = 5 / 2 := by
  constructor
  · rfl
  · rw [downsample_eq]
    have e : factor 1 1 = 1 ∧ factor 7 3 = 2 := by decide
    dsimp only
    rw [e.1, e.2]
    norm_num [blockMean2, sum_range_succ]

/-! ### C198 -/

theorem mem_rangeStep {n s k : ℕ} (hs : 1 ≤ s) : k ∈ rangeStep n s ↔ s ∣ k ∧ k < n := by
  unfold rangeStep
  simp only [List.mem_map, List.mem_range]
  constructor
  · rintro ⟨a, ha, rfl⟩
    refine ⟨⟨a, by ring⟩, ?_⟩
    have := (Nat.lt_div_iff_mul_lt (show 0 < s by omega)).1 ha
    have h2 : a * s = s * a := Nat.mul_comm _ _
    omega
  · rintro ⟨⟨a, rfl⟩, h⟩
    refine ⟨a, (Nat.lt_div_iff_mul_lt (show 0 < s by omega)).2 ?_, by ring⟩
    have h2 : a * s = s * a := Nat.mul_comm _ _
    omega

theorem rangeStep_sorted {n s : ℕ} (hs : 1 ≤ s) : (rangeStep n s).Pairwise (· < ·) := by
  unfold rangeStep
  rw [List.pairwise_map]
  exact List.pairwise_lt_range.imp fun h => Nat.mul_lt_mul_of_pos_right h (by omega)

/-- The spacing of the panels. -/
def stride (n panels : ℕ) : ℕ := max 1 (n / panels)

theorem evolution_ok {n p : ℕ} (hp : 1 ≤ p) : ∃ l, evolutionIdx n p = some l :=
  ⟨_, by rw [evolutionIdx, if_neg (by omega)]⟩

theorem evolution_mem {n p : ℕ} {l : List ℕ} (hn : 1 ≤ n) (h : evolutionIdx n p = some l) (k : ℕ) :
    k ∈ l ↔ k < n ∧ (stride n p ∣ k ∨ k = n - 1) := by
  unfold evolutionIdx at h
  split at h
  · cases h
  · have hs : 1 ≤ max 1 (n / p) := le_max_left _ _
    cases h
    unfold stride
    split_ifs with hm
    · rw [mem_rangeStep hs] at hm ⊢
      constructor
      · rintro ⟨a, b⟩; exact ⟨b, .inl a⟩
      · rintro ⟨a, b | b⟩
        · exact ⟨b, a⟩
        · rw [b]; exact hm
    · rw [List.mem_append, mem_rangeStep hs, List.mem_singleton]
      constructor
      · rintro (⟨a, b⟩ | a)
        · exact ⟨b, .inl a⟩
        · exact ⟨by omega, .inr a⟩
      · rintro ⟨a, b | b⟩
        · exact .inl ⟨b, a⟩
        · exact .inr b

theorem evolution_sorted {n p : ℕ} {l : List ℕ} (hn : 1 ≤ n) (h : evolutionIdx n p = some l) : l.Pairwise (· < ·) := by
  unfold evolutionIdx at h
  split at h
  · cases h
  · have hs : 1 ≤ max 1 (n / p) := le_max_left _ _
    cases h
    split_ifs with hm
    · exact rangeStep_sorted hs
    · rw [List.pairwise_append]
      refine ⟨rangeStep_sorted hs, List.pairwise_singleton _ _, ?_⟩
      intro a ha b hb
      rw [List.mem_singleton] at hb
      have h1 := ((mem_rangeStep hs).1 ha).2
      have h2 : a ≠ n - 1 := by rintro rfl; exact hm ha
      omega

/-- C198: the panels are distinct times of the series in order, the first and the last among them, evenly spaced up to
the last one, and no time of the series is further than one spacing from the panel before it. -/
theorem panels_cover {n p : ℕ} {l : List ℕ} (hn : 1 ≤ n) (h : evolutionIdx n p = some l) :
    l.Pairwise (· < ·) ∧ (∀ k ∈ l, k < n) ∧ 0 ∈ l ∧ n - 1 ∈ l ∧ (∀ k < n, ∃ a ∈ l, a ≤ k ∧ k < a + stride n p) := by
  have hs : 1 ≤ stride n p := le_max_left _ _
  refine ⟨evolution_sorted hn h, fun k hk => ((evolution_mem hn h k).1 hk).1, (evolution_mem hn h 0).2 ⟨hn, .inl (dvd_zero _)⟩,
    (evolution_mem hn h _).2 ⟨by omega, .inr rfl⟩, ?_⟩
  intro k hk
  have hd := Nat.div_add_mod k (stride n p)
  have hm := Nat.mod_lt k hs
  refine ⟨stride n p * (k / stride n p), (evolution_mem hn h _).2 ⟨by omega, .inl (dvd_mul_right _ _)⟩, by omega, by omega⟩

theorem rangeStep_length (n s : ℕ) : (rangeStep n s).length = (n + s - 1) / s := by
  unfold rangeStep; rw [List.length_map, List.length_range]

theorem evolution_length {n p : ℕ} {l : List ℕ} (hn : 1 ≤ n) (hp : 1 ≤ p) (h : evolutionIdx n p = some l) :
    min n p ≤ l.length ∧ l.length ≤ 2 * p ∧ (p ≠ 1 → l.length < 2 * p) := by
  have h0 := h
  unfold evolutionIdx at h
  rw [if_neg (by omega)] at h
  have hs : 1 ≤ max 1 (n / p) := le_max_left _ _
  have hd := Nat.div_add_mod n p
  have hmod := Nat.mod_lt n (show 0 < p by omega)
  obtain ⟨s, hseq⟩ : ∃ s, s = max 1 (n / p) := ⟨_, rfl⟩
  rw [← hseq] at h hs
  have hlen : (rangeStep n s).length = (n + s - 1) / s := rangeStep_length n s
  -- lower bound
  have hlow : min n p ≤ (n + s - 1) / s := by
    rw [Nat.le_div_iff_mul_le (by omega)]
    rcases Nat.lt_or_ge n p with hnp | hnp
    · have : n / p = 0 := Nat.div_eq_of_lt hnp
      rw [this] at hseq
      have : s = 1 := hseq
      subst this
      rw [min_eq_left (le_of_lt hnp)]; omega
    · have h1 : 1 ≤ n / p := Nat.div_pos hnp (by omega)
      rw [max_eq_right h1] at hseq
      rw [min_eq_right hnp, hseq]
      have := Nat.mul_div_le n p
      omega
  -- upper bounds
  have hup1 : s = 1 → n < 2 * p := by
    intro h1
    have : n / p ≤ 1 := by
      have := le_max_right 1 (n / p)
      omega
    have : p * (n / p) ≤ p * 1 := Nat.mul_le_mul_left _ this
    omega
  have hs2 : 2 ≤ s → s = n / p := by
    intro h2
    rcases le_or_gt (n / p) 1 with h3 | h3
    · rw [max_eq_left h3] at hseq; omega
    · rw [max_eq_right (le_of_lt h3)] at hseq; exact hseq
  have hup2 : 2 ≤ s → 2 * ((n + s - 1) / s) ≤ 3 * p := by
    intro h2
    have e := hs2 h2
    -- n ≤ p s + p - 1
    have hn' : n ≤ p * s + (p - 1) := by rw [e]; omega
    have : (n + s - 1) / s ≤ p + (p + s - 2) / s := by
      have h4 : n + s - 1 ≤ s * p + (p + s - 2) := by rw [Nat.mul_comm s p]; omega
      calc (n + s - 1) / s ≤ (s * p + (p + s - 2)) / s := Nat.div_le_div_right h4
        _ = p + (p + s - 2) / s := Nat.mul_add_div (by omega) _ _
    have h5 : 2 * ((p + s - 2) / s) ≤ p := by
      have h6 : s * ((p + s - 2) / s) ≤ p + s - 2 := Nat.mul_div_le _ _
      rcases Nat.eq_zero_or_pos ((p + s - 2) / s) with h7 | h7
      · omega
      · have h8 : 2 * ((p + s - 2) / s - 1) ≤ s * ((p + s - 2) / s - 1) := Nat.mul_le_mul_right _ h2
        have h9 : s * ((p + s - 2) / s) = s * ((p + s - 2) / s - 1) + s := by
          have : (p + s - 2) / s = ((p + s - 2) / s - 1) + 1 := by omega
          conv_lhs => rw [this, Nat.mul_add, Nat.mul_one]
        omega
    omega
  cases h
  split_ifs with hm
  · rw [hlen]
    rcases Nat.lt_or_ge s 2 with h2 | h2
    · have h1 : s = 1 := by omega
      have := hup1 h1
      rw [h1] at hlow ⊢
      simp only [Nat.div_one] at hlow ⊢
      omega
    · have := hup2 h2
      omega
  · rw [List.length_append, hlen, List.length_singleton]
    have h2 : 2 ≤ s := by
      rcases Nat.lt_or_ge s 2 with h2 | h2
      · exfalso
        apply hm
        rw [mem_rangeStep hs]
        have : s = 1 := by omega
        rw [this]
        exact ⟨one_dvd _, by omega⟩
      · exact h2
    have h3 := hup2 h2
    refine ⟨by omega, by omega, ?_⟩
    intro hp1
    rcases Nat.lt_or_ge p 3 with h4 | h4
    · -- p = 2
      have hp2 : p = 2 := by omega
      subst hp2
      have e := hs2 h2
      have : (n + s - 1) / s ≤ 2 := by
        rcases Nat.lt_or_ge ((n + s - 1) / s) 3 with h5 | h5
        · omega
        · exfalso
          have h6 := (Nat.le_div_iff_mul_le (show 0 < s by omega)).1 h5
          have h7 : n = 2 * s + 1 := by omega
          apply hm
          rw [mem_rangeStep hs]
          exact ⟨⟨2, by omega⟩, by omega⟩
      omega
    · omega

/-- C198: between `n_panels` panels (all times, if there are fewer) and twice as many. -/
theorem panel_count {n p : ℕ} {l : List ℕ} (hn : 1 ≤ n) (hp : 1 ≤ p) (h : evolutionIdx n p = some l) :
    min n p ≤ l.length ∧ l.length ≤ 2 * p := ⟨(evolution_length hn hp h).1, (evolution_length hn hp h).2.1⟩

theorem rangeStep_one (n : ℕ) : rangeStep n 1 = List.range n := by
  unfold rangeStep
  simp

/-- C198: selecting the panels when reading the series and again when plotting the selected slices loses none: the
figure is the same as from the whole series. -/
theorem reselect_all {n p : ℕ} {l : List ℕ} (hn : 1 ≤ n) (hp : 1 ≤ p) (h : evolutionIdx n p = some l) :
    evolutionIdx l.length p = some (List.range l.length) := by
  obtain ⟨h1, h2, h3⟩ := evolution_length hn hp h
  have hpos : 1 ≤ l.length := by omega
  rw [evolutionIdx, if_neg (by omega)]
  dsimp only
  rcases Nat.lt_or_ge l.length (2 * p) with h4 | h4
  · have : l.length / p < 2 := (Nat.div_lt_iff_lt_mul (by omega)).2 h4
    have e : max 1 (l.length / p) = 1 := by omega
    rw [e, rangeStep_one, if_pos (List.mem_range.2 (by omega))]
  · have hp1 : p = 1 := by
      by_contra hne
      have := h3 hne
      omega
    subst hp1
    have : l.length = 2 := by omega
    rw [this]
    decide

/-- C198: without panels the division fails. -/
theorem no_panels (n : ℕ) : evolutionIdx n 0 = none ∧ lineoutIdx n 0 = none := ⟨rfl, rfl⟩

/-- C198: the line-outs start with the first time, are evenly spaced and number between `n_panels` and twice as many; the
last time of the series need not be among them. -/
theorem lineouts {n p : ℕ} {l : List ℕ} (hn : 1 ≤ n) (hp : 1 ≤ p) (h : lineoutIdx n p = some l) :
    (∀ k, k ∈ l ↔ stride n p ∣ k ∧ k < n) ∧ min n p ≤ l.length ∧ l.length ≤ 2 * p ∧ l.Pairwise (· < ·) := by
  have hs : 1 ≤ stride n p := le_max_left _ _
  have hl : l = rangeStep n (stride n p) := by
    unfold lineoutIdx at h
    rw [if_neg (by omega)] at h
    cases h; rfl
  refine ⟨fun k => by rw [hl, mem_rangeStep hs], ?_, ?_, by rw [hl]; exact rangeStep_sorted hs⟩
  · rw [hl, rangeStep_length, Nat.le_div_iff_mul_le (by omega)]
    have hd := Nat.div_add_mod n p
    unfold stride
    rcases Nat.lt_or_ge n p with hnp | hnp
    · rw [Nat.div_eq_of_lt hnp, min_eq_left (le_of_lt hnp)]; simp
    · have h1 : 1 ≤ n / p := Nat.div_pos hnp (by omega)
      rw [max_eq_right h1, min_eq_right hnp]
      have := Nat.mul_div_le n p
      omega
  · obtain ⟨m, hm⟩ := evolution_ok (n := n) hp
    have := (evolution_length hn hp hm).2.1
    have e : l.length ≤ m.length := by
      unfold evolutionIdx at hm
      rw [if_neg (by omega)] at hm
      cases hm
      rw [hl]
      unfold stride
      split_ifs
      · exact le_rfl
      · rw [List.length_append]; omega
    omega

theorem lineouts_miss_last_partial : ∃ n p l, lineoutIdx n p = some l ∧ n - 1 ∉ l := ⟨10, 4, [0, 2, 4, 6, 8], by decide, by decide⟩

/-- 100 dumps in eight panels: every twelfth and the last. -/
example : evolutionIdx 100 8 = some [0, 12, 24, 36, 48, 60, 72, 84, 96, 99] := by decide
example : evolutionIdx 10 8 = some [0, 1, 2, 3, 4, 5, 6, 7, 8, 9] := by decide

/-! ### C199 -/

section
variable {K : Type} [LinearOrder K]

theorem filter_window (xv : List K) (hx : xv.Pairwise (· ≤ ·)) (lo hi : K) :
    (xv.take (searchRight xv hi)).drop (searchLeft xv lo) = xv.filter fun x => decide (lo ≤ x ∧ x ≤ hi) := by
  induction xv with
  | nil => rfl
  | cons a l ih =>
    rw [List.pairwise_cons] at hx
    have ih := ih hx.2
    unfold searchRight searchLeft at ih ⊢
    by_cases h1 : a ≤ hi
    · by_cases h2 : a < lo
      · rw [List.countP_cons_of_pos (p := fun x => decide (x ≤ hi)) (by simpa using h1), List.countP_cons_of_pos (p := fun x => decide (x < lo)) (by simpa using h2), List.take_succ_cons, List.drop_succ_cons, ih,
          List.filter_cons_of_neg]
        simp [not_le.2 h2]
      · have h3 : l.countP (fun x => decide (x < lo)) = 0 := by
          rw [List.countP_eq_zero]
          intro x hxl
          simpa using le_trans (not_lt.1 h2) (hx.1 x hxl)
        rw [List.countP_cons_of_pos (p := fun x => decide (x ≤ hi)) (by simpa using h1), List.countP_cons_of_neg (p := fun x => decide (x < lo)) (by simpa using h2), h3, List.drop_zero, List.take_succ_cons,
          List.filter_cons_of_pos (by simpa using ⟨not_lt.1 h2, h1⟩), ← ih, h3, List.drop_zero]
    · have h3 : l.countP (fun x => decide (x ≤ hi)) = 0 := by
        rw [List.countP_eq_zero]
        intro x hxl
        simpa using lt_of_lt_of_le (not_le.1 h1) (hx.1 x hxl)
      rw [List.countP_cons_of_neg (p := fun x => decide (x ≤ hi)) (by simpa using h1), h3, List.take_zero, List.drop_nil, eq_comm, List.filter_eq_nil_iff]
      intro x hxm
      rcases List.mem_cons.1 hxm with rfl | hxl
      · simp [h1]
      · have := lt_of_lt_of_le (not_le.1 h1) (hx.1 x hxl)
        simp [not_le.2 this]

theorem searchRight_le (xv : List K) (b : K) : searchRight xv b ≤ xv.length := List.countP_le_length

/-- C199: on a sorted axis exactly the cells inside the box are kept, provided at least one is. -/
theorem crop_exact (xv : List K) (hx : xv.Pairwise (· ≤ ·)) (hlen : 2 ≤ xv.length) (lo hi : K) (hin : ∃ x ∈ xv, lo ≤ x ∧ x ≤ hi) :
    cropAxis xv lo hi = xv.filter fun x => decide (lo ≤ x ∧ x ≤ hi) := by
  rw [← filter_window xv hx lo hi]
  unfold cropAxis
  rw [if_neg (by omega)]
  dsimp only
  have hle := searchRight_le xv hi
  have hlt : searchLeft xv lo < searchRight xv hi := by
    have h := congrArg List.length (filter_window xv hx lo hi)
    rw [List.length_drop, List.length_take, min_eq_left hle] at h
    obtain ⟨x, hxm, hb⟩ := hin
    have : 0 < (xv.filter fun x => decide (lo ≤ x ∧ x ≤ hi)).length := List.length_pos_of_mem (List.mem_filter.2 ⟨hxm, by simpa using hb⟩)
    omega
  rw [min_eq_left hle, max_eq_right hlt]

/-- C199: an axis inside the box is untouched. -/
theorem crop_inside (xv : List K) (lo hi : K) (h : ∀ x ∈ xv, lo ≤ x ∧ x ≤ hi) : cropAxis xv lo hi = xv := by
  unfold cropAxis
  split_ifs with hl
  · rfl
  · dsimp only
    have h1 : searchLeft xv lo = 0 := by
      unfold searchLeft
      rw [List.countP_eq_zero]
      intro x hxm
      simpa using (h x hxm).1
    have h2 : searchRight xv hi = xv.length := by
      unfold searchRight
      rw [List.countP_eq_length]
      intro x hxm
      simpa using (h x hxm).2
    rw [h1, h2, min_self, max_eq_right (by omega), List.drop_zero, List.take_length]

end

/-- C199 does not extend to a box without cells: one cell outside it is kept, or none at all. -/
theorem crop_empty_partial : cropAxis [0, 1, 5, 6] (2 : ℤ) 3 = [5] ∧ cropAxis [0, 1] (2 : ℤ) 3 = [] := by decide

/-- C199: the bound used for dimension `x1`, `x2`, … is the first, second, … entry of the attribute, and the end of the
axis if there is no attribute. -/
theorem bound_entry {K : Type} (l : List K) (e : K) (d : ℕ) (h : d < l.length) :
    boxBound (some l) (some (d + 1)) e = some l[d] ∧ boxBound none (some (d + 1)) e = some e := by
  refine ⟨?_, rfl⟩
  unfold boxBound
  dsimp only
  rw [if_pos ⟨by omega, by omega⟩, Nat.add_sub_cancel, List.getElem?_eq_getElem h]

/-- A phase space binned beyond the box on both sides. -/
example : cropAxis [-2, -1, 0, 1, 2, 3] (-1 : ℤ) 2 = [-1, 0, 1, 2] := by decide

end Verif.OsirisPlot

import Verif.Model.OsirisSeries
import Verif.Props.Io
import Verif.Props.PicLoad
import Verif.Lemmas.Dict
import Mathlib.Tactic.Linarith
import Mathlib.Tactic.Ring
import Mathlib.Tactic.FieldSimp
import Mathlib.Tactic.NormNum
import Mathlib.Tactic.Positivity

/-!
Axes of OSIRIS series that move from dump to dump (C218), particles of RAW dumps (C219) and energy histories (C220).
-/
namespace Verif.OsirisSeries
open Finset

section
variable {K : Type} [Field K] [LinearOrder K] [IsStrictOrderedRing K]

theorem close_spec (x ref : K) : close x ref = true ↔ |x - ref| ≤ 1 / 100000000 + 1 / 100000 * |ref| := by
  simp [close]

theorem moving_false {b : K × K} {bs : List (K × K)} (h : moving (b :: bs) = false) (c : K × K) (hc : c ∈ b :: bs) :
    |c.1 - b.1| ≤ 1 / 100000000 + 1 / 100000 * |b.1| ∧ |c.2 - b.2| ≤ 1 / 100000000 + 1 / 100000 * |b.2| := by
  unfold moving at h
  rw [Bool.not_eq_false', Bool.and_eq_true, List.all_eq_true, List.all_eq_true] at h
  exact ⟨(close_spec _ _).1 (h.1 c hc), (close_spec _ _).1 (h.2 c hc)⟩

/-- Bounds that are the same in every dump do not move. -/
theorem moving_const (b : K × K) (bs : List (K × K)) (h : ∀ c ∈ bs, c = b) : moving (b :: bs) = false := by
  have hall : ∀ c ∈ b :: bs, c = b := fun c hc => by
    rcases List.mem_cons.1 hc with rfl | hc
    · rfl
    · exact h c hc
  unfold moving
  rw [Bool.not_eq_false', Bool.and_eq_true, List.all_eq_true, List.all_eq_true]
  have pos : ∀ y : K, (0 : K) ≤ 1 / 100000000 + 1 / 100000 * |y| := fun y => by positivity
  constructor <;> intro c hc <;> rw [close_spec, hall c hc, sub_self, abs_zero] <;> exact pos _

theorem linspace_diff (a b a' b' eps : K) (n j : ℕ) (hj : j < n) (h1 : |a' - a| ≤ eps) (h2 : |b' - b| ≤ eps) :
    |Grid.linspaceAt a b n j - Grid.linspaceAt a' b' n j| ≤ eps := by
  unfold Grid.linspaceAt
  split_ifs with h
  · rw [abs_sub_comm]; exact h1
  · push Not at h
    have hn : (0 : K) < (n : K) - 1 := by
      have : (1 : K) < n := by exact_mod_cast h
      linarith
    set th : K := (j : K) / ((n : K) - 1) with hth
    have h0 : 0 ≤ th := div_nonneg (Nat.cast_nonneg j) hn.le
    have h1' : th ≤ 1 := by
      rw [hth, div_le_one hn]
      have : ((j : K) + 1) ≤ n := by exact_mod_cast hj
      linarith
    have e : a + (j : K) * ((b - a) / ((n : K) - 1)) - (a' + (j : K) * ((b' - a') / ((n : K) - 1)))
        = (1 - th) * (a - a') + th * (b - b') := by
      rw [hth]; field_simp; ring
    rw [e]
    rw [abs_le] at h1 h2 ⊢
    constructor <;> nlinarith

/-! ### Axes -/

/-- An axis found to move is drawn, for every dump, on the bounds of that dump. -/
theorem moving_axis_exact (n : ℕ) (bs : List (K × K)) (a : Axis K) (h : loadAxis n bs = some a) (hm : moving bs = true)
    (it : ℕ) (hit : it < bs.length) (j : ℕ) :
    physicalAxis a it j = some (Grid.linspaceAt bs[it].1 bs[it].2 n j) := by
  cases bs with
  | nil => simp [loadAxis] at h
  | cons b bs =>
    rw [loadAxis, if_pos hm, Option.some.injEq] at h
    subst h
    simp only [physicalAxis]
    rw [List.getElem?_eq_getElem hit]
    rfl

/-- Any axis is drawn, for every dump, on the bounds of that dump within the tolerance of the comparison. -/
theorem own_axis (n : ℕ) (b : K × K) (bs : List (K × K)) (a : Axis K) (h : loadAxis n (b :: bs) = some a)
    (it : ℕ) (hit : it < (b :: bs).length) (j : ℕ) (hj : j < n) :
    ∃ x, physicalAxis a it j = some x ∧
      |x - Grid.linspaceAt (b :: bs)[it].1 (b :: bs)[it].2 n j| ≤ 1 / 100000000 + 1 / 100000 * max |b.1| |b.2| := by
  have pos : (0 : K) ≤ 1 / 100000000 + 1 / 100000 * max |b.1| |b.2| := by
    have : (0 : K) ≤ max |b.1| |b.2| := le_max_of_le_left (abs_nonneg _)
    positivity
  by_cases hm : moving (b :: bs) = true
  · exact ⟨_, moving_axis_exact n _ a h hm it hit j, by rw [sub_self, abs_zero]; exact pos⟩
  · rw [Bool.not_eq_true] at hm
    rw [loadAxis, hm, Option.some.injEq] at h
    subst h
    refine ⟨_, rfl, ?_⟩
    obtain ⟨h1, h2⟩ := moving_false hm _ (List.getElem_mem hit)
    refine linspace_diff _ _ _ _ _ n j hj (h1.trans ?_) (h2.trans ?_)
    · have : |b.1| ≤ max |b.1| |b.2| := le_max_left _ _
      linarith
    · have : |b.2| ≤ max |b.1| |b.2| := le_max_right _ _
      linarith

/-- The same after saving and selecting slices: slice `k` of the selection is drawn on the axis of the dump it came
from. -/
theorem saved_axis (n : ℕ) (b : K × K) (bs : List (K × K)) (a : Axis K) (h : loadAxis n (b :: bs) = some a)
    (idx : List ℕ) (hidx : ∀ i ∈ idx, i < (b :: bs).length) (k : ℕ) (hk : k < idx.length) (j : ℕ) (hj : j < n) :
    physicalAxis (selectAxis a idx) k j = physicalAxis a idx[k] j ∧
    ∃ x, physicalAxis (selectAxis a idx) k j = some x ∧
      |x - Grid.linspaceAt ((b :: bs)[idx[k]]'(hidx _ (List.getElem_mem hk))).1
          ((b :: bs)[idx[k]]'(hidx _ (List.getElem_mem hk))).2 n j| ≤ 1 / 100000000 + 1 / 100000 * max |b.1| |b.2| := by
  have e : physicalAxis (selectAxis a idx) k j = physicalAxis a idx[k] j := by
    rw [loadAxis, Option.some.injEq] at h
    subst h
    by_cases hm : moving (b :: bs) = true
    · simp only [physicalAxis, selectAxis, hm, if_true, Option.map_some]
      rw [(Io.pick_all (b :: bs) idx hidx).2 k hk]
    · simp only [physicalAxis, selectAxis, hm, Bool.false_eq_true, if_false, Option.map_none]
  rw [e]
  exact ⟨rfl, own_axis n b bs a h _ _ j hj⟩

/-- A series of the concurrent converter has, for every dump, exactly the axis of that dump, also after a selection. -/
theorem streamed_axis (n : ℕ) (bs : List (K × K)) (a : Axis K) (h : streamAxis n bs = some a) (idx : List ℕ)
    (hidx : ∀ i ∈ idx, i < bs.length) (k : ℕ) (hk : k < idx.length) (j : ℕ) :
    physicalAxis (selectAxis a idx) k j = some (Grid.linspaceAt (bs[idx[k]]'(hidx _ (List.getElem_mem hk))).1
      (bs[idx[k]]'(hidx _ (List.getElem_mem hk))).2 n j) := by
  cases bs with
  | nil => simp [streamAxis] at h
  | cons b bs =>
    rw [streamAxis, Option.some.injEq] at h
    subst h
    simp only [physicalAxis, selectAxis, Option.map_some]
    rw [(Io.pick_all (b :: bs) idx hidx).2 k hk, List.getElem?_eq_getElem (hidx _ (List.getElem_mem hk))]
    rfl

/-- Whichever way a series was saved, the reloaded series is marked as autoscaled exactly if the bounds of its dumps
move. -/
theorem autoscaled_reload (n : ℕ) (bs : List (K × K)) (a s : Axis K) (h : loadAxis n bs = some a)
    (hs : streamAxis n bs = some s) : autoscaled a = moving bs ∧ autoscaled s = moving bs := by
  cases bs with
  | nil => simp [loadAxis] at h
  | cons b bs =>
    rw [loadAxis, Option.some.injEq] at h
    rw [streamAxis, Option.some.injEq] at hs
    subst h; subst hs
    refine ⟨?_, rfl⟩
    unfold autoscaled
    by_cases hm : moving (b :: bs) = true
    · simp only [hm, if_true]
    · rw [Bool.not_eq_true] at hm
      simp [hm]

noncomputable example : ∃ a : Axis ℚ, loadAxis 3 [(-1, 1), (-2, 2)] = some a ∧ moving [((-1 : ℚ), 1), (-2, 2)] = true ∧
    physicalAxis a 1 0 = some (-2) ∧ physicalAxis (selectAxis a [1]) 0 2 = some 2 := by
  have hm : moving [((-1 : ℚ), 1), (-2, 2)] = true := by
    simp only [moving, close, List.all_cons, List.all_nil]; norm_num
  refine ⟨_, by rw [loadAxis], hm, ?_, ?_⟩
  · simp only [physicalAxis, hm, if_true]; simp [Grid.linspaceAt]
  · simp only [physicalAxis, selectAxis, hm, if_true, Option.map_some, Io.pick]; simp [Grid.linspaceAt]; norm_num

/-! ### Temperature on a moving momentum axis (C201) -/

theorem variance_stretch {P : Type} [Fintype P] (a c : K) (p w : P → K) (hw : (∑ i, w i) ≠ 0) :
    (∑ i, w i * (a + c * p i - (∑ i, w i * (a + c * p i)) / ∑ i, w i) ^ 2) / (∑ i, w i)
      = c ^ 2 * ((∑ i, w i * (p i - (∑ i, w i * p i) / ∑ i, w i) ^ 2) / ∑ i, w i) := by
  have e1 : (∑ i, w i * (a + c * p i)) / (∑ i, w i) = a + c * ((∑ i, w i * p i) / ∑ i, w i) := by
    have : ∑ i, w i * (a + c * p i) = a * (∑ i, w i) + c * ∑ i, w i * p i := by
      rw [mul_sum, mul_sum, ← sum_add_distrib]
      exact sum_congr rfl fun i _ => by ring
    rw [this, add_div, mul_div_assoc, div_self hw, mul_one, mul_div_assoc]
  rw [e1]
  generalize (∑ i, w i * p i) / ∑ i, w i = m
  rw [← mul_div_assoc, mul_sum]
  congr 1
  exact sum_congr rfl fun i _ => by ring

/-- The temperature on a momentum axis stretched by `c` is `c²` times that on the axis itself. -/
theorem temperature_stretch {P : Type} [Fintype P] (total a c : K) (p f : P → K) :
    OsirisPlot.temperature total (fun i => a + c * p i) f = (OsirisPlot.temperature total p f).map fun T => c ^ 2 * T := by
  unfold OsirisPlot.temperature
  dsimp only
  by_cases hw : 0 < ∑ i, max (f i / OsirisPlot.chargeSign total) 0
  · rw [if_pos hw, if_pos hw, Option.map_some, Option.some.injEq]
    exact variance_stretch a c p (fun i => max (f i / OsirisPlot.chargeSign total) 0) (ne_of_gt hw)
  · rw [if_neg hw, if_neg hw]; rfl

/-- Where the bounds do not move the temperature is that of the dump; where they do it is taken on the axis of the first
dump: with bounds twice as wide, a quarter of the temperature is drawn. -/
theorem temperature_moving_partial :
    (∀ (n : ℕ) (b : K × K) (bs : List (K × K)) (a : Axis K) (total : K) (f : Fin n → K), loadAxis n (b :: bs) = some a →
      (∀ c ∈ bs, c = b) → ∀ (it : ℕ) (hit : it < (b :: bs).length),
        drawnTemperature total a f = OsirisPlot.temperature total
          (fun i : Fin n => Grid.linspaceAt (b :: bs)[it].1 (b :: bs)[it].2 n i.val) f) ∧
    (∀ (n : ℕ) (b : K × K) (a : Axis K) (total : K) (f : Fin n → K), loadAxis n [b, (2 * b.1, 2 * b.2)] = some a →
      OsirisPlot.temperature total (fun i : Fin n => Grid.linspaceAt (2 * b.1) (2 * b.2) n i.val) f
        = (drawnTemperature total a f).map fun T => 4 * T) := by
  constructor
  · intro n b bs a total f h hc it hit
    rw [loadAxis, Option.some.injEq] at h
    subst h
    have e : (b :: bs)[it] = b := by
      have := List.getElem_mem hit
      rcases List.mem_cons.1 this with e | e
      · exact e
      · exact hc _ e
    rw [e]; rfl
  · intro n b a total f h
    rw [loadAxis, Option.some.injEq] at h
    subst h
    have := temperature_stretch total 0 2 (fun i : Fin n => Grid.linspaceAt b.1 b.2 n i.val) f
    have e : (fun i : Fin n => Grid.linspaceAt (2 * b.1) (2 * b.2) n i.val)
        = fun i : Fin n => (0 : K) + 2 * Grid.linspaceAt b.1 b.2 n i.val := by
      funext i
      unfold Grid.linspaceAt
      split_ifs
      · ring
      · ring
    rw [e, this]
    norm_num [drawnTemperature]

/-- Three cells, the particles in the outer ones, the second dump on bounds twice as wide: 1 is drawn and 4 is right. -/
theorem temperature_quarter : ∃ a : Axis ℚ, loadAxis 3 [(-1, 1), (-2, 2)] = some a ∧
    drawnTemperature 2 a (fun i : Fin 3 => if i.val = 1 then 0 else 1) = some 1 ∧
    OsirisPlot.temperature 2 (fun i : Fin 3 => Grid.linspaceAt (-2 : ℚ) 2 3 i.val) (fun i : Fin 3 => if i.val = 1 then 0 else 1) = some 4 := by
  refine ⟨_, by rw [loadAxis], ?_, ?_⟩ <;>
  · simp only [drawnTemperature, OsirisPlot.temperature, OsirisPlot.chargeSign, Grid.linspaceAt, Fin.sum_univ_three]
    norm_num

/-! ### RAW dumps -/

/-- The particles of a dump with their time and iteration and one quantity. -/
def rowsOf (q : Str) (d : Raw K) : List (K × ℤ × Option K) :=
  match dictGet d.cols q with
  | some c => c.map fun x => (d.time, d.iter, some x)
  | none => List.replicate d.n (d.time, d.iter, none)

/-- Every quantity of a dump has a value for each of its particles. -/
def Consistent (ds : List (Raw K)) : Prop := ∀ d ∈ ds, ∀ q c, dictGet d.cols q = some c → c.length = d.n

/-- The series holds the particles of every kept dump, each once and in order, with the time and iteration of its dump
and its own value of the quantity, which is missing exactly for the dumps without it. -/
theorem raw_rows (q : Str) (ds : List (Raw K)) (h : Consistent ds) :
    (rawTime ds).zip ((rawIter ds).zip (rawColumn q ds)) = ds.flatMap (rowsOf q) := by
  induction ds with
  | nil => rfl
  | cons d ds ih =>
    have hd : ∀ c, dictGet d.cols q = some c → c.length = d.n := h d (by simp) q
    have hs := ih fun e he => h e (by simp [he])
    simp only [rawTime, rawIter, rawColumn, List.flatMap_cons] at hs ⊢
    cases hc : dictGet d.cols q with
    | none =>
      simp only [rowsOf, hc]
      rw [List.zip_append (by simp), List.zip_append (by simp), hs]
      congr 1
      simp [List.zip_replicate']
    | some c =>
      have hl := hd c hc
      simp only [rowsOf, hc]
      rw [List.zip_append (by simp [hl]), List.zip_append (by simp [hl]), hs]
      congr 1
      apply List.ext_getElem
      · simp [hl]
      · intro i h1 h2
        simp

/-- The three columns have one entry for every particle of every kept dump. -/
theorem raw_lengths (q : Str) (ds : List (Raw K)) (h : Consistent ds) :
    (rawTime ds).length = (ds.map Raw.n).sum ∧ (rawIter ds).length = (ds.map Raw.n).sum ∧
      (rawColumn q ds).length = (ds.map Raw.n).sum := by
  refine ⟨?_, ?_, ?_⟩
  · simp [rawTime, List.length_flatMap]
  · simp [rawIter, List.length_flatMap]
  · rw [rawColumn, List.length_flatMap]
    congr 1
    apply List.map_congr_left
    intro d hd
    cases hc : dictGet d.cols q with
    | none => simp
    | some c => simp [h d hd q c hc]

/-- Without the option all dumps are kept; with it all but those of iteration 0, unless these are all there are. -/
theorem raw_keep (drop : Bool) (ds : List (Raw K)) :
    (drop = false → rawKeep drop ds = ds) ∧ (ds ≠ [] → rawKeep drop ds ≠ []) ∧ (rawKeep drop ds).Sublist ds ∧
    (∀ d ∈ ds, d.nameIter ≠ 0 → d ∈ rawKeep drop ds) ∧
    (drop = true → ∀ e ∈ ds, e.nameIter ≠ 0 → ∀ d ∈ rawKeep drop ds, d.nameIter ≠ 0) := by
  unfold rawKeep
  have hmem : ∀ d, d ∈ (ds.filter fun d => d.nameIter != 0) ↔ d ∈ ds ∧ d.nameIter ≠ 0 := fun d => by
    simp [List.mem_filter]
  refine ⟨fun h => by simp [h], ?_, ?_, ?_, ?_⟩
  · intro hne
    split_ifs
    · split
      · exact hne
      · rename_i h; exact h
    · exact hne
  · split_ifs
    · split
      · exact List.Sublist.refl _
      · exact List.filter_sublist
    · exact List.Sublist.refl _
  · intro d hd h0
    split_ifs
    · split
      · exact hd
      · exact (hmem d).2 ⟨hd, h0⟩
    · exact hd
  · intro hdrop e he h0 d
    by_cases hl : 1 < ds.length
    · rw [if_pos (by simp [hdrop, hl])]
      split
      · rename_i hnil
        have := (hmem e).2 ⟨he, h0⟩
        rw [hnil] at this
        simp at this
      · intro hd; exact ((hmem d).1 hd).2
    · rw [if_neg (by simp [hl])]
      intro hd
      have hlen : ds.length = 1 := by
        have := List.length_pos_of_mem he
        omega
      obtain ⟨x, rfl⟩ := List.length_eq_one_iff.1 hlen
      rw [List.mem_singleton] at he hd
      rw [hd, ← he]; exact h0

example : ∃ ds : List (Raw ℚ), Consistent ds ∧ (rawKeep true ds).length = 2 ∧ ds.length = 3 ∧
    rawColumn ['p'] (rawKeep true ds) = [some 1, some 2, none] ∧ rawTime (rawKeep true ds) = [1, 1, 2] :=
  ⟨[⟨0, 0, 0, 1, [(['p'], [5])]⟩, ⟨1, 1, 1, 2, [(['p'], [1, 2])]⟩, ⟨2, 2, 2, 1, []⟩], by
    intro d hd q c hc
    simp only [List.mem_cons, List.not_mem_nil, or_false] at hd
    rcases hd with rfl | rfl | rfl
    · simp only [dictGet] at hc; split_ifs at hc; simp_all; simp [← hc]
    · simp only [dictGet] at hc; split_ifs at hc; simp_all; simp [← hc]
    · simp [dictGet] at hc,
    by decide, by decide, by decide, by decide⟩

end
end Verif.OsirisSeries

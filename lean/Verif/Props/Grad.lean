import Verif.Spec.Grad
import Mathlib.Algebra.Order.Field.Rat
import Mathlib.Tactic.Ring
import Mathlib.Tactic.NormNum
import Mathlib.Tactic.Linarith

/-! C25: reduction of gradients over runs. -/
namespace Verif.Grad

variable {ι K : Type} [Field K] [LinearOrder K]

/-- What the running sum looks like after the entries `l`. -/
def Sums (l : List (Option (Fl K))) (r : Option (Fl K)) : Prop :=
  (r = none ↔ ∀ x ∈ l, x = none) ∧
  (r = some .nan ↔ (∃ x ∈ l, x ≠ none) ∧ l.filterMap number = []) ∧
  (∀ a, r = some (.num a) → l.filterMap number ≠ [] ∧ a = (l.filterMap number).sum)

theorem sums_nil : Sums ([] : List (Option (Fl K))) none := by simp [Sums]

theorem sums_snoc {l : List (Option (Fl K))} {r : Option (Fl K)} (h : Sums l r) (x : Option (Fl K)) :
    Sums (l ++ [x]) (safeAdd r x) := by
  obtain ⟨h1, h2, h3⟩ := h
  rcases r with _ | (a | _)
  · have hl := h1.1 rfl
    have hn : l.filterMap number = [] := by
      rw [List.filterMap_eq_nil_iff]; intro y hy; rw [hl y hy]; rfl
    rcases x with _ | (b | _)
    · refine ⟨?_, ?_, ?_⟩
      · simp only [safeAdd, true_iff]; intro y hy; simp at hy; rcases hy with hy | hy
        · exact hl y hy
        · exact hy
      · simp [safeAdd, number]; intro y hy; exact absurd (hl y hy)
      · simp [safeAdd]
    · refine ⟨by simp [safeAdd], by simp [safeAdd, number], ?_⟩
      intro a ha; simp [safeAdd] at ha; subst ha; simp [hn, number]
    · refine ⟨by simp [safeAdd], ?_, by simp [safeAdd]⟩
      simp [safeAdd, hn, number]
  · obtain ⟨g1, g2⟩ := h3 a rfl
    have hx : ∃ y ∈ l, y ≠ none := by
      by_contra hc
      have : ∀ y ∈ l, y = none := by
        intro y hy; by_contra hh; exact hc ⟨y, hy, hh⟩
      have := h1.2 this; cases this
    obtain ⟨y, hy, hyn⟩ := hx
    rcases x with _ | (b | _)
    · refine ⟨?_, ?_, ?_⟩
      · simp [safeAdd]; exact ⟨y, hy, hyn⟩
      · simp only [safeAdd, List.filterMap_append, List.append_eq_nil_iff]
        simp [g1]
      · intro a' ha; simp [safeAdd] at ha; subst ha; rw [List.filterMap_append]
        have e : ∀ x ∈ [(none : Option (Fl K)), some .nan], List.filterMap number [x] = [] := by simp [number]
        rw [e _ (by simp), List.append_nil]; exact ⟨g1, g2⟩
    · refine ⟨by simp [safeAdd], ?_, ?_⟩
      · simp [safeAdd, addF, number]
      · intro a' ha; simp [safeAdd, addF] at ha; subst ha; simp [number, g2]
    · refine ⟨by simp [safeAdd], ?_, ?_⟩
      · simp only [safeAdd, addF, List.filterMap_append, List.append_eq_nil_iff]
        simp [g1]
      · intro a' ha; simp [safeAdd, addF] at ha; subst ha; rw [List.filterMap_append]
        have e : ∀ x ∈ [(none : Option (Fl K)), some .nan], List.filterMap number [x] = [] := by simp [number]
        rw [e _ (by simp), List.append_nil]; exact ⟨g1, g2⟩
  · obtain ⟨⟨y, hy, hyn⟩, g2⟩ := h2.1 rfl
    rcases x with _ | (b | _)
    · refine ⟨?_, ?_, by simp [safeAdd]⟩
      · simp [safeAdd]; exact ⟨y, hy, hyn⟩
      · simp only [safeAdd, true_iff]
        exact ⟨⟨y, by simp [hy], hyn⟩, by simp [g2, number]⟩
    · refine ⟨by simp [safeAdd, addF], by simp [safeAdd, addF, number], ?_⟩
      intro a' ha; simp [safeAdd, addF] at ha; subst ha; simp [number, g2]
    · refine ⟨by simp [safeAdd], ?_, by simp [safeAdd, addF]⟩
      simp only [safeAdd, addF, true_iff]
      exact ⟨⟨y, by simp [hy], hyn⟩, by simp [g2, number]⟩

theorem sums_foldl (i : ι) (rest : List (Tree ι K)) (l : List (Option (Fl K))) (acc : Tree ι K) (h : Sums l (acc i)) :
    Sums (l ++ rest.map fun g => g i) (rest.foldl (fun acc g i => safeAdd (acc i) (g i)) acc i) := by
  induction rest generalizing l acc with
  | nil => simpa using h
  | cons g rest ih =>
    rw [List.foldl_cons]
    have := ih (l ++ [g i]) (fun i => safeAdd (acc i) (g i)) (sums_snoc h (g i))
    simpa using this

/-- C25 (partial: at least two runs): at every position the result is `None` when
every run has `None`, NaN when there are only `None`s and NaNs, and otherwise the
sum of the numbers divided by the number of runs, clipped to [-1000, 1000]. -/
theorem reduce_spec_partial (gs : List (Tree ι K)) (hn : 2 ≤ gs.length) :
    ∃ t, allReduce gs gs.length = .ok t ∧ ∀ i,
      (t i = none ↔ ∀ g ∈ gs, g i = none) ∧
      (t i = some .nan ↔ (∃ g ∈ gs, g i ≠ none) ∧ numbers gs i = []) ∧
      (numbers gs i ≠ [] →
        t i = some (.num (min (max ((numbers gs i).sum / (gs.length : K)) (-1000)) 1000))) := by
  rcases gs with _ | ⟨g0, _ | ⟨g1, rest⟩⟩
  · simp at hn
  · simp at hn
  refine ⟨fun i => clip (safeDivide (g0 :: g1 :: rest).length
    (rest.foldl (fun acc g i => safeAdd (acc i) (g i)) (fun i => safeAdd (g0 i) (g1 i)) i)), ?_, ?_⟩
  · simp only [allReduce]
    rw [if_pos (show (g0 :: g1 :: rest).length > 1 from hn)]
    simp only [List.take_length, Nat.lt_irrefl, if_false]
  · intro i
    have h0 : Sums [g0 i, g1 i] (safeAdd (g0 i) (g1 i)) := by
      have := sums_snoc (sums_snoc sums_nil (g0 i)) (g1 i)
      simpa [safeAdd] using this
    have h := sums_foldl i rest [g0 i, g1 i] (fun i => safeAdd (g0 i) (g1 i)) h0
    generalize hr : (rest.foldl (fun acc g i => safeAdd (acc i) (g i)) (fun i => safeAdd (g0 i) (g1 i))) i = r at h
    have hl : [g0 i, g1 i] ++ rest.map (fun g => g i) = (g0 :: g1 :: rest).map fun g => g i := by simp
    rw [hl] at h
    have hnum : ((g0 :: g1 :: rest).map fun g => g i).filterMap number = numbers (g0 :: g1 :: rest) i := by
      rw [List.filterMap_map]; rfl
    generalize g0 :: g1 :: rest = gs at *
    obtain ⟨h1, h2, h3⟩ := h
    rw [hnum] at h2 h3
    beta_reduce
    rw [hr]
    simp only [List.mem_map, forall_exists_index, and_imp, forall_apply_eq_imp_iff₂] at h1
    have h2' : r = some .nan ↔ (∃ g ∈ gs, g i ≠ none) ∧ numbers gs i = [] := by
      rw [h2]; simp
    have hany : numbers gs i ≠ [] → r ≠ none := by
      intro hne hr0
      apply hne
      unfold numbers
      rw [List.filterMap_eq_nil_iff]
      intro g hg
      rw [h1.1 hr0 g hg]; rfl
    rcases r with _ | (a | _)
    · refine ⟨?_, ?_, fun hne => absurd rfl (hany hne)⟩
      · simp only [safeDivide, clip, true_iff]; exact h1.1 rfl
      · simp only [safeDivide, clip]; rw [← h2']
    · obtain ⟨g1, g2⟩ := h3 a rfl
      refine ⟨?_, ?_, fun _ => ?_⟩
      · rw [← h1]; simp [safeDivide, clip]
      · rw [← h2']; simp [safeDivide, clip]
      · simp [safeDivide, clip, g2]
    · refine ⟨?_, ?_, fun hne => absurd (h2'.1 rfl).2 hne⟩
      · rw [← h1]; simp [safeDivide, clip]
      · rw [← h2']; simp [safeDivide, clip]

/-- C25: the result never leaves [-1000, 1000]. -/
theorem reduce_bounded [IsStrictOrderedRing K] (gs : List (Tree ι K)) (n : Nat) (t : Tree ι K)
    (h : allReduce gs n = .ok t) (i : ι) (x : K) (hx : t i = some (.num x)) : -1000 ≤ x ∧ x ≤ 1000 := by
  unfold allReduce at h
  split at h
  · split at h
    · split at h
      · cases h
      · cases h
        beta_reduce at hx
        generalize safeDivide n (_ : Option (Fl K)) = d at hx
        rcases d with _ | (a | _)
        · simp [clip] at hx
        · simp only [clip, Option.some.injEq, Fl.num.injEq] at hx
          subst hx
          refine ⟨le_min (le_max_right _ _) ?_, min_le_right _ _⟩
          have : (0 : K) ≤ 1000 := by norm_num
          linarith
        · simp [clip] at hx
    · cases h
  · cases h

/-- C25 in full: for every number of runs the function returns. -/
def ReduceTotal : Prop := ∀ gs : List (Tree Unit ℚ), gs ≠ [] → ∃ t, allReduce gs gs.length = .ok t

/-- C25 in full is FALSE: with a single run the function raises
`UnboundLocalError` instead of returning (the clip of) its gradient. -/
theorem reduce_single_raises : ¬ ReduceTotal := by
  intro h
  obtain ⟨t, ht⟩ := h [fun _ => some (.num 1)] (by simp)
  simp [allReduce] at ht

/-- C25: without NaN or `None` and within the clipping range the result is the mean. -/
theorem reduce_mean [IsStrictOrderedRing K] (gs : List (Tree ι K)) (hn : 2 ≤ gs.length) (i : ι) (xs : List K)
    (hx : gs.map (fun g => g i) = xs.map fun x => some (.num x)) (hlo : -1000 ≤ xs.sum / (xs.length : K))
    (hhi : xs.sum / (xs.length : K) ≤ 1000) :
    ∃ t, allReduce gs gs.length = .ok t ∧ t i = some (.num (xs.sum / (xs.length : K))) := by
  obtain ⟨t, h1, h2⟩ := reduce_spec_partial gs hn
  refine ⟨t, h1, ?_⟩
  have hnum : numbers gs i = xs := by
    have : numbers gs i = (gs.map fun g => g i).filterMap number := by rw [List.filterMap_map]; rfl
    rw [this, hx, List.filterMap_map]
    have : (number ∘ fun x : K => some (Fl.num x)) = some := by funext x; rfl
    rw [this]; simp
  have hlen : gs.length = xs.length := by simpa using congrArg List.length hx
  have := (h2 i).2.2 (by rw [hnum]; intro hc; rw [hc] at hlen; simp at hlen; simp [hlen] at hn)
  rw [this, hnum, hlen, max_eq_left hlo, min_eq_left hhi]

example : ∃ t, allReduce [fun _ => some (.num 4), fun _ => some .nan, fun _ : Unit => some (.num (2 : ℚ))] 3 = .ok t ∧
    t () = some (.num 2) := by
  refine ⟨_, rfl, ?_⟩
  simp [safeAdd, addF, safeDivide, clip]
  norm_num

end Verif.Grad

import Verif.Model.OsirisSeries
import Verif.Props.OsirisSeries

/-!
Energy histories of OSIRIS runs (C220).
-/
namespace Verif.OsirisSeries

section
variable {K : Type} [Field K] [LinearOrder K] [IsStrictOrderedRing K]

/-! ### Extrema -/

omit [Field K] [IsStrictOrderedRing K] in
theorem foldl_max_spec (l : List K) (a : K) : (∀ x ∈ a :: l, x ≤ l.foldl max a) ∧ l.foldl max a ∈ a :: l := by
  induction l generalizing a with
  | nil => simp
  | cons b l ih =>
    obtain ⟨h1, h2⟩ := ih (max a b)
    rw [List.foldl_cons]
    constructor
    · intro x hx
      have hm := h1 (max a b) (by simp)
      rcases List.mem_cons.1 hx with rfl | hx
      · exact (le_max_left _ _).trans hm
      · rcases List.mem_cons.1 hx with rfl | hx
        · exact (le_max_right _ _).trans hm
        · exact h1 x (by simp [hx])
    · rcases List.mem_cons.1 h2 with h | h
      · rw [h]
        rcases max_choice a b with e | e <;> rw [e] <;> simp
      · simp [h]

omit [Field K] [IsStrictOrderedRing K] in
theorem foldl_min_spec (l : List K) (a : K) : (∀ x ∈ a :: l, l.foldl min a ≤ x) ∧ l.foldl min a ∈ a :: l := by
  induction l generalizing a with
  | nil => simp
  | cons b l ih =>
    obtain ⟨h1, h2⟩ := ih (min a b)
    rw [List.foldl_cons]
    constructor
    · intro x hx
      have hm := h1 (min a b) (by simp)
      rcases List.mem_cons.1 hx with rfl | hx
      · exact hm.trans (min_le_left _ _)
      · rcases List.mem_cons.1 hx with rfl | hx
        · exact hm.trans (min_le_right _ _)
        · exact h1 x (by simp [hx])
    · rcases List.mem_cons.1 h2 with h | h
      · rw [h]
        rcases min_choice a b with e | e <;> rw [e] <;> simp
      · simp [h]

omit [IsStrictOrderedRing K] in
theorem listMax_spec (l : List K) (h : l ≠ []) : (∀ x ∈ l, x ≤ listMax l) ∧ listMax l ∈ l := by
  cases l with
  | nil => exact absurd rfl h
  | cons a l => exact foldl_max_spec l a

omit [IsStrictOrderedRing K] in
theorem listMin_spec (l : List K) (h : l ≠ []) : (∀ x ∈ l, listMin l ≤ x) ∧ listMin l ∈ l := by
  cases l with
  | nil => exact absurd rfl h
  | cons a l => exact foldl_min_spec l a

/-- The recorded drift of the total energy: the largest difference between two of its values over the largest of its
magnitudes.  It lies between 0 and 2, at most 1 if the total is never negative, and is 0 exactly if the total is
constant. -/
theorem drift_spec (l : List K) (h : l ≠ []) :
    (∃ hi ∈ l, ∃ lo ∈ l, ∃ m : K, (∀ x ∈ l, lo ≤ x ∧ x ≤ hi ∧ |x| ≤ m) ∧ (∃ x ∈ l, |x| = m) ∧ drift l * m = hi - lo) ∧
    0 ≤ drift l ∧ drift l ≤ 2 ∧ ((∀ x ∈ l, 0 ≤ x) → drift l ≤ 1) ∧ (drift l = 0 ↔ ∀ x ∈ l, ∀ y ∈ l, x = y) := by
  obtain ⟨hM, hMm⟩ := listMax_spec l h
  obtain ⟨hm, hmm⟩ := listMin_spec l h
  have habs : l.map (fun x => |x|) ≠ [] := by simpa using h
  obtain ⟨hA, hAm⟩ := listMax_spec (l.map fun x => |x|) habs
  have ha : ∀ x ∈ l, |x| ≤ listMax (l.map fun x => |x|) := fun x hx => hA _ (List.mem_map_of_mem hx)
  obtain ⟨x0, hx0, e0⟩ := List.mem_map.1 hAm
  have key : drift l * listMax (l.map fun x => |x|) = listMax l - listMin l := by
    unfold drift
    dsimp only
    split_ifs with h0
    · have z : ∀ x ∈ l, x = 0 := fun x hx => by
        have := ha x hx
        rw [h0] at this
        exact abs_eq_zero.1 (le_antisymm this (abs_nonneg x))
      rw [h0, z _ hMm, z _ hmm]; simp
    · rw [div_mul_cancel₀ _ h0]
  have hle : listMin l ≤ listMax l := hm _ hMm
  have hA0 : 0 ≤ listMax (l.map fun x => |x|) := by rw [← e0]; exact abs_nonneg _
  have hd0 : 0 ≤ drift l := by
    unfold drift
    dsimp only
    split_ifs
    · exact div_nonneg (sub_nonneg.2 hle) zero_le_one
    · exact div_nonneg (sub_nonneg.2 hle) hA0
  have hz : listMax (l.map fun x => |x|) = 0 → drift l = 0 := by
    intro h0
    have z : ∀ x ∈ l, x = 0 := fun x hx => by
      have := ha x hx
      rw [h0] at this
      exact abs_eq_zero.1 (le_antisymm this (abs_nonneg x))
    unfold drift
    simp [z _ hMm, z _ hmm]
  refine ⟨⟨_, hMm, _, hmm, _, fun x hx => ⟨hm x hx, hM x hx, ha x hx⟩, ⟨x0, hx0, e0⟩, key⟩, hd0, ?_, ?_, ?_⟩
  · rcases hA0.eq_or_lt with h0 | h0
    · rw [hz h0.symm]; norm_num
    · have h1 := (abs_le.1 (ha _ hMm)).2
      have h2 := (abs_le.1 (ha _ hmm)).1
      by_contra hc
      push Not at hc
      nlinarith
  · intro hpos
    rcases hA0.eq_or_lt with h0 | h0
    · rw [hz h0.symm]; norm_num
    · have h1 := (abs_le.1 (ha _ hMm)).2
      have h2 := hpos _ hmm
      by_contra hc
      push Not at hc
      nlinarith
  · constructor
    · intro hd x hx y hy
      rw [hd, zero_mul] at key
      have e : listMax l = listMin l := by linarith
      have := hM x hx; have := hm x hx; have := hM y hy; have := hm y hy
      linarith
    · intro hc
      unfold drift
      rw [hc _ hMm _ hmm]; simp

/-! ### Interpolation onto the time axis of the field energy -/

/-- A curve on the same times is taken over as it is. -/
theorem interp_aligned (t v : List K) : interpOnto (t, v) t = v := by
  unfold interpOnto
  rw [if_pos]
  refine ⟨rfl, ?_⟩
  rw [List.all_eq_true]
  intro x hx
  have e : x.1 = x.2 := by
    have := List.of_mem_zip hx
    clear this
    induction t with
    | nil => simp at hx
    | cons a t ih =>
      simp only [List.zip_cons_cons, List.mem_cons] at hx
      rcases hx with rfl | hx
      · rfl
      · exact ih hx
  rw [close_spec, e, sub_self, abs_zero]
  positivity

theorem interp_length (c : Curve K) (ref : List K) (h : c.1.length = c.2.length) :
    (interpOnto c ref).length = ref.length := by
  unfold interpOnto
  split_ifs with hc
  · rw [← h, hc.1]
  · simp

/-- Interpolated values stay between the smallest and the largest value of the curve. -/
theorem interp_bounds (c : Curve K) (ref : List K) (h : c.1.length = c.2.length) (hne : c.2 ≠ []) (lo hi : K)
    (hb : ∀ y ∈ c.2, lo ≤ y ∧ y ≤ hi) : ∀ y ∈ interpOnto c ref, lo ≤ y ∧ y ≤ hi := by
  unfold interpOnto
  split_ifs with hc
  · exact hb
  · intro y hy
    obtain ⟨x, -, rfl⟩ := List.mem_map.1 hy
    apply PicLoad.interp_range
    · intro e
      have := congrArg List.length e
      rw [List.length_zip, h, min_self] at this
      exact hne (List.length_eq_zero_iff.1 this)
    · intro p hp
      exact hb _ (List.of_mem_zip hp).2

/-- An energy that changes linearly in time is exact on the other axis as well, inside the times of its file. -/
theorem interp_linear_curve (t ref : List K) (al be : K) (t0 : K) (ts : List K) (ht : t = t0 :: ts)
    (hdiff : ¬(t.length = ref.length ∧ (t.zip ref).all (fun x => close x.1 x.2))) (i : ℕ) (hi : i < ref.length)
    (h0 : t0 ≤ ref[i]) (h1 : ref[i] ≤ t.getLast (by simp [ht])) :
    (interpOnto (t, t.map fun x => al + be * x) ref)[i]? = some (al + be * ref[i]) := by
  unfold interpOnto
  rw [if_neg hdiff]
  subst ht
  rw [List.getElem?_map, List.getElem?_eq_getElem hi, Option.map_some, Option.some.injEq]
  rw [List.map_cons, List.zip_cons_cons]
  have hz : ts.zip (ts.map fun x => al + be * x) = ts.map fun x => (x, al + be * x) := by
    rw [List.zip_map_right]
    apply List.ext_getElem <;> simp
  rw [hz]
  apply PicLoad.interp_linear
  · intro q hq
    rcases List.mem_cons.1 hq with rfl | hq
    · rfl
    · obtain ⟨x, -, rfl⟩ := List.mem_map.1 hq
      rfl
  · exact h0
  · have e : (((t0, al + be * t0) :: ts.map fun x => (x, al + be * x)).getLast (by simp)).1
        = (t0 :: ts).getLast (by simp) := by
      have : ((t0, al + be * t0) :: ts.map fun x => (x, al + be * x)) = (t0 :: ts).map fun x => (x, al + be * x) := rfl
      simp only [this, List.getLast_map]
    rw [e]; exact h1

/-! ### Sums of curves -/

omit [LinearOrder K] [IsStrictOrderedRing K] in
theorem zipWith_add_getD (a b : List K) (h : a.length = b.length) (i : ℕ) :
    (List.zipWith (· + ·) a b).getD i 0 = a.getD i 0 + b.getD i 0 := by
  simp only [List.getD_eq_getElem?_getD, List.getElem?_zipWith]
  by_cases hi : i < a.length
  · rw [List.getElem?_eq_getElem hi, List.getElem?_eq_getElem (h ▸ hi)]; rfl
  · rw [List.getElem?_eq_none (by omega), List.getElem?_eq_none (by omega)]; simp

omit [LinearOrder K] [IsStrictOrderedRing K] in
theorem foldl_curves (m : ℕ) (cs : List (List K)) (c : List K) (hc : c.length = m) (h : ∀ x ∈ cs, x.length = m) :
    (cs.foldl (fun a b => List.zipWith (· + ·) a b) c).length = m ∧
      ∀ i, (cs.foldl (fun a b => List.zipWith (· + ·) a b) c).getD i 0 = c.getD i 0 + (cs.map fun x => x.getD i 0).sum := by
  induction cs generalizing c with
  | nil => exact ⟨hc, fun i => by simp⟩
  | cons b cs ih =>
    have hb := h b (by simp)
    obtain ⟨h1, h2⟩ := ih (List.zipWith (· + ·) c b) (by simp [hc, hb]) fun x hx => h x (by simp [hx])
    refine ⟨h1, fun i => ?_⟩
    rw [List.foldl_cons, h2, zipWith_add_getD _ _ (hc.trans hb.symm), List.map_cons, List.sum_cons]
    ring

omit [LinearOrder K] [IsStrictOrderedRing K] in
theorem addCurves_spec (m : ℕ) (cs : List (List K)) (h : ∀ x ∈ cs, x.length = m) (r : List K) (hr : addCurves cs = some r) :
    r.length = m ∧ ∀ i, r.getD i 0 = (cs.map fun x => x.getD i 0).sum := by
  cases cs with
  | nil => simp [addCurves] at hr
  | cons c cs =>
    rw [addCurves, Option.some.injEq] at hr
    obtain ⟨h1, h2⟩ := foldl_curves m cs c (h c (by simp)) fun x hx => h x (by simp [hx])
    rw [hr] at h1 h2
    exact ⟨h1, fun i => by rw [h2, List.map_cons, List.sum_cons]⟩

/-! ### The dataset -/

/-- The tables read have a row of values for each time. -/
def Tables (files : List (Str × Option (List K × List (List K)))) : Prop :=
  ∀ f ∈ files, ∀ tb, f.2 = some tb → tb.1.length = tb.2.length

def Parsed.Wf (p : Parsed K) : Prop :=
  (∀ c, p.field = some c → c.1.length = c.2.length) ∧ ∀ kc ∈ p.kinetic, kc.2.1.length = kc.2.2.length

theorem mem_dictSet {κ ν : Type} [DecidableEq κ] (d : Dict κ ν) (k : κ) (v : ν) (x : κ × ν) (h : x ∈ dictSet d k v) :
    x ∈ d ∨ x = (k, v) := by
  induction d with
  | nil => simp only [dictSet, List.mem_singleton] at h; exact .inr h
  | cons a d ih =>
    obtain ⟨k', v'⟩ := a
    rw [dictSet] at h
    split_ifs at h with hk
    · rcases List.mem_cons.1 h with h | h
      · exact .inr h
      · exact .inl (by simp [h])
    · rcases List.mem_cons.1 h with h | h
      · exact .inl (by simp [h])
      · rcases ih h with h | h
        · exact .inl (by simp [h])
        · exact .inr h

omit [LinearOrder K] [IsStrictOrderedRing K] in
theorem histStep_wf (p : Parsed K) (hp : p.Wf) (f : Str × Option (List K × List (List K)))
    (hf : ∀ tb, f.2 = some tb → tb.1.length = tb.2.length) : (histStep p f).Wf := by
  obtain ⟨name, tb⟩ := f
  unfold histStep
  cases hk : histKind name with
  | none => exact hp
  | some k =>
    cases tb with
    | none => exact hp
    | some tb =>
      have := hf tb rfl
      dsimp only
      split_ifs
      · exact hp
      · cases k with
        | fld =>
          refine ⟨fun c hc => ?_, hp.2⟩
          simp only [Option.some.injEq] at hc
          subst hc
          simpa using this
        | par =>
          refine ⟨hp.1, fun kc hkc => ?_⟩
          rcases mem_dictSet _ _ _ _ hkc with h | h
          · exact hp.2 kc h
          · subst h
            simpa using this

omit [LinearOrder K] [IsStrictOrderedRing K] in
theorem hist_wf (files : List (Str × Option (List K × List (List K)))) (h : Tables files) (p : Parsed K) (hp : p.Wf) :
    (files.foldl histStep p).Wf := by
  induction files generalizing p with
  | nil => exact hp
  | cons f fs ih => exact ih (fun g hg => h g (by simp [hg])) _ (histStep_wf p hp f (h f (by simp)))

/-- The total of a saved history is, at every time of its axis, the field energy plus the energies of all species, the
kinetic total their sum; all curves have one value for each time, and the drift is that of the total. -/
theorem hist_total (files : List (Str × Option (List K × List (List K)))) (h : Tables files) (d : Hist K)
    (hd : loadHist files = some d) :
    (∀ f, d.field = some f → f.length = d.t.length) ∧ (∀ kc ∈ d.kinetic, kc.2.length = d.t.length) ∧
    (∀ k, d.kineticTotal = some k → k.length = d.t.length ∧
      ∀ i, k.getD i 0 = (d.kinetic.map fun kc => kc.2.getD i 0).sum) ∧
    (∀ tot, d.total = some tot → tot.length = d.t.length ∧ ∃ f, d.field = some f ∧
      ∀ i, tot.getD i 0 = f.getD i 0 + (d.kinetic.map fun kc => kc.2.getD i 0).sum) ∧
    (d.total.isSome = true ↔ d.field.isSome = true ∧ d.kinetic ≠ []) ∧ d.drift = d.total.map drift := by
  unfold loadHist at hd
  have wf := hist_wf files h ⟨none, []⟩ ⟨fun c hc => by simp at hc, fun kc hkc => by simp at hkc⟩
  generalize files.foldl histStep ⟨none, []⟩ = p at hd wf
  obtain ⟨ref, -, rfl⟩ := Option.map_eq_some_iff.1 hd
  have hk : ∀ x ∈ (p.kinetic.map fun kc => (kc.1, interpOnto kc.2 ref)).map Prod.snd, x.length = ref.length := by
    intro x hx
    simp only [List.map_map, List.mem_map, Function.comp] at hx
    obtain ⟨kc, hkc, rfl⟩ := hx
    exact interp_length _ _ (wf.2 kc hkc)
  have hf : ∀ f, (p.field.map fun c => interpOnto c ref) = some f → f.length = ref.length := by
    intro f hf
    obtain ⟨c, hc, rfl⟩ := Option.map_eq_some_iff.1 hf
    exact interp_length _ _ (wf.1 c hc)
  have hkin : ∀ k, addCurves ((p.kinetic.map fun kc => (kc.1, interpOnto kc.2 ref)).map Prod.snd) = some k →
      k.length = ref.length ∧ ∀ i, k.getD i 0 = ((p.kinetic.map fun kc => (kc.1, interpOnto kc.2 ref)).map
        fun kc => kc.2.getD i 0).sum := by
    intro k hk'
    obtain ⟨h1, h2⟩ := addCurves_spec _ _ hk k hk'
    refine ⟨h1, fun i => ?_⟩
    rw [h2, List.map_map]; rfl
  unfold assemble
  dsimp only
  refine ⟨hf, ?_, hkin, ?_, ?_, rfl⟩
  · intro kc hkc
    exact hk _ (List.mem_map_of_mem hkc)
  · intro tot htot
    cases e1 : (p.field.map fun c => interpOnto c ref) with
    | none => rw [e1] at htot; simp [addHalves] at htot
    | some f =>
      cases e2 : addCurves ((p.kinetic.map fun kc => (kc.1, interpOnto kc.2 ref)).map Prod.snd) with
      | none => rw [e1, e2] at htot; simp [addHalves] at htot
      | some k =>
        rw [e1, e2, addHalves, Option.some.injEq] at htot
        subst htot
        obtain ⟨l2, s2⟩ := hkin k e2
        have l1 := hf f e1
        refine ⟨by simp [l1, l2], f, rfl, fun i => ?_⟩
        rw [zipWith_add_getD _ _ (l1.trans l2.symm), s2]
  · cases e1 : p.field with
    | none => simp [addHalves]
    | some f =>
      cases e2 : p.kinetic with
      | nil => simp [addHalves, addCurves]
      | cons kc ks => simp [addHalves, addCurves]

omit [LinearOrder K] [IsStrictOrderedRing K] in
theorem field_kept (files : List (Str × Option (List K × List (List K)))) (p : Parsed K)
    (h : ∀ f ∈ files, histKind f.1 ≠ some .fld) : (files.foldl histStep p).field = p.field := by
  induction files generalizing p with
  | nil => rfl
  | cons f fs ih =>
    rw [List.foldl_cons, ih _ fun g hg => h g (by simp [hg])]
    have hf := h f (by simp)
    obtain ⟨name, tb⟩ := f
    unfold histStep
    dsimp only at hf ⊢
    cases hk : histKind name with
    | none => rfl
    | some k =>
      cases tb with
      | none => rfl
      | some tb =>
        dsimp only
        split_ifs
        · rfl
        · cases k with
          | fld => exact absurd hk hf
          | par => rfl

omit [LinearOrder K] [IsStrictOrderedRing K] in
theorem kinetic_kept (files : List (Str × Option (List K × List (List K)))) (p : Parsed K) (s : Str)
    (h : ∀ f ∈ files, histKind f.1 = some .par → pathStem f.1 ≠ s) :
    dictGet (files.foldl histStep p).kinetic s = dictGet p.kinetic s := by
  induction files generalizing p with
  | nil => rfl
  | cons f fs ih =>
    rw [List.foldl_cons, ih _ fun g hg => h g (by simp [hg])]
    have hf := h f (by simp)
    obtain ⟨name, tb⟩ := f
    unfold histStep
    dsimp only at hf ⊢
    cases hk : histKind name with
    | none => rfl
    | some k =>
      cases tb with
      | none => rfl
      | some tb =>
        dsimp only
        split_ifs
        · rfl
        · cases k with
          | fld => rfl
          | par =>
            dsimp only
            rw [dictGet_set_ne _ _ _ _ (hf hk)]

omit [LinearOrder K] [IsStrictOrderedRing K] in
theorem dictGet_map {κ ν μ : Type} [DecidableEq κ] (d : Dict κ ν) (g : ν → μ) (k : κ) :
    dictGet (d.map fun kc => (kc.1, g kc.2)) k = (dictGet d k).map g := by
  induction d with
  | nil => rfl
  | cons a d ih =>
    simp only [List.map_cons, dictGet]
    split_ifs
    · rfl
    · exact ih

/-- The field energy is the sum of the columns of the field file, on the times of that file. -/
theorem hist_field (pre post : List (Str × Option (List K × List (List K)))) (name : Str) (t : List K) (rows : List (List K))
    (hk : histKind name = some .fld) (hne : rows.flatten ≠ []) (hpost : ∀ f ∈ post, histKind f.1 ≠ some .fld) :
    ∃ d, loadHist (pre ++ (name, some (t, rows)) :: post) = some d ∧ d.t = t ∧ d.field = some (rows.map List.sum) := by
  have e : ((pre ++ (name, some (t, rows)) :: post).foldl histStep ⟨none, []⟩).field = some (t, rows.map List.sum) := by
    rw [List.foldl_append, List.foldl_cons, field_kept _ _ hpost]
    simp only [histStep, hk]
    rw [if_neg (by simpa using hne)]
  unfold loadHist
  generalize (pre ++ (name, some (t, rows)) :: post).foldl histStep ⟨none, []⟩ = p at e
  have hr : refTime p = some t := by unfold refTime; rw [e]
  refine ⟨assemble p t, by dsimp only; rw [hr]; rfl, rfl, ?_⟩
  simp only [assemble, e, Option.map_some, interp_aligned]

/-- The energy of a species is the last column of its file (not the particle count before it), on the times of the
history. -/
theorem hist_species (pre post : List (Str × Option (List K × List (List K)))) (name : Str) (t : List K)
    (rows : List (List K)) (hk : histKind name = some .par) (hne : rows.flatten ≠ [])
    (hpost : ∀ f ∈ post, histKind f.1 = some .par → pathStem f.1 ≠ pathStem name) (d : Hist K)
    (hd : loadHist (pre ++ (name, some (t, rows)) :: post) = some d) :
    dictGet d.kinetic (pathStem name) = some (interpOnto (t, rows.map fun r => r.getLastD 0) d.t) := by
  have e : dictGet ((pre ++ (name, some (t, rows)) :: post).foldl histStep ⟨none, []⟩).kinetic (pathStem name)
      = some (t, rows.map fun r => r.getLastD 0) := by
    rw [List.foldl_append, List.foldl_cons, kinetic_kept _ _ _ hpost]
    simp only [histStep, hk]
    rw [if_neg (by simpa using hne)]
    exact dictGet_set_self _ _ _
  unfold loadHist at hd
  generalize (pre ++ (name, some (t, rows)) :: post).foldl histStep ⟨none, []⟩ = p at e hd
  obtain ⟨ref, -, rfl⟩ := Option.map_eq_some_iff.1 hd
  simp only [assemble]
  rw [dictGet_map p.kinetic (fun c => interpOnto c ref), e, Option.map_some]

/-- Nothing is reported without a file of energies. -/
theorem hist_none (files : List (Str × Option (List K × List (List K)))) (h : ∀ f ∈ files, histKind f.1 = none) :
    loadHist files = none := by
  have e : ∀ p : Parsed K, files.foldl histStep p = p := by
    induction files with
    | nil => intro p; rfl
    | cons f fs ih =>
      intro p
      rw [List.foldl_cons]
      have : histStep p f = p := by unfold histStep; rw [h f (by simp)]
      rw [this, ih fun g hg => h g (by simp [hg])]
  unfold loadHist
  rw [e]; rfl

/-- A run with one species dumped on other times than the fields. -/
noncomputable example : ∃ d : Hist ℚ, loadHist [(['f', 'l', 'd', '_', 'e', 'n', 'e'], some ([0, 2], [[1, 1], [0, 1]])),
      (['p', 'a', 'r', '0', '1', '_', 'e', 'n', 'e'], some ([0, 4], [[1000, 2], [1000, 4]]))] = some d ∧
    d.total = some [4, 4] ∧ d.drift = some 0 := by
  have h1 : histKind ['f', 'l', 'd', '_', 'e', 'n', 'e'] = some .fld := by decide
  have h2 : histKind ['p', 'a', 'r', '0', '1', '_', 'e', 'n', 'e'] = some .par := by decide
  have hc : ¬(([0, 4] : List ℚ).zip [0, 2]).all (fun x => close x.1 x.2) = true := by
    simp only [close, List.zip_cons_cons, List.zip_nil_right, List.all_cons, List.all_nil]; norm_num
  have e1 : interpOnto (([0, 4] : List ℚ), [2, 4]) [0, 2] = [2, 3] := by
    unfold interpOnto
    rw [if_neg fun h => hc h.2]
    simp only [List.map_cons, List.map_nil, List.zip_cons_cons, List.zip_nil_right, PicLoad.interp]
    norm_num
  have e2 := interp_aligned ([0, 2] : List ℚ) [2, 1]
  refine ⟨_, rfl, ?_, ?_⟩ <;>
  · simp only [List.foldl_cons, List.foldl_nil, histStep, h1, h2, assemble, refTime]
    simp only [List.flatten_cons, List.flatten_nil, List.append_nil, List.cons_append, List.nil_append, List.isEmpty_cons,
      Bool.false_eq_true, if_false, dictSet, List.map_cons, List.map_nil, List.sum_cons, List.sum_nil, Option.map_some]
    norm_num [e1, e2, addHalves, addCurves, drift, listMax, listMin]

/-! ### The text of a table -/

omit [Field K] [LinearOrder K] [IsStrictOrderedRing K] in
theorem words_aux (cur w : Str) (c : Char) (rest : Str) (hw : ∀ x ∈ w, pySpace x = false) (hc : pySpace c = true)
    (hne : cur ≠ [] ∨ w ≠ []) : wordsAux cur (w ++ c :: rest) = (cur.reverse ++ w) :: words rest := by
  induction w generalizing cur with
  | nil =>
    have : cur ≠ [] := by simpa using hne
    rw [List.nil_append, wordsAux, if_pos hc, if_neg (by simpa using this), List.append_nil]; rfl
  | cons a w ih =>
    rw [List.cons_append, wordsAux, if_neg (by simp [hw a (by simp)]), ih _ (fun x hx => hw x (by simp [hx])) (by simp)]
    simp

/-- A word followed by white space is the first of the words. -/
theorem words_word (w : Str) (c : Char) (rest : Str) (hw : ∀ x ∈ w, pySpace x = false) (hc : pySpace c = true)
    (hne : w ≠ []) : words (w ++ c :: rest) = w :: words rest := by
  have := words_aux [] w c rest hw hc (Or.inr hne)
  simpa [words] using this

/-- White space in front is skipped. -/
theorem words_space (c : Char) (rest : Str) (hc : pySpace c = true) : words (c :: rest) = words rest := by
  unfold words
  rw [wordsAux, if_pos hc, if_pos (by rfl)]

/-- The last word needs no white space after it. -/
theorem words_last (w : Str) (hw : ∀ x ∈ w, pySpace x = false) (hne : w ≠ []) : words w = [w] := by
  have h : ∀ (w cur : Str), (∀ x ∈ w, pySpace x = false) → (cur ≠ [] ∨ w ≠ []) → wordsAux cur w = [cur.reverse ++ w] := by
    intro w
    induction w with
    | nil =>
      intro cur _ hne
      have : cur ≠ [] := by simpa using hne
      rw [wordsAux, if_neg (by simpa using this), List.append_nil]
    | cons a w ih =>
      intro cur hw _
      rw [wordsAux, if_neg (by simp [hw a (by simp)]), ih _ (fun x hx => hw x (by simp [hx])) (by simp)]
      simp
  have := h w [] hw (Or.inr hne)
  simpa [words] using this

/-- The text of a row: words with one blank between them. -/
def rowText : List Str → Str
  | [] => []
  | [w] => w
  | w :: ws => w ++ ' ' :: rowText ws

theorem words_row (ws : List Str) (hw : ∀ w ∈ ws, w ≠ [] ∧ ∀ x ∈ w, pySpace x = false) : words (rowText ws) = ws := by
  induction ws with
  | nil => rfl
  | cons w ws ih =>
    obtain ⟨h1, h2⟩ := hw w (by simp)
    cases ws with
    | nil => exact words_last w h2 h1
    | cons v vs =>
      show words (w ++ ' ' :: rowText (v :: vs)) = _
      rw [words_word w ' ' _ h2 (by decide) h1, ih fun x hx => hw x (by simp [hx])]

theorem row_ends (ws : List Str) (hne : ws ≠ []) (hw : ∀ w ∈ ws, w ≠ [] ∧ ∀ x ∈ w, pySpace x = false) :
    (∃ c cs, rowText ws = c :: cs ∧ pySpace c = false ∧ (∃ w tl, ws = (c :: w) :: tl)) ∧
      ∃ cs c, rowText ws = cs ++ [c] ∧ pySpace c = false := by
  induction ws with
  | nil => exact absurd rfl hne
  | cons w ws ih =>
    obtain ⟨h1, h2⟩ := hw w (by simp)
    cases w with
    | nil => exact absurd rfl h1
    | cons a w =>
      cases ws with
      | nil =>
        refine ⟨⟨a, w, rfl, h2 a (by simp), w, [], rfl⟩, ?_⟩
        refine ⟨(a :: w).dropLast, (a :: w).getLast (List.cons_ne_nil a w), ?_, h2 _ (List.getLast_mem _)⟩
        exact (List.dropLast_append_getLast (List.cons_ne_nil a w)).symm
      | cons v vs =>
        obtain ⟨-, cs, c, h3, h4⟩ := ih (by simp) fun x hx => hw x (by simp [hx])
        refine ⟨⟨a, w ++ ' ' :: rowText (v :: vs), rfl, h2 a (by simp), w, _, rfl⟩, (a :: w) ++ ' ' :: cs, c, ?_, h4⟩
        show (a :: w) ++ ' ' :: rowText (v :: vs) = _
        rw [h3]; simp

theorem strip_row (ws : List Str) (hne : ws ≠ []) (hw : ∀ w ∈ ws, w ≠ [] ∧ ∀ x ∈ w, pySpace x = false) :
    strip (rowText ws) = rowText ws := by
  obtain ⟨⟨c, cs, h1, h2, -⟩, ds, d, h3, h4⟩ := row_ends ws hne hw
  unfold strip lstrip
  have e : List.dropWhile pySpace (rowText ws) = rowText ws := by rw [h1, List.dropWhile_cons, if_neg (by simp [h2])]
  rw [e, h3, List.reverse_append]
  simp [List.dropWhile_cons, h4]

/-- **A line of numbers is read as these numbers.** -/
theorem row_numbers (num : Str → Option K) (ws : List Str) (vals : List K) (hne : ws ≠ [])
    (hw : ∀ w ∈ ws, w ≠ [] ∧ ∀ x ∈ w, pySpace x = false) (hc : ∀ w ∈ ws.head?, w.head? ≠ some '!' ∧ w.head? ≠ some '#')
    (hv : ws.map num = vals.map some) : dataRow num (rowText ws) = some vals := by
  obtain ⟨⟨c, cs, h1, h2, w, tl, h3⟩, -⟩ := row_ends ws hne hw
  have h4 : c ≠ '!' ∧ c ≠ '#' := by simpa [h3] using hc
  have h5 : ∀ l : List K, allSome (l.map some) = some l := by
    intro l
    induction l with
    | nil => rfl
    | cons a l ih => rw [List.map_cons, allSome, ih]; rfl
  unfold dataRow
  rw [strip_row ws hne hw, h1]
  simp only [h4.1, h4.2, or_self, if_false]
  rw [← h1, words_row ws hw, hv, h5]

/-- Comments, blank lines and headers are skipped. -/
theorem row_comment (num : Str → Option K) (line rest : Str) (c : Char) (h : strip line = c :: rest) (hc : c = '!' ∨ c = '#') :
    dataRow num line = none := by
  unfold dataRow; rw [h]; simp only [hc, if_true]

theorem row_header (num : Str → Option K) (ws : List Str) (w : Str) (hmem : w ∈ ws)
    (hw : ∀ w ∈ ws, w ≠ [] ∧ ∀ x ∈ w, pySpace x = false) (hn : num w = none) : dataRow num (rowText ws) = none := by
  have hne : ws ≠ [] := by rintro rfl; simp at hmem
  obtain ⟨⟨c, cs, h1, h2, -⟩, -⟩ := row_ends ws hne hw
  have h5 : ∀ l : List (Option K), none ∈ l → allSome l = none := by
    intro l
    induction l with
    | nil => simp
    | cons a l ih =>
      intro h
      cases a with
      | none => rfl
      | some a =>
        have : none ∈ l := by simpa using h
        rw [allSome, ih this]; rfl
  unfold dataRow
  rw [strip_row ws hne hw, h1]
  simp only
  rw [← h1, words_row ws hw, h5 _ (List.mem_map.2 ⟨w, hmem, hn⟩)]
  split_ifs <;> rfl

omit [Field K] [LinearOrder K] [IsStrictOrderedRing K] in
theorem minWidth_spec (rows : List (List K)) (hne : rows ≠ []) :
    (∃ r ∈ rows, r.length = minWidth rows) ∧ ∀ r ∈ rows, minWidth rows ≤ r.length := by
  cases rows with
  | nil => exact absurd rfl hne
  | cons r rs =>
    have h : ∀ (l : List (List K)) (w : ℕ), l.foldl (fun w x => min w x.length) w ≤ w ∧
        (∀ x ∈ l, l.foldl (fun w x => min w x.length) w ≤ x.length) ∧
        (l.foldl (fun w x => min w x.length) w = w ∨ ∃ x ∈ l, x.length = l.foldl (fun w x => min w x.length) w) := by
      intro l
      induction l with
      | nil => intro w; simp
      | cons x l ih =>
        intro w
        rw [List.foldl_cons]
        obtain ⟨h1, h2, h3⟩ := ih (min w x.length)
        refine ⟨h1.trans (min_le_left _ _), ?_, ?_⟩
        · intro y hy
          rcases List.mem_cons.1 hy with rfl | hy
          · exact h1.trans (min_le_right _ _)
          · exact h2 y hy
        · rcases h3 with h3 | ⟨y, hy, h3⟩
          · rcases le_total w x.length with h | h
            · left; rw [h3, min_eq_left h]
            · right; exact ⟨x, by simp, by rw [h3, min_eq_right h]⟩
          · right; exact ⟨y, by simp [hy], h3⟩
    obtain ⟨h1, h2, h3⟩ := h rs r.length
    refine ⟨?_, ?_⟩
    · rcases h3 with h3 | ⟨x, hx, h3⟩
      · exact ⟨r, by simp, h3.symm⟩
      · exact ⟨x, by simp [hx], h3⟩
    · intro x hx
      rcases List.mem_cons.1 hx with rfl | hx
      · exact h1
      · exact h2 x hx

/-- **A complete table is read completely**: with rows of one width, the times are the second column and the values are
all the columns behind it. -/
theorem table_complete (num : Str → Option K) (lines : List Str) (rows : List (List K)) (w : ℕ)
    (hr : lines.filterMap (dataRow num) = rows) (hne : rows ≠ []) (hw : ∀ r ∈ rows, r.length = w) (h2 : 2 ≤ w) :
    parseTable num lines = some (rows.map fun r => r.getD 1 0, rows.map fun r => r.drop 2) := by
  obtain ⟨⟨r, hr1, hr2⟩, -⟩ := minWidth_spec rows hne
  have e : minWidth rows = w := by rw [← hr2, hw r hr1]
  unfold parseTable
  rw [hr]
  simp only
  rw [if_neg (by simpa using hne), e, if_neg (by omega)]
  refine congrArg some (Prod.ext (List.map_congr_left fun r h => ?_) (List.map_congr_left fun r h => ?_))
  · rw [List.take_of_length_le (hw r h).le]
  · rw [List.take_of_length_le (hw r h).le]

/-- A table with a shorter row, such as one whose last line was cut when the run was stopped: every row keeps only as many
columns as the shortest. -/
theorem table_cut (num : Str → Option K) (lines : List Str) (rows : List (List K)) (c : ℕ)
    (hr : lines.filterMap (dataRow num) = rows) (hmem : ∃ r ∈ rows, r.length = c) (hmin : ∀ r ∈ rows, c ≤ r.length)
    (h2 : 2 ≤ c) :
    parseTable num lines = some (rows.map fun r => r.getD 1 0, rows.map fun r => (r.take c).drop 2) := by
  have hne : rows ≠ [] := by rintro rfl; simp at hmem
  obtain ⟨⟨r, hr1, hr2⟩, h3⟩ := minWidth_spec rows hne
  obtain ⟨x, hx, hx2⟩ := hmem
  have e : minWidth rows = c := le_antisymm (by rw [← hx2]; exact h3 x hx) (by rw [← hr2]; exact hmin r hr1)
  unfold parseTable
  rw [hr]
  simp only
  rw [if_neg (by simpa using hne), e, if_neg (by omega)]
  refine congrArg some (Prod.ext (List.map_congr_left fun r h => ?_) rfl)
  simp only [List.getD_eq_getElem?_getD]
  rw [List.getElem?_take_of_lt (by omega)]

/-- A table is refused exactly if it has no row of numbers or a row without a time. -/
theorem table_refused (num : Str → Option K) (lines : List Str) :
    parseTable num lines = none ↔
      lines.filterMap (dataRow num) = [] ∨ ∃ r ∈ lines.filterMap (dataRow num), r.length < 2 := by
  unfold parseTable
  generalize lines.filterMap (dataRow num) = rows
  by_cases hne : rows = []
  · simp [hne]
  · obtain ⟨⟨r, hr1, hr2⟩, h3⟩ := minWidth_spec rows hne
    simp only [List.isEmpty_iff, hne, if_false, false_or]
    constructor
    · intro h
      split at h
      · exact ⟨r, hr1, by omega⟩
      · exact absurd h (by simp)
    · rintro ⟨x, hx, hx2⟩
      have := h3 x hx
      rw [if_pos (by omega)]

/-- **What is missing**: rows before the cut are not protected from it. Of a particle table (iteration, time, number of
particles, energy) whose last line stops behind the number of particles, the numbers of particles are reported as the
energies, at every time. -/
theorem cut_reports_counts_partial (num : Str → Option K) (lines : List Str) (rows : List (List K)) (it t n : K)
    (pre post : List (Str × Option (List K × List (List K)))) (name : Str)
    (hk : histKind name = some .par) (hpost : ∀ f ∈ post, histKind f.1 = some .par → pathStem f.1 ≠ pathStem name)
    (hr : lines.filterMap (dataRow num) = rows ++ [[it, t, n]]) (hw : ∀ r ∈ rows, r.length = 4) (d : Hist K)
    (hd : loadHist (pre ++ (name, parseTable num lines) :: post) = some d) :
    dictGet d.kinetic (pathStem name) =
      some (interpOnto ((rows ++ [[it, t, n]]).map (fun r => r.getD 1 0), (rows ++ [[it, t, n]]).map fun r => r.getD 2 0) d.t) := by
  have e := table_cut num lines _ 3 hr ⟨[it, t, n], by simp, rfl⟩ (by
    intro r h
    rcases List.mem_append.1 h with h | h
    · rw [hw r h]; omega
    · rw [List.mem_singleton.1 h]; rfl) (by omega)
  rw [e] at hd
  have := hist_species pre post name _ _ hk (by simp) hpost d hd
  rw [this]
  refine congrArg (fun v => some (interpOnto (_, v) d.t)) ?_
  rw [List.map_map]
  refine List.map_congr_left fun r h => ?_
  have hr : ∃ a b c tl, r = a :: b :: c :: tl := by
    have : 3 ≤ r.length := by
      rcases List.mem_append.1 h with h | h
      · rw [hw r h]; omega
      · rw [List.mem_singleton.1 h]; rfl
    match r, this with
    | a :: b :: c :: tl, _ => exact ⟨a, b, c, tl, rfl⟩
  obtain ⟨a, b, c, tl, rfl⟩ := hr
  rfl

/-- A table with a comment, a header, a blank line and two rows. -/
example : parseTable (fun w => if w = ['7'] then some (7 : ℚ) else if w = ['5'] then some 5 else none)
    [['!', ' ', 'x'], ['I', 't', 'e', 'r', ' ', 'T'], [' '], ['7', ' ', '5', ' ', ' ', '7', ' ', '5'],
      [' ', '5', ' ', '7', ' ', '5', ' ', '5']] = some ([5, 7], [[7, 5], [5, 5]]) := by
  rfl

/-- The same table with the last line cut: the energies are gone. -/
example : parseTable (fun w => if w = ['7'] then some (7 : ℚ) else if w = ['5'] then some 5 else none)
    [['7', ' ', '5', ' ', ' ', '7', ' ', '5'], ['5', ' ', '7', ' ', '5']] = some ([5, 7], [[7], [5]]) := by
  rfl

end
end Verif.OsirisSeries

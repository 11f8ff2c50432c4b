import Verif.Model.Osiris
import Verif.Props.OsirisFields

/-! C207, C208: the final field energy of an OSIRIS run, the choice of field diagnostics, and the regeneration of plots. -/
namespace Verif.Osiris

/-! ### C207: the last dump -/

section
variable {K : Type} [Field K]

theorem latest_fold (l : List (Dump K)) (b : Option (Dump K)) :
    (∀ d, l.foldl newer b = some d →
      (d ∈ l ∨ b = some d) ∧ (∀ q, b = some q → Io.iterFromName q.name ≤ Io.iterFromName d.name) ∧ ∀ q ∈ l, Io.iterFromName q.name ≤ Io.iterFromName d.name) ∧
    (l.foldl newer b = none ↔ l = [] ∧ b = none) := by
  induction l generalizing b with
  | nil =>
    refine ⟨fun d h => ⟨Or.inr h, fun q hq => ?_, by simp⟩, by simp⟩
    rw [List.foldl_nil] at h
    rw [h] at hq
    injection hq with hq
    rw [hq]
  | cons a l ih =>
    rw [List.foldl_cons]
    obtain ⟨h1, h2⟩ := ih (newer b a)
    constructor
    · intro d hd
      obtain ⟨m1, m2, m3⟩ := h1 d hd
      cases b with
      | none =>
        simp only [newer] at m1 m2
        refine ⟨?_, by simp, fun q hq => ?_⟩
        · rcases m1 with h | h
          · exact Or.inl (by simp [h])
          · injection h with h; exact Or.inl (by simp [h])
        · rcases List.mem_cons.1 hq with rfl | hq
          · exact m2 q rfl
          · exact m3 q hq
      | some b =>
        simp only [newer] at m1 m2
        split at m1
        · next hlt =>
          rw [if_pos hlt] at m2
          have ma := m2 a rfl
          refine ⟨?_, fun q hq => ?_, fun q hq => ?_⟩
          · rcases m1 with h | h
            · exact Or.inl (by simp [h])
            · injection h with h; exact Or.inl (by simp [h])
          · injection hq with hq; subst hq; omega
          · rcases List.mem_cons.1 hq with rfl | hq
            · exact ma
            · exact m3 q hq
        · next hlt =>
          rw [if_neg hlt] at m2
          have mb := m2 b rfl
          refine ⟨?_, fun q hq => ?_, fun q hq => ?_⟩
          · rcases m1 with h | h
            · exact Or.inl (by simp [h])
            · exact Or.inr h
          · injection hq with hq; subst hq; exact mb
          · rcases List.mem_cons.1 hq with rfl | hq
            · omega
            · exact m3 q hq
    · rw [h2]
      constructor
      · rintro ⟨-, h⟩
        cases b with
        | none => simp [newer] at h
        | some b =>
          simp only [newer] at h
          split at h <;> cases h
      · rintro ⟨h, -⟩; cases h

/-- C207: the dump used is an HDF5 file of the directory with the largest iteration number of all; there is one as soon as the directory
has an HDF5 file. -/
theorem latest_spec (l : List (Dump K)) :
    (∀ d, latest l = some d → d ∈ l ∧ Io.isH5 d.name = true ∧ ∀ q ∈ l, Io.isH5 q.name = true → Io.iterFromName q.name ≤ Io.iterFromName d.name) ∧
      (latest l = none ↔ ∀ q ∈ l, Io.isH5 q.name = false) := by
  obtain ⟨h1, h2⟩ := latest_fold (l.filter fun d => Io.isH5 d.name) none
  constructor
  · intro d hd
    obtain ⟨m1, -, m3⟩ := h1 d hd
    rcases m1 with m1 | m1
    · rw [List.mem_filter] at m1
      exact ⟨m1.1, m1.2, fun q hq hh => m3 q (List.mem_filter.2 ⟨hq, hh⟩)⟩
    · cases m1
  · unfold latest
    rw [h2, List.filter_eq_nil_iff]
    simp

/-- C207: the last dump does not depend on the order of the files, if the iteration numbers are different. -/
theorem latest_perm (l l' : List (Dump K)) (h : l.Perm l') (hinj : ∀ p ∈ l, ∀ q ∈ l, Io.iterFromName p.name = Io.iterFromName q.name → p = q) :
    latest l = latest l' := by
  obtain ⟨a1, a2⟩ := latest_spec l
  obtain ⟨b1, b2⟩ := latest_spec l'
  cases ha : latest l with
  | none =>
    symm
    rw [b2]
    intro q hq
    exact a2.1 ha q (h.mem_iff.2 hq)
  | some d =>
    obtain ⟨d1, d2, d3⟩ := a1 d ha
    cases hb : latest l' with
    | none =>
      have := b2.1 hb d (h.mem_iff.1 d1)
      rw [d2] at this
      cases this
    | some q =>
      obtain ⟨q1, q2, q3⟩ := b1 q hb
      have q1' := h.mem_iff.2 q1
      have := hinj d d1 q q1' (le_antisymm (q3 d (h.mem_iff.1 d1) d2) (d3 q q1' q2))
      rw [this]

/-! ### C207: which directories count -/

theorem stem_plain (c : Str) (h : '-' ∉ c) (t : Str) : stem (c ++ '-' :: t) = c ∧ stem c = c := by
  unfold stem
  constructor
  · rw [List.takeWhile_append_of_pos]
    · simp
    · intro x hx
      simp only [bne_iff_ne, ne_eq]
      rintro rfl
      exact h hx
  · have e := List.takeWhile_append_of_pos (p := fun x => x != '-') (l₁ := c) (l₂ := []) (fun x hx => by
      simp only [bne_iff_ne, ne_eq]
      rintro rfl
      exact h hx)
    simpa using e

theorem names_no_dash : ∀ c ∈ fieldNames, '-' ∉ c := by decide

theorem names_whole : ∀ c ∈ fieldNames, isFieldDir c = true := by decide

/-- C207: every field component counts; a variant of a component (`e1-savg`, `e1-tavg`) counts exactly if it is no line-out and no slice;
anything whose name before the first dash is no component does not count. -/
theorem counted (c t : Str) (hc : c ∈ fieldNames) : isFieldDir c = true ∧ (isFieldDir (c ++ '-' :: t) = whole (c ++ '-' :: t)) ∧
    ∀ d, stem d ∉ fieldNames → isFieldDir d = false := by
  refine ⟨names_whole c hc, ?_, fun d hd => ?_⟩
  · unfold isFieldDir
    rw [(stem_plain c (names_no_dash c hc) t).1]
    rw [List.contains_iff_mem.2 hc, Bool.true_and]
  · unfold isFieldDir
    rw [Bool.and_eq_false_iff]
    left
    rw [Bool.eq_false_iff]
    intro h
    exact hd (List.contains_iff_mem.1 h)

/-! ### C207: the energy -/

/-- C207: the metric is the sum over the counted directories of the energy of their last dumps; it is absent exactly if none has one. -/
theorem final_sum (l : List (FldDir K)) :
    (∀ e, finalEnergy (some l) = some e → e = ((l.filterMap dirEnergy).sum)) ∧ (finalEnergy (some l) = none ↔ ∀ d ∈ l, dirEnergy d = none) := by
  unfold finalEnergy
  dsimp only
  cases h : l.filterMap dirEnergy with
  | nil =>
    dsimp only
    refine ⟨fun e he => (by cases he), ?_⟩
    simp only [true_iff]
    intro d hd
    by_contra hne
    obtain ⟨x, hx⟩ := Option.ne_none_iff_exists'.1 hne
    have : x ∈ l.filterMap dirEnergy := List.mem_filterMap.2 ⟨d, hd, hx⟩
    rw [h] at this
    cases this
  | cons a t =>
    dsimp only
    refine ⟨fun e he => (by injection he with he; exact he.symm), ?_⟩
    simp only [reduceCtorEq, false_iff]
    intro hn
    have : a ∈ l.filterMap dirEnergy := by rw [h]; simp
    obtain ⟨d, hd, hx⟩ := List.mem_filterMap.1 this
    rw [hn d hd] at hx
    cases hx

/-- The directory of a component. -/
def dirName : OsirisPlot.Comp → Str
  | .e1 => ['e', '1'] | .e2 => ['e', '2'] | .e3 => ['e', '3'] | .b1 => ['b', '1'] | .b2 => ['b', '2'] | .b3 => ['b', '3']

/-- C207: a run that dumps all six components once each, ending at the same iteration, has the same final energy in both records: the
metric equals the last value of electric plus magnetic energy. -/
theorem metrics_agree (f : OsirisPlot.Comp → Option (OsirisPlot.Series K)) (it : ℤ) (dvol : K) (vals : OsirisPlot.Comp → List K)
    (h : ∀ c, ∃ s t, f c = some s ∧ s.dvol = dvol ∧ (s.dumps.filter fun d => d.1 = it) = [(it, t, vals c)])
    (dumps : OsirisPlot.Comp → List (Dump K)) (last : OsirisPlot.Comp → Str) (hl : ∀ c, latest (dumps c) = some ⟨last c, some (vals c), dvol⟩)
    (others : List (FldDir K)) (ho : ∀ d ∈ others, isFieldDir d.name = false) :
    finalEnergy (some (OsirisPlot.comps.map (fun c => ⟨dirName c, dumps c⟩) ++ others)) = some (OsirisPlot.totalEnergy f it) := by
  have hd : ∀ c, dirEnergy (⟨dirName c, dumps c⟩ : FldDir K) = some (1 / 2 * ((vals c).map fun x => x ^ 2).sum * dvol) := by
    intro c
    unfold dirEnergy
    have : isFieldDir (dirName c) = true := by cases c <;> decide
    rw [if_pos this, hl c]
    rfl
  have h0 : others.filterMap dirEnergy = [] := by
    rw [List.filterMap_eq_nil_iff]
    intro d hd
    unfold dirEnergy
    rw [ho d hd]
    rfl
  unfold finalEnergy
  dsimp only
  rw [List.filterMap_append, h0, List.append_nil]
  simp only [OsirisPlot.comps, List.map_cons, List.map_nil, List.filterMap_cons, hd, List.filterMap_nil, List.sum_cons, List.sum_nil]
  rw [OsirisPlot.total_integral f it dvol vals h]
  congr 1
  ring

/-- C207: without dumps of the fields the energy of the streamed files is used, if there are any. -/
theorem metric_fallback (fld : Option (List (FldDir K))) (e : K) (s : Option (Option K)) :
    (finalEnergy fld = some e → energyMetric fld s = some e) ∧ (finalEnergy fld = none → energyMetric fld s = s.join) := by
  constructor
  · intro h; unfold energyMetric; rw [h]
  · intro h
    unfold energyMetric
    rw [h]
    cases s <;> rfl

/-- C207 fails for decks that dump a component both in full and averaged: the metric counts it twice, while the energy series counts it
once. -/
theorem counted_twice_partial : finalEnergy (some [(⟨['e', '1'], [⟨"e1-000001.h5".toList, some [2], 1⟩]⟩ : FldDir ℚ),
      ⟨['e', '1', '-', 's', 'a', 'v', 'g'], [⟨"e1-savg-000001.h5".toList, some [2], 1⟩]⟩]) = some 4 ∧
    resolve [['e', '1'], ['e', '1', '-', 's', 'a', 'v', 'g']] ['e', '1'] = some ['e', '1'] := by
  refine ⟨?_, rfl⟩
  have h1 : isFieldDir ['e', '1'] = true := by decide
  have h2 : isFieldDir ['e', '1', '-', 's', 'a', 'v', 'g'] = true := by decide
  have l1 : latest [(⟨"e1-000001.h5".toList, some [2], 1⟩ : Dump ℚ)] = some ⟨"e1-000001.h5".toList, some [2], 1⟩ := by
    unfold latest
    rw [List.filter_cons_of_pos (by decide +kernel)]
    rfl
  have l2 : latest [(⟨"e1-savg-000001.h5".toList, some [2], 1⟩ : Dump ℚ)] = some ⟨"e1-savg-000001.h5".toList, some [2], 1⟩ := by
    unfold latest
    rw [List.filter_cons_of_pos (by decide +kernel)]
    rfl
  unfold finalEnergy
  simp only [List.filterMap_cons, List.filterMap_nil, dirEnergy, if_pos h1, if_pos h2, l1, l2, Option.bind_some, energyOfDump, Option.map_some]
  norm_num

/-- C207 fails for averaged dumps: they have fewer cells, but the cell volume of the full grid is used, so that a uniform field averaged over
`k` cells has one `k`-th of its energy. -/
theorem averaged_energy_partial [CharZero K] (m k : ℕ) (hk : 0 < k) (v dvol : K) (name : Str) :
    energyOfDump (⟨name, some (List.replicate m v), dvol⟩ : Dump K) =
      (energyOfDump (⟨name, some (List.replicate (m * k) v), dvol⟩ : Dump K)).map (· / (k : K)) := by
  have : (k : K) ≠ 0 := by exact_mod_cast hk.ne'
  unfold energyOfDump
  simp only [Option.map_some, List.map_replicate, List.sum_replicate, nsmul_eq_mul]
  congr 1
  push_cast
  field_simp

end

/-! ### C207: the diagnostic of a component -/

theorem strLe_total (a b : Str) : strLe a b = true ∨ strLe b a = true := by
  induction a generalizing b with
  | nil => left; cases b <;> rfl
  | cons x s ih =>
    cases b with
    | nil => right; rfl
    | cons y t =>
      simp only [strLe, Bool.or_eq_true, Bool.and_eq_true, decide_eq_true_eq]
      rcases lt_trichotomy x.toNat y.toNat with h | h | h
      · exact Or.inl (Or.inl h)
      · have e : x = y := Char.toNat_inj.1 h
        rcases ih t with h' | h'
        · exact Or.inl (Or.inr ⟨e, h'⟩)
        · exact Or.inr (Or.inr ⟨e.symm, h'⟩)
      · exact Or.inr (Or.inl h)

theorem strLe_trans (a b c : Str) (h1 : strLe a b = true) (h2 : strLe b c = true) : strLe a c = true := by
  induction a generalizing b c with
  | nil => cases c <;> rfl
  | cons x s ih =>
    cases b with
    | nil => cases h1
    | cons y t =>
      cases c with
      | nil => cases h2
      | cons z u =>
        simp only [strLe, Bool.or_eq_true, Bool.and_eq_true, decide_eq_true_eq] at *
        rcases h1 with h1 | ⟨rfl, h1⟩
        · rcases h2 with h2 | ⟨rfl, h2⟩
          · exact Or.inl (h1.trans h2)
          · exact Or.inl h1
        · rcases h2 with h2 | ⟨rfl, h2⟩
          · exact Or.inl h2
          · exact Or.inr ⟨rfl, ih t u h1 h2⟩

/-- The order of names is that of the code points: a name is no larger than another one exactly if it is a beginning of it or has a smaller
character at the first difference. -/
theorem strLe_iff (a b : Str) : strLe a b = true ↔ (∃ t, b = a ++ t) ∨
    ∃ p x y s t, a = p ++ x :: s ∧ b = p ++ y :: t ∧ x.toNat < y.toNat := by
  constructor
  · intro h
    induction a generalizing b with
    | nil => exact Or.inl ⟨b, rfl⟩
    | cons x s ih =>
      cases b with
      | nil => cases h
      | cons y t =>
        simp only [strLe, Bool.or_eq_true, Bool.and_eq_true, decide_eq_true_eq] at h
        rcases h with h | ⟨rfl, h⟩
        · exact Or.inr ⟨[], x, y, s, t, rfl, rfl, h⟩
        · rcases ih t h with ⟨u, rfl⟩ | ⟨p, x', y', s', t', rfl, rfl, h'⟩
          · exact Or.inl ⟨u, rfl⟩
          · exact Or.inr ⟨x :: p, x', y', s', t', rfl, rfl, h'⟩
  · rintro (⟨t, rfl⟩ | ⟨p, x, y, s, t, rfl, rfl, h⟩)
    · induction a with
      | nil => cases t <;> rfl
      | cons x s ih => simp [strLe, ih]
    · induction p with
      | nil => simp [strLe, h]
      | cons x s ih => simpa [strLe] using ih

theorem insertName_perm (x : Str) (l : List Str) : (insertName x l).Perm (x :: l) := by
  induction l with
  | nil => exact List.Perm.refl _
  | cons y l ih =>
    unfold insertName
    split
    · exact List.Perm.refl _
    · exact (ih.cons y).trans (List.Perm.swap x y l)

theorem insertName_sorted (x : Str) (l : List Str) (h : l.Pairwise fun a b => strLe a b = true) :
    (insertName x l).Pairwise fun a b => strLe a b = true := by
  induction l with
  | nil => exact List.pairwise_singleton _ _
  | cons y l ih =>
    obtain ⟨h1, h2⟩ := List.pairwise_cons.1 h
    unfold insertName
    split
    · next hxy =>
      refine List.pairwise_cons.2 ⟨fun q hq => ?_, h⟩
      rcases List.mem_cons.1 hq with rfl | hq
      · exact hxy
      · exact strLe_trans x y q hxy (h1 q hq)
    · next hxy =>
      refine List.pairwise_cons.2 ⟨fun q hq => ?_, ih h2⟩
      rcases List.mem_cons.1 ((insertName_perm x l).mem_iff.1 hq) with rfl | hq
      · exact (strLe_total q y).resolve_left hxy
      · exact h1 q hq

theorem sortNames_spec (l : List Str) : (sortNames l).Perm l ∧ (sortNames l).Pairwise fun a b => strLe a b = true := by
  induction l with
  | nil => exact ⟨List.Perm.refl _, List.Pairwise.nil⟩
  | cons x l ih =>
    exact ⟨(insertName_perm x _).trans (ih.1.cons x), insertName_sorted x _ ih.2⟩

/-- C207: the full grid is used if it was dumped; otherwise the first averaged variant in the order of names, never a line-out or a slice;
none exactly if there is no such variant. -/
theorem resolve_spec (leaves : List Str) (comp : Str) :
    (comp ∈ leaves → resolve leaves comp = some comp) ∧
      (comp ∉ leaves → ∀ r, resolve leaves comp = some r → r ∈ leaves ∧ stem r = comp ∧ whole r = true ∧
        ∀ q ∈ leaves, stem q = comp → whole q = true → strLe r q = true) ∧
      (comp ∉ leaves → (resolve leaves comp = none ↔ ∀ q ∈ leaves, stem q = comp → whole q = false)) := by
  refine ⟨fun h => by unfold resolve; rw [if_pos h], fun h r hr => ?_, fun h => ?_⟩
  · unfold resolve at hr
    rw [if_neg h] at hr
    rw [List.find?_eq_some_iff_append] at hr
    obtain ⟨hp, as, bs, hs, hn⟩ := hr
    rw [Bool.and_eq_true, decide_eq_true_eq] at hp
    have hmem : ∀ q, q ∈ leaves ↔ q ∈ as ++ r :: bs := fun q => by rw [← hs, (sortNames_spec leaves).1.mem_iff]
    refine ⟨(hmem r).2 (by simp), hp.1, hp.2, fun q hq e1 e2 => ?_⟩
    have hsorted := (sortNames_spec leaves).2
    rw [hs, List.pairwise_append] at hsorted
    have := (hmem q).1 hq
    rcases List.mem_append.1 this with hq' | hq'
    · have := hn q hq'
      simp [e1, e2] at this
    · rcases List.mem_cons.1 hq' with rfl | hq'
      · rcases strLe_total q q with h | h <;> exact h
      · exact (List.pairwise_cons.1 hsorted.2.1).1 q hq'
  · unfold resolve
    rw [if_neg h, List.find?_eq_none]
    simp only [(sortNames_spec leaves).1.mem_iff, Bool.and_eq_true, decide_eq_true_eq, not_and, Bool.not_eq_true]

/-- C207: what is resolved for a component is a directory the final energy counts too. -/
theorem resolve_counted (leaves : List Str) (comp r : Str) (hc : comp ∈ fieldNames) (h : resolve leaves comp = some r) :
    r ∈ leaves ∧ isFieldDir r = true := by
  obtain ⟨h1, h2, -⟩ := resolve_spec leaves comp
  by_cases hm : comp ∈ leaves
  · rw [h1 hm] at h
    injection h with h
    subst h
    exact ⟨hm, names_whole _ hc⟩
  · obtain ⟨a, b, c, -⟩ := h2 hm r h
    refine ⟨a, ?_⟩
    unfold isFieldDir
    rw [b, c, List.contains_iff_mem.2 hc]
    rfl

example : resolve [['e', '1', '-', 't', 'a', 'v', 'g'], ['e', '1', '-', 's', 'a', 'v', 'g'], ['s', '1'], ['e', '1', '-', 'l', 'i', 'n', 'e', '-', 'x']] ['e', '1'] =
    some ['e', '1', '-', 's', 'a', 'v', 'g'] := by decide +kernel

/-! ### C208: regeneration -/

/-- C208: regenerating without options gives the plots the options of the run, wherever the directory is given as the run directory or its
`binary` directory. -/
theorem regen_default (isDir : Path → Bool) (config : Path → Option Config) (run : Path) (o : Option OutputCfg) (hb : isDir (run ++ [dBinary]) = true)
    (hbb : isDir (run ++ [dBinary] ++ [dBinary]) = false) (hc : config run = some (.mapping o)) (hcb : config (run ++ [dBinary]) = none)
    (src : Path) (hs : src = run ∨ src = run ++ [dBinary]) :
    regen isDir config src none ⟨none, none, false, none, none, false⟩ = some (run ++ [dBinary], run ++ [dPlots], liveKwargs o) := by
  have hk : override (cannedKwargs o) ⟨none, none, false, none, none, false⟩ = liveKwargs o := by
    unfold override liveKwargs
    cases o <;> rfl
  rcases hs with rfl | rfl
  · unfold regen loadOutput findBinary defaultOut
    rw [hc, hb]
    simp [hk]
  · unfold regen loadOutput findBinary defaultOut
    rw [hcb, hbb]
    simp only [List.dropLast_concat, Option.none_or, hc]
    simp [hk]

/-- C208: an option given on the command line replaces that of the run, every other option stays, and `--no-zoom` wins over a zoom. -/
theorem cli_override (k : Kwargs) (c : Cli) :
    (∀ v, c.vth = some v → (override k c).vth = some (some v)) ∧ (c.vth = none → (override k c).vth = k.vth) ∧
      (c.noZoom = true → (override k c).zoom = some none) ∧ (∀ z, c.noZoom = false → c.zoom = some z → (override k c).zoom = some (some z)) ∧
      (c.noZoom = false → c.zoom = none → (override k c).zoom = k.zoom) ∧
      (∀ d, c.dpi = some d → (override k c).dpi = some d) ∧ (c.dpi = none → (override k c).dpi = k.dpi) ∧
      (∀ n, c.panels = some n → (override k c).panels = some n) ∧ (c.panels = none → (override k c).panels = k.panels) ∧
      (override k c).omegaP = k.omegaP ∧ (override k c).bam = k.bam ∧ (override k c).ionAcoustic = k.ionAcoustic := by
  unfold override
  refine ⟨fun v h => by simp [h], fun h => by simp [h], fun h => by simp [h], fun z h h' => by simp [h, h'], fun h h' => by simp [h, h'],
    fun d h => by simp [h], fun h => by simp [h], fun n h => by simp [h], fun h => by simp [h], rfl, rfl, rfl⟩

/-- C208: the options of the run reach the plots: a null zoom is kept apart from an absent one, and the overlay frequency squared is the
overlay density. -/
theorem kwargs_spec (o : OutputCfg) : (cannedKwargs (some o)).vth = some o.vth ∧ (cannedKwargs (some o)).zoom = o.zoom ∧
    (cannedKwargs (some o)).bam = o.bam ∧ (cannedKwargs (some o)).ionAcoustic = o.ionAcoustic ∧
    (∀ n, 0 ≤ n → o.overlayDensity = some n → ∃ w, (cannedKwargs (some o)).omegaP = some w ∧ 0 ≤ w ∧ w ^ 2 = n) ∧
    (o.overlayDensity = none → (cannedKwargs (some o)).omegaP = none) := by
  refine ⟨rfl, rfl, rfl, rfl, fun n hn h => ⟨Real.sqrt n, ?_, Real.sqrt_nonneg n, Real.sq_sqrt hn⟩, fun h => ?_⟩
  · simp [cannedKwargs, h]
  · simp [cannedKwargs, h]

/-- C208: an unreadable or missing configuration, or `--no-config`, gives the defaults. -/
theorem regen_no_config (isDir : Path → Bool) (config : Path → Option Config) (src : Path) (out : Option Path) (c : Cli)
    (h : c.noConfig = true ∨ (config src = none ∧ config src.dropLast = none) ∨ config src = some .malformed) :
    ∃ p q, regen isDir config src out c = some (p, q, override (cannedKwargs none) c) := by
  refine ⟨findBinary isDir src, out.getD (defaultOut isDir src), ?_⟩
  unfold regen loadOutput
  by_cases hn : c.noConfig = true
  · rw [if_pos hn]
  · rw [if_neg hn]
    rcases h with h | ⟨h1, h2⟩ | h
    · exact absurd h hn
    · rw [h1, h2]; rfl
    · rw [h]; rfl

/-- A `config.yaml` that is readable but no mapping (a list, say) stops the regeneration although a malformed one does not. -/
theorem config_list_partial (isDir : Path → Bool) (config : Path → Option Config) (src : Path) (out : Option Path) (c : Cli) (hc : c.noConfig = false)
    (h : config src = some .other) : regen isDir config src out c = none := by
  unfold regen loadOutput
  rw [hc, h]
  rfl

/-- A run without `config.yaml` takes its options from a `config.yaml` in the directory above it, that of another run or of a scan. -/
theorem config_above_partial (config : Path → Option Config) (run : Path) (o : Option OutputCfg) (h : config run = none)
    (h' : config run.dropLast = some (.mapping o)) : loadOutput config run = some o := by
  unfold loadOutput
  rw [h, h']
  rfl

example : regen (fun p => p == ["r".toList, dBinary]) (fun p => if p = ["r".toList] then some (.mapping (some ⟨none, some none, none, none, none⟩)) else none)
    ["r".toList] none ⟨none, none, false, none, none, false⟩ = some (["r".toList, dBinary], ["r".toList, dPlots], liveKwargs (some ⟨none, some none, none, none, none⟩)) :=
  regen_default _ _ ["r".toList] _ (by decide +kernel) (by decide +kernel) (by rfl) (by rfl) _ (Or.inl rfl)

end Verif.Osiris

import Verif.Spec.Density
import Verif.Lemmas.Dict
import Mathlib.Tactic.FieldSimp
import Mathlib.Tactic.Linarith
import Mathlib.Tactic.Ring
import Mathlib.Data.Rat.Floor

/-! C21: adaptive box sizing from a gradient scale length. -/
namespace Verif.Density
variable {K : Type} [Field K] [LinearOrder K] [FloorRing K]

theorem arrayKey_some {d : Params K} {base k : Str} (h : arrayKey d base = some k) :
    k ∈ dictKeys d ∧ (k = base ∨ baseOf k = base) := by
  have h1 := List.mem_of_find?_eq_some h
  have h2 := List.find?_some h
  exact ⟨h1, by simpa using h2⟩

theorem arrayKey_set {d : Params K} {k : Str} (hk : k ∈ dictKeys d) (v : DVal K) (base : Str) :
    arrayKey (dictSet d k v) base = arrayKey d base := by
  unfold arrayKey; rw [dictKeys_set, if_pos hk]

theorem rescaleSec_name {rnd : K → K} {s : K} {sec sec' : Str × Params K} (h : rescaleSec rnd s sec = some sec') :
    sec'.1 = sec.1 := by
  unfold rescaleSec at h
  split at h
  · simp only [Option.map_eq_some_iff] at h; obtain ⟨d, _, rfl⟩ := h; rfl
  · split at h
    · simp only [Option.map_eq_some_iff] at h; obtain ⟨d, _, rfl⟩ := h; rfl
    · cases h; rfl

theorem mapM_rescale {rnd : K → K} {s : K} {l l' : Secs K} (h : l.mapM (rescaleSec rnd s) = some l') :
    l'.map Prod.fst = l.map Prod.fst ∧
    ∀ (i : Nat) x, l[i]? = some x → ∃ x', l'[i]? = some x' ∧ rescaleSec rnd s x = some x' := by
  induction l generalizing l' with
  | nil => simp at h; subst h; simp
  | cons a l ih =>
    simp only [List.mapM_cons, Option.pure_def, Option.bind_eq_bind, Option.bind_eq_some_iff, Option.some.injEq] at h
    obtain ⟨a', ha, l2, hl, rfl⟩ := h
    obtain ⟨i1, i2⟩ := ih hl
    refine ⟨by simp [i1, rescaleSec_name ha], ?_⟩
    intro i x hx
    cases i with
    | zero => simp at hx; subst hx; exact ⟨a', by simp, ha⟩
    | succ i => simp only [List.getElem?_cons_succ] at hx ⊢; exact i2 i x hx

theorem mapM_rescale_get {rnd : K → K} {s : K} {l l' : Secs K} (h : l.mapM (rescaleSec rnd s) = some l')
    {name : Str} {d : Params K} (hd : dictGet l name = some d) :
    ∃ d', dictGet l' name = some d' ∧ rescaleSec rnd s (name, d) = some (name, d') := by
  induction l generalizing l' with
  | nil => simp [dictGet] at hd
  | cons a l ih =>
    obtain ⟨n0, d0⟩ := a
    simp only [List.mapM_cons, Option.pure_def, Option.bind_eq_bind, Option.bind_eq_some_iff, Option.some.injEq] at h
    obtain ⟨⟨n1, d1⟩, ha, l2, hl, rfl⟩ := h
    have hn := rescaleSec_name ha
    simp only at hn; subst hn
    unfold dictGet at hd ⊢
    split at hd
    · rename_i hh; subst hh; cases hd; exact ⟨d1, by simp, ha⟩
    · rename_i hh; rw [if_neg hh]; exact ih hl hd

/-- The pieces of a successful rescaling. -/
theorem apply_inv {rnd : K → K} {secs secs' : Secs K} {r : Req K} {info : Info K}
    (h : apply rnd secs (some r) = .ok (secs', some info)) :
    ∃ space grid profile nxKey isList nx fxKey fx sp xm nodes space' secs3,
      firstSection secs nSpace = some space ∧ firstSection secs nGrid = some grid ∧
      firstSection secs nProfile = some profile ∧ readNx grid = .ok (nxKey, isList, nx) ∧
      readRamp profile r = .ok (fxKey, fx, info.nmin, info.nmax, sp) ∧ r.ref ≠ 0 ∧
      info.s = (r.L * (info.nmax - info.nmin) / r.ref) / sp ∧
      scalar space kXmax = some (some xm) ∧ nodeCount secs = some nodes ∧
      info.nx = roundUp (K := K) ⌈(nx : K) * info.s⌉ nodes ∧
      (scaleArray rnd info.s kXmin space).bind (scaleArray rnd info.s kXmax) = some space' ∧
      (dictSet (dictSet secs nProfile
        (if r.mn.isSome then dictSet profile fxKey (.arr (setEnds fx info.nmin info.nmax)) else profile))
        nSpace space').mapM (rescaleSec rnd info.s) = some secs3 ∧
      secs' = dictSet secs3 nGrid (dictSet grid nxKey (if isList then .arr [(info.nx : K)] else .num (info.nx : K))) := by
  unfold apply at h
  simp only [] at h
  split at h
  · rename_i space grid profile e1 e2 e3
    split at h
    · cases h
    · rename_i nxKey isList nx e4
      split at h
      · cases h
      · rename_i fxKey fx nmin nmax sp e5
        split at h
        · cases h
        · rename_i hr
          split at h
          · cases h
          · cases h
          · rename_i xm e6
            split at h
            · rename_i xmn nodes e7 e8
              split at h
              · cases h
              · rename_i space' e9
                split at h
                · cases h
                · rename_i secs3 e10
                  simp only [Except.ok.injEq, Prod.mk.injEq, Option.some.injEq] at h
                  obtain ⟨h1, rfl⟩ := h
                  exact ⟨space, grid, profile, nxKey, isList, nx, fxKey, fx, sp, xm, nodes, space', secs3, e1, e2, e3, e4, e5,
                    hr, rfl, e6, e8, rfl, e9, e10, h1.symm⟩
            · cases h
  · cases h

theorem names_ne : nSpace ≠ nProfile ∧ nGrid ≠ nProfile ∧ nGrid ≠ nSpace ∧ nDiag ≠ nSpace ∧ nDiag ≠ nProfile ∧
    nDiag ≠ nGrid ∧ nSpace ≠ nDiag := by decide

/-- Values after `scaleArray`. -/
theorem scaleArray_values {rnd : K → K} {s : K} {base : Str} {d d' : Params K} (h : scaleArray rnd s base d = some d')
    (base' : Str) (hb : baseOf base = base) (hb' : baseOf base' = base') :
    arrayKey d' base' = arrayKey d base' ∧
    ((arrayKey d' base').bind fun k => (dictGet d' k).bind floats) =
      (if base' = base then ((arrayKey d base').bind fun k => (dictGet d k).bind floats).map (List.map fun x => rnd (x * s))
       else (arrayKey d base').bind fun k => (dictGet d k).bind floats) := by
  unfold scaleArray at h
  cases hk : arrayKey d base with
  | none =>
    rw [hk] at h; simp only [Option.some.injEq] at h; subst h
    refine ⟨rfl, ?_⟩
    split
    · rename_i e; rw [e, hk]; rfl
    · rfl
  | some k =>
    rw [hk] at h
    obtain ⟨hmem, hkb⟩ := arrayKey_some hk
    have hkb' : baseOf k = base := by
      rcases hkb with rfl | hkb
      · exact hb
      · exact hkb
    have key : ∀ v : DVal K, d' = dictSet d k v → (∀ l, floats v = some l → ∃ l0, (dictGet d k).bind floats = some l0 ∧
        l = l0.map fun x => rnd (x * s)) → (floats v).isSome →
        arrayKey d' base' = arrayKey d base' ∧
        ((arrayKey d' base').bind fun k => (dictGet d' k).bind floats) =
          (if base' = base then ((arrayKey d base').bind fun k => (dictGet d k).bind floats).map (List.map fun x => rnd (x * s))
           else (arrayKey d base').bind fun k => (dictGet d k).bind floats) := by
      intro v hd' hv hs
      subst hd'
      have e := arrayKey_set hmem v base'
      refine ⟨e, ?_⟩
      rw [e]
      cases hk2 : arrayKey d base' with
      | none => simp
      | some k2 =>
        simp only [Option.bind_some]
        by_cases hbb : base' = base
        · subst hbb
          rw [hk] at hk2; cases hk2
          rw [if_pos rfl, dictGet_set_self]
          simp only [Option.bind_some]
          obtain ⟨l, hl⟩ := Option.isSome_iff_exists.1 hs
          obtain ⟨l0, h1, h2⟩ := hv l hl
          rw [hl, h1, h2]; rfl
        · rw [if_neg hbb, dictGet_set_ne]
          rintro rfl
          obtain ⟨_, h3⟩ := arrayKey_some hk2
          rcases h3 with rfl | h3
          · exact hbb (hb'.symm.trans hkb')
          · exact hbb (h3.symm.trans hkb')
    simp only [] at h
    split at h
    · rename_i x hx
      cases h
      apply key _ rfl
      · intro l hl; cases hl; exact ⟨[x], by rw [hx]; rfl, rfl⟩
      · rfl
    · rename_i l0 hx
      cases h
      apply key _ rfl
      · intro l hl; cases hl; exact ⟨l0, by rw [hx]; rfl, rfl⟩
      · rfl
    · cases h

theorem readRamp_inv {profile : Params K} {r : Req K} {kf : Str} {fx : List K} {a b sp : K}
    (h : readRamp profile r = .ok (kf, fx, a, b, sp)) :
    ∃ kx x, arrayKey profile kX = some kx ∧ arrayKey profile kFx = some kf ∧ (dictGet profile kx).bind floats = some x ∧
      (dictGet profile kf).bind floats = some fx ∧ 3 ≤ x.length ∧ 3 ≤ fx.length ∧ sp = span x ∧ 0 < sp ∧ a < b ∧
      ((r.mn = none ∧ r.mx = none ∧ a = fx.getD 1 0 ∧ b = fx.getD (fx.length - 2) 0) ∨ (r.mn = some a ∧ r.mx = some b)) := by
  unfold readRamp at h
  split at h
  · rename_i kx kf' e1 e2
    split at h
    · rename_i x fx' e3 e4
      split at h
      · cases h
      · rename_i hlen
        simp only [] at h
        split at h
        · cases h
        · rename_i a' b' e5
          split at h
          · cases h
          · rename_i hab
            split at h
            · cases h
            · rename_i hsp
              simp only [Except.ok.injEq, Prod.mk.injEq] at h
              obtain ⟨rfl, rfl, rfl, rfl, rfl⟩ := h
              refine ⟨kx, x, e1, e2, e3, e4, by omega, by omega, rfl, lt_of_not_ge hsp, lt_of_not_ge hab, ?_⟩
              split at e5
              · rename_i h1 h2; cases e5; exact Or.inl ⟨h1, h2, rfl, rfl⟩
              · rename_i h1 h2; cases e5; exact Or.inr ⟨h1, h2⟩
              · cases e5
    · cases h
  · cases h

theorem getD_map (f : K → K) (hf : f 0 = 0) (l : List K) (i : Nat) : (l.map f).getD i 0 = f (l.getD i 0) := by
  simp only [List.getD_eq_getElem?_getD, List.getElem?_map]
  cases l[i]? <;> simp [hf]

theorem span_map_mul (s : K) (x : List K) : span (x.map fun y => y * s) = span x * s := by
  unfold span
  rw [List.length_map, getD_map (fun y => y * s) (by simp), getD_map (fun y => y * s) (by simp)]
  ring

/-- Values of the ramp before and after (with any rounding). -/
theorem ramp_after {rnd : K → K} {secs secs' : Secs K} {r : Req K} {info : Info K}
    (h : apply rnd secs (some r) = .ok (secs', some info)) :
    ∃ x fx, values secs nProfile kX = some x ∧ values secs nProfile kFx = some fx ∧ 3 ≤ x.length ∧ 3 ≤ fx.length ∧
      0 < span x ∧ info.nmin < info.nmax ∧ r.ref ≠ 0 ∧ info.s = (r.L * (info.nmax - info.nmin) / r.ref) / span x ∧
      values secs' nProfile kX = some (x.map fun y => rnd (y * info.s)) ∧
      ((r.mn = none ∧ r.mx = none ∧ info.nmin = fx.getD 1 0 ∧ info.nmax = fx.getD (fx.length - 2) 0 ∧
          values secs' nProfile kFx = some fx) ∨
       (r.mn = some info.nmin ∧ r.mx = some info.nmax ∧
          values secs' nProfile kFx = some (setEnds fx info.nmin info.nmax))) := by
  obtain ⟨space, grid, profile, nxKey, isList, nx, kf, fx, sp, xm, nodes, space', secs3, e1, e2, e3, e4, e5, hr, hs, e6, e8,
    e9, e10, e11, rfl⟩ := apply_inv h
  obtain ⟨kx, x, a1, a2, a3, a4, l1, l2, rfl, hsp, hab, hcase⟩ := readRamp_inv e5
  obtain ⟨n1, n2, n3, n4, n5, n6, n7⟩ := names_ne
  have hkf := arrayKey_some a2
  generalize hp' : (if r.mn.isSome then dictSet profile kf (.arr (setEnds fx info.nmin info.nmax)) else profile) = profile'
    at e11
  have hget : dictGet (dictSet (dictSet secs nProfile profile') nSpace space') nProfile = some profile' := by
    rw [dictGet_set_ne _ _ _ _ n1, dictGet_set_self]
  obtain ⟨d', g1, g2⟩ := mapM_rescale_get e11 hget
  simp only [rescaleSec, if_true, Option.map_eq_some_iff, Prod.mk.injEq, true_and, exists_eq_right] at g2
  have hfin : ∀ g, firstSection (dictSet secs3 nGrid g) nProfile = some d' := by
    intro g; unfold firstSection; rw [dictGet_set_ne _ _ _ _ n2]; exact g1
  obtain ⟨v1, v2⟩ := scaleArray_values g2 kX (by decide) (by decide)
  obtain ⟨v3, v4⟩ := scaleArray_values g2 kFx (by decide) (by decide)
  rw [if_pos rfl] at v2
  rw [if_neg (by decide)] at v4
  have hkxf : kx ≠ kf := by
    rintro rfl
    have q1 := (arrayKey_some a1).2
    have q2 := (arrayKey_some a2).2
    rcases q1 with rfl | q1 <;> rcases q2 with q2 | q2
    · revert q2; decide
    · revert q2; decide
    · subst q2; revert q1; decide
    · rw [q1] at q2; revert q2; decide
  have w1 : ((arrayKey profile' kX).bind fun k => (dictGet profile' k).bind floats) = some x := by
    rw [← hp']
    split
    · rw [arrayKey_set hkf.1, a1]
      simp only [Option.bind_some]
      rw [dictGet_set_ne _ _ _ _ (Ne.symm hkxf), a3]
    · rw [a1]; exact a3
  refine ⟨x, fx, by simp [values, e3, a1, a3], by simp [values, e3, a2, a4], l1, l2, hsp, hab, hr, hs, ?_, ?_⟩
  · unfold values
    rw [hfin]
    simp only [Option.bind_some]
    rw [v2, w1]; rfl
  · unfold values
    rw [hfin]
    simp only [Option.bind_some]
    rw [v4, ← hp']
    rcases hcase with ⟨c1, c2, c3, c4⟩ | ⟨c1, c2⟩
    · left
      refine ⟨c1, c2, c3, c4, ?_⟩
      rw [c1]
      simp only [Option.isSome_none, Bool.false_eq_true, if_false]
      rw [a2]; exact a4
    · right
      refine ⟨c1, c2, ?_⟩
      rw [c1]
      simp only [Option.isSome_some, if_true]
      rw [arrayKey_set hkf.1, a2]
      simp only [Option.bind_some]
      rw [dictGet_set_self]; rfl

theorem setEnds_span (fx : List K) (a b : K) (h : 4 ≤ fx.length) : span (setEnds fx a b) = b - a := by
  unfold span setEnds
  simp only [List.length_set, List.getD_eq_getElem?_getD]
  rw [List.getElem?_set_self (by simp; omega), List.getElem?_set_ne (by omega), List.getElem?_set_self (by omega)]
  simp

/-- C21: without a request the deck is returned unchanged. -/
theorem inactive_unchanged (rnd : K → K) (secs : Secs K) : apply rnd secs none = .ok (secs, none) := rfl

/-- Same sections in the same order, and only touched parameters differ. -/
def Keep (l l' : Secs K) : Prop :=
  l'.map Prod.fst = l.map Prod.fst ∧
  ∀ (i : Nat) n d, l[i]? = some (n, d) →
    ∃ d', l'[i]? = some (n, d') ∧ ∀ k, ¬ Touched n k → dictGet d' k = dictGet d k

theorem Keep.trans {a b c : Secs K} (h : Keep a b) (h' : Keep b c) : Keep a c := by
  refine ⟨h'.1.trans h.1, fun i n d hd => ?_⟩
  obtain ⟨d1, h1, h2⟩ := h.2 i n d hd
  obtain ⟨d2, h3, h4⟩ := h'.2 i n d1 h1
  exact ⟨d2, h3, fun k hk => (h4 k hk).trans (h2 k hk)⟩

theorem keep_set {l : Secs K} {name : Str} {d0 v : Params K} (h0 : dictGet l name = some d0)
    (hv : ∀ k, ¬ Touched name k → dictGet v k = dictGet d0 k) : Keep l (dictSet l name v) := by
  induction l with
  | nil => simp [dictGet] at h0
  | cons a l ih =>
    obtain ⟨n1, d1⟩ := a
    unfold dictGet at h0
    unfold dictSet
    split at h0
    · rename_i hh; subst hh; cases h0
      simp only [if_true]
      refine ⟨by simp, fun i n d hd => ?_⟩
      cases i with
      | zero => simp at hd; obtain ⟨rfl, rfl⟩ := hd; exact ⟨v, by simp, hv⟩
      | succ i => simp only [List.getElem?_cons_succ] at hd ⊢; exact ⟨d, hd, fun _ _ => rfl⟩
    · rename_i hh
      rw [if_neg hh]
      obtain ⟨i1, i2⟩ := ih h0
      refine ⟨by simp [i1], fun i n d hd => ?_⟩
      cases i with
      | zero => simp at hd; obtain ⟨rfl, rfl⟩ := hd; exact ⟨d1, by simp, fun _ _ => rfl⟩
      | succ i => simp only [List.getElem?_cons_succ] at hd ⊢; exact i2 i n d hd

theorem scaleArray_frame {rnd : K → K} {s : K} {base : Str} {d d' : Params K} (hb : baseOf base = base)
    (h : scaleArray rnd s base d = some d') (k : Str) (hk : baseOf k ≠ base) : dictGet d' k = dictGet d k := by
  unfold scaleArray at h
  split at h
  · cases h; rfl
  · rename_i k0 h0
    have hne : k0 ≠ k := by
      rintro rfl
      rcases (arrayKey_some h0).2 with rfl | h1
      · exact hk hb
      · exact hk h1
    split at h
    · cases h; exact dictGet_set_ne _ _ _ _ hne
    · cases h; exact dictGet_set_ne _ _ _ _ hne
    · cases h

theorem rescaleSec_frame {rnd : K → K} {s : K} {n : Str} {d : Params K} {x : Str × Params K}
    (h : rescaleSec rnd s (n, d) = some x) :
    x.1 = n ∧ ∀ k, ¬ Touched n k → dictGet x.2 k = dictGet d k := by
  unfold rescaleSec at h
  simp only [] at h
  split at h
  · rename_i hn
    simp only [Option.map_eq_some_iff] at h
    obtain ⟨d1, h1, rfl⟩ := h
    refine ⟨rfl, fun k hk => scaleArray_frame (by decide) h1 k ?_⟩
    intro hc; exact hk (Or.inl ⟨hn, Or.inl hc⟩)
  · split at h
    · rename_i hn
      simp only [Option.map_eq_some_iff, Option.bind_eq_some_iff] at h
      obtain ⟨d2, ⟨d1, h1, h2⟩, rfl⟩ := h
      refine ⟨rfl, fun k hk => ?_⟩
      rw [scaleArray_frame (by decide) h2 k, scaleArray_frame (by decide) h1 k]
      · intro hc; exact hk (Or.inr (Or.inr (Or.inl ⟨hn, Or.inl hc⟩)))
      · intro hc; exact hk (Or.inr (Or.inr (Or.inl ⟨hn, Or.inr hc⟩)))
    · cases h; exact ⟨rfl, fun _ _ => rfl⟩

/-- C21: the sections, their order, and every parameter that is not a profile ramp,
a box bound, a phase-space window or the cell count, are untouched. -/
theorem rest_untouched {rnd : K → K} {secs secs' : Secs K} {r : Req K} {info : Info K}
    (h : apply rnd secs (some r) = .ok (secs', some info)) : Keep secs secs' := by
  obtain ⟨space, grid, profile, nxKey, isList, nx, kf, fx, sp, xm, nodes, space', secs3, e1, e2, e3, e4, e5, hr, hs, e6, e8,
    e9, e10, e11, rfl⟩ := apply_inv h
  obtain ⟨kx, x, a1, a2, a3, a4, l1, l2, rfl, hsp, hab, hcase⟩ := readRamp_inv e5
  obtain ⟨n1, n2, n3, n4, n5, n6, n7⟩ := names_ne
  have base_of : ∀ {d : Params K} {b k : Str}, arrayKey d b = some k → baseOf b = b → baseOf k = b := by
    intro d b k h1 h2
    rcases (arrayKey_some h1).2 with rfl | h3
    · exact h2
    · exact h3
  have k1 : Keep secs (dictSet secs nProfile
      (if r.mn.isSome then dictSet profile kf (.arr (setEnds fx info.nmin info.nmax)) else profile)) := by
    apply keep_set e3
    intro k hk
    split
    · apply dictGet_set_ne
      rintro rfl
      exact hk (Or.inl ⟨rfl, Or.inr (base_of a2 (by decide))⟩)
    · rfl
  have k2 := keep_set (l := dictSet secs nProfile
      (if r.mn.isSome then dictSet profile kf (.arr (setEnds fx info.nmin info.nmax)) else profile)) (name := nSpace)
      (d0 := space) (v := space') (by rw [dictGet_set_ne _ _ _ _ (Ne.symm n1)]; exact e1) (by
        intro k hk
        simp only [Option.bind_eq_some_iff] at e10
        obtain ⟨d1, s1, s2⟩ := e10
        rw [scaleArray_frame (by decide) s2 k, scaleArray_frame (by decide) s1 k]
        · intro hc; exact hk (Or.inr (Or.inl ⟨rfl, Or.inl hc⟩))
        · intro hc; exact hk (Or.inr (Or.inl ⟨rfl, Or.inr hc⟩)))
  have k3 : Keep (dictSet (dictSet secs nProfile
      (if r.mn.isSome then dictSet profile kf (.arr (setEnds fx info.nmin info.nmax)) else profile)) nSpace space') secs3 := by
    obtain ⟨m1, m2⟩ := mapM_rescale e11
    refine ⟨m1, fun i n d hd => ?_⟩
    obtain ⟨x', h1, h2⟩ := m2 i (n, d) hd
    obtain ⟨f1, f2⟩ := rescaleSec_frame h2
    obtain ⟨n', d'⟩ := x'
    simp only at f1; subst f1
    exact ⟨d', h1, f2⟩
  have k4 : Keep secs3 (dictSet secs3 nGrid
      (dictSet grid nxKey (if isList then .arr [(info.nx : K)] else .num (info.nx : K)))) := by
    have hg : dictGet secs3 nGrid = some grid := by
      obtain ⟨d', g1, g2⟩ := mapM_rescale_get e11 (name := nGrid) (d := grid) (by
        rw [dictGet_set_ne _ _ _ _ (Ne.symm n3), dictGet_set_ne _ _ _ _ (Ne.symm n2)]; exact e2)
      have : rescaleSec rnd info.s (nGrid, grid) = some (nGrid, grid) := by
        simp only [rescaleSec, if_neg n2, if_neg (Ne.symm n6)]
      rw [this] at g2
      simp only [Option.some.injEq, Prod.mk.injEq, true_and] at g2
      rw [g1, g2]
    apply keep_set hg
    intro k hk
    apply dictGet_set_ne
    rintro rfl
    apply hk
    refine Or.inr (Or.inr (Or.inr ⟨rfl, ?_⟩))
    unfold readNx at e4
    split at e4
    · cases e4
    · rename_i k' hk'
      have hb := base_of hk' (by decide)
      split at e4 <;> first | (cases e4; exact hb) | cases e4
  exact ((k1.trans k2).trans k3).trans k4

variable [IsStrictOrderedRing K]

/-- C21: without rounding, the rescaled ramp has scale length exactly `L` at the
reference density (when `min`/`max` are imposed on a profile with at least four
density values, or read from the deck). -/
theorem scale_length_exact {secs secs' : Secs K} {r : Req K} {info : Info K} (hL : r.L ≠ 0)
    (h : apply id secs (some r) = .ok (secs', some info))
    (h4 : r.mn = none ∨ ∃ fx, values secs nProfile kFx = some fx ∧ 4 ≤ fx.length) :
    ∃ x fx, values secs' nProfile kX = some x ∧ values secs' nProfile kFx = some fx ∧
      scaleLength r.ref x fx = r.L ∧ span fx = info.nmax - info.nmin := by
  obtain ⟨x, fx, a1, a2, l1, l2, hsp, hab, hr, hs, b1, hc⟩ := ramp_after h
  have hd : info.nmax - info.nmin ≠ 0 := sub_ne_zero.2 (ne_of_gt hab)
  have fin : ∀ F : List K, span F = info.nmax - info.nmin →
      scaleLength r.ref (x.map fun y => id (y * info.s)) F = r.L := by
    intro F hF
    unfold scaleLength
    have : (x.map fun y => id (y * info.s)) = x.map fun y => y * info.s := rfl
    rw [this, span_map_mul, hF, hs]
    have hsp' := ne_of_gt hsp
    field_simp
  rcases hc with ⟨c1, c2, c3, c4, c5⟩ | ⟨c1, c2, c5⟩
  · have hF : span fx = info.nmax - info.nmin := by rw [c3, c4]; rfl
    exact ⟨_, fx, b1, c5, fin _ hF, hF⟩
  · rcases h4 with h4 | ⟨fx', h4, h5⟩
    · rw [h4] at c1; cases c1
    · rw [a2] at h4; cases h4
      exact ⟨_, _, b1, c5, fin _ (setEnds_span _ _ _ h5), setEnds_span _ _ _ h5⟩

/-- C21: with `round(., 10)` (any rounding with error at most `ε`) every control
point is within `ε` of its exact position, so the span is within `2ε` of the one
that realises `L`. -/
theorem scale_length_rounded {rnd : K → K} {ε : K} (hrnd : ∀ y, |rnd y - y| ≤ ε) {secs secs' : Secs K} {r : Req K}
    {info : Info K} (h : apply rnd secs (some r) = .ok (secs', some info)) :
    ∃ x', values secs' nProfile kX = some x' ∧
      |span x' - r.L * (info.nmax - info.nmin) / r.ref| ≤ 2 * ε := by
  obtain ⟨x, fx, a1, a2, l1, l2, hsp, hab, hr, hs, b1, hc⟩ := ramp_after h
  refine ⟨_, b1, ?_⟩
  have hspan : r.L * (info.nmax - info.nmin) / r.ref = span x * info.s := by
    rw [hs]; field_simp [ne_of_gt hsp]
  rw [hspan]
  unfold span
  simp only [List.length_map, List.getD_eq_getElem?_getD, List.getElem?_map]
  have i1 : x.length - 2 < x.length := by omega
  have i2 : 1 < x.length := by omega
  rw [List.getElem?_eq_getElem i1, List.getElem?_eq_getElem i2]
  simp only [Option.map_some, Option.getD_some]
  have h1 := abs_le.1 (hrnd (x[x.length - 2] * info.s))
  have h2 := abs_le.1 (hrnd (x[1] * info.s))
  rw [abs_le]
  constructor <;> nlinarith [h1.1, h1.2, h2.1, h2.2]

theorem roundUp_spec (n m : Int) (hm : 1 ≤ m) :
    n ≤ roundUp (K := K) n m ∧ m ∣ roundUp (K := K) n m ∧ roundUp (K := K) n m < n + m := by
  unfold roundUp
  split
  · have : m = 1 := by omega
    subst this
    exact ⟨le_refl _, one_dvd _, by omega⟩
  · have hm0 : (0 : K) < (m : K) := by exact_mod_cast (by omega : 0 < m)
    have h1 := Int.le_ceil ((n : K) / (m : K))
    have h2 := Int.ceil_lt_add_one ((n : K) / (m : K))
    rw [div_le_iff₀ hm0] at h1
    have h3 : ((⌈(n : K) / (m : K)⌉ : Int) : K) * m < n + m := by
      calc ((⌈(n : K) / (m : K)⌉ : Int) : K) * m < ((n : K) / m + 1) * m := by
            exact mul_lt_mul_of_pos_right h2 hm0
        _ = n + m := by field_simp
    refine ⟨?_, dvd_mul_left _ _, ?_⟩
    · exact_mod_cast h1
    · exact_mod_cast h3

theorem nodeCount_pos {secs : Secs K} {m : Int} (h : nodeCount secs = some m) : 1 ≤ m := by
  unfold nodeCount at h
  split at h
  · cases h; exact le_refl _
  · split at h
    · cases h; exact le_refl _
    · split at h
      · cases h; exact le_max_left _ _
      · cases h; exact le_max_left _ _
      · cases h
      · cases h; exact le_refl _

theorem space_after {rnd : K → K} {secs secs' : Secs K} {r : Req K} {info : Info K}
    (h : apply rnd secs (some r) = .ok (secs', some info)) (base : Str) (hb : base = kXmin ∨ base = kXmax) :
    values secs' nSpace base = (values secs nSpace base).map (List.map fun y => rnd (y * info.s)) := by
  obtain ⟨space, grid, profile, nxKey, isList, nx, kf, fx, sp, xm, nodes, space', secs3, e1, e2, e3, e4, e5, hr, hs, e6, e8,
    e9, e10, e11, rfl⟩ := apply_inv h
  obtain ⟨n1, n2, n3, n4, n5, n6, n7⟩ := names_ne
  obtain ⟨d', g1, g2⟩ := mapM_rescale_get e11 (dictGet_set_self _ _ _)
  have : rescaleSec rnd info.s (nSpace, space') = some (nSpace, space') := by
    simp only [rescaleSec, if_neg n1, if_neg n7]
  rw [this] at g2
  simp only [Option.some.injEq, Prod.mk.injEq, true_and] at g2
  subst g2
  simp only [Option.bind_eq_some_iff] at e10
  obtain ⟨d1, s1, s2⟩ := e10
  have hbb : baseOf base = base := by rcases hb with rfl | rfl <;> decide
  obtain ⟨_, v1⟩ := scaleArray_values s1 base (by decide) hbb
  obtain ⟨_, v2⟩ := scaleArray_values s2 base (by decide) hbb
  unfold values
  have hfin : ∀ g, firstSection (dictSet secs3 nGrid g) nSpace = some space' := by
    intro g; unfold firstSection; rw [dictGet_set_ne _ _ _ _ n3]; exact g1
  rw [hfin, e1]
  simp only [Option.bind_some]
  rw [v2, v1]
  rcases hb with rfl | rfl
  · rw [if_neg (by decide), if_pos rfl]
  · rw [if_pos rfl, if_neg (by decide)]

/-- C21: the box is scaled by the same factor as the ramp; the new cell count is a
multiple of the node count, at least the exactly scaled count and less than one
node-multiple above; so the cells are not coarser than before. -/
theorem cells_not_coarser {secs secs' : Secs K} {r : Req K} {info : Info K}
    (h : apply id secs (some r) = .ok (secs', some info)) (n : Int) (hn : 0 < n)
    (hnx : ∃ grid k l, firstSection secs nGrid = some grid ∧ readNx grid = .ok (k, l, n)) (xmin xmax : K)
    (h1 : values secs nSpace kXmin = some [xmin]) (h2 : values secs nSpace kXmax = some [xmax]) (hbox : xmin ≤ xmax)
    (hs : 0 < info.s) :
    ∃ nodes xmin' xmax', nodeCount secs = some nodes ∧ nodes ∣ info.nx ∧ 0 < info.nx ∧
      (n : K) * info.s ≤ info.nx ∧ info.nx < ⌈(n : K) * info.s⌉ + nodes ∧
      values secs' nGrid kNx = some [(info.nx : K)] ∧
      values secs' nSpace kXmin = some [xmin'] ∧ values secs' nSpace kXmax = some [xmax'] ∧
      xmax' - xmin' = (xmax - xmin) * info.s ∧
      (xmax' - xmin') / (info.nx : K) ≤ (xmax - xmin) / (n : K) := by
  have hs1 := space_after h kXmin (Or.inl rfl)
  have hs2 := space_after h kXmax (Or.inr rfl)
  rw [h1] at hs1; rw [h2] at hs2
  obtain ⟨space, grid, profile, nxKey, isList, nx, kf, fx, sp, xm, nodes, space', secs3, e1, e2, e3, e4, e5, hr, hss, e6, e8,
    e9, e10, e11, rfl⟩ := apply_inv h
  obtain ⟨grid', k', l', q1, q2⟩ := hnx
  rw [e2] at q1; cases q1
  rw [e4] at q2; cases q2
  obtain ⟨r1, r2, r3⟩ := roundUp_spec (K := K) ⌈(n : K) * info.s⌉ nodes (nodeCount_pos e8)
  rw [← e9] at r1 r2 r3
  have hn' : (0 : K) < (n : K) := by exact_mod_cast hn
  have hle : (n : K) * info.s ≤ info.nx := le_trans (Int.le_ceil _) (by exact_mod_cast r1)
  have hpos : (0 : K) < (info.nx : K) := lt_of_lt_of_le (mul_pos hn' hs) hle
  refine ⟨nodes, xmin * info.s, xmax * info.s, e8, r2, by exact_mod_cast hpos, hle, r3, ?_, hs1, hs2, by ring, ?_⟩
  · unfold values firstSection
    rw [dictGet_set_self]
    simp only [Option.bind_some]
    have hk : arrayKey grid kNx = some nxKey := by
      unfold readNx at e4
      split at e4
      · cases e4
      · rename_i k hk
        split at e4 <;> first | (cases e4; exact hk) | cases e4
    rw [arrayKey_set (arrayKey_some hk).1, hk]
    simp only [Option.bind_some]
    rw [dictGet_set_self]
    cases isList <;> rfl
  · rw [div_le_div_iff₀ hpos hn']
    have : 0 ≤ (xmax - xmin) := by linarith
    nlinarith [mul_le_mul_of_nonneg_left hle this]

omit [IsStrictOrderedRing K] in
/-- C21: a density interval that is not increasing, or a ramp that does not go
forward, is rejected. -/
theorem bad_ramp_rejected (rnd : K → K) (secs : Secs K) (r : Req K) (x : List K)
    (h1 : values secs nProfile kX = some x)
    (hbad : span x ≤ 0 ∨ (∃ a b, r.mn = some a ∧ r.mx = some b ∧ b ≤ a) ∨ x.length < 4) :
    ∃ e, apply rnd secs (some r) = .error e := by
  cases h : apply rnd secs (some r) with
  | error e => exact ⟨e, rfl⟩
  | ok p =>
    obtain ⟨secs', info⟩ := p
    exfalso
    cases info with
    | none =>
      unfold apply at h
      simp only [] at h
      repeat' split at h
      all_goals simp at h
    | some info =>
      obtain ⟨x', fx', a1, a2, l1, l2, hsp, hab, hr, hs, b1, hc⟩ := ramp_after h
      rw [h1] at a1; cases a1
      rcases hbad with hb | ⟨a, b, m1, m2, hb⟩ | hb
      · exact absurd hsp (not_lt.2 hb)
      · rcases hc with ⟨c1, _⟩ | ⟨c1, c2, _⟩
        · rw [m1] at c1; cases c1
        · rw [m1] at c1; rw [m2] at c2; cases c1; cases c2
          exact absurd hab (not_lt.2 hb)
      · have : x.length = 3 := by omega
        unfold span at hsp
        rw [this] at hsp
        simp at hsp

/-- A deck: box [0, 10] of 100 cells on 8 nodes, ramp from 0.2 to 0.3 over [2, 8]. -/
def exDeck : Secs ℚ :=
  [(nNode, [(kNodes, .arr [8])]), (nGrid, [(kNx ++ "(1:1)".toList, .arr [100])]),
   (nSpace, [(kXmin, .num 0), (kXmax ++ "(1:1)".toList, .arr [10])]),
   (nProfile, [(kFx, .arr [0, 1/5, 3/10, 0]), (kX, .arr [0, 2, 8, 10]), ("k".toList, .txt)]),
   (nDiag, [(kPsXmax, .num 10)])]

/-- The request `L = 30` at `n_ref = 1/4`: the span becomes 12, the scale factor 2. -/
example : ∃ secs' info, apply id exDeck (some ⟨30, 1/4, none, none⟩) = .ok (secs', some info) ∧ info.s = 2 ∧
    info.nx = 200 ∧ values secs' nProfile kX = some [0, 4, 16, 20] ∧ values secs' nGrid kNx = some [200] ∧
    values exDeck nSpace kXmin = some [0] ∧ values exDeck nSpace kXmax = some [10] := by
  have h : (match apply id exDeck (some ⟨30, 1/4, none, none⟩) with
    | .ok (secs', some info) => decide (info.s = 2 ∧
      info.nx = 200 ∧ values secs' nProfile kX = some [0, 4, 16, 20] ∧ values secs' nGrid kNx = some [200] ∧
      values exDeck nSpace kXmin = some [0] ∧ values exDeck nSpace kXmax = some [10])
    | _ => false) = true := by decide +kernel
  split at h
  · rename_i secs' info he
    exact ⟨secs', info, he, by simpa using h⟩
  · cases h

/-- A swapped `min`, `max` on the same deck meets the hypotheses of `bad_ramp_rejected`. -/
example : ∃ e, apply id exDeck (some ⟨30, 1/4, some (3/10), some (1/5)⟩) = .error e :=
  bad_ramp_rejected id exDeck _ [0, 2, 8, 10] (by decide +kernel) (Or.inr (Or.inl ⟨3/10, 1/5, rfl, rfl, by norm_num⟩))

end Verif.Density

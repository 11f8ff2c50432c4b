import Verif.Lemmas.DeckMerge

/-! Injectivity of the logged parameter names. -/
namespace Verif.Deck

theorem natDigits_inj {a b : Nat} (h : natDigits a = natDigits b) : a = b := by
  have ha := (natDigits_spec a).2.2 0
  have hb := (natDigits_spec b).2.2 0
  rw [h, hb] at ha
  simp at ha; exact ha.symm

theorem split_dot {p p' x y : Str} (hp : '.' ∉ p) (hp' : '.' ∉ p') (h : p ++ '.' :: x = p' ++ '.' :: y) :
    p = p' ∧ x = y := by
  induction p generalizing p' with
  | nil =>
    cases p' with
    | nil => simp at h; exact ⟨rfl, h⟩
    | cons c cs => simp at h; rw [← h.1] at hp'; simp at hp'
  | cons c cs ih =>
    cases p' with
    | nil => simp at h; rw [h.1] at hp; simp at hp
    | cons d ds =>
      simp only [List.cons_append, List.cons.injEq] at h
      simp only [List.mem_cons, not_or] at hp hp'
      obtain ⟨h1, h2⟩ := ih hp.2 hp'.2 h.2
      exact ⟨by rw [h.1, h1], h2⟩

/-- The part of a logged name after the section prefix. -/
theorem flatParam_name {F : Type} {pre : Str} {kv : Str × Value F} {e : Str × Atom F} (h : e ∈ flatParam pre kv) :
    ∃ suf, (suf = [] ∨ ∃ d, suf = '.' :: d) ∧ e.1 = pre ++ '.' :: (sanitizeKey kv.1 ++ suf) := by
  unfold flatParam at h
  simp only at h
  split at h
  · obtain ⟨xj, _, rfl⟩ := List.mem_map.1 h
    exact ⟨'.' :: natDigits xj.2, Or.inr ⟨_, rfl⟩, by simp⟩
  · simp at h; subst h; exact ⟨[], Or.inl rfl, by simp⟩

theorem key_suffix_inj {a b s t : Str} (ha : '.' ∉ a) (hb : '.' ∉ b) (hs : s = [] ∨ ∃ d, s = '.' :: d)
    (ht : t = [] ∨ ∃ d, t = '.' :: d) (h : a ++ s = b ++ t) : a = b := by
  rcases hs with rfl | ⟨d, rfl⟩ <;> rcases ht with rfl | ⟨d', rfl⟩
  · simpa using h
  · exfalso; apply ha; rw [List.append_nil] at h; rw [h]; simp
  · exfalso; apply hb; rw [List.append_nil] at h; rw [← h]; simp
  · exact (split_dot ha hb h).1

theorem flatParam_nodup {F : Type} (pre : Str) (kv : Str × Value F) : ((flatParam pre kv).map Prod.fst).Nodup := by
  unfold flatParam
  simp only
  split
  · next l _ =>
    rw [List.map_map]
    have : (Prod.fst ∘ fun xj : Atom F × Nat => (pre ++ '.' :: sanitizeKey kv.1 ++ '.' :: natDigits xj.2, xj.1)) =
      (fun j : Nat => pre ++ '.' :: sanitizeKey kv.1 ++ '.' :: natDigits j) ∘ Prod.snd := rfl
    rw [this, ← List.map_map, List.zipIdx_map_snd]
    rw [List.Nodup, List.pairwise_map]
    apply List.Pairwise.imp _ (List.nodup_range' (step := 1))
    intro a b hab heq
    apply hab
    have := List.append_cancel_left heq
    simp at this
    exact natDigits_inj this
  · simp

theorem nodup_flatMap_of {α β : Type} (f : α → List β) (l : List α) (h1 : ∀ a ∈ l, (f a).Nodup)
    (h2 : l.Pairwise fun a b => ∀ x ∈ f a, x ∉ f b) : (l.flatMap f).Nodup := by
  induction l with
  | nil => simp
  | cons a l ih =>
    rw [List.flatMap_cons, List.nodup_append]
    rw [List.pairwise_cons] at h2
    refine ⟨h1 a (by simp), ih (fun b hb => h1 b (by simp [hb])) h2.2, ?_⟩
    rintro x hx y hy rfl
    obtain ⟨b, hb, hy⟩ := List.mem_flatMap.1 hy
    exact h2.1 b hb x hx hy

/-- The prefixes of the sections, in order. -/
def prefixesAux {F : Type} (all seen : List Str) : Sections F → List Str
  | [] => []
  | (name, _) :: ss => sectionPrefix all seen name :: prefixesAux all (seen ++ [name]) ss

theorem flatAssigns_prefix {F : Type} {all seen : List Str} {ss : Sections F} {e : Str × Atom F}
    (h : e ∈ flatAssigns all seen ss) : ∃ p ∈ prefixesAux all seen ss, ∃ x, e.1 = p ++ '.' :: x := by
  induction ss generalizing seen with
  | nil => simp [flatAssigns] at h
  | cons sec ss ih =>
    obtain ⟨name, ps⟩ := sec
    unfold flatAssigns at h
    rcases List.mem_append.1 h with h | h
    · obtain ⟨kv, _, he⟩ := List.mem_flatMap.1 h
      obtain ⟨suf, _, e1⟩ := flatParam_name he
      exact ⟨_, by simp [prefixesAux], _, e1⟩
    · obtain ⟨p, hp, hx⟩ := ih h
      exact ⟨p, by simp [prefixesAux, hp], hx⟩

theorem flatAssigns_nodup {F : Type} (all seen : List Str) (ss : Sections F)
    (hpre : (prefixesAux all seen ss).Nodup) (hdot : ∀ p ∈ prefixesAux all seen ss, '.' ∉ p)
    (hkeys : ∀ sec ∈ ss, (sec.2.map fun kv => sanitizeKey kv.1).Nodup)
    (hkdot : ∀ sec ∈ ss, ∀ kv ∈ sec.2, '.' ∉ sanitizeKey kv.1) :
    ((flatAssigns all seen ss).map Prod.fst).Nodup := by
  induction ss generalizing seen with
  | nil => simp [flatAssigns]
  | cons sec ss ih =>
    obtain ⟨name, ps⟩ := sec
    unfold flatAssigns
    unfold prefixesAux at hpre hdot
    rw [List.nodup_cons] at hpre
    rw [List.map_append, List.nodup_append]
    refine ⟨?_, ih _ hpre.2 (fun p hp => hdot p (by simp [hp])) (fun s hs => hkeys s (by simp [hs]))
      (fun s hs => hkdot s (by simp [hs])), ?_⟩
    · rw [List.map_flatMap]
      apply nodup_flatMap_of
      · intro kv _; exact flatParam_nodup _ _
      · have hk := hkeys (name, ps) (by simp)
        rw [List.Nodup, List.pairwise_map] at hk
        apply List.Pairwise.imp_of_mem _ hk
        intro a b ha hb hab x hx hx'
        obtain ⟨e, he, rfl⟩ := List.mem_map.1 hx
        obtain ⟨e', he', hee⟩ := List.mem_map.1 hx'
        obtain ⟨s1, hs1, h1⟩ := flatParam_name he
        obtain ⟨s2, hs2, h2⟩ := flatParam_name he'
        rw [h1, h2] at hee
        have := List.append_cancel_left hee
        simp only [List.cons.injEq, true_and] at this
        exact hab (key_suffix_inj (hkdot _ (by simp) a ha) (hkdot _ (by simp) b hb) hs1 hs2 this.symm)
    · rintro x hx y hy rfl
      obtain ⟨e, he, rfl⟩ := List.mem_map.1 hx
      obtain ⟨e', he', hee⟩ := List.mem_map.1 hy
      obtain ⟨kv, _, he⟩ := List.mem_flatMap.1 he
      obtain ⟨s1, _, h1⟩ := flatParam_name he
      obtain ⟨p, hp, x', h2⟩ := flatAssigns_prefix he'
      rw [h1, h2] at hee
      have := (split_dot (hdot p (by simp [hp])) (hdot _ (by simp)) hee).1
      rw [this] at hp
      exact hpre.1 hp

theorem dictGet_of_mem_nodup {κ ν : Type} [DecidableEq κ] {d : Dict κ ν} (h : (dictKeys d).Nodup) {k : κ} {v : ν}
    (hm : (k, v) ∈ d) : dictGet d k = some v := by
  induction d with
  | nil => simp at hm
  | cons a d ih =>
    obtain ⟨k', v'⟩ := a
    simp only [dictKeys, List.map_cons, List.nodup_cons] at h
    unfold dictGet
    rcases List.mem_cons.1 hm with e | hm
    · cases e; simp
    · rw [if_neg, ih h.2 hm]
      rintro rfl
      exact h.1 (List.mem_map.2 ⟨(k', v), hm, rfl⟩)

end Verif.Deck

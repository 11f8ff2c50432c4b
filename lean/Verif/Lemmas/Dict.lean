import Verif.Model.Py

/-! General facts about insertion-ordered dictionaries. -/
namespace Verif

theorem dictGet_set_self {κ ν : Type} [DecidableEq κ] (d : Dict κ ν) (k : κ) (v : ν) :
    dictGet (dictSet d k v) k = some v := by
  induction d with
  | nil => simp [dictSet, dictGet]
  | cons x d ih =>
    obtain ⟨k', v'⟩ := x
    by_cases h : k' = k <;> simp [dictSet, dictGet, h, ih]

theorem dictGet_set_ne {κ ν : Type} [DecidableEq κ] (d : Dict κ ν) (k k' : κ) (v : ν) (h : k ≠ k') :
    dictGet (dictSet d k v) k' = dictGet d k' := by
  induction d with
  | nil => simp [dictSet, dictGet, h]
  | cons x d ih =>
    obtain ⟨k2, v2⟩ := x
    by_cases h2 : k2 = k
    · subst h2; simp [dictSet, dictGet, h]
    · simp only [dictSet, if_neg h2, dictGet, ih]

theorem dictGet_set {κ ν : Type} [DecidableEq κ] (d : Dict κ ν) (k k' : κ) (v : ν) :
    dictGet (dictSet d k v) k' = if k = k' then some v else dictGet d k' := by
  split
  · next h => subst h; exact dictGet_set_self _ _ _
  · next h => exact dictGet_set_ne _ _ _ _ h

theorem dictGet_some_iff {κ ν : Type} [DecidableEq κ] (d : Dict κ ν) (k : κ) :
    (∃ v, dictGet d k = some v) ↔ k ∈ dictKeys d := by
  induction d with
  | nil => simp [dictGet, dictKeys]
  | cons a d ih =>
    obtain ⟨k2, v2⟩ := a
    simp only [dictKeys, List.map_cons, List.mem_cons] at ih ⊢
    by_cases h : k2 = k
    · subst h; simp [dictGet]
    · simp only [dictGet, if_neg h, ih]
      constructor
      · exact Or.inr
      · rintro (rfl | h')
        · exact absurd rfl h
        · exact h'

theorem dictGet_none_iff {κ ν : Type} [DecidableEq κ] (d : Dict κ ν) (k : κ) :
    dictGet d k = none ↔ k ∉ dictKeys d := by
  rw [← dictGet_some_iff]
  cases dictGet d k <;> simp

theorem mem_of_dictGet {κ ν : Type} [DecidableEq κ] {d : Dict κ ν} {k : κ} {v : ν} (h : dictGet d k = some v) :
    (k, v) ∈ d := by
  induction d with
  | nil => simp [dictGet] at h
  | cons a d ih =>
    obtain ⟨k2, v2⟩ := a
    by_cases h2 : k2 = k
    · subst h2; simp [dictGet] at h; simp [h]
    · simp only [dictGet, if_neg h2] at h
      exact List.mem_cons_of_mem _ (ih h)

theorem dictGet_of_mem {κ ν : Type} [DecidableEq κ] {d : Dict κ ν} (h : (dictKeys d).Nodup) {k : κ} {v : ν}
    (hm : (k, v) ∈ d) : dictGet d k = some v := by
  induction d with
  | nil => simp at hm
  | cons a d ih =>
    obtain ⟨k', v'⟩ := a
    simp only [dictKeys, List.map_cons, List.nodup_cons] at h
    unfold dictGet
    rcases List.mem_cons.1 hm with e | hm
    · cases e; simp
    · rw [if_neg, ih h.2 hm]
      rintro rfl
      exact h.1 (List.mem_map.2 ⟨(k', v), hm, rfl⟩)

theorem dictKeys_set {κ ν : Type} [DecidableEq κ] (d : Dict κ ν) (k : κ) (v : ν) :
    dictKeys (dictSet d k v) = if k ∈ dictKeys d then dictKeys d else dictKeys d ++ [k] := by
  induction d with
  | nil => simp [dictSet, dictKeys]
  | cons a d ih =>
    obtain ⟨k', v'⟩ := a
    unfold dictSet
    split
    · next h => subst h; simp [dictKeys]
    · next h =>
      simp only [dictKeys, List.map_cons, List.mem_cons] at ih ⊢
      rw [ih]
      have : k ≠ k' := fun e => h e.symm
      simp only [this, false_or]
      split <;> rename_i hk <;> simp [hk]

theorem dictKeys_set_nodup {κ ν : Type} [DecidableEq κ] {d : Dict κ ν} (h : (dictKeys d).Nodup) (k : κ) (v : ν) :
    (dictKeys (dictSet d k v)).Nodup := by
  rw [dictKeys_set]
  split
  · exact h
  · next hk =>
    rw [List.nodup_append]
    refine ⟨h, by simp, ?_⟩
    intro a ha b hb
    simp at hb; subst hb
    rintro rfl; exact hk ha

end Verif

import Verif.Spec.Utils
import Verif.Lemmas.Dict

/-! C23, C24, C26, C30: parameter flattening and logging, artifact retry, scalar filter. -/
namespace Verif.Utils

/-! ## C24 flatten_dict -/

theorem keys_update_nodup {V : Type} (d o : Dict Str V) (h : (dictKeys d).Nodup) :
    (dictKeys (update d o)).Nodup := by
  unfold update
  induction o generalizing d with
  | nil => exact h
  | cons e o ih => exact ih _ (dictKeys_set_nodup h _ _)

theorem dictGet_update {V : Type} (d o : Dict Str V) (ho : (dictKeys o).Nodup) (k : Str) :
    dictGet (update d o) k = (dictGet o k).or (dictGet d k) := by
  unfold update
  induction o generalizing d with
  | nil => simp [dictGet]
  | cons e o ih =>
    obtain ⟨k', v'⟩ := e
    simp only [dictKeys, List.map_cons, List.nodup_cons] at ho
    rw [List.foldl_cons, ih _ ho.2]
    simp only [dictGet, dictGet_set]
    by_cases h : k' = k
    · subst h
      have : dictGet o k' = none := (dictGet_none_iff _ _).2 ho.1
      simp [this]
    · simp [h]

mutual
theorem flattenLoop_nodup {V : Type} (delim pre : Str) (items : Dict Str V) (h : (dictKeys items).Nodup) :
    (e : Entries V) → (dictKeys (flattenLoop delim pre items e)).Nodup
  | .nil => by simpa [flattenLoop] using h
  | .cons k (.leaf v) r => by
    simp only [flattenLoop]
    exact flattenLoop_nodup delim pre _ (dictKeys_set_nodup h _ _) r
  | .cons k (.dict e) r => by
    simp only [flattenLoop]
    exact flattenLoop_nodup delim pre _ (keys_update_nodup _ _ h) r
end

/-- The key under which the leaf at path `p` is stored below prefix `pre`. -/
def codeKey (delim pre : Str) (p : List Str) : Str := p.foldl (joinKey delim) pre

theorem flattenLoop_spec {V : Type} (delim : Str) : (e : Entries V) → (pre : Str) → (items : Dict Str V) →
    (dictKeys items).Nodup → (k : Str) →
    ((∃ p v, Leaf e p v ∧ codeKey delim pre p = k) →
      ∃ p v, Leaf e p v ∧ codeKey delim pre p = k ∧ dictGet (flattenLoop delim pre items e) k = some v) ∧
    ((¬ ∃ p v, Leaf e p v ∧ codeKey delim pre p = k) →
      dictGet (flattenLoop delim pre items e) k = dictGet items k)
  | .nil, pre, items, _, k => by
    refine ⟨?_, fun _ => rfl⟩
    rintro ⟨p, v, h, _⟩; cases h
  | .cons k0 (.leaf v0) r, pre, items, hn, k => by
    have ih := flattenLoop_spec delim r pre (dictSet items (joinKey delim pre k0) v0)
      (dictKeys_set_nodup hn _ _) k
    simp only [flattenLoop]
    by_cases hr : ∃ p v, Leaf r p v ∧ codeKey delim pre p = k
    · obtain ⟨p, v, h1, h2, h3⟩ := ih.1 hr
      exact ⟨fun _ => ⟨p, v, .next h1, h2, h3⟩, fun hne => absurd ⟨p, v, .next h1, h2⟩ hne⟩
    · have h3 := ih.2 hr
      rw [dictGet_set] at h3
      by_cases hk : joinKey delim pre k0 = k
      · rw [if_pos hk] at h3
        exact ⟨fun _ => ⟨[k0], v0, .here, hk, h3⟩, fun hne => absurd ⟨[k0], v0, .here, hk⟩ hne⟩
      · rw [if_neg hk] at h3
        refine ⟨?_, fun _ => h3⟩
        rintro ⟨p, v, h1, h2⟩
        cases h1 with
        | here => exact absurd h2 hk
        | next h1 => exact absurd ⟨p, v, h1, h2⟩ hr
  | .cons k0 (.dict e) r, pre, items, hn, k => by
    have ihe := flattenLoop_spec delim e (joinKey delim pre k0) [] (by simp [dictKeys]) k
    have hnd := flattenLoop_nodup delim (joinKey delim pre k0) [] (by simp [dictKeys]) e
    have ih := flattenLoop_spec delim r pre
      (update items (flattenLoop delim (joinKey delim pre k0) [] e)) (keys_update_nodup _ _ hn) k
    simp only [flattenLoop]
    by_cases hr : ∃ p v, Leaf r p v ∧ codeKey delim pre p = k
    · obtain ⟨p, v, h1, h2, h3⟩ := ih.1 hr
      exact ⟨fun _ => ⟨p, v, .next h1, h2, h3⟩, fun hne => absurd ⟨p, v, .next h1, h2⟩ hne⟩
    · have h3 := ih.2 hr
      rw [dictGet_update _ _ hnd] at h3
      by_cases he : ∃ p v, Leaf e p v ∧ codeKey delim (joinKey delim pre k0) p = k
      · obtain ⟨p, v, h1, h2, h4⟩ := ihe.1 he
        rw [h4] at h3
        exact ⟨fun _ => ⟨k0 :: p, v, .down h1, h2, h3⟩, fun hne => absurd ⟨k0 :: p, v, .down h1, h2⟩ hne⟩
      · rw [ihe.2 he] at h3
        refine ⟨?_, fun _ => h3⟩
        rintro ⟨p, v, h1, h2⟩
        cases h1 with
        | down h1 => exact absurd ⟨_, v, h1, h2⟩ he
        | next h1 => exact absurd ⟨p, v, h1, h2⟩ hr

theorem leaf_ne_nil {V : Type} {e : Entries V} {p : List Str} {v : V} (h : Leaf e p v) : p ≠ [] := by
  induction h with
  | here => simp
  | down _ _ => simp
  | next _ ih => exact ih

theorem leaf_keys {V : Type} {P : Str → Prop} {e : Entries V} {p : List Str} {v : V} (h : Leaf e p v)
    (ha : AllKeys P e) : ∀ k ∈ p, P k := by
  induction h with
  | here => cases ha with | leaf h1 h2 => simpa using h1
  | down h ih => cases ha with | dict h1 h2 h3 =>
      intro k hk
      rcases List.mem_cons.1 hk with rfl | hk
      · exact h1
      · exact ih h2 k hk
  | next h ih =>
    cases ha with
    | leaf h1 h2 => exact ih h2
    | dict h1 h2 h3 => exact ih h3

theorem leaf_head {V : Type} {e : Entries V} {k : Str} {p : List Str} {v : V} (h : Leaf e (k :: p) v) :
    k ∈ e.keys := by
  generalize hq : k :: p = q at h
  induction h with
  | here => cases hq; simp [Entries.keys]
  | down _ _ => cases hq; simp [Entries.keys]
  | next _ ih => simp only [Entries.keys, List.mem_cons]; right; exact ih hq

theorem leaf_unique {V : Type} {e : Entries V} (hw : WF e) {p : List Str} {v v' : V} (h : Leaf e p v)
    (h' : Leaf e p v') : v = v' := by
  induction h generalizing v' with
  | here =>
    cases h' with
    | here => rfl
    | next h' => cases hw with | leaf h1 h2 => exact absurd (leaf_head h') h1
  | down h ih =>
    cases hw with | dict h1 h2 h3 =>
    cases h' with
    | down h' => exact ih h2 h'
    | next h' => exact absurd (leaf_head h') h1
  | @next k x r p v h ih =>
    cases hw with
    | leaf h1 h2 =>
      cases h' with
      | here => exact absurd (leaf_head h) h1
      | next h' => exact ih h2 h'
    | dict h1 h2 h3 =>
      cases h' with
      | down h' => exact absurd (leaf_head h) h1
      | next h' => exact ih h3 h'

theorem dotted_cons (delim k k2 : Str) (p : List Str) :
    dotted delim (k :: k2 :: p) = k ++ delim ++ dotted delim (k2 :: p) := rfl

theorem codeKey_ne {delim pre : Str} (hpre : pre ≠ []) (p : List Str) (hp : p ≠ []) :
    codeKey delim pre p = pre ++ delim ++ dotted delim p := by
  induction p generalizing pre with
  | nil => exact absurd rfl hp
  | cons k p ih =>
    have hj : joinKey delim pre k = pre ++ delim ++ k := by simp [joinKey, hpre]
    cases p with
    | nil => simp [codeKey, hj, dotted]
    | cons k2 p2 =>
      have := ih (pre := pre ++ delim ++ k) (by simp [hpre]) (by simp)
      simp only [codeKey, List.foldl_cons] at this ⊢
      rw [hj, this, dotted_cons]
      simp only [List.append_assoc]

theorem codeKey_nil {delim : Str} (p : List Str) (hp : ∀ k ∈ p, k ≠ []) : codeKey delim [] p = dotted delim p := by
  cases p with
  | nil => rfl
  | cons k p =>
    have hk : k ≠ [] := hp k (by simp)
    cases p with
    | nil => simp [codeKey, joinKey, dotted]
    | cons k2 p2 =>
      have := codeKey_ne (delim := delim) hk (k2 :: p2) (by simp)
      simp only [codeKey, List.foldl_cons] at this ⊢
      rw [show joinKey delim [] k = k from rfl, this, dotted_cons]

theorem split_dot {a b A B : Str} (ha : '.' ∉ a) (hb : '.' ∉ b) (h : a ++ '.' :: A = b ++ '.' :: B) :
    a = b ∧ A = B := by
  induction a generalizing b with
  | nil =>
    cases b with
    | nil => simpa using h
    | cons c b => simp at h; exact absurd (by simp [← h.1]) hb
  | cons x a ih =>
    cases b with
    | nil => simp at h; exact absurd (by simp [h.1]) ha
    | cons c b =>
      simp only [List.cons_append, List.cons.injEq] at h
      obtain ⟨h1, h2⟩ := ih (by intro hh; exact ha (by simp [hh])) (by intro hh; exact hb (by simp [hh])) h.2
      exact ⟨by rw [h.1, h1], h2⟩

theorem dotted_inj (p q : List Str) (hp : ∀ k ∈ p, '.' ∉ k) (hq : ∀ k ∈ q, '.' ∉ k) (np : p ≠ []) (nq : q ≠ [])
    (h : dotted ['.'] p = dotted ['.'] q) : p = q := by
  induction p generalizing q with
  | nil => exact absurd rfl np
  | cons a p ih =>
    cases q with
    | nil => exact absurd rfl nq
    | cons b q =>
      have ha := hp a (by simp)
      have hb := hq b (by simp)
      cases p with
      | nil =>
        cases q with
        | nil => simpa [dotted] using h
        | cons b2 q2 =>
          simp only [dotted] at h
          rw [h] at ha
          exact absurd (by simp) ha
      | cons a2 p2 =>
        cases q with
        | nil =>
          simp only [dotted] at h
          rw [← h] at hb
          exact absurd (by simp) hb
        | cons b2 q2 =>
          rw [dotted_cons, dotted_cons] at h
          simp only [List.append_assoc, List.cons_append, List.nil_append] at h
          obtain ⟨h1, h2⟩ := split_dot ha hb h
          rw [h1, ih (b2 :: q2) (fun k hk => hp k (List.mem_cons_of_mem _ hk))
            (fun k hk => hq k (List.mem_cons_of_mem _ hk)) (by simp) (by simp) h2]

/-- C24 (soundness): with non-empty keys, every entry of the flattened
dictionary is a leaf of the original under its dotted path, and keys are distinct. -/
theorem flatten_sound {V : Type} (e : Entries V) (hk : AllKeys (fun k => k ≠ []) e) (delim : Str) :
    (dictKeys (flattenDict delim e)).Nodup ∧
    ∀ k v, dictGet (flattenDict delim e) k = some v → ∃ p, Leaf e p v ∧ k = dotted delim p := by
  refine ⟨flattenLoop_nodup _ _ _ (by simp [dictKeys]) _, fun k v h => ?_⟩
  have hs := flattenLoop_spec delim e [] [] (by simp [dictKeys]) k
  by_cases he : ∃ p v, Leaf e p v ∧ codeKey delim [] p = k
  · obtain ⟨p, v', h1, h2, h3⟩ := hs.1 he
    rw [flattenDict, h3] at h
    cases h
    exact ⟨p, h1, by rw [← h2, codeKey_nil p (leaf_keys h1 hk)]⟩
  · rw [flattenDict, hs.2 he] at h
    simp [dictGet] at h

/-- C24 (partial: keys are non-empty and contain no dot): the flattened dictionary
maps the dotted path of every leaf to its value, and contains nothing else. -/
theorem flatten_exact_partial {V : Type} (e : Entries V) (hw : WF e)
    (hk : AllKeys (fun k => k ≠ [] ∧ '.' ∉ k) e) (k : Str) (v : V) :
    dictGet (flattenDict ['.'] e) k = some v ↔ ∃ p, Leaf e p v ∧ k = dotted ['.'] p := by
  have key : ∀ p v, Leaf e p v → codeKey ['.'] [] p = dotted ['.'] p := fun p v h =>
    codeKey_nil p fun k hm => (leaf_keys h hk k hm).1
  have hs := flattenLoop_spec ['.'] e [] [] (by simp [dictKeys]) k
  constructor
  · intro h
    by_cases he : ∃ p v, Leaf e p v ∧ codeKey ['.'] [] p = k
    · obtain ⟨p, v', h1, h2, h3⟩ := hs.1 he
      rw [flattenDict, h3] at h
      cases h
      exact ⟨p, h1, by rw [← h2, key p _ h1]⟩
    · rw [flattenDict, hs.2 he] at h
      simp [dictGet] at h
  · rintro ⟨p, h, rfl⟩
    obtain ⟨p', v', h1, h2, h3⟩ := hs.1 ⟨p, v, h, key p v h⟩
    rw [key p' v' h1] at h2
    have : p' = p := dotted_inj p' p (fun k hm => (leaf_keys h1 hk k hm).2)
      (fun k hm => (leaf_keys h hk k hm).2) (leaf_ne_nil h1) (leaf_ne_nil h) h2
    subst this
    rw [flattenDict, h3, leaf_unique hw h1 h]

/-- C24 in full: every leaf is found under its dotted path. -/
def FlattenComplete : Prop :=
  ∀ (e : Entries Nat) (p : List Str) (v : Nat), WF e → Leaf e p v →
    dictGet (flattenDict ['.'] e) (dotted ['.'] p) = some v

/-- C24 in full is FALSE: `{"a.b": 1, "a": {"b": 2}}` loses the value 1. -/
theorem flatten_collision : ¬ FlattenComplete := by
  intro h
  have := h (.cons ['a', '.', 'b'] (.leaf 1) (.cons ['a'] (.dict (.cons ['b'] (.leaf 2) .nil)) .nil)) [['a', '.', 'b']] 1
    (.leaf (by simp [Entries.keys]) (.dict (by simp [Entries.keys]) (.leaf (by simp [Entries.keys]) .nil) .nil)) .here
  exact absurd this (by decide)

/-- C24 in full is FALSE: below an empty key the prefix disappears,
`{"": {"b": 2}}` flattens to `{"b": 2}`. -/
theorem flatten_empty_key : ¬ FlattenComplete := by
  intro h
  have := h (.cons [] (.dict (.cons ['b'] (.leaf 2) .nil)) .nil) [[], ['b']] 2
    (.dict (by simp [Entries.keys]) (.leaf (by simp [Entries.keys]) .nil) .nil) (.down .here)
  exact absurd this (by decide)

/-- A nested configuration meeting the hypotheses of `flatten_exact_partial`. -/
def exCfg : Entries Nat :=
  .cons ['a'] (.leaf 1) (.cons ['b'] (.dict (.cons ['c'] (.leaf 2) (.cons ['d'] (.dict (.cons ['c'] (.leaf 3) .nil)) .nil)))
    (.cons ['e'] (.dict .nil) .nil))

example : WF exCfg := .leaf (by decide) (.dict (by decide) (.leaf (by decide) (.dict (by decide) (.leaf (by decide) .nil)
  .nil)) (.dict (by decide) .nil .nil))
example : AllKeys (fun k => k ≠ [] ∧ '.' ∉ k) exCfg :=
  .leaf (by decide) (.dict (by decide) (.leaf (by decide) (.dict (by decide) (.leaf (by decide) .nil) .nil))
    (.dict (by decide) .nil .nil))
example : flattenDict ['.'] exCfg = [(['a'], 1), (['b', '.', 'c'], 2), (['b', '.', 'd', '.', 'c'], 3)] := by decide

/-! ## C23 log_params -/

theorem batches_take {α : Type} (l : List α) (m : Nat) :
    ((List.range m).map (batch l)).flatten = l.take (100 * m) := by
  induction m with
  | zero => simp
  | succ m ih =>
    rw [List.range_succ, List.map_append, List.flatten_append, ih]
    simp only [List.map_cons, List.map_nil, List.flatten_cons, List.flatten_nil, List.append_nil, batch]
    have e1 : l.take (min ((m + 1) * 100) l.length) = l.take ((m + 1) * 100) := by
      rw [List.take_eq_take_iff]; omega
    rw [e1, show (m + 1) * 100 = 100 * m + 100 by omega, Nat.mul_comm m 100, List.drop_take]
    rw [show 100 * m + 100 - 100 * m = 100 by omega, show 100 * (m + 1) = 100 * m + 100 by omega, List.take_add]

/-- C23: what is logged is always a prefix of the parameters, in order, without
repetition, in batches of at most 100; the exact number is given. -/
theorem log_params_logged {α : Type} (l : List α) :
    (logBatches l).flatten = (if l.length ≤ 100 then l else l.take (100 * (l.length % 100))) ∧
    ∀ b ∈ logBatches l, b.length ≤ 100 := by
  unfold logBatches
  by_cases h : l.length > 100
  · rw [if_pos h, if_neg (by omega), batches_take]
    refine ⟨rfl, ?_⟩
    intro b hb
    obtain ⟨i, _, rfl⟩ := List.mem_map.1 hb
    simp only [batch, List.length_drop, List.length_take]
    omega
  · rw [if_neg h, if_pos (by omega)]
    simp; omega

/-- C23 in full: every parameter is logged, for every configuration. -/
def LogComplete : Prop := ∀ l : List Nat, (logBatches l).flatten = l

/-- C23 (partial): every parameter is logged exactly when there are at most 100, or
the count modulo 100 is large enough. -/
theorem log_params_complete_iff_partial {α : Type} (l : List α) :
    (logBatches l).flatten = l ↔ l.length ≤ 100 ∨ l.length ≤ 100 * (l.length % 100) := by
  rw [(log_params_logged l).1]
  by_cases h : l.length ≤ 100
  · simp [h]
  · rw [if_neg h]
    constructor
    · intro he
      have := congrArg List.length he
      rw [List.length_take] at this
      omega
    · intro he
      exact List.take_of_length_le (by omega)

/-- C23 (partial): with at most 100 parameters one call logs the whole flattened
configuration, quantities formatted. -/
theorem log_params_small_partial {V : Type} (fmt : V → V) (cfg : Entries V)
    (h : (flattenDict ['.'] cfg).length ≤ 100) :
    logParams fmt cfg = [(flattenDict ['.'] cfg).map fun e => (e.1, fmt e.2)] := by
  have : ¬ 100 < (flattenDict ['.'] cfg).length := by omega
  simp [logParams, logBatches, this]

/-- C23 in full is FALSE: with 101 parameters one is not logged. -/
theorem log_params_drops : ¬ LogComplete := by
  intro h
  have := (log_params_complete_iff_partial (List.replicate 101 0)).1 (h _)
  simp at this

/-- C23: with 200, 300, ... parameters nothing at all is logged. -/
theorem log_params_nothing {α : Type} (l : List α) (h : 100 < l.length) (h2 : l.length % 100 = 0) :
    logBatches l = [] := by
  simp [logBatches, h, h2]

example : (logBatches (List.replicate 150 0)).flatten.length = 150 := by
  rw [(log_params_logged _).1]; simp
example : logParams id exCfg = [[(['a'], 1), (['b', '.', 'c'], 2), (['b', '.', 'd', '.', 'c'], 3)]] := by decide

/-! ## C26 robust_log_artifacts -/

/-- C26: the uploads attempted are those up to and including the first success, at
most `retries`; each failure is followed by one wait, and the failure message is
printed exactly when every attempt failed.  (The function is total: it never
raises, whatever the uploads do.) -/
theorem retry_spec (fails : List Bool) :
    (robustLog fails).count .attempt = min fails.length ((fails.takeWhile (· = true)).length + 1) ∧
    (robustLog fails).count .sleep = (fails.takeWhile (· = true)).length ∧
    (.gaveUp ∈ robustLog fails ↔ ∀ b ∈ fails, b = true) := by
  induction fails with
  | nil => simp [robustLog]
  | cons b r ih =>
    obtain ⟨h1, h2, h3⟩ := ih
    cases b
    · simp [robustLog]
    · simp [robustLog, h1, h2, h3]

/-- C26: after a success there is no further effect (no wait, no second upload). -/
theorem retry_stops (pre rest : List Bool) (h : ∀ b ∈ pre, b = true) :
    (robustLog (pre ++ false :: rest)).getLast? = some .attempt ∧
    robustLog (pre ++ false :: rest) = robustLog (pre ++ [false]) := by
  induction pre with
  | nil => simp [robustLog]
  | cons b r ih =>
    have hb := h b (by simp); subst hb
    obtain ⟨h1, h2⟩ := ih fun b hb => h b (by simp [hb])
    simp only [List.cons_append, robustLog]
    refine ⟨?_, by rw [h2]⟩
    rw [List.getLast?_cons, List.getLast?_cons, h1]
    simp

example : robustLog [true, true, false, true, true] = [.attempt, .sleep, .attempt, .sleep, .attempt] := by decide
example : robustLog [true, true] = [.attempt, .sleep, .attempt, .sleep, .gaveUp] := by decide

/-! ## C30 filter_scalars -/

/-- C30: the scalar leaves, at the same path with the same value, and nothing else. -/
theorem filter_leaves {V : Type} (sc : V → Bool) : (e : Entries V) → (p : List Str) → (v : V) →
    (Leaf (filterScalars sc e) p v ↔ Leaf e p v ∧ sc v = true)
  | .nil, p, v => by
    simp only [filterScalars]
    constructor
    · intro h; cases h
    · rintro ⟨h, _⟩; cases h
  | .cons k (.leaf v0) r, p, v => by
    have ih := filter_leaves sc r
    simp only [filterScalars]
    cases hs : sc v0
    · simp only [Bool.false_eq_true, if_false]
      rw [ih]
      constructor
      · rintro ⟨h1, h2⟩; exact ⟨.next h1, h2⟩
      · rintro ⟨h1, h2⟩
        cases h1 with
        | here => rw [hs] at h2; cases h2
        | next h1 => exact ⟨h1, h2⟩
    · simp only [if_true]
      constructor
      · intro h
        cases h with
        | here => exact ⟨.here, hs⟩
        | next h => exact ⟨.next ((ih _ _).1 h).1, ((ih _ _).1 h).2⟩
      · rintro ⟨h1, h2⟩
        cases h1 with
        | here => exact .here
        | next h1 => exact .next ((ih _ _).2 ⟨h1, h2⟩)
  | .cons k (.dict e) r, p, v => by
    have ih := filter_leaves sc r
    have ihe := filter_leaves sc e
    simp only [filterScalars]
    cases he : filterScalars sc e with
    | nil =>
      simp only []
      rw [ih]
      constructor
      · rintro ⟨h1, h2⟩; exact ⟨.next h1, h2⟩
      · rintro ⟨h1, h2⟩
        cases h1 with
        | down h1 =>
          have := (ihe _ _).2 ⟨h1, h2⟩
          rw [he] at this; cases this
        | next h1 => exact ⟨h1, h2⟩
    | cons k' v' r' =>
      simp only []
      rw [← he]
      constructor
      · intro h
        cases h with
        | down h => exact ⟨.down ((ihe _ _).1 h).1, ((ihe _ _).1 h).2⟩
        | next h => exact ⟨.next ((ih _ _).1 h).1, ((ih _ _).1 h).2⟩
      · rintro ⟨h1, h2⟩
        cases h1 with
        | down h1 => exact .down ((ihe _ _).2 ⟨h1, h2⟩)
        | next h1 => exact .next ((ih _ _).2 ⟨h1, h2⟩)

/-- C30: no nested dictionary of the result is empty. -/
theorem filter_no_empty {V : Type} (sc : V → Bool) : (e : Entries V) → NoEmpty (filterScalars sc e)
  | .nil => .nil
  | .cons k (.leaf v0) r => by
    simp only [filterScalars]
    split
    · exact .leaf (filter_no_empty sc r)
    · exact filter_no_empty sc r
  | .cons k (.dict e) r => by
    have ih := filter_no_empty sc e
    simp only [filterScalars]
    cases he : filterScalars sc e with
    | nil => exact filter_no_empty sc r
    | cons k' v' r' => exact .dict (he ▸ ih) (filter_no_empty sc r)

/-- C30: which values count as scalars: Python numbers, booleans, strings, `None`
and zero-dimensional numpy scalars, but no array (not even a 0-d one). -/
theorem scalar_kinds (k : Kind) : isScalar k = true ↔ k ∈ [Kind.int, .float, .bool, .str, .none, .npScalar] := by
  cases k <;> simp [isScalar]

example : filterScalars isScalar (.cons ['a'] (.leaf .int) (.cons ['b'] (.dict (.cons ['c'] (.leaf (.ndarray 0)) .nil))
    (.cons ['d'] (.dict (.cons ['e'] (.leaf .npScalar) .nil)) .nil))) =
    .cons ['a'] (.leaf .int) (.cons ['d'] (.dict (.cons ['e'] (.leaf .npScalar) .nil)) .nil) := by rfl

end Verif.Utils

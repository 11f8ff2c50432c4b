import Verif.Model.VlasovSave
import Verif.Props.VlasovSetup
import Verif.Props.VlasovSample
import Mathlib.Tactic.IntervalCases

/-!
C195: the save section of a Vlasov-1D deck.
-/
namespace Verif.VlasovSave
open Finset

/-! ### Text -/

/-- `startswith` is the prefix relation. -/
theorem starts_iff (p s : String) : starts p s = true ↔ p.toList <+: s.toList := by
  unfold starts; exact List.isPrefixOf_iff_prefix

theorem join_toList (s l : String) : (s ++ "." ++ l).toList = s.toList ++ '.' :: l.toList := by
  simp [String.toList_append]

theorem prefix_before_dot (p a b : List Char) (h : '.' ∉ p) (hp : p <+: a ++ '.' :: b) : p <+: a := by
  rcases le_or_gt p.length a.length with hl | hl
  · exact List.prefix_of_prefix_length_le hp (List.prefix_append a ('.' :: b)) hl
  · exfalso
    apply h
    have h1 : a ++ ['.'] <+: a ++ '.' :: b := ⟨b, by simp⟩
    have h2 : a ++ ['.'] <+: p := List.prefix_of_prefix_length_le h1 hp (by simpa using hl)
    exact h2.subset (by simp)

theorem dot_split (a a' b b' : List Char) (h : '.' ∉ a) (h' : '.' ∉ a') (e : a ++ '.' :: b = a' ++ '.' :: b') : a = a' ∧ b = b' := by
  have h1 : a <+: a' := prefix_before_dot a a' b' h ⟨'.' :: b, e⟩
  have h2 : a' <+: a := prefix_before_dot a' a b h' ⟨'.' :: b', e.symm⟩
  have e1 : a = a' := h1.eq_of_length (le_antisymm h1.length_le h2.length_le)
  subst e1
  have := List.append_cancel_left e
  exact ⟨rfl, (List.cons.inj this).2⟩

/-! ### Dimensions -/

/-- `set(keys) == {…}`. -/
theorem same_iff (keys l : List String) : (keys.all (· ∈ l) && l.all (· ∈ keys)) = true ↔ ∀ k, k ∈ keys ↔ k ∈ l := by
  simp only [Bool.and_eq_true, List.all_eq_true, decide_eq_true_eq]
  exact ⟨fun ⟨h1, h2⟩ k => ⟨h1 k, h2 k⟩, fun h => ⟨fun k => (h k).1, fun k => (h k).2⟩⟩

/-- C195: which sets of dimensions a distribution can be saved on. -/
theorem dims_spec (keys : List String) :
    (dims keys = .t ↔ ∀ k, k ∈ keys ↔ k = "t") ∧ (dims keys = .txv ↔ ∀ k, k ∈ keys ↔ k = "t" ∨ k = "x" ∨ k = "v") ∧
      (dims keys = .tkxv ↔ ∀ k, k ∈ keys ↔ k = "t" ∨ k = "kx" ∨ k = "v") := by
  have e1 := same_iff keys ["t"]
  have e2 := same_iff keys ["t", "x", "v"]
  have e3 := same_iff keys ["t", "kx", "v"]
  have e4 := same_iff keys ["t", "x", "kv"]
  have e5 := same_iff keys ["t", "kx", "kv"]
  simp only [List.mem_cons, List.not_mem_nil, or_false] at e1 e2 e3 e4 e5
  have n12 : (∀ k, k ∈ keys ↔ k = "t") → ¬ ∀ k, k ∈ keys ↔ k = "t" ∨ k = "x" ∨ k = "v" := fun h h' => by
    have := (h "v").1 ((h' "v").2 (by simp)); revert this; decide
  have n13 : (∀ k, k ∈ keys ↔ k = "t") → ¬ ∀ k, k ∈ keys ↔ k = "t" ∨ k = "kx" ∨ k = "v" := fun h h' => by
    have := (h "v").1 ((h' "v").2 (by simp)); revert this; decide
  have n23 : (∀ k, k ∈ keys ↔ k = "t" ∨ k = "x" ∨ k = "v") → ¬ ∀ k, k ∈ keys ↔ k = "t" ∨ k = "kx" ∨ k = "v" := fun h h' => by
    have := (h "kx").1 ((h' "kx").2 (by simp)); revert this; decide
  unfold dims
  dsimp only
  by_cases c1 : (keys.all (· ∈ ["t"]) && ["t"].all (· ∈ keys)) = true
  · rw [if_pos c1]
    have h := e1.1 (by simpa using c1)
    exact ⟨⟨fun _ => h, fun _ => rfl⟩, ⟨fun hc => (by cases hc), fun hc => absurd hc (n12 h)⟩, ⟨fun hc => (by cases hc), fun hc => absurd hc (n13 h)⟩⟩
  · rw [if_neg c1]
    have h := fun hc => c1 (by simpa using e1.2 hc)
    by_cases c2 : (keys.all (· ∈ ["t", "x", "v"]) && ["t", "x", "v"].all (· ∈ keys)) = true
    · rw [if_pos c2]
      have h2 := e2.1 (by simpa using c2)
      exact ⟨⟨fun hc => (by cases hc), fun hc => absurd hc h⟩, ⟨fun _ => h2, fun _ => rfl⟩, ⟨fun hc => (by cases hc), fun hc => absurd hc (n23 h2)⟩⟩
    · rw [if_neg c2]
      have h2 := fun hc => c2 (by simpa using e2.2 hc)
      by_cases c3 : (keys.all (· ∈ ["t", "kx", "v"]) && ["t", "kx", "v"].all (· ∈ keys)) = true
      · rw [if_pos c3]
        have h3 := e3.1 (by simpa using c3)
        exact ⟨⟨fun hc => (by cases hc), fun hc => absurd hc h⟩, ⟨fun hc => (by cases hc), fun hc => absurd hc h2⟩, ⟨fun _ => h3, fun _ => rfl⟩⟩
      · rw [if_neg c3]
        have h3 := fun hc => c3 (by simpa using e3.2 hc)
        have na : ∀ b : Bool, (if b = true then Dims.tkv else Dims.bad) ≠ .t ∧ (if b = true then Dims.tkv else Dims.bad) ≠ .txv ∧
            (if b = true then Dims.tkv else Dims.bad) ≠ .tkxv := by decide
        obtain ⟨a1, a2, a3⟩ := na ((keys.all (· ∈ ["t", "x", "kv"]) && ["t", "x", "kv"].all (· ∈ keys)) ||
          (keys.all (· ∈ ["t", "kx", "kv"]) && ["t", "kx", "kv"].all (· ∈ keys)))
        exact ⟨⟨fun hc => absurd hc a1, fun hc => absurd hc h⟩, ⟨fun hc => absurd hc a2, fun hc => absurd hc h2⟩,
          ⟨fun hc => absurd hc a3, fun hc => absurd hc h3⟩⟩

/-- The contents of a distribution save with these dimensions. -/
def content (keys : List String) (source : String) : Stream :=
  match dims keys with
  | .txv => .sampled source
  | .tkxv => .spectrum source
  | _ => .full source

/-- The dimensions are supported. -/
def Supported (keys : List String) : Prop :=
  (∀ k, k ∈ keys ↔ k = "t") ∨ (∀ k, k ∈ keys ↔ k = "t" ∨ k = "x" ∨ k = "v") ∨ ∀ k, k ∈ keys ↔ k = "t" ∨ k = "kx" ∨ k = "v"

theorem supported_iff (keys : List String) : Supported keys ↔ dims keys = .t ∨ dims keys = .txv ∨ dims keys = .tkxv := by
  obtain ⟨h1, h2, h3⟩ := dims_spec keys
  unfold Supported
  rw [h1, h2, h3]

theorem distFunc_ok (keys : List String) (source : String) (s : Stream) :
    distFunc keys source = .ok s ↔ Supported keys ∧ s = content keys source := by
  rw [supported_iff]
  unfold distFunc content
  cases dims keys <;> simp [eq_comm]

theorem distFunc_supported {keys : List String} (h : Supported keys) (source : String) : distFunc keys source = .ok (content keys source) :=
  (distFunc_ok keys source _).2 ⟨h, rfl⟩

theorem distFunc_unsupported {keys : List String} (h : ¬ Supported keys) (source : String) : ∃ e, distFunc keys source = .error e := by
  cases hd : distFunc keys source with
  | error e => exact ⟨e, rfl⟩
  | ok s => exact absurd ((distFunc_ok keys source s).1 hd).1 h

/-- C195: the contents are the whole distribution, samples in position and velocity, or samples of the spectrum. -/
theorem content_spec (keys : List String) (source : String) :
    ((∀ k, k ∈ keys ↔ k = "t") → content keys source = .full source) ∧
      ((∀ k, k ∈ keys ↔ k = "t" ∨ k = "x" ∨ k = "v") → content keys source = .sampled source) ∧
      ((∀ k, k ∈ keys ↔ k = "t" ∨ k = "kx" ∨ k = "v") → content keys source = .spectrum source) := by
  obtain ⟨h1, h2, h3⟩ := dims_spec keys
  unfold content
  exact ⟨fun h => by rw [h1.2 h], fun h => by rw [h2.2 h], fun h => by rw [h3.2 h]⟩

/-! ### The streams of a deck -/

/-- The streams of an entry. -/
def out (p : String × Entry) : List (String × Stream) :=
  if starts "fields" p.1 then [(p.1, .fields)]
  else if p.1 = "diag-vlasov-dfdt" ∨ p.1 = "diag-fp-dfdt" then [(p.1, content p.2.keys p.1)]
  else match p.2 with
    | .flat _ => []
    | .nested ls => ls.map fun q => (p.1 ++ "." ++ q.1, content q.2 p.1)

/-- An entry that is not for the fields is accepted: a species with labels of supported dimensions, or a diagnostic of the
electrons. -/
def EntryOk (species : List String) (p : String × Entry) : Prop :=
  (p.1 ∈ species ∧ (p.2 = .flat [] ∨ ∃ ls, p.2 = .nested ls ∧ ∀ q ∈ ls, Supported q.2)) ∨
    (p.1 ∉ species ∧ (p.1 = "diag-vlasov-dfdt" ∨ p.1 = "diag-fp-dfdt") ∧ "electron" ∈ species ∧ Supported p.2.keys)

theorem labels_ok (species : String) (ls : List (String × List String)) (acc d : Dict String Stream) :
    labels species ls acc = .ok d ↔ (∀ q ∈ ls, Supported q.2) ∧
      d = ls.foldl (fun d q => dictSet d (species ++ "." ++ q.1) (content q.2 species)) acc := by
  induction ls generalizing acc with
  | nil => simp [labels, eq_comm]
  | cons q ls ih =>
    obtain ⟨label, keys⟩ := q
    unfold labels
    by_cases h : Supported keys
    · rw [distFunc_supported h]
      dsimp only
      rw [ih]
      simp [h]
    · obtain ⟨e, he⟩ := distFunc_unsupported h species
      rw [he]
      simp [h]

/-- The condition on the entries for the fields, from the current point of the loop. -/
def FieldsOk (save : List (String × Entry)) : List (String × Entry) → Bool → Prop
  | [], _ => True
  | (key, _) :: l, done => (starts "fields" key = true → done = false ∧ ∃ e, dictGet save "fields" = some e ∧ dims e.keys = .t) ∧
      FieldsOk save l (done || (starts "fields" key && key == "fields"))

theorem fieldFunc_ok (save : List (String × Entry)) (done : Bool) (s : Stream) :
    fieldFunc save done = .ok s ↔ s = .fields ∧ done = false ∧ ∃ e, dictGet save "fields" = some e ∧ dims e.keys = .t := by
  unfold fieldFunc
  cases dictGet save "fields" with
  | none => simp
  | some e =>
    dsimp only
    by_cases h : dims e.keys = .t <;> cases done <;> simp [h]
    exact eq_comm

theorem fields_not_diag (k : String) (h : starts "fields" k = true) : k ≠ "diag-vlasov-dfdt" ∧ k ≠ "diag-fp-dfdt" := by
  constructor <;> (intro e; subst e; revert h; decide)

theorem expand_ok (save : List (String × Entry)) (species : List String) (hs : "diag-vlasov-dfdt" ∉ species ∧ "diag-fp-dfdt" ∉ species)
    (l : List (String × Entry)) (done : Bool) (acc d : Dict String Stream) :
    expand save species l done acc = .ok d ↔ (∀ p ∈ l, starts "fields" p.1 = false → EntryOk species p) ∧ FieldsOk save l done ∧
      d = (l.flatMap out).foldl (fun d q => dictSet d q.1 q.2) acc := by
  induction l generalizing done acc with
  | nil =>
    have e1 : expand save species [] done acc = .ok acc := by rw [expand]
    have e2 : FieldsOk save [] done = True := by rw [FieldsOk]
    rw [e1, e2]
    constructor
    · intro h; cases h; exact ⟨fun p hp => absurd hp (by simp), trivial, rfl⟩
    · rintro ⟨-, -, rfl⟩; rfl
  | cons p l ih =>
    obtain ⟨key, e⟩ := p
    unfold expand FieldsOk
    by_cases hf : starts "fields" key = true
    · rw [if_pos hf]
      have ho : out (key, e) = [(key, .fields)] := by unfold out; rw [if_pos hf]
      rw [List.flatMap_cons, ho]
      cases hff : fieldFunc save done with
      | error err =>
        dsimp only
        constructor
        · intro hc; cases hc
        · rintro ⟨-, ⟨h2, -⟩, -⟩
          have := (fieldFunc_ok save done .fields).2 ⟨rfl, h2 hf⟩
          rw [hff] at this; cases this
      | ok s =>
        obtain ⟨rfl, h2⟩ := (fieldFunc_ok save done s).1 hff
        dsimp only
        rw [ih]
        simp only [List.mem_cons, forall_eq_or_imp, hf, Bool.true_and, List.singleton_append, List.foldl_cons]
        constructor
        · rintro ⟨a, b, c⟩
          exact ⟨⟨fun hc => absurd hc (by simp), a⟩, ⟨fun _ => h2, b⟩, c⟩
        · rintro ⟨⟨-, a⟩, ⟨-, b⟩, c⟩
          exact ⟨a, b, c⟩
    · rw [if_neg hf]
      have hf' : starts "fields" key = false := by simpa using hf
      have hd : (done || (starts "fields" key && key == "fields")) = done := by rw [hf']; simp
      rw [hd, List.flatMap_cons, List.foldl_append]
      by_cases hk : key ∈ species
      · rw [if_pos hk]
        have hnd : ¬ (key = "diag-vlasov-dfdt" ∨ key = "diag-fp-dfdt") := by
          rintro (h | h)
          · exact hs.1 (h ▸ hk)
          · exact hs.2 (h ▸ hk)
        cases e with
        | flat ks =>
          have ho : out (key, .flat ks) = [] := by unfold out; rw [if_neg hf, if_neg hnd]
          cases ks with
          | nil =>
            dsimp only
            rw [ih, ho]
            have hok : EntryOk species (key, .flat []) := Or.inl ⟨hk, Or.inl rfl⟩
            simp [hok, hf]
          | cons k ks =>
            dsimp only
            constructor
            · intro hc; cases hc
            · rintro ⟨h1, -, -⟩
              rcases h1 (key, .flat (k :: ks)) (by simp) hf' with ⟨-, h | ⟨ls, h, -⟩⟩ | ⟨h, -⟩
              · cases h
              · cases h
              · exact absurd hk h
        | nested ls =>
          have ho : out (key, .nested ls) = ls.map fun q => (key ++ "." ++ q.1, content q.2 key) := by unfold out; rw [if_neg hf, if_neg hnd]
          dsimp only
          by_cases hl : ∀ q ∈ ls, Supported q.2
          · rw [(labels_ok key ls acc _).2 ⟨hl, rfl⟩]
            dsimp only
            rw [ih, ho, List.foldl_map]
            have hok : EntryOk species (key, .nested ls) := Or.inl ⟨hk, Or.inr ⟨ls, rfl, hl⟩⟩
            simp [hok, hf]
          · cases hll : labels key ls acc with
            | ok d' => exact absurd ((labels_ok key ls acc d').1 hll).1 hl
            | error err =>
              dsimp only
              constructor
              · intro hc; cases hc
              · rintro ⟨h1, -, -⟩
                rcases h1 (key, .nested ls) (by simp) hf' with ⟨-, h | ⟨ls', h, h'⟩⟩ | ⟨h, -⟩
                · cases h
                · cases h; exact absurd h' hl
                · exact absurd hk h
      · rw [if_neg hk]
        by_cases hdg : key ∈ ["diag-vlasov-dfdt", "diag-fp-dfdt"]
        · rw [if_pos hdg]
          have hdg' : key = "diag-vlasov-dfdt" ∨ key = "diag-fp-dfdt" := by simpa using hdg
          have ho : out (key, e) = [(key, content e.keys key)] := by unfold out; rw [if_neg hf, if_pos hdg']
          by_cases hel : "electron" ∈ species
          · rw [if_pos hel]
            by_cases hsup : Supported e.keys
            · rw [distFunc_supported hsup]
              dsimp only
              rw [ih, ho]
              have hok : EntryOk species (key, e) := Or.inr ⟨hk, hdg', hel, hsup⟩
              simp [hok, hf]
            · obtain ⟨err, he⟩ := distFunc_unsupported hsup key
              rw [he]
              dsimp only
              constructor
              · intro hc; cases hc
              · rintro ⟨h1, -, -⟩
                rcases h1 (key, e) (by simp) hf' with ⟨h, -⟩ | ⟨-, -, -, h⟩
                · exact absurd h hk
                · exact absurd h hsup
          · rw [if_neg hel]
            constructor
            · intro hc; cases hc
            · rintro ⟨h1, -, -⟩
              rcases h1 (key, e) (by simp) hf' with ⟨h, -⟩ | ⟨-, -, h, -⟩
              · exact absurd h hk
              · exact absurd h hel
        · rw [if_neg hdg]
          have hdg' : ¬ (key = "diag-vlasov-dfdt" ∨ key = "diag-fp-dfdt") := by simpa using hdg
          constructor
          · intro hc; cases hc
          · rintro ⟨h1, -, -⟩
            rcases h1 (key, e) (by simp) hf' with ⟨h, -⟩ | ⟨-, h, -⟩
            · exact absurd h hk
            · exact absurd h hdg'

theorem fieldsOk_done (save l : List (String × Entry)) : FieldsOk save l true ↔ ∀ p ∈ l, starts "fields" p.1 = false := by
  induction l with
  | nil => simp [FieldsOk]
  | cons p l ih =>
    obtain ⟨key, e⟩ := p
    unfold FieldsOk
    rw [Bool.true_or, ih]
    simp

theorem fieldsOk_iff (save l : List (String × Entry)) : FieldsOk save l false ↔
    ((∃ p ∈ l, starts "fields" p.1 = true) → ∃ e, dictGet save "fields" = some e ∧ dims e.keys = .t) ∧
      ∀ a e b, l = a ++ ("fields", e) :: b → ∀ p ∈ b, starts "fields" p.1 = false := by
  induction l with
  | nil => simp [FieldsOk]
  | cons p l ih =>
    obtain ⟨key, e⟩ := p
    unfold FieldsOk
    rw [Bool.false_or]
    by_cases hk : key = "fields"
    · subst hk
      have hst : starts "fields" "fields" = true := by decide
      have hdone : (starts "fields" "fields" && "fields" == "fields") = true := by decide
      rw [hdone, fieldsOk_done]
      constructor
      · rintro ⟨h1, h2⟩
        refine ⟨fun _ => (h1 hst).2, fun a e' b hl => ?_⟩
        cases a with
        | nil => rw [List.nil_append] at hl; cases hl; exact h2
        | cons q a =>
          rw [List.cons_append] at hl
          injection hl with ha hl
          intro p hp
          exact h2 p (by rw [hl]; simp [hp])
      · rintro ⟨h1, h2⟩
        exact ⟨fun _ => ⟨rfl, h1 ⟨_, List.mem_cons_self, hst⟩⟩, h2 [] e l rfl⟩
    · have hdone : (starts "fields" key && key == "fields") = false := by simp [hk]
      rw [hdone, ih]
      constructor
      · rintro ⟨h1, h2, h3⟩
        refine ⟨?_, fun a e' b hl => ?_⟩
        · rintro ⟨p, hp, hpf⟩
          rcases List.mem_cons.1 hp with rfl | hp
          · exact (h1 hpf).2
          · exact h2 ⟨p, hp, hpf⟩
        · cases a with
          | nil => rw [List.nil_append] at hl; cases hl; exact absurd rfl hk
          | cons q a =>
            rw [List.cons_append] at hl
            injection hl with ha hl
            exact h3 a e' b hl
      · rintro ⟨h1, h2⟩
        refine ⟨fun hf => ⟨rfl, h1 ⟨_, List.mem_cons_self, hf⟩⟩, fun ⟨p, hp, hpf⟩ => h1 ⟨p, List.mem_cons_of_mem _ hp, hpf⟩, fun a e' b hl => ?_⟩
        exact h2 ((key, e) :: a) e' b (by rw [hl]; rfl)

/-- C195: a save section is accepted exactly if every entry for something other than the fields is a species with labels of
supported dimensions or a diagnostic of the electrons, and, if anything is saved for the fields, there is an entry called
`fields`, with only times, and no other entry for the fields comes after it. -/
theorem section_accepted (save : List (String × Entry)) (species : List String)
    (hs : "diag-vlasov-dfdt" ∉ species ∧ "diag-fp-dfdt" ∉ species) :
    (∃ d, saveSection save species = .ok d) ↔ (∀ p ∈ save, ¬ "fields".toList <+: p.1.toList → EntryOk species p) ∧
      ((∃ p ∈ save, "fields".toList <+: p.1.toList) → ∃ e, dictGet save "fields" = some e ∧ ∀ k, k ∈ e.keys ↔ k = "t") ∧
      ∀ a e b, save = a ++ ("fields", e) :: b → ∀ p ∈ b, ¬ "fields".toList <+: p.1.toList := by
  have key : (∃ d, saveSection save species = .ok d) ↔ ∃ d, expand save species save false [] = .ok d := by
    unfold saveSection
    cases expand save species save false [] with
    | error e => simp
    | ok d => simp
  rw [key]
  simp only [← starts_iff, Bool.not_eq_true]
  constructor
  · rintro ⟨d, hd⟩
    obtain ⟨h1, h2, -⟩ := (expand_ok save species hs save false [] d).1 hd
    obtain ⟨h3, h4⟩ := (fieldsOk_iff save save).1 h2
    refine ⟨h1, fun h => ?_, h4⟩
    obtain ⟨e, he, he'⟩ := h3 h
    exact ⟨e, he, (dims_spec e.keys).1.1 he'⟩
  · rintro ⟨h1, h2, h3⟩
    refine ⟨_, (expand_ok save species hs save false [] _).2 ⟨h1, (fieldsOk_iff save save).2 ⟨fun h => ?_, h3⟩, rfl⟩⟩
    obtain ⟨e, he, he'⟩ := h2 h
    exact ⟨e, he, (dims_spec e.keys).1.2 he'⟩

/-- C195: two saves of the fields in the other order are refused. -/
theorem fields_order_partial (species : List String) :
    saveSection [("fields", .flat ["t"]), ("fields-late", .flat ["t"])] species = .error "NotImplementedError" ∧
      saveSection [("fields-late", .flat ["t"]), ("fields", .flat ["t"])] species
        = .ok [("fields-late", .fields), ("fields", .fields), ("default", .scalars)] ∧
      saveSection [("fields-late", .flat ["t"])] species = .error "KeyError" := by
  refine ⟨?_, ?_, ?_⟩ <;> rfl

/-- C195: an unknown kind of save is refused. -/
theorem unknown_save (save : List (String × Entry)) (species : List String) (hs : "diag-vlasov-dfdt" ∉ species ∧ "diag-fp-dfdt" ∉ species)
    (p : String × Entry) (hp : p ∈ save) (h1 : ¬ "fields".toList <+: p.1.toList) (h2 : p.1 ∉ species)
    (h3 : p.1 ≠ "diag-vlasov-dfdt" ∧ p.1 ≠ "diag-fp-dfdt") : ∃ e, saveSection save species = .error e := by
  cases h : saveSection save species with
  | error e => exact ⟨e, rfl⟩
  | ok d =>
    rcases ((section_accepted save species hs).1 ⟨d, h⟩).1 p hp h1 with ⟨h, -⟩ | ⟨-, h | h, -⟩
    · exact absurd h h2
    · exact absurd h h3.1
    · exact absurd h h3.2

/-- C195: a diagnostic cannot be saved without a species called `electron`, whatever the species of the run. -/
theorem diagnostic_needs_electron (save : List (String × Entry)) (species : List String)
    (hs : "diag-vlasov-dfdt" ∉ species ∧ "diag-fp-dfdt" ∉ species) (e : Entry) (hp : ("diag-vlasov-dfdt", e) ∈ save ∨ ("diag-fp-dfdt", e) ∈ save)
    (h : "electron" ∉ species) : ∃ err, saveSection save species = .error err := by
  cases hd : saveSection save species with
  | error e => exact ⟨e, rfl⟩
  | ok d =>
    have h1 := ((section_accepted save species hs).1 ⟨d, hd⟩).1
    rcases hp with hp | hp
    · rcases h1 _ hp (by dsimp only; decide) with ⟨hc, -⟩ | ⟨-, -, hc, -⟩
      · exact absurd hc hs.1
      · exact absurd hc h
    · rcases h1 _ hp (by dsimp only; decide) with ⟨hc, -⟩ | ⟨-, -, hc, -⟩
      · exact absurd hc hs.2
      · exact absurd hc h

/-- C195: a species entry without labels is refused. -/
theorem flat_species (save : List (String × Entry)) (species : List String) (hs : "diag-vlasov-dfdt" ∉ species ∧ "diag-fp-dfdt" ∉ species)
    (s : String) (hm : s ∈ species) (hf : ¬ "fields".toList <+: s.toList) (k : String) (ks : List String) (hp : (s, Entry.flat (k :: ks)) ∈ save) :
    ∃ err, saveSection save species = .error err := by
  cases hd : saveSection save species with
  | error e => exact ⟨e, rfl⟩
  | ok d =>
    rcases ((section_accepted save species hs).1 ⟨d, hd⟩).1 _ hp hf with ⟨-, h | ⟨ls, h, -⟩⟩ | ⟨h, -⟩
    · cases h
    · cases h
    · exact absurd hm h

/-! ### No stream is lost -/

/-- The keys of the streams of an entry. -/
theorem out_key {species : List String} {p : String × Entry} (hok : starts "fields" p.1 = false → EntryOk species p)
    (hs : "diag-vlasov-dfdt" ∉ species ∧ "diag-fp-dfdt" ∉ species) {q : String × Stream} (hq : q ∈ out p) :
    (q.1 = p.1 ∧ (starts "fields" p.1 = true ∨ p.1 = "diag-vlasov-dfdt" ∨ p.1 = "diag-fp-dfdt")) ∨
      (p.1 ∈ species ∧ starts "fields" p.1 = false ∧ ∃ ls label keys, p.2 = .nested ls ∧ (label, keys) ∈ ls ∧ q.1 = p.1 ++ "." ++ label) := by
  obtain ⟨key, e⟩ := p
  unfold out at hq
  by_cases hf : starts "fields" key = true
  · rw [if_pos hf] at hq
    rw [List.mem_singleton] at hq
    subst hq
    exact Or.inl ⟨rfl, Or.inl hf⟩
  · rw [if_neg hf] at hq
    by_cases hd : key = "diag-vlasov-dfdt" ∨ key = "diag-fp-dfdt"
    · rw [if_pos hd] at hq
      rw [List.mem_singleton] at hq
      subst hq
      exact Or.inl ⟨rfl, Or.inr hd⟩
    · rw [if_neg hd] at hq
      have hf' : starts "fields" key = false := by simpa using hf
      cases e with
      | flat ks => simp at hq
      | nested ls =>
        dsimp only at hq
        obtain ⟨⟨label, keys⟩, hm, rfl⟩ := List.mem_map.1 hq
        refine Or.inr ⟨?_, hf', ls, label, keys, rfl, hm, rfl⟩
        rcases hok hf' with ⟨h, -⟩ | ⟨-, h, -⟩
        · exact h
        · exact absurd h hd

theorem out_disjoint {species : List String} (hs : "diag-vlasov-dfdt" ∉ species ∧ "diag-fp-dfdt" ∉ species)
    (hdot : ∀ s ∈ species, '.' ∉ s.toList) {p p' : String × Entry} (hne : p.1 ≠ p'.1)
    (hok : starts "fields" p.1 = false → EntryOk species p) (hok' : starts "fields" p'.1 = false → EntryOk species p')
    {q q' : String × Stream} (hq : q ∈ out p) (hq' : q' ∈ out p') : q.1 ≠ q'.1 := by
  intro e
  have mixed : ∀ (a b label : String), (starts "fields" a = true ∨ a = "diag-vlasov-dfdt" ∨ a = "diag-fp-dfdt") → starts "fields" b = false →
      '.' ∉ b.toList → a ≠ b ++ "." ++ label := by
    rintro a b label ha hb hbd rfl
    rcases ha with ha | ha | ha
    · rw [starts_iff, join_toList] at ha
      have := prefix_before_dot _ _ _ (by decide) ha
      rw [← starts_iff] at this
      rw [this] at hb; cases hb
    · have h1 : '.' ∈ (b ++ "." ++ label).toList := by rw [join_toList]; simp
      rw [ha] at h1; revert h1; decide
    · have h1 : '.' ∈ (b ++ "." ++ label).toList := by rw [join_toList]; simp
      rw [ha] at h1; revert h1; decide
  rcases out_key hok hs hq with ⟨h1, h2⟩ | ⟨h1, h2, ls, label, keys, -, -, h3⟩ <;>
    rcases out_key hok' hs hq' with ⟨h1', h2'⟩ | ⟨h1', h2', ls', label', keys', -, -, h3'⟩
  · exact hne (by rw [← h1, ← h1', e])
  · exact mixed p.1 p'.1 label' h2 h2' (hdot _ h1') (by rw [← h1, ← h3', e])
  · exact mixed p'.1 p.1 label h2' h2 (hdot _ h1) (by rw [← h1', ← h3, e])
  · have := congrArg String.toList (show p.1 ++ "." ++ label = p'.1 ++ "." ++ label' by rw [← h3, ← h3', e])
    rw [join_toList, join_toList] at this
    exact hne (String.toList_inj.1 (dot_split _ _ _ _ (hdot _ h1) (hdot _ h1') this).1)

theorem out_nodup (p : String × Entry) (hl : ∀ ls, p.2 = .nested ls → (ls.map Prod.fst).Nodup) : ((out p).map Prod.fst).Nodup := by
  obtain ⟨key, e⟩ := p
  unfold out
  split
  · simp
  · split
    · simp
    · cases e with
      | flat ks => simp
      | nested ls =>
        dsimp only
        rw [List.map_map]
        have e1 : (Prod.fst ∘ fun q : String × List String => (key ++ "." ++ q.1, content q.2 key)) = (fun l : String => key ++ "." ++ l) ∘ Prod.fst := rfl
        rw [e1, ← List.map_map]
        refine (hl ls rfl).map ?_
        intro a b hab
        have := congrArg String.toList hab
        rw [join_toList, join_toList] at this
        have := List.append_cancel_left this
        exact String.toList_inj.1 (List.cons.inj this).2

theorem out_default {species : List String} (hs : "diag-vlasov-dfdt" ∉ species ∧ "diag-fp-dfdt" ∉ species) {p : String × Entry}
    (hok : starts "fields" p.1 = false → EntryOk species p) {q : String × Stream} (hq : q ∈ out p) : q.1 ≠ "default" := by
  intro e
  rcases out_key hok hs hq with ⟨h1, h2⟩ | ⟨-, -, ls, label, keys, -, -, h3⟩
  · rw [← h1, e] at h2
    revert h2; decide
  · have h4 : '.' ∈ (p.1 ++ "." ++ label).toList := by rw [join_toList]; simp
    rw [← h3, e] at h4; revert h4; decide

/-- C195: the streams of an accepted save section, in the order of the deck: one for each entry of the fields and of the
diagnostics, one for each label of each species, and the scalars.  None replaces another as long as no species has a dot in
its name. -/
theorem section_streams (save : List (String × Entry)) (species : List String) (hs : "diag-vlasov-dfdt" ∉ species ∧ "diag-fp-dfdt" ∉ species)
    (hk : (save.map Prod.fst).Nodup) (hl : ∀ p ∈ save, ∀ ls, p.2 = .nested ls → (ls.map Prod.fst).Nodup)
    (hdot : ∀ s ∈ species, '.' ∉ s.toList) (d : Dict String Stream) (h : saveSection save species = .ok d) :
    d = save.flatMap out ++ [("default", .scalars)] ∧ (dictKeys d).Nodup := by
  unfold saveSection at h
  cases he : expand save species save false [] with
  | error e => rw [he] at h; cases h
  | ok d' =>
    rw [he] at h
    injection h with h
    obtain ⟨h1, -, h3⟩ := (expand_ok save species hs save false [] d').1 he
    have hnd : ((save.flatMap out).map Prod.fst).Nodup := by
      clear he h h3 d d'
      induction save with
      | nil => simp
      | cons p l ih =>
        rw [List.flatMap_cons, List.map_append, List.nodup_append]
        rw [List.map_cons, List.nodup_cons] at hk
        refine ⟨out_nodup p (hl p List.mem_cons_self), ih hk.2 (fun q hq => hl q (List.mem_cons_of_mem _ hq)) fun q hq => h1 q (List.mem_cons_of_mem _ hq), ?_⟩
        intro a ha b hb
        obtain ⟨q, hq, rfl⟩ := List.mem_map.1 ha
        obtain ⟨q', hq', rfl⟩ := List.mem_map.1 hb
        obtain ⟨p', hp', hq'⟩ := List.mem_flatMap.1 hq'
        refine out_disjoint hs hdot ?_ (h1 p List.mem_cons_self) (h1 p' (List.mem_cons_of_mem _ hp')) hq hq'
        intro hc
        exact hk.1 (by rw [hc]; exact List.mem_map_of_mem hp')
    have hdef : "default" ∉ (save.flatMap out).map Prod.fst := by
      intro hm
      obtain ⟨q, hq, e⟩ := List.mem_map.1 hm
      obtain ⟨p, hp, hq⟩ := List.mem_flatMap.1 hq
      exact out_default hs (h1 p hp) hq e
    have e1 : d' = save.flatMap out := by
      rw [h3, VlasovInit.foldl_fresh (fun q : String × Stream => q.1) (fun q => q.2) (save.flatMap out) [] (by simpa [dictKeys] using hnd)]
      simp
    subst e1
    have e2 : d = save.flatMap out ++ [("default", .scalars)] := by
      rw [← h, VlasovInit.dictSet_fresh _ _ _ hdef]
    refine ⟨e2, ?_⟩
    rw [e2]
    unfold dictKeys
    rw [List.map_append, List.nodup_append]
    refine ⟨hnd, by simp, ?_⟩
    intro a ha b hb hab
    simp only [List.map_cons, List.map_nil, List.mem_singleton] at hb
    exact hdef (by rw [← hb, ← hab]; exact ha)

/-- C195: so every save of the deck is found under its name with its contents, and the scalars are always saved. -/
theorem section_get (save : List (String × Entry)) (species : List String) (hs : "diag-vlasov-dfdt" ∉ species ∧ "diag-fp-dfdt" ∉ species)
    (hk : (save.map Prod.fst).Nodup) (hl : ∀ p ∈ save, ∀ ls, p.2 = .nested ls → (ls.map Prod.fst).Nodup)
    (hdot : ∀ s ∈ species, '.' ∉ s.toList) (d : Dict String Stream) (h : saveSection save species = .ok d) :
    dictGet d "default" = some .scalars ∧
      (∀ p ∈ save, "fields".toList <+: p.1.toList → dictGet d p.1 = some .fields) ∧
      (∀ s ls label keys, s ∈ species → ¬ "fields".toList <+: s.toList → (s, Entry.nested ls) ∈ save → (label, keys) ∈ ls →
        Supported keys ∧ dictGet d (s ++ "." ++ label) = some (content keys s)) ∧
      ∀ p ∈ save, p.1 = "diag-vlasov-dfdt" ∨ p.1 = "diag-fp-dfdt" → dictGet d p.1 = some (content p.2.keys p.1) := by
  obtain ⟨e, nd⟩ := section_streams save species hs hk hl hdot d h
  have acc := (section_accepted save species hs).1 ⟨d, h⟩
  have get : ∀ p ∈ save, ∀ q ∈ out p, dictGet d q.1 = some q.2 := fun p hp q hq =>
    dictGet_of_mem nd (by rw [e]; exact List.mem_append_left _ (List.mem_flatMap.2 ⟨p, hp, hq⟩))
  refine ⟨dictGet_of_mem nd (by rw [e]; simp), fun p hp hf => ?_, fun s ls label keys hm hf hp hq => ⟨?_, ?_⟩, fun p hp hd => ?_⟩
  · refine get p hp (p.1, .fields) ?_
    unfold out
    rw [if_pos ((starts_iff _ _).2 hf)]
    simp
  · rcases acc.1 (s, .nested ls) hp hf with ⟨-, hc | ⟨ls', hc, h'⟩⟩ | ⟨hc, -⟩
    · cases hc
    · cases hc; exact h' _ hq
    · exact absurd hm hc
  · refine get _ hp (s ++ "." ++ label, content keys s) ?_
    unfold out
    rw [if_neg (fun hc => hf ((starts_iff _ _).1 hc)), if_neg]
    · exact List.mem_map.2 ⟨(label, keys), hq, rfl⟩
    · rintro (hc | hc)
      · exact hs.1 (hc ▸ hm)
      · exact hs.2 (hc ▸ hm)
  · refine get p hp (p.1, content p.2.keys p.1) ?_
    unfold out
    have : ¬ starts "fields" p.1 = true := by rcases hd with hd | hd <;> (rw [hd]; decide)
    rw [if_neg this, if_pos hd]
    simp

/-- C195: with a dot in the name of a species, one save can silently replace another. -/
theorem dotted_species_collide_partial :
    saveSection [("e", .nested [("b.c", ["t"])]), ("e.b", .nested [("c", ["t", "x", "v"])])] ["e", "e.b"]
      = .ok [("e.b.c", .sampled "e.b"), ("default", .scalars)] := by rfl

/-- C195: saves on the velocity wavenumbers are refused with a programming error. -/
theorem velocity_wavenumbers (s : String) : distFunc ["t", "x", "kv"] s = .error "UnboundLocalError" ∧
    distFunc ["t", "kx", "kv"] s = .error "UnboundLocalError" := ⟨by rfl, by rfl⟩

/-! ### Storing -/

theorem starts_trans (p q s : String) (h : starts p q = true) (h' : starts q s = true) : starts p s = true := by
  rw [starts_iff] at *; exact h.trans h'

/-- C195: the stored streams are taken for what they are, if no species has a name beginning with `field` or `default`. -/
theorem writer_agrees (k s label : String) :
    ("fields".toList <+: k.toList → writer k = .fields) ∧ writer "default" = .scalars ∧ writer "diag-vlasov-dfdt" = .dist ∧
      writer "diag-fp-dfdt" = .dist ∧
      (writer (s ++ "." ++ label) = .dist ↔ ¬ "field".toList <+: s.toList ∧ ¬ "default".toList <+: s.toList) := by
  have pre : ∀ p : String, '.' ∉ p.toList → (starts p (s ++ "." ++ label) = true ↔ p.toList <+: s.toList) := fun p hp => by
    rw [starts_iff, join_toList]
    exact ⟨prefix_before_dot _ _ _ hp, fun h => h.trans (List.prefix_append _ _)⟩
  refine ⟨fun h => ?_, by decide, by decide, by decide, ?_⟩
  · unfold writer
    rw [if_pos (starts_trans "field" "fields" k (by decide) ((starts_iff _ _).2 h))]
  · rw [← pre "field" (by decide), ← pre "default" (by decide)]
    unfold writer
    by_cases h1 : starts "field" (s ++ "." ++ label) = true
    · simp [h1]
    · by_cases h2 : starts "default" (s ++ "." ++ label) = true
      · simp [h1, h2]
      · simp [h1, h2]

/-- C195: the distribution of a species called `field-ions` is stored as if it were the fields. -/
theorem misrouted_partial : saveSection [("field-ions", .nested [("main", ["t"])])] ["field-ions"]
      = .ok [("field-ions.main", .full "field-ions"), ("default", .scalars)] ∧ writer "field-ions.main" = .fields := ⟨by rfl, by decide⟩

/-! ### Times -/

/-- C195: without limits a stream covers the run; the first saved time is `tmin`, the last `tmax`, evenly spaced. -/
theorem stream_times (s : TimeSec) (t0 t1 : ℝ) (n i : ℕ) (hn : 2 ≤ n) :
    times s t0 t1 n 0 = s.tmin.getD t0 ∧ times s t0 t1 n (n - 1) = s.tmax.getD t1 ∧
      times s t0 t1 n (i + 1) - times s t0 t1 n i = (s.tmax.getD t1 - s.tmin.getD t0) / (n - 1) := by
  have e : ∀ i, times s t0 t1 n i = saveAxis false (s.tmin.getD t0) (s.tmax.getD t1) n i := fun i => rfl
  have h := (save_axes (s.tmin.getD t0) (s.tmax.getD t1) n 0).2 hn
  refine ⟨by rw [e]; exact h.1, by rw [e]; exact h.2, ?_⟩
  rw [e, e]
  unfold saveAxis Grid.linspaceAt
  simp only [show ¬ n ≤ 1 by omega, if_false]
  push_cast
  ring

/-- C195: all the saved times are within the limits. -/
theorem times_within (s : TimeSec) (t0 t1 : ℝ) (n i : ℕ) (hi : i < n) (h : s.tmin.getD t0 ≤ s.tmax.getD t1) :
    s.tmin.getD t0 ≤ times s t0 t1 n i ∧ times s t0 t1 n i ≤ s.tmax.getD t1 := by
  have e : times s t0 t1 n i = saveAxis false (s.tmin.getD t0) (s.tmax.getD t1) n i := rfl
  rw [e]
  unfold saveAxis Grid.linspaceAt
  simp only [Bool.false_eq_true, if_false]
  by_cases h1 : n ≤ 1
  · rw [if_pos h1]; constructor <;> linarith
  · rw [if_neg h1]
    have pn : (0 : ℝ) < (n : ℝ) - 1 := by
      have : (2 : ℝ) ≤ n := by exact_mod_cast (show 2 ≤ n by omega)
      linarith
    have hi' : (i : ℝ) ≤ (n : ℝ) - 1 := by
      have : (i : ℝ) + 1 ≤ n := by exact_mod_cast hi
      linarith
    have hi0 : (0 : ℝ) ≤ i := Nat.cast_nonneg i
    have hd := div_nonneg (sub_nonneg.2 h) pn.le
    have hmul : (i : ℝ) * ((s.tmax.getD t1 - s.tmin.getD t0) / ((n : ℝ) - 1)) ≤ s.tmax.getD t1 - s.tmin.getD t0 := by
      calc _ ≤ ((n : ℝ) - 1) * ((s.tmax.getD t1 - s.tmin.getD t0) / ((n : ℝ) - 1)) := mul_le_mul_of_nonneg_right hi' hd
        _ = _ := by field_simp
    constructor
    · have := mul_nonneg hi0 hd
      simp only [zero_div, add_zero, sub_zero]
      linarith
    · simp only [zero_div, add_zero, sub_zero]
      linarith

/-- C195: a deck without the section `diagnostics`, or without one of its switches, is refused. -/
theorem diagnostics_required (sec : Option (Dict String Bool)) : (∃ p, diagSwitches sec = .ok p) ↔
    ∃ d a b, sec = some d ∧ dictGet d "diag-vlasov-dfdt" = some a ∧ dictGet d "diag-fp-dfdt" = some b := by
  unfold diagSwitches
  cases sec with
  | none => simp
  | some d =>
    dsimp only
    cases h1 : dictGet d "diag-vlasov-dfdt" with
    | none => simp [h1]
    | some a => cases h2 : dictGet d "diag-fp-dfdt" with
      | none => simp [h2]
      | some b => simp [h1, h2]

/-- A deck with fields, two distributions and a diagnostic meets the hypotheses. -/
example : (∃ d, saveSection [("fields", .flat ["t"]), ("electron", .nested [("main", ["t"]), ("zoom", ["t", "x", "v"])]), ("diag-fp-dfdt", .flat ["t"])]
    ["electron", "ion"] = .ok d ∧ dictGet d "electron.zoom" = some (.sampled "electron")) ∧
    ∀ s ∈ ["electron", "ion"], '.' ∉ s.toList := ⟨⟨_, rfl, rfl⟩, by decide⟩

end Verif.VlasovSave

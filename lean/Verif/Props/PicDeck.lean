import Verif.Model.PicDeck
import Verif.Props.VlasovDeck

/-!
Which PIC-1D decks are accepted and start, and that they start neutral if they say so (C234).
-/
namespace Verif.PicDeck
open VlasovDeck (Raw truthy switch Readable Plain ok_bind ok_if switch_some switch_plain)

/-- A deck is accepted exactly if its integrator, field solver and shape are known, quasineutrality is a
truth value, and the fields are saved. -/
theorem accepted_iff (word : String → Option Bool) (d : Deck) : (∃ q, validate word d = .ok q) ↔
    Readable word d.quasineutral ∧ (∀ t, d.time = some t → t = "leapfrog" ∨ t = "yoshida4") ∧
    (∀ f, d.field = some f → f = "poisson") ∧ (∀ s, d.shape = some s → s = "linear" ∨ s = "tsc" ∨ s = "cubic") ∧
    "fields" ∈ d.saves := by
  have hl : ∀ (c : List String) s, literal c s = true ↔ ∀ x, s = some x → x ∈ c := by
    intro c s
    cases s <;> simp [literal]
  unfold validate
  simp only [ok_bind, ok_if, Bool.and_eq_true, hl, List.contains_iff_mem, List.mem_cons, List.not_mem_nil, or_false]
  constructor
  · rintro ⟨q, h1, ⟨⟨h2, h3⟩, h4⟩, h5⟩
    exact ⟨(switch_some _ _ _).1 ⟨q, h1⟩, h2, h3, h4, h5⟩
  · rintro ⟨h1, h2, h3, h4, h5⟩
    obtain ⟨q, h1⟩ := (switch_some word none _).2 h1
    exact ⟨q, h1, ⟨⟨h2, h3⟩, h4⟩, h5⟩

/-- What is accepted about neutrality. -/
theorem accepted_value {word : String → Option Bool} {d : Deck} {q : Bool} (hp : Plain d.quasineutral)
    (h : validate word d = .ok q) : q = truthy d.quasineutral := by
  unfold validate at h
  rw [switch_plain word _ hp] at h
  change (if _ then (Except.ok _ : Except String Bool) else _) = _ at h
  split at h <;> cases h
  rfl

/-! ### The species -/

theorem mem_defaults (d : Deck) (c : String) : c ∈ defaults d ↔ c ∈ d.density.map (·.1) ∧ c.startsWith "species-" = true := by
  unfold defaults
  rw [List.mem_filter]

/-- The species are those listed, each with its components or, if it lists none, with all that begin with
species-; without a list there are the electrons with all of these. -/
theorem species_spec {d : Deck} {l : List Species} (h : speciesOf d = .ok l) :
    (∃ c, c ∈ defaults d) ∧ (∀ s ∈ l, ∀ c ∈ s.components, c ∈ d.density.map (·.1)) ∧
    ((∃ r rs, d.species = some (r :: rs) ∧ l = (r :: rs).map fun s => ⟨s.name, s.charge,
        if s.components.getD [] = [] then defaults d else s.components.getD []⟩) ∨
      (d.species.getD [] = [] ∧ l = [⟨"electron", -1, defaults d⟩])) := by
  have hr : ∀ s : SpeciesRow, resolve d s = ⟨s.name, s.charge, if s.components.getD [] = [] then defaults d else s.components.getD []⟩ := by
    intro s
    unfold resolve
    cases hc : s.components with
    | none => simp
    | some c => cases c <;> simp
  unfold speciesOf at h
  by_cases hne : defaults d = []
  · rw [if_pos hne] at h; cases h
  rw [if_neg hne] at h
  refine ⟨List.exists_mem_of_ne_nil _ hne, ?_⟩
  cases hsp : d.species with
  | none =>
    rw [hsp] at h
    dsimp only at h
    split at h
    · rename_i ha
      injection h with h
      refine ⟨fun s hs c hc => ?_, .inr ⟨rfl, h.symm⟩⟩
      rw [← h] at hs
      exact List.contains_iff_mem.1 (List.all_eq_true.1 (List.all_eq_true.1 ha s hs) c hc)
    · cases h
  | some m => cases m with
    | nil =>
      rw [hsp] at h
      dsimp only at h
      split at h
      · rename_i ha
        injection h with h
        refine ⟨fun s hs c hc => ?_, .inr ⟨rfl, h.symm⟩⟩
        rw [← h] at hs
        exact List.contains_iff_mem.1 (List.all_eq_true.1 (List.all_eq_true.1 ha s hs) c hc)
      · cases h
    | cons r rs =>
      rw [hsp] at h
      dsimp only at h
      split at h
      · rename_i ha
        injection h with h
        refine ⟨fun s hs c hc => ?_, .inl ⟨r, rs, rfl, by rw [← h]; exact List.map_congr_left fun s _ => hr s⟩⟩
        rw [← h] at hs
        exact List.contains_iff_mem.1 (List.all_eq_true.1 (List.all_eq_true.1 ha s hs) c hc)
      · cases h

/-- The species can be read exactly if the deck has a component that begins with species-, and every
component that a species lists is there. -/
theorem species_iff (d : Deck) : (∃ l, speciesOf d = .ok l) ↔ (∃ c ∈ d.density.map (·.1), c.startsWith "species-" = true) ∧
    ∀ s ∈ d.species.getD [], ∀ c ∈ s.components.getD [], c ∈ d.density.map (·.1) := by
  have hd : ∀ c ∈ defaults d, c ∈ d.density.map (·.1) := fun c hc => ((mem_defaults d c).1 hc).1
  have hr : ∀ s : SpeciesRow, ((resolve d s).components.all fun c => (d.density.map (·.1)).contains c) = true ↔
      ∀ c ∈ s.components.getD [], c ∈ d.density.map (·.1) := by
    intro s
    simp only [List.all_eq_true, List.contains_iff_mem]
    unfold resolve
    cases hc : s.components with
    | none => simpa using hd
    | some m => cases m with
      | nil => simpa using hd
      | cons a m => simp
  have hne : (∃ c ∈ d.density.map (·.1), c.startsWith "species-" = true) ↔ defaults d ≠ [] := by
    constructor
    · rintro ⟨c, h1, h2⟩ he
      have := (mem_defaults d c).2 ⟨h1, h2⟩
      rw [he] at this
      cases this
    · intro h
      obtain ⟨c, hc⟩ := List.exists_mem_of_ne_nil _ h
      exact ⟨c, (mem_defaults d c).1 hc⟩
  rw [hne]
  unfold speciesOf
  by_cases he : defaults d = []
  · rw [if_pos he]; simp [he]
  rw [if_neg he]
  cases hsp : d.species with
  | none =>
    dsimp only
    rw [ok_if]
    simp only [List.all_cons, List.all_nil, Bool.and_true, List.all_eq_true, List.contains_iff_mem]
    exact ⟨fun _ => ⟨he, by simp⟩, fun _ => hd⟩
  | some m => cases m with
    | nil =>
      dsimp only
      rw [ok_if]
      simp only [List.all_cons, List.all_nil, Bool.and_true, List.all_eq_true, List.contains_iff_mem]
      exact ⟨fun _ => ⟨he, by simp⟩, fun _ => hd⟩
    | cons r rs =>
      dsimp only
      rw [ok_if, List.all_eq_true, List.forall_mem_map]
      simp only [hr]
      exact ⟨fun h => ⟨he, h⟩, fun h => h.2⟩

/-! ### Starting -/

/-- An accepted deck with the set of species `l` starts exactly if it gives its integrator and saves only fields and its species. -/
theorem start_iff (word : String → Option Bool) (d : Deck) (l : List Species) (hl : speciesOf d = .ok l) :
    (∃ r, start word d = .ok r) ↔ (∃ q, validate word d = .ok q) ∧ (d.time = some "leapfrog" ∨ d.time = some "yoshida4") ∧
      ∀ k ∈ d.saves, k.startsWith "fields" = true ∨ ∃ s ∈ l, s.name = k := by
  have hs : (d.saves.all fun k => k.startsWith "fields" || (l.map (·.name)).contains k) = true ↔
      ∀ k ∈ d.saves, k.startsWith "fields" = true ∨ ∃ s ∈ l, s.name = k := by
    simp only [List.all_eq_true, Bool.or_eq_true, List.contains_iff_mem, List.mem_map]
  have hset : (∃ r, setup d = .ok r) ↔ (d.time = some "leapfrog" ∨ d.time = some "yoshida4") ∧
      ∀ k ∈ d.saves, k.startsWith "fields" = true ∨ ∃ s ∈ l, s.name = k := by
    unfold setup
    rw [hl, ← hs]
    dsimp only
    unfold begin'
    generalize (d.saves.all fun k => k.startsWith "fields" || (l.map (·.name)).contains k) = b
    by_cases h : b = true
    · rw [if_pos h]
      cases ht : d.time with
      | none => simp
      | some t => by_cases h1 : t = "leapfrog" ∨ t = "yoshida4" <;> simp [h1, h]
    · rw [if_neg h]; simp [h]
  unfold start
  rw [ok_bind, hset]
  constructor
  · rintro ⟨q, h1, h2⟩; exact ⟨⟨q, h1⟩, h2⟩
  · rintro ⟨⟨q, h1⟩, h2⟩; exact ⟨q, h1, h2⟩

/-- What a run that starts has. -/
theorem setup_parts {d : Deck} {r : Run} (h : setup d = .ok r) : speciesOf d = .ok r.species ∧ d.time = some r.time ∧
    r.shape = d.shape.getD "tsc" ∧ r.background = background d r.species ∧ r.charge = startCharge d r.species := by
  unfold setup at h
  cases hl : speciesOf d with
  | error e => rw [hl] at h; cases h
  | ok l =>
    rw [hl] at h
    dsimp only at h
    unfold begin' at h
    split at h
    · cases ht : d.time with
      | none => rw [ht] at h; cases h
      | some t =>
        rw [ht] at h
        dsimp only at h
        split at h <;> cases h
        exact ⟨rfl, rfl, rfl, rfl, rfl⟩
    · cases h

/-! ### Neutrality -/

theorem last_of_nodup {l : List Species} (hn : (l.map (·.name)).Nodup) {s : Species} (hs : s ∈ l) : last l s.name = some s := by
  unfold last
  have hmem : s ∈ l.reverse := List.mem_reverse.2 hs
  have hn' : (l.reverse.map (·.name)).Nodup := by rw [List.map_reverse]; exact (List.reverse_perm _).nodup_iff.2 hn
  generalize l.reverse = m at hmem hn'
  induction m with
  | nil => cases hmem
  | cons a m ih =>
    rw [List.map_cons, List.nodup_cons] at hn'
    rcases List.mem_cons.1 hmem with rfl | h
    · rw [List.find?_cons_of_pos (by simp)]
    · rw [List.find?_cons_of_neg (by
        simp only [decide_eq_true_eq]
        intro he
        exact hn'.1 (he ▸ List.mem_map_of_mem h))]
      exact ih h hn'.2

theorem eraseDups_nodup {l : List String} (h : l.Nodup) : l.eraseDups = l := by
  induction l with
  | nil => rfl
  | cons a l ih =>
    rw [List.nodup_cons] at h
    rw [List.eraseDups_cons]
    have : l.filter (fun b => !b == a) = l := by
      rw [List.filter_eq_self]
      intro b hb
      have : b ≠ a := fun e => h.1 (e ▸ hb)
      simp [this]
    rw [this, ih h.2]

theorem sum_species (d : Deck) {l : List Species} (hn : (l.map (·.name)).Nodup) :
    ((l.map (·.name)).eraseDups.map fun n => chargeOf l n * loaded d l n).sum =
      (l.map fun s => s.charge * (s.components.map (value d)).sum).sum := by
  rw [eraseDups_nodup hn, List.map_map]
  congr 1
  refine List.map_congr_left fun s hs => ?_
  change chargeOf l s.name * loaded d l s.name = _
  unfold chargeOf loaded
  rw [last_of_nodup hn hs]
  rfl

theorem sum_neg (l : List ℚ) : (l.map fun x => -x).sum = -l.sum := by
  induction l with
  | nil => simp
  | cons a l ih => simp only [List.map_cons, List.sum_cons, ih]; ring

theorem background_nodup (d : Deck) {l : List Species} (hn : (l.map (·.name)).Nodup) (hq : truthy d.quasineutral = true) :
    background d l = -(l.map fun s => s.charge * (s.components.map (value d)).sum).sum := by
  unfold background
  rw [if_pos hq, ← sum_neg, List.map_map]
  congr 1
  refine List.map_congr_left fun s hs => ?_
  unfold loaded
  rw [last_of_nodup hn hs]
  rfl

/-- A deck that says to be neutral by a truth value, with species of different names, starts neutral
everywhere, whatever its species are; one that says not to be starts with the charge of its species and
nothing else.  Missing: the neutrality given as a word, and species of one name, see below. -/
theorem neutral_partial {word : String → Option Bool} {d : Deck} {q : Bool} {r : Run} (hp : Plain d.quasineutral)
    (hv : validate word d = .ok q) (hr : setup d = .ok r) (hn : (r.species.map (·.name)).Nodup) :
    (q = true → r.charge = 0) ∧ (q = false → r.background = 0 ∧
      r.charge = (r.species.map fun s => s.charge * (s.components.map (value d)).sum).sum) := by
  obtain ⟨-, -, -, hb, hc⟩ := setup_parts hr
  have hq := accepted_value hp hv
  unfold startCharge at hc
  rw [sum_species d hn] at hc
  constructor
  · intro h
    rw [hc, background_nodup d hn (hq ▸ h)]
    ring
  · intro h
    have : background d r.species = 0 := by
      unfold background
      rw [if_neg (by rw [← hq, h]; decide)]
    exact ⟨by rw [hb, this], by rw [hc, this, add_zero]⟩

/-! ### Decks -/

/-- Electrons and ions. -/
def plain : Deck where
  time := some "leapfrog"
  field := none
  shape := none
  species := some [⟨"electron", -1, some ["species-e"]⟩, ⟨"ion", 1, some ["species-i"]⟩]
  density := [("species-e", 2), ("species-i", 1)]
  quasineutral := .bool true
  saves := ["fields", "electron"]

/-- It starts and is neutral. -/
example : validate VlasovDeck.words plain = .ok true ∧ start VlasovDeck.words plain =
    .ok ⟨"leapfrog", "tsc", [⟨"electron", -1, ["species-e"]⟩, ⟨"ion", 1, ["species-i"]⟩], 1, 0⟩ := by
  constructor <;> decide +kernel

/-- The integrator has a default that is not used. -/
theorem time_needed : validate VlasovDeck.words { plain with time := none } = .ok true ∧
    start VlasovDeck.words { plain with time := none } = .error "KeyError" := by
  constructor <;> decide +kernel

/-- A deck that says by a word not to be neutral gets the background. -/
theorem neutral_word : validate VlasovDeck.words { plain with quasineutral := .str "off" } = .ok false ∧
    start VlasovDeck.words { plain with quasineutral := .str "off" } =
      .ok ⟨"leapfrog", "tsc", [⟨"electron", -1, ["species-e"]⟩, ⟨"ion", 1, ["species-i"]⟩], 1, 0⟩ := by
  constructor <;> decide +kernel

/-- Two species of one name are accepted; the first is not loaded, but the background counts the second
twice, and the run is not neutral. -/
theorem same_name : validate VlasovDeck.words { plain with species := some [⟨"electron", -1, some ["species-e"]⟩, ⟨"electron", -1, some ["species-i"]⟩] } =
      .ok true ∧
    start VlasovDeck.words { plain with species := some [⟨"electron", -1, some ["species-e"]⟩, ⟨"electron", -1, some ["species-i"]⟩] } =
      .ok ⟨"leapfrog", "tsc", [⟨"electron", -1, ["species-e"]⟩, ⟨"electron", -1, ["species-i"]⟩], 2, 1⟩ := by
  constructor <;> decide +kernel

/-- Species without a list of components each get all of them. -/
theorem all_components : (start VlasovDeck.words { plain with species := some [⟨"electron", -1, none⟩, ⟨"ion", 1, some []⟩] }).map
    (·.species.map (·.components)) = .ok [["species-e", "species-i"], ["species-e", "species-i"]] := by
  decide +kernel

end Verif.PicDeck

import Verif.Model.TfDeck
import Verif.Props.VlasovDeck

/-!
Which two-fluid decks are accepted, which of them take the first step, and whether the run is the one that
was accepted (C235).
-/
namespace Verif.TfDeck
open VlasovDeck (Raw truthy typed Readable Plain ok_bind ok_if)

theorem switch_ok (word : String → Option Bool) (r : Raw) : (∃ b, switch word r = .ok b) ↔ Readable word r := by
  unfold switch Readable
  cases h : typed word r <;> simp

/-- What an accepted species has to be like. -/
structure Acceptable (word : String → Option Bool) (s : SpeciesRow) : Prop where
  on : Readable word s.isOn
  landau : Readable word s.landau
  trap : Readable word s.trapOn
  model : ∀ m, s.model = some m → m = "none" ∨ m = "zk" ∨ m = "delta"

theorem modelOk_iff (s : SpeciesRow) : modelOk s = true ↔ ∀ m, s.model = some m → m = "none" ∨ m = "zk" ∨ m = "delta" := by
  unfold modelOk
  cases s.model <;> simp

theorem checkSpecies_iff (word : String → Option Bool) (s : SpeciesRow) :
    (∃ t, checkSpecies word s = .ok t) ↔ Acceptable word s := by
  unfold checkSpecies
  simp only [ok_bind, ok_if, modelOk_iff]
  constructor
  · rintro ⟨a, h1, b, h2, c, h3, h4⟩
    exact ⟨(switch_ok _ _).1 ⟨a, h1⟩, (switch_ok _ _).1 ⟨b, h2⟩, (switch_ok _ _).1 ⟨c, h3⟩, h4⟩
  · rintro ⟨h1, h2, h3, h4⟩
    obtain ⟨a, h1⟩ := (switch_ok _ _).2 h1
    obtain ⟨b, h2⟩ := (switch_ok _ _).2 h2
    obtain ⟨c, h3⟩ := (switch_ok _ _).2 h3
    exact ⟨a, h1, b, h2, c, h3, h4⟩

/-- A deck is accepted exactly if the switches of both species can be read and their models are known. -/
theorem accepted_iff (word : String → Option Bool) (d : Deck) :
    (∃ t, validate word d = .ok t) ↔ Acceptable word d.ion ∧ Acceptable word d.electron := by
  unfold validate
  simp only [ok_bind]
  rw [← checkSpecies_iff, ← checkSpecies_iff]
  constructor
  · rintro ⟨a, h1, b, h2, -⟩; exact ⟨⟨a, h1⟩, ⟨b, h2⟩⟩
  · rintro ⟨⟨a, h1⟩, ⟨b, h2⟩⟩; exact ⟨a, h1, b, h2, _, rfl⟩

/-- The species that the dictionary describes. -/
def read (s : SpeciesRow) : Species := ⟨truthy s.isOn, truthy s.landau, s.gamma = .str "kinetic", truthy s.trapOn,
  if truthy s.trapOn = true then s.model.getD "none" else "none"⟩

theorem build_iff (s : SpeciesRow) (r : Species) : build s = .ok r ↔
    r = read s ∧ (truthy s.trapOn = true → ∃ q, s.nuee = .given q) := by
  unfold build read
  by_cases h : truthy s.trapOn = true
  · rw [if_pos h]
    cases hn : s.nuee <;> simp [h, eq_comm]
  · have h' : truthy s.trapOn = false := by simpa using h
    rw [if_neg h]
    simp [h', eq_comm]

/-- A species of an accepted deck can be stepped. -/
def Steps (nuG : Bool) (s : SpeciesRow) : Prop :=
  (truthy s.isOn = true → (∃ q, s.gamma = .num q) ∨ s.gamma = .str "kinetic") ∧
  (truthy s.trapOn = true → (∃ q, s.nuee = .given q) ∧ nuG = true)

theorem gammaOk_iff (g : Gamma) : gammaOk g = true ↔ (∃ q, g = .num q) ∨ g = .str "kinetic" := by
  cases g <;> simp [gammaOk]

theorem firstStep_iff (nuG : Bool) (s : SpeciesRow) (hm : ∀ m, s.model = some m → m = "none" ∨ m = "zk" ∨ m = "delta") :
    firstStep nuG s (read s) = .ok () ↔
      (truthy s.isOn = true → (∃ q, s.gamma = .num q) ∨ s.gamma = .str "kinetic") ∧ (truthy s.trapOn = true → nuG = true) := by
  have hk : (read s).model ∈ ["none", "zk", "delta"] := by
    unfold read
    by_cases h : truthy s.trapOn = true
    · cases hs : s.model with
      | none => simp
      | some m => simpa [h] using hm m hs
    · simp [h]
  unfold firstStep
  rw [if_neg (by rintro ⟨-, h⟩; exact h hk), ← gammaOk_iff]
  change (if truthy s.isOn = true ∧ _ then _ else if truthy s.trapOn = true ∧ _ then _ else _) = _ ↔ _
  by_cases h1 : truthy s.isOn = true <;> by_cases h2 : gammaOk s.gamma = true <;> by_cases h3 : truthy s.trapOn = true <;>
    by_cases h4 : nuG = true <;> simp [h1, h2, h3, h4]

/-- An accepted deck takes its first step exactly if its wave-number axis is not left empty, moving species have a number
or "kinetic" as gamma, and trapping has a collision frequency and a growth rate among the arguments of the call. -/
theorem setup_iff (nuG : Bool) (word : String → Option Bool) (d : Deck) (ha : ∃ t, validate word d = .ok t) :
    (∃ r, setup nuG d = .ok r) ↔ d.kx ≠ .null ∧ Steps nuG d.ion ∧ Steps nuG d.electron := by
  obtain ⟨hi, he⟩ := (accepted_iff word d).1 ha
  have hs : (∃ u, savesOk d = .ok u) ↔ d.kx ≠ .null := by
    unfold savesOk
    cases d.kx <;> simp
  unfold setup
  simp only [ok_bind]
  constructor
  · rintro ⟨u, h1, i, h2, e, h3, v, h4, w, h5, -⟩
    obtain ⟨rfl, h6⟩ := (build_iff _ _).1 h2
    obtain ⟨rfl, h7⟩ := (build_iff _ _).1 h3
    have h4 := (firstStep_iff nuG _ hi.model).1 h4
    have h5 := (firstStep_iff nuG _ he.model).1 h5
    exact ⟨hs.1 ⟨u, h1⟩, ⟨h4.1, fun h => ⟨h6 h, h4.2 h⟩⟩, ⟨h5.1, fun h => ⟨h7 h, h5.2 h⟩⟩⟩
  · rintro ⟨h1, ⟨h2, h3⟩, h4, h5⟩
    obtain ⟨u, h1⟩ := hs.2 h1
    exact ⟨u, h1, _, (build_iff _ _).2 ⟨rfl, fun h => (h3 h).1⟩, _, (build_iff _ _).2 ⟨rfl, fun h => (h5 h).1⟩,
      (), (firstStep_iff nuG _ hi.model).2 ⟨h2, fun h => (h3 h).2⟩, (), (firstStep_iff nuG _ he.model).2 ⟨h4, fun h => (h5 h).2⟩, _, rfl⟩

/-- Without a growth rate among the arguments, as by default, no deck with trapping takes a step. -/
theorem trapping_needs_rate (d : Deck) (h : truthy d.ion.trapOn = true ∨ truthy d.electron.trapOn = true) (r : Species × Species) :
    setup false d ≠ .ok r := by
  intro hr
  have hr' : ∃ r, setup false d = .ok r := ⟨r, hr⟩
  unfold setup at hr'
  simp only [ok_bind] at hr'
  obtain ⟨_, -, i, h2, e, h3, v, h4, w, h5, -⟩ := hr'
  obtain ⟨rfl, -⟩ := (build_iff _ _).1 h2
  obtain ⟨rfl, -⟩ := (build_iff _ _).1 h3
  have key : ∀ s : SpeciesRow, truthy s.trapOn = true → firstStep false s (read s) ≠ .ok () := by
    intro s hs
    have : (read s).trapped = true := hs
    unfold firstStep
    split
    · simp
    · split
      · simp
      · simp [this]
  rcases h with h | h
  · exact key _ h h4
  · exact key _ h h5

/-- A species with plain switches is accepted as what it is read as. -/
theorem faithful_species {word : String → Option Bool} {s : SpeciesRow} {t : Species} (h1 : Plain s.isOn) (h2 : Plain s.landau)
    (h3 : Plain s.trapOn) (h : checkSpecies word s = .ok t) : t = read s := by
  have hp : ∀ r : Raw, Plain r → switch word r = .ok (truthy r) := by
    intro r hr
    have := VlasovDeck.switch_plain word none hr
    unfold VlasovDeck.switch at this
    unfold switch
    dsimp only at this
    cases ht : typed word r with
    | none => rw [ht] at this; cases this
    | some b => rw [ht] at this; exact this
  unfold checkSpecies at h
  rw [hp _ h1, hp _ h2, hp _ h3] at h
  change (if _ then (Except.ok _ : Except String Species) else _) = _ at h
  split at h <;> cases h
  rfl

/-- Every switch of both species is a truth value, or 0 or 1. -/
structure PlainDeck (d : Deck) : Prop where
  ion : Plain d.ion.isOn ∧ Plain d.ion.landau ∧ Plain d.ion.trapOn
  electron : Plain d.electron.isOn ∧ Plain d.electron.landau ∧ Plain d.electron.trapOn

/-- With plain switches the run has the species of the accepted configuration: what moves, is damped, has the kinetic
closure, is trapped, and by which model.  Missing: switches given as words, see below. -/
theorem faithful_partial {nuG : Bool} {word : String → Option Bool} {d : Deck} {t r : Species × Species} (hp : PlainDeck d)
    (hv : validate word d = .ok t) (hr : setup nuG d = .ok r) : r = t := by
  have h1 : ∃ i e, checkSpecies word d.ion = .ok i ∧ checkSpecies word d.electron = .ok e ∧ t = (i, e) := by
    unfold validate at hv
    cases hi : checkSpecies word d.ion with
    | error m => rw [hi] at hv; cases hv
    | ok i =>
      cases he : checkSpecies word d.electron with
      | error m => rw [hi, he] at hv; cases hv
      | ok e =>
        rw [hi, he] at hv
        change (Except.ok (i, e) : Except String _) = _ at hv
        cases hv
        exact ⟨i, e, rfl, rfl, rfl⟩
  obtain ⟨i, e, hi, he, rfl⟩ := h1
  rw [faithful_species hp.ion.1 hp.ion.2.1 hp.ion.2.2 hi, faithful_species hp.electron.1 hp.electron.2.1 hp.electron.2.2 he]
  unfold setup at hr
  cases hs : savesOk d with
  | error m => rw [hs] at hr; cases hr
  | ok u =>
  cases h2 : build d.ion with
  | error m => rw [hs, h2] at hr; cases hr
  | ok i' =>
  cases h3 : build d.electron with
  | error m => rw [hs, h2, h3] at hr; cases hr
  | ok e' =>
  cases h4 : firstStep nuG d.ion i' with
  | error m => rw [hs, h2, h3] at hr; dsimp only [bind, Except.bind] at hr; rw [h4] at hr; cases hr
  | ok v =>
  cases h5 : firstStep nuG d.electron e' with
  | error m => rw [hs, h2, h3] at hr; dsimp only [bind, Except.bind] at hr; rw [h4, h5] at hr; cases hr
  | ok w =>
  rw [hs, h2, h3] at hr
  dsimp only [bind, Except.bind] at hr
  rw [h4, h5] at hr
  cases hr
  rw [((build_iff _ _).1 h2).1, ((build_iff _ _).1 h3).1]

/-! ### Decks -/

/-- Cold ions at rest and electrons with the kinetic closure. -/
def plain : Deck where
  ion := ⟨.bool false, .bool false, .num 3, .bool false, none, .absent⟩
  electron := ⟨.bool true, .bool true, .str "kinetic", .bool false, none, .absent⟩
  kx := .absent

/-- The same with trapping. -/
def trapping : Deck := { plain with electron := ⟨.bool true, .bool true, .str "kinetic", .bool true, some "delta", .given (1 / 1000000)⟩ }

/-- Both are accepted and take a step with the values that were accepted, the second with a growth rate. -/
example : PlainDeck plain ∧ validate VlasovDeck.words plain = .ok (⟨false, false, false, false, "none"⟩, ⟨true, true, true, false, "none"⟩) ∧
    setup false plain = .ok (⟨false, false, false, false, "none"⟩, ⟨true, true, true, false, "none"⟩) ∧
    validate VlasovDeck.words trapping = .ok (⟨false, false, false, false, "none"⟩, ⟨true, true, true, true, "delta"⟩) ∧
    setup true trapping = .ok (⟨false, false, false, false, "none"⟩, ⟨true, true, true, true, "delta"⟩) := by
  refine ⟨⟨?_, ?_⟩, ?_, ?_, ?_, ?_⟩
  · simp [VlasovDeck.Plain, plain]
  · simp [VlasovDeck.Plain, plain]
  all_goals decide +kernel

/-- With the arguments of the solver itself an accepted deck with trapping ends with an error. -/
theorem trapping_default : setup false trapping = .error "KeyError" := by decide +kernel

/-- Ions switched off by a word move; a trapping switched off by a word is looked up. -/
theorem off_word :
    (let d := { plain with ion := { plain.ion with isOn := .str "off" } }
     (validate VlasovDeck.words d).map (·.1.moves) = .ok false ∧ (setup false d).map (·.1.moves) = .ok true) ∧
    let d := { plain with electron := { plain.electron with trapOn := .str "off" } }
    (validate VlasovDeck.words d).map (·.2.trapped) = .ok false ∧ setup true d = .error "KeyError" := by
  refine ⟨⟨?_, ?_⟩, ?_, ?_⟩ <;> decide +kernel

/-- A number written as a word, and any other word, is accepted as gamma and cannot be multiplied with. -/
theorem gamma_word : (let d := { plain with electron := { plain.electron with gamma := .str "adiabatic" } }
    (validate VlasovDeck.words d).map (·.2.kinetic) = .ok false ∧ setup false d = .error "TypeError") := by
  constructor <;> decide +kernel

/-- The optional wave-number axis and collision frequency may be empty for the checks but not for the run. -/
theorem empty_entries : (validate VlasovDeck.words { plain with kx := .null } = validate VlasovDeck.words plain ∧
      setup false { plain with kx := .null } = .error "TypeError") ∧
    (let d := { trapping with electron := { trapping.electron with nuee := .null } }
     validate VlasovDeck.words d = validate VlasovDeck.words trapping ∧ setup true d = .error "TypeError") := by
  refine ⟨⟨?_, ?_⟩, ?_, ?_⟩ <;> decide +kernel

end Verif.TfDeck

import Verif.Model.VlasovDeck
import Mathlib.Tactic.Ring
import Mathlib.Tactic.NormNum

/-!
Which Vlasov-1D decks are accepted, which of them start, and whether the run has the values of the
accepted configuration (C231).
-/
namespace Verif.VlasovDeck

/-! ### Which decks the configuration model accepts -/

/-- A switch that says on or off. -/
def Readable (word : String → Option Bool) (r : Raw) : Prop := ∃ b, typed word r = some b

/-- These are truth values, 0 and 1, and the words that are known. -/
theorem readable_iff (word : String → Option Bool) (r : Raw) : Readable word r ↔
    (∃ b, r = .bool b) ∨ r = .int 0 ∨ r = .int 1 ∨ ∃ s, r = .str s ∧ word s ≠ none := by
  unfold Readable typed
  cases r with
  | bool b => simp
  | int n => by_cases h0 : n = 0
             · simp [h0]
             · by_cases h1 : n = 1 <;> simp [h0, h1]
  | str s => cases h : word s <;> simp [h]
  | null => simp

/-- What an accepted deck has to be like. -/
structure Acceptable (word : String → Option Bool) (d : Deck) : Prop where
  axes : d.parallel = .absent ∨ d.parallel = .null ∨ d.parallel = .bool false ∨
    ∃ l, d.parallel = .list l ∧ ∀ a ∈ l, a = "x" ∨ a = "v"
  fp : Readable word d.fpOn
  krook : Readable word d.krookOn
  filter : ∀ h, d.houLi = some h → Readable word h.isOn ∧ ∀ l, h.dims = some l → ∀ a ∈ l, a = "x"
  diag : ∀ g, d.diagnostics = some g → (∀ r, g.vlasov = some r → Readable word r) ∧
    (∀ r, g.vlasov = none → g.vlasovName = some r → Readable word r) ∧ (∀ r, g.fp = some r → Readable word r) ∧
    ∀ r, g.fp = none → g.fpName = some r → Readable word r
  boltzmann : d.field = "poisson-boltzmann" → ∃ s l, d.species = some (s :: l) ∧ ∀ t ∈ s :: l, 0 ≤ t.charge
  stochastic : ∀ s, d.stochastic = some s → 0 < s.tau ∧ ∀ l, s.modes = some l → l ≠ [] ∧ ∀ m ∈ l, 1 ≤ m
  drivers : ∀ a ∈ d.drivers, a.k0 ≠ none ∨ a.w0 ≠ none
  window : ∀ a b, d.window = some (a, b) → 0 ≤ a ∧ a < b ∧ b ≤ 1
  mass : ∀ a, d.A = some a → 0 < a
  state : ∀ z, d.Z = some z → 0 < z
  exponent : ∀ m, d.fpM = some m → 1 ≤ m
  fields : "fields" ∈ d.saves

theorem typedAxes_iff (a : Axes) : (∃ l, typedAxes a = .ok l) ↔ a = .absent ∨ a = .null ∨ a = .bool false ∨
    ∃ l, a = .list l ∧ ∀ x ∈ l, x = "x" ∨ x = "v" := by
  cases a with
  | absent => simp [typedAxes]
  | null => simp [typedAxes]
  | bool b => cases b <;> simp [typedAxes]
  | other => simp [typedAxes]
  | list l =>
    simp only [typedAxes, List.all_eq_true, decide_eq_true_eq, reduceCtorEq, false_or, Axes.list.injEq]
    constructor
    · rintro ⟨m, h⟩
      split at h
      · rename_i hl; exact ⟨l, rfl, hl⟩
      · cases h
    · rintro ⟨m, rfl, h⟩
      rw [if_pos h]; exact ⟨_, rfl⟩

theorem switch_some (word : String → Option Bool) (d : Option Bool) (r : Raw) :
    (∃ b, switch word d (some r) = .ok b) ↔ Readable word r := by
  unfold switch Readable
  dsimp only
  cases h : typed word r <;> simp

theorem switch_ok (word : String → Option Bool) (r : Option Raw) :
    (∃ b, switch word (some false) r = .ok b) ↔ ∀ x, r = some x → Readable word x := by
  cases r with
  | none => simp [switch]
  | some r => rw [switch_some]; simp

/-- The two ways to end well. -/
theorem ok_bind {α β : Type} {x : Except String α} {f : α → Except String β} :
    (∃ b, (x >>= f) = .ok b) ↔ ∃ a, x = .ok a ∧ ∃ b, f a = .ok b := by
  cases x with
  | error e => simp [bind, Except.bind]
  | ok a => simp [bind, Except.bind]

theorem ok_if {α : Type} {c : Prop} [Decidable c] {a : α} {e : String} :
    (∃ b, (if c then (.ok a : Except String α) else .error e) = .ok b) ↔ c := by
  by_cases h : c <;> simp [h]

theorem boltzmannOk_iff (field : String) (sp : Option (List SpeciesRow)) : boltzmannOk field sp = true ↔
    (field = "poisson-boltzmann" → ∃ s l, sp = some (s :: l) ∧ ∀ t ∈ s :: l, 0 ≤ t.charge) := by
  unfold boltzmannOk
  by_cases h : field = "poisson-boltzmann"
  · rw [if_pos h]
    cases sp with
    | none => simp [h]
    | some l => cases l with
      | nil => simp [h]
      | cons s l => simp [h]
  · rw [if_neg h]; simp [h]

theorem stochOk_iff (s : Option StochRow) : stochOk s = true ↔
    ∀ r, s = some r → 0 < r.tau ∧ ∀ l, r.modes = some l → l ≠ [] ∧ ∀ m ∈ l, 1 ≤ m := by
  cases s with
  | none => simp [stochOk]
  | some r => cases h : r.modes with
    | none => simp [stochOk, h]
    | some l => simp [stochOk, h, and_comm]

/-- A deck is accepted exactly if it is acceptable. -/
theorem accepted_iff (word : String → Option Bool) (d : Deck) : (∃ t, validate word d = .ok t) ↔ Acceptable word d := by
  have hhl : (∃ t, typedHouLi word d.houLi = .ok t) ↔
      ∀ h, d.houLi = some h → Readable word h.isOn ∧ ∀ l, h.dims = some l → ∀ a ∈ l, a = "x" := by
    cases hh : d.houLi with
    | none => simp [typedHouLi]
    | some h =>
      have hd : dimsOk h = true ↔ ∀ l, h.dims = some l → ∀ a ∈ l, a = "x" := by
        unfold dimsOk
        cases h.dims <;> simp
      have hs := switch_some word none h.isOn
      unfold typedHouLi
      dsimp only
      cases hsw : switch word none (some h.isOn) with
      | error e =>
        rw [hsw] at hs
        have : ¬ Readable word h.isOn := fun hr => by obtain ⟨b, hb⟩ := hs.2 hr; cases hb
        simp [this]
      | ok on =>
        rw [hsw] at hs
        have : Readable word h.isOn := hs.1 ⟨on, rfl⟩
        dsimp only
        rw [ok_if, hd]
        simp [this]
  have hdg : ∀ f g : DiagRow → Option Raw, (∃ b, switch word (some false) (d.diagnostics.bind fun r => (f r).or (g r)) = .ok b) ↔
      ∀ r, d.diagnostics = some r → (∀ x, f r = some x → Readable word x) ∧ ∀ x, f r = none → g r = some x → Readable word x := by
    intro f g
    rw [switch_ok]
    cases hd : d.diagnostics with
    | none => simp
    | some r => cases hf : f r <;> simp [hf]
  have hw : windowOk d.window = true ↔ ∀ a b, d.window = some (a, b) → 0 ≤ a ∧ a < b ∧ b ≤ 1 := by
    unfold windowOk
    cases d.window with
    | none => simp
    | some p => obtain ⟨a, b⟩ := p; simp [and_assoc]
  have hb : boundsOk d = true ↔ (∀ a, d.A = some a → 0 < a) ∧ (∀ z, d.Z = some z → 0 < z) ∧ ∀ m, d.fpM = some m → 1 ≤ m := by
    unfold boundsOk
    cases d.A <;> cases d.Z <;> cases d.fpM <;> simp [and_assoc]
  have hk : d.drivers.all akwOk = true ↔ ∀ a ∈ d.drivers, a.k0 ≠ none ∨ a.w0 ≠ none := by
    simp [akwOk, Option.isSome_iff_ne_none]
  unfold validate
  rw [ok_bind]
  simp only [ok_bind, ok_if, Bool.and_eq_true, List.contains_iff_mem, boltzmannOk_iff, stochOk_iff, hw, hb, hk]
  constructor
  · rintro ⟨l, h1, fp, h2, kr, h3, hl, h4, dv, h5, df, h6, ⟨⟨⟨⟨h7, h8⟩, h9⟩, h10⟩, h11, h12, h13⟩, h14⟩
    have g5 := (hdg (·.vlasov) (·.vlasovName)).1 ⟨_, h5⟩
    have g6 := (hdg (·.fp) (·.fpName)).1 ⟨_, h6⟩
    exact ⟨(typedAxes_iff _).1 ⟨_, h1⟩, (switch_some _ _ _).1 ⟨_, h2⟩, (switch_some _ _ _).1 ⟨_, h3⟩, hhl.1 ⟨_, h4⟩,
      fun g hg => ⟨(g5 g hg).1, (g5 g hg).2, (g6 g hg).1, (g6 g hg).2⟩, h7, h8, h9, h10, h11, h12, h13, h14⟩
  · intro h
    obtain ⟨l, h1⟩ := (typedAxes_iff _).2 h.axes
    obtain ⟨b2, h2⟩ := (switch_some word none _).2 h.fp
    obtain ⟨b3, h3⟩ := (switch_some word none _).2 h.krook
    obtain ⟨b4, h4⟩ := hhl.2 h.filter
    obtain ⟨b5, h5⟩ := (hdg (·.vlasov) (·.vlasovName)).2 fun g hg => ⟨(h.diag g hg).1, (h.diag g hg).2.1⟩
    obtain ⟨b6, h6⟩ := (hdg (·.fp) (·.fpName)).2 fun g hg => ⟨(h.diag g hg).2.2.1, (h.diag g hg).2.2.2⟩
    exact ⟨l, h1, b2, h2, b3, h3, b4, h4, b5, h5, b6, h6,
      ⟨⟨⟨⟨h.boltzmann, h.stochastic⟩, h.drivers⟩, h.window⟩, h.mass, h.state, h.exponent⟩, h.fields⟩

/-! ### Which decks can be set up -/

/-- What a deck has to be like for the run to be built from it. -/
structure Buildable (d : Deck) : Prop where
  diag : ∃ g, d.diagnostics = some g ∧ g.vlasov ≠ none ∧ g.fp ≠ none
  saves : ∀ k ∈ d.saves, k.startsWith "fields" = true ∨ k ∈ names d ∨
    ((k = "diag-vlasov-dfdt" ∨ k = "diag-fp-dfdt") ∧ "electron" ∈ names d)
  time : d.time = "sixth" ∨ d.time = "leapfrog"
  field : d.field = "poisson" ∨ d.field = "poisson-boltzmann" ∨ (d.field = "ampere" ∧ d.time = "leapfrog") ∨
    (d.field = "hampere" ∧ d.time = "leapfrog" ∧ (names d).eraseDups.length ≤ 1)
  push : d.edfdv = "exponential" ∨ d.edfdv = "cubic-spline"
  fpType : d.fpType ∈ ["lenard_bernstein", "chang_cooper", "lenard_bernstein_chang_cooper", "chang_cooper_dougherty",
    "dougherty_chang_cooper", "dougherty", "super_gaussian", "super_gaussian_chang_cooper", "dougherty_nodrag"]
  filter : ∀ h, d.houLi = some h → truthy h.isOn = true → h.alpha ≠ none ∧ h.order ≠ none

/-- The names are those of the list of species; without one there is the species electron. -/
theorem mem_names (d : Deck) (k : String) : k ∈ names d ↔ (∃ l s, d.species = some l ∧ s ∈ l ∧ s.name = k) ∨
    ((∀ l, d.species = some l → l = []) ∧ k = "electron") := by
  unfold names
  cases hs : d.species with
  | none => simp
  | some l => cases l with
    | nil => simp
    | cons s l => simp [eq_comm (a := k)]

theorem savesOk_iff (d : Deck) (l : List String) : savesOk d l = .ok () ↔ ∀ k ∈ l, k.startsWith "fields" = true ∨ k ∈ names d ∨
    ((k = "diag-vlasov-dfdt" ∨ k = "diag-fp-dfdt") ∧ "electron" ∈ names d) := by
  induction l with
  | nil => simp [savesOk]
  | cons k l ih =>
    rw [List.forall_mem_cons, ← ih]
    have hk : saveOk d k = .ok () ↔ k.startsWith "fields" = true ∨ k ∈ names d ∨
        ((k = "diag-vlasov-dfdt" ∨ k = "diag-fp-dfdt") ∧ "electron" ∈ names d) := by
      unfold saveOk
      simp only [List.contains_iff_mem]
      by_cases h1 : k.startsWith "fields" = true
      · rw [if_pos h1]; simp [h1]
      · rw [if_neg h1]
        by_cases h2 : k ∈ names d
        · rw [if_pos h2]; simp [h2]
        · rw [if_neg h2]
          by_cases h3 : k = "diag-vlasov-dfdt" ∨ k = "diag-fp-dfdt"
          · rw [if_pos h3]
            by_cases h4 : "electron" ∈ names d
            · rw [if_pos h4]; simp [h3, h4]
            · rw [if_neg h4]; simp only [reduceCtorEq, h1, h2, h4, and_false, or_false]
          · rw [if_neg h3]; simp only [reduceCtorEq, h1, h2, h3, false_and, or_false]
    rw [savesOk, ← hk]
    cases h : saveOk d k with
    | error e => simp
    | ok u => simp

theorem fieldOk_iff (d : Deck) : fieldOk d = .ok () ↔ d.field = "poisson" ∨ d.field = "poisson-boltzmann" ∨
    (d.field = "ampere" ∧ d.time = "leapfrog") ∨ (d.field = "hampere" ∧ d.time = "leapfrog" ∧ (names d).eraseDups.length ≤ 1) := by
  unfold fieldOk
  by_cases h1 : d.field = "poisson"
  · simp [h1]
  by_cases h2 : d.field = "poisson-boltzmann"
  · simp [h2]
  rw [if_neg (by simp [h1, h2])]
  by_cases h3 : d.field = "ampere"
  · by_cases h4 : d.time = "leapfrog" <;> simp [h3, h4]
  rw [if_neg h3]
  by_cases h5 : d.field = "hampere"
  · by_cases h4 : d.time = "leapfrog"
    · by_cases h6 : 1 < (names d).eraseDups.length
      · simp [h5, h4, h6]
      · simp [h5, h4, h6, Nat.le_of_not_lt h6]
    · simp [h5, h4]
  · simp [h1, h2, h3, h5]

theorem usedHouLi_ok (r : Option HouLiRow) : (∃ u, usedHouLi r = .ok u) ↔
    ∀ h, r = some h → truthy h.isOn = true → h.alpha ≠ none ∧ h.order ≠ none := by
  cases r with
  | none => simp [usedHouLi]
  | some h =>
    unfold usedHouLi
    cases ht : truthy h.isOn with
    | false => simp [ht]
    | true => cases ha : h.alpha <;> cases ho : h.order <;> simp [ht, ha, ho]

theorem diagKey_ok (d : Deck) (key : DiagRow → Option Raw) : (∃ b, diagKey d key = .ok b) ↔ ∃ g, d.diagnostics = some g ∧ key g ≠ none := by
  unfold diagKey
  cases d.diagnostics with
  | none => simp
  | some g => cases h : key g <;> simp [h]

theorem require_iff (c : Bool) : (∃ u, require c = .ok u) ↔ c = true := by cases c <;> simp [require]

theorem ok_unit {x : Except String Unit} : (∃ u, x = .ok u) ↔ x = .ok () := by
  constructor
  · rintro ⟨u, h⟩; exact h
  · intro h; exact ⟨(), h⟩

/-- A deck can be set up exactly if it is buildable. -/
theorem setup_iff (d : Deck) : (∃ u, setup d = .ok u) ↔ Buildable d := by
  unfold setup
  simp only [ok_bind]
  constructor
  · rintro ⟨dv, h1, df, h2, u3, h3, u4, h4, u5, h5, u6, h6, u7, h7, hl, h8, -⟩
    obtain ⟨g, hg, h1⟩ := (diagKey_ok d (·.vlasov)).1 ⟨_, h1⟩
    obtain ⟨g', hg', h2⟩ := (diagKey_ok d (·.fp)).1 ⟨_, h2⟩
    rw [hg] at hg'; cases hg'
    refine ⟨⟨g, hg, h1, h2⟩, (savesOk_iff d _).1 h3, ?_, (fieldOk_iff d).1 h5, ?_, ?_, (usedHouLi_ok _).1 ⟨_, h8⟩⟩
    · simpa using (require_iff _).1 ⟨_, h4⟩
    · simpa using (require_iff _).1 ⟨_, h6⟩
    · exact List.contains_iff_mem.1 ((require_iff _).1 ⟨_, h7⟩)
  · intro h
    obtain ⟨g, hg, g1, g2⟩ := h.diag
    obtain ⟨dv, h1⟩ := (diagKey_ok d (·.vlasov)).2 ⟨g, hg, g1⟩
    obtain ⟨df, h2⟩ := (diagKey_ok d (·.fp)).2 ⟨g, hg, g2⟩
    obtain ⟨hl, h8⟩ := (usedHouLi_ok _).2 h.filter
    obtain ⟨u4, h4⟩ := (require_iff (decide (d.time = "sixth" ∨ d.time = "leapfrog"))).2 (by simpa using h.time)
    obtain ⟨u6, h6⟩ := (require_iff (decide (d.edfdv = "exponential" ∨ d.edfdv = "cubic-spline"))).2 (by simpa using h.push)
    obtain ⟨u7, h7⟩ := (require_iff (fpTypeOk d.fpType)).2 (List.contains_iff_mem.2 h.fpType)
    exact ⟨dv, h1, df, h2, (), (savesOk_iff d _).2 h.saves, u4, h4, (), (fieldOk_iff d).2 h.field, u6, h6, u7, h7, hl, h8, _, rfl⟩

/-! ### What runs is what was accepted -/

/-- A switch written as a truth value or as 0 or 1. -/
def Plain (r : Raw) : Prop := (∃ b, r = .bool b) ∨ r = .int 0 ∨ r = .int 1

/-- Every switch of the deck is plain. -/
structure PlainDeck (d : Deck) : Prop where
  fp : Plain d.fpOn
  krook : Plain d.krookOn
  filter : ∀ h, d.houLi = some h → Plain h.isOn
  diag : ∀ g, d.diagnostics = some g → (∀ r, g.vlasov = some r → Plain r) ∧ ∀ r, g.fp = some r → Plain r

theorem typed_plain (word : String → Option Bool) {r : Raw} (h : Plain r) : typed word r = some (truthy r) := by
  rcases h with ⟨b, rfl⟩ | rfl | rfl
  · rfl
  · rfl
  · rfl

theorem usedAxes_eq {a : Axes} {l : List String} (h : typedAxes a = .ok l) : usedAxes a = l := by
  cases a with
  | absent => cases h; rfl
  | null => cases h; rfl
  | bool b => cases b <;> cases h; rfl
  | other => cases h
  | list m =>
    unfold typedAxes at h
    dsimp only at h
    split at h <;> cases h
    rfl

theorem switch_plain (word : String → Option Bool) (d : Option Bool) {r : Raw} (h : Plain r) :
    switch word d (some r) = .ok (truthy r) := by
  unfold switch
  dsimp only
  rw [typed_plain word h]

theorem diag_eq {word : String → Option Bool} {d : Deck} {f g : DiagRow → Option Raw} {b c : Bool}
    (hp : ∀ r, d.diagnostics = some r → ∀ x, f r = some x → Plain x)
    (h1 : switch word (some false) (d.diagnostics.bind fun r => (f r).or (g r)) = .ok b) (h2 : diagKey d f = .ok c) : c = b := by
  unfold diagKey at h2
  cases hd : d.diagnostics with
  | none => rw [hd] at h2; cases h2
  | some r =>
    rw [hd] at h1 h2
    change switch word (some false) ((f r).or (g r)) = _ at h1
    change (match f r with | some r => Except.ok (truthy r) | none => .error "KeyError") = _ at h2
    cases hf : f r with
    | none => rw [hf] at h2; cases h2
    | some x =>
      rw [hf] at h1 h2
      change switch word (some false) (some x) = _ at h1
      rw [switch_plain word _ (hp r hd x hf)] at h1
      cases h1; cases h2; rfl

theorem usedHouLi_eq {word : String → Option Bool} {r : Option HouLiRow} {t u : Bool × ℚ × ℤ} (hp : ∀ h, r = some h → Plain h.isOn)
    (h1 : typedHouLi word r = .ok t) (h2 : usedHouLi r = .ok u) : u = t := by
  cases r with
  | none => cases h1; cases h2; rfl
  | some h =>
    unfold typedHouLi at h1
    unfold usedHouLi at h2
    dsimp only at h1 h2
    rw [switch_plain word _ (hp h rfl)] at h1
    dsimp only at h1
    split at h1 <;> cases h1
    cases ht : truthy h.isOn with
    | false => rw [ht] at h2; cases h2; rfl
    | true =>
      rw [ht] at h2
      cases ha : h.alpha with
      | none => rw [ha] at h2; cases h2
      | some a => cases ho : h.order with
        | none => rw [ha, ho] at h2; cases h2
        | some o => rw [ha, ho] at h2; cases h2; rfl

/-- The values of an accepted deck. -/
theorem validate_parts {word : String → Option Bool} {d : Deck} {t : Typed} (h : validate word d = .ok t) :
    typedAxes d.parallel = .ok t.parallel ∧ switch word none (some d.fpOn) = .ok t.fpOn ∧
    switch word none (some d.krookOn) = .ok t.krookOn ∧ typedHouLi word d.houLi = .ok t.houLi ∧
    switch word (some false) (d.diagnostics.bind fun g => g.vlasov.or g.vlasovName) = .ok t.diagVlasov ∧
    switch word (some false) (d.diagnostics.bind fun g => g.fp.or g.fpName) = .ok t.diagFp ∧ t.fpM = d.fpM.getD 2 := by
  unfold validate at h
  cases h1 : typedAxes d.parallel with
  | error e => rw [h1] at h; cases h
  | ok a => cases h2 : switch word none (some d.fpOn) with
    | error e => rw [h1, h2] at h; cases h
    | ok b => cases h3 : switch word none (some d.krookOn) with
      | error e => rw [h1, h2, h3] at h; cases h
      | ok c => cases h4 : typedHouLi word d.houLi with
        | error e => rw [h1, h2, h3, h4] at h; cases h
        | ok f => cases h5 : switch word (some false) (d.diagnostics.bind fun g => g.vlasov.or g.vlasovName) with
          | error e => rw [h1, h2, h3, h4, h5] at h; cases h
          | ok p => cases h6 : switch word (some false) (d.diagnostics.bind fun g => g.fp.or g.fpName) with
            | error e => rw [h1, h2, h3, h4, h5, h6] at h; cases h
            | ok q =>
              rw [h1, h2, h3, h4, h5, h6] at h
              change (if _ then (Except.ok _ : Except String Typed) else _) = _ at h
              split at h <;> cases h
              exact ⟨rfl, rfl, rfl, rfl, rfl, rfl, rfl⟩

/-- The values of a run that was set up. -/
theorem setup_parts {d : Deck} {u : Used} (h : setup d = .ok u) :
    diagKey d (·.vlasov) = .ok u.diagVlasov ∧ diagKey d (·.fp) = .ok u.diagFp ∧ usedHouLi d.houLi = .ok u.houLi ∧
    u.fpOn = truthy d.fpOn ∧ u.krookOn = truthy d.krookOn ∧ u.fpM = d.fpM.getD 2 ∧ u.parallel = usedAxes d.parallel := by
  unfold setup at h
  cases h1 : diagKey d (·.vlasov) with
  | error e => rw [h1] at h; cases h
  | ok a => cases h2 : diagKey d (·.fp) with
    | error e => rw [h1, h2] at h; cases h
    | ok b => cases h3 : savesOk d d.saves with
      | error e => rw [h1, h2, h3] at h; cases h
      | ok c => cases h4 : require (decide (d.time = "sixth" ∨ d.time = "leapfrog")) with
        | error e => rw [h1, h2, h3, h4] at h; cases h
        | ok f => cases h5 : fieldOk d with
          | error e => rw [h1, h2, h3, h4, h5] at h; cases h
          | ok p => cases h6 : require (decide (d.edfdv = "exponential" ∨ d.edfdv = "cubic-spline")) with
            | error e => rw [h1, h2, h3, h4, h5, h6] at h; cases h
            | ok q => cases h7 : require (fpTypeOk d.fpType) with
              | error e => rw [h1, h2, h3, h4, h5, h6, h7] at h; cases h
              | ok r => cases h8 : usedHouLi d.houLi with
                | error e => rw [h1, h2, h3, h4, h5, h6, h7, h8] at h; cases h
                | ok s =>
                  rw [h1, h2, h3, h4, h5, h6, h7, h8] at h
                  change Except.ok _ = Except.ok _ at h
                  cases h
                  exact ⟨rfl, rfl, rfl, rfl, rfl, rfl, rfl⟩

/-- A run of a deck with plain switches has the values of the accepted configuration, and it takes its
first step.  Missing: for switches given as words it has other values or ends, see below. -/
theorem faithful_partial {word : String → Option Bool} {d : Deck} {t : Typed} {u : Used} (hp : PlainDeck d)
    (ht : validate word d = .ok t) (hu : setup d = .ok u) : u = t ∧ firstStep t u = .ok () := by
  obtain ⟨a1, a2, a3, a4, a5, a6, a7⟩ := validate_parts ht
  obtain ⟨b1, b2, b3, b4, b5, b6, b7⟩ := setup_parts hu
  rw [switch_plain word _ hp.fp] at a2
  rw [switch_plain word _ hp.krook] at a3
  have e2 : u.fpOn = t.fpOn := by rw [b4]; injection a2
  have e3 : u.krookOn = t.krookOn := by rw [b5]; injection a3
  have e4 : u.houLi = t.houLi := usedHouLi_eq hp.filter a4 b3
  have e5 : u.diagVlasov = t.diagVlasov := diag_eq (fun r hr => (hp.diag r hr).1) a5 b1
  have e6 : u.diagFp = t.diagFp := diag_eq (fun r hr => (hp.diag r hr).2) a6 b2
  have e7 : u.parallel = t.parallel := by rw [b7, usedAxes_eq a1]
  have e8 : u.fpM = t.fpM := by rw [a7, b6]
  have : u = t := by
    cases u; cases t
    simp only at e2 e3 e4 e5 e6 e7 e8
    subst e2 e3 e4 e5 e6 e7 e8; rfl
  refine ⟨this, ?_⟩
  rw [this]
  unfold firstStep
  cases t.fpOn <;> cases t.krookOn <;> rfl

/-- With plain switches a deck runs its first step and save exactly if it is acceptable, buildable, and
asks for no diagnostic that is off. -/
theorem start_iff_partial {word : String → Option Bool} {d : Deck} (hp : PlainDeck d) (hv : "diag-vlasov-dfdt" ∉ names d)
    (hf : "diag-fp-dfdt" ∉ names d) : (∃ u, start word d = .ok u) ↔ Acceptable word d ∧ Buildable d ∧
      (∀ g, d.diagnostics = some g → ("diag-vlasov-dfdt" ∈ d.saves → g.vlasov = some (.bool true) ∨ g.vlasov = some (.int 1)) ∧
        ("diag-fp-dfdt" ∈ d.saves → g.fp = some (.bool true) ∨ g.fp = some (.int 1))) := by
  have hpl : ∀ {r : Raw}, Plain r → (truthy r = true ↔ r = .bool true ∨ r = .int 1) := by
    rintro r (⟨b, rfl⟩ | rfl | rfl)
    · cases b <;> simp [truthy]
    · simp [truthy]
    · simp [truthy]
  have hsave : ∀ {u : Used}, setup d = .ok u → (firstSave d u = .ok () ↔
      ∀ g, d.diagnostics = some g → ("diag-vlasov-dfdt" ∈ d.saves → g.vlasov = some (.bool true) ∨ g.vlasov = some (.int 1)) ∧
        ("diag-fp-dfdt" ∈ d.saves → g.fp = some (.bool true) ∨ g.fp = some (.int 1))) := by
    intro u hu
    obtain ⟨b1, b2, -⟩ := setup_parts hu
    unfold diagKey at b1 b2
    cases hd : d.diagnostics with
    | none => rw [hd] at b1; cases b1
    | some g =>
      rw [hd] at b1 b2
      cases h1 : g.vlasov with
      | none => simp [h1] at b1
      | some r1 => cases h2 : g.fp with
        | none => simp [h2] at b2
        | some r2 =>
          simp [h1] at b1
          simp [h2] at b2
          have p1 := hpl ((hp.diag g hd).1 r1 h1)
          have p2 := hpl ((hp.diag g hd).2 r2 h2)
          rw [b1] at p1; rw [b2] at p2
          simp only [Option.some.injEq, forall_eq', h1, h2, ← p1, ← p2]
          have n1 : (names d).contains "diag-vlasov-dfdt" = false := by simpa using hv
          have n2 : (names d).contains "diag-fp-dfdt" = false := by simpa using hf
          unfold firstSave
          rw [n1, n2]
          by_cases s1 : "diag-vlasov-dfdt" ∈ d.saves <;> by_cases s2 : "diag-fp-dfdt" ∈ d.saves <;>
            cases u.diagVlasov <;> cases u.diagFp <;> simp [s1, s2]
  have hst : ∀ {t u}, validate word d = .ok t → setup d = .ok u → firstStep t u = .ok () := fun ht hu => (faithful_partial hp ht hu).2
  unfold start
  simp only [ok_bind]
  constructor
  · rintro ⟨t, ht, u, hu, -, -, v, hs, -⟩
    exact ⟨(accepted_iff word d).1 ⟨t, ht⟩, (setup_iff d).1 ⟨u, hu⟩, (hsave hu).1 hs⟩
  · rintro ⟨h1, h2, h3⟩
    obtain ⟨t, ht⟩ := (accepted_iff word d).2 h1
    obtain ⟨u, hu⟩ := (setup_iff d).2 h2
    exact ⟨t, ht, u, hu, (), hst ht hu, (), (hsave hu).2 h3, u, rfl⟩

/-! ### Decks -/

/-- The words of pydantic that are used below. -/
def words : String → Option Bool
  | "on" => some true
  | "true" => some true
  | "off" => some false
  | "false" => some false
  | _ => none

/-- A deck with everything off. -/
def plain : Deck where
  field := "poisson"
  edfdv := "cubic-spline"
  time := "sixth"
  species := none
  fpOn := .bool false
  fpType := "dougherty"
  fpM := none
  krookOn := .bool false
  houLi := none
  diagnostics := some ⟨some (.bool false), none, some (.bool false), none⟩
  parallel := .absent
  stochastic := none
  drivers := [⟨some (3 / 10), none⟩]
  A := none
  Z := none
  window := none
  saves := ["fields", "electron"]

/-- It is accepted and starts. -/
example : PlainDeck plain ∧ start words plain = .ok ⟨false, 2, false, (false, 36, 36), false, false, []⟩ := by
  refine ⟨⟨.inl ⟨_, rfl⟩, .inl ⟨_, rfl⟩, fun h hh => (nomatch hh), fun g hg => ?_⟩, ?_⟩
  · cases hg
    exact ⟨fun r hr => by cases hr; exact .inl ⟨_, rfl⟩, fun r hr => by cases hr; exact .inl ⟨_, rfl⟩⟩
  · decide +kernel

/-- So it is acceptable and buildable. -/
example : Acceptable words plain ∧ Buildable plain :=
  ⟨(accepted_iff _ _).1 ⟨⟨false, 2, false, (false, 36, 36), false, false, []⟩, by decide +kernel⟩,
    (setup_iff _).1 ⟨⟨false, 2, false, (false, 36, 36), false, false, []⟩, by decide +kernel⟩⟩

/-- The section `diagnostics` has a default in the configuration model, and a deck without it is accepted
but cannot be set up; the same with the names of the entries instead of their aliases. -/
theorem diagnostics_needed : (∃ t, validate words { plain with diagnostics := none } = .ok t) ∧
    setup { plain with diagnostics := none } = .error "KeyError" ∧
    (∃ t, validate words { plain with diagnostics := some ⟨none, some (.bool true), none, some (.bool true)⟩ } = .ok t) ∧
    setup { plain with diagnostics := some ⟨none, some (.bool true), none, some (.bool true)⟩ } = .error "KeyError" :=
  ⟨⟨⟨false, 2, false, (false, 36, 36), false, false, []⟩, by decide +kernel⟩, by decide +kernel,
    ⟨⟨false, 2, false, (false, 36, 36), true, true, []⟩, by decide +kernel⟩, by decide +kernel⟩

/-- The Hou-Li filter has default strength and order, and a deck that relies on them cannot be set up. -/
theorem filter_defaults_lost : validate words { plain with houLi := some ⟨.bool true, none, none, none⟩ } =
      .ok ⟨false, 2, false, (true, 36, 36), false, false, []⟩ ∧
    setup { plain with houLi := some ⟨.bool true, none, none, none⟩ } = .error "KeyError" := by
  constructor <;> decide +kernel

/-- The Hou-Li filter switched off by a word is on. -/
theorem filter_word : validate words { plain with houLi := some ⟨.str "off", some 36, some 36, none⟩ } =
      .ok ⟨false, 2, false, (false, 36, 36), false, false, []⟩ ∧
    start words { plain with houLi := some ⟨.str "off", some 36, some 36, none⟩ } =
      .ok ⟨false, 2, false, (true, 36, 36), false, false, []⟩ := by
  constructor <;> decide +kernel

/-- Collisions switched off by a word end the first step. -/
theorem collisions_word : (∃ t, validate words { plain with fpOn := .str "off" } = .ok t ∧ t.fpOn = false) ∧
    start words { plain with fpOn := .str "off" } = .error "TypeError" ∧
    start words { plain with krookOn := .str "off" } = .error "TypeError" :=
  ⟨⟨⟨false, 2, false, (false, 36, 36), false, false, []⟩, by decide +kernel, rfl⟩, by decide +kernel, by decide +kernel⟩

/-- An unknown field solver is accepted, and ends with an error of the message about it. -/
theorem unknown_field : (∃ t, validate words { plain with field := "possion" } = .ok t) ∧
    setup { plain with field := "possion" } = .error "TypeError" :=
  ⟨⟨⟨false, 2, false, (false, 36, 36), false, false, []⟩, by decide +kernel⟩, by decide +kernel⟩

/-- An unknown collision operator ends the set-up also when collisions are off. -/
theorem unknown_operator_off : setup { plain with fpType := "landau" } = .error "NotImplementedError" := by
  decide +kernel

/-- A diagnostic that is asked for but off ends the first save, and so does one of a deck with no
species of the name "electron", at the set-up. -/
theorem diagnostic_off : start words { plain with saves := ["fields", "diag-fp-dfdt"] } = .error "KeyError" ∧
    start words { plain with species := some [⟨"e", -1⟩], saves := ["fields", "diag-fp-dfdt"],
                             diagnostics := some ⟨some (.bool true), none, some (.bool true), none⟩ } = .error "KeyError" := by
  constructor <;> decide +kernel

/-- The dimensions of the filter are not read by the run. -/
theorem filter_dims_unread (d : Deck) (h : HouLiRow) (l : Option (List String)) :
    setup { d with houLi := some { h with dims := l } } = setup { d with houLi := some h } := by
  have e : ∀ m, savesOk { d with houLi := some { h with dims := l } } m = savesOk { d with houLi := some h } m := by
    intro m
    induction m with
    | nil => rfl
    | cons k m ih => unfold savesOk; rw [ih]; rfl
  unfold setup
  rw [e]
  rfl

/-- So a filter of no dimension is accepted, and filters along x. -/
theorem filter_no_dims : validate words { plain with houLi := some ⟨.bool true, some 36, some 36, some []⟩ } =
      .ok ⟨false, 2, false, (true, 36, 36), false, false, []⟩ ∧
    start words { plain with houLi := some ⟨.bool true, some 36, some 36, some []⟩ } =
      .ok ⟨false, 2, false, (true, 36, 36), false, false, []⟩ := by
  constructor <;> decide +kernel

/-- "poisson-boltzmann" is for runs of ions only; species without any charge are accepted. -/
theorem boltzmann_neutral : ∃ t, validate words { plain with field := "poisson-boltzmann", species := some [⟨"ion", 0⟩] } = .ok t :=
  ⟨⟨false, 2, false, (false, 36, 36), false, false, []⟩, by decide +kernel⟩

end Verif.VlasovDeck

import Verif.Model.Vlasov2dDeck
import Verif.Props.VlasovDeck

/-!
Which Vlasov-2D decks are accepted, which of them can be set up, and whether the run has the values
of the accepted configuration (C232).
-/
namespace Verif.Vlasov2dDeck
open VlasovDeck (Raw Axes truthy typed switch Readable Plain ok_bind ok_if ok_unit switch_ok switch_plain)

/-! ### Acceptance -/

/-- What the section `terms` of an accepted deck has to be like. -/
structure GoodTerms (word : String → Option Bool) (t : Terms) : Prop where
  edfdv : ∀ s, t.edfdv = some s → s = "exponential" ∨ s = "sl"
  vdfdx : ∀ s, t.vdfdx = some s → s = "exponential"
  skip : ∀ r, t.skip = some r → Readable word r
  fp : ∀ f r, t.fp = some f → f.isOn = some r → Readable word r
  krook : ∀ r, t.krook = some (some r) → Readable word r
  filter : ∀ h, t.houLi = some h → (∀ r, h.isOn = some r → Readable word r) ∧ ∀ l, h.dims = some l → ∀ a ∈ l, a = "x" ∨ a = "y"

/-- What an accepted deck has to be like. -/
structure Acceptable (word : String → Option Bool) (d : Deck) : Prop where
  terms : ∀ t, d.terms = some t → GoodTerms word t
  axes : d.parallel = .absent ∨ d.parallel = .null ∨ d.parallel = .bool false ∨
    ∃ l, d.parallel = .list l ∧ ∀ a ∈ l, a = "x" ∨ a = "y"
  fields : "fields" ∈ d.saves

theorem axesOk_iff (a : Axes) : axesOk a = true ↔ a = .absent ∨ a = .null ∨ a = .bool false ∨
    ∃ l, a = .list l ∧ ∀ x ∈ l, x = "x" ∨ x = "y" := by
  cases a <;> simp [axesOk]

theorem literal_iff (l : List String) (s : Option String) : literal l s = true ↔ ∀ x, s = some x → x ∈ l := by
  cases s <;> simp [literal]

theorem typedFilter_ok (word : String → Option Bool) (r : Option HouLiRow) : (∃ f, typedFilter word r = .ok f) ↔
    ∀ h, r = some h → (∀ x, h.isOn = some x → Readable word x) ∧ ∀ l, h.dims = some l → ∀ a ∈ l, a = "x" ∨ a = "y" := by
  cases r with
  | none => simp [typedFilter]
  | some h =>
    have hd : dimsOk h = true ↔ ∀ l, h.dims = some l → ∀ a ∈ l, a = "x" ∨ a = "y" := by
      unfold dimsOk
      cases h.dims <;> simp
    have hs := switch_ok word h.isOn
    unfold typedFilter
    dsimp only
    cases hsw : switch word (some false) h.isOn with
    | error e =>
      rw [hsw] at hs
      have : ¬ ∀ x, h.isOn = some x → Readable word x := fun hr => by obtain ⟨b, hb⟩ := hs.2 hr; cases hb
      simp only [reduceCtorEq, exists_false, false_iff]
      intro H
      exact this (H h rfl).1
    | ok on =>
      rw [hsw] at hs
      have : ∀ x, h.isOn = some x → Readable word x := hs.1 ⟨on, rfl⟩
      dsimp only
      rw [ok_if, hd]
      constructor
      · rintro H g hg; cases hg; exact ⟨this, H⟩
      · intro H; exact (H h rfl).2

/-- A deck is accepted exactly if it is acceptable. -/
theorem accepted_iff (word : String → Option Bool) (d : Deck) : (∃ v, validate word d = .ok v) ↔ Acceptable word d := by
  have key : (∃ v, validate word d = .ok v) ↔ GoodTerms word (d.terms.getD noTerms) ∧
      axesOk d.parallel = true ∧ "fields" ∈ d.saves := by
    unfold validate
    simp only [ok_bind, ok_if, Bool.and_eq_true, literal_iff, List.contains_iff_mem]
    constructor
    · rintro ⟨s, h1, f, h2, k, h3, l, h4, ⟨⟨h5, h6⟩, h7⟩, h8⟩
      have g2 := (switch_ok word _).1 ⟨_, h2⟩
      have g3 := (switch_ok word _).1 ⟨_, h3⟩
      refine ⟨⟨fun x hx => by simpa using h6 x hx, fun x hx => by simpa using h7 x hx, (switch_ok word _).1 ⟨_, h1⟩,
        fun f r hf hr => g2 r (by rw [hf]; exact hr), fun r hr => g3 r (by rw [hr]; rfl), (typedFilter_ok word _).1 ⟨_, h4⟩⟩, h5, h8⟩
    · rintro ⟨g, h5, h8⟩
      obtain ⟨s, h1⟩ := (switch_ok word _).2 g.skip
      obtain ⟨f, h2⟩ := (switch_ok word ((d.terms.getD noTerms).fp.bind (·.isOn))).2 (by
        intro x hx
        cases hf : (d.terms.getD noTerms).fp with
        | none => rw [hf] at hx; cases hx
        | some r => rw [hf] at hx; exact g.fp r x hf hx)
      obtain ⟨k, h3⟩ := (switch_ok word ((d.terms.getD noTerms).krook.bind id)).2 (by
        intro x hx
        cases hf : (d.terms.getD noTerms).krook with
        | none => rw [hf] at hx; cases hx
        | some r => rw [hf] at hx; exact g.krook x (by rw [hf]; exact congrArg some hx))
      obtain ⟨l, h4⟩ := (typedFilter_ok word _).2 g.filter
      exact ⟨s, h1, f, h2, k, h3, l, h4, ⟨⟨h5, fun x hx => by simpa using g.edfdv x hx⟩, fun x hx => by simpa using g.vdfdx x hx⟩, h8⟩
  rw [key, axesOk_iff]
  constructor
  · rintro ⟨h1, h2, h3⟩
    exact ⟨fun t ht => by rw [ht] at h1; exact h1, h2, h3⟩
  · intro h
    refine ⟨?_, h.axes, h.fields⟩
    cases ht : d.terms with
    | some t => exact h.terms t ht
    | none =>
      exact ⟨fun _ h => (nomatch h), fun _ h => (nomatch h), fun _ h => (nomatch h), fun _ _ h => (nomatch h),
        fun _ h => (nomatch h), fun _ h => (nomatch h)⟩

/-! ### Set-up -/

/-- What a deck has to be like for the run to be built from it: every section is there. -/
structure Buildable (d : Deck) : Prop where
  species : (∃ t s l, d.terms = some t ∧ t.species = some (s :: l)) ∨
    (d.hasComponents = true ∧ d.nvx ≠ none ∧ d.nvy ≠ none ∧ d.vmax ≠ none)
  drivers : ∃ m n, d.drivers = some (some m, some n)
  saves : ∀ k ∈ d.saves, k.startsWith "fields" = true ∨ k ∈ names d
  terms : ∃ t e f on kr, d.terms = some t ∧ t.edfdv = some e ∧ t.fp = some f ∧ f.isOn = some on ∧ t.krook = some (some kr) ∧
    (truthy on = true → f.kind = some "dougherty") ∧
    ∀ h r, t.houLi = some h → h.isOn = some r → truthy r = true → h.alpha ≠ none ∧ h.order ≠ none ∧ h.dims ≠ none

/-- The names are those of the list of species; without one there is the species electron. -/
theorem mem_names (d : Deck) (k : String) : k ∈ names d ↔ (∃ t l, d.terms = some t ∧ t.species = some l ∧ k ∈ l) ∨
    ((∀ t, d.terms = some t → ∀ l, t.species = some l → l = []) ∧ k = "electron") := by
  unfold names
  cases ht : d.terms with
  | none => simp [noTerms]
  | some t => cases hs : t.species with
    | none => simp [hs]
    | some l => cases l <;> simp [hs]

theorem key_ok {α : Type} (o : Option α) (a : α) : key o = .ok a ↔ o = some a := by
  cases o <;> simp [key]

theorem speciesOk_iff (d : Deck) : speciesOk d = .ok () ↔ (∃ t s l, d.terms = some t ∧ t.species = some (s :: l)) ∨
    (d.hasComponents = true ∧ d.nvx ≠ none ∧ d.nvy ≠ none ∧ d.vmax ≠ none) := by
  have base : ((if d.hasComponents && d.nvx.isSome && d.nvy.isSome && d.vmax.isSome then (.ok () : Except String Unit)
      else .error "ValueError") = .ok ()) ↔ (d.hasComponents = true ∧ d.nvx ≠ none ∧ d.nvy ≠ none ∧ d.vmax ≠ none) := by
    cases d.hasComponents <;> cases d.nvx <;> cases d.nvy <;> cases d.vmax <;> simp
  unfold speciesOk
  cases ht : d.terms with
  | none => simpa [noTerms] using base
  | some t => cases hs : t.species with
    | none => simpa [hs] using base
    | some l => cases l with
      | nil => simpa [hs] using base
      | cons s l => simp [hs]

theorem savesOk_iff (d : Deck) : savesOk d = true ↔ ∀ k ∈ d.saves, k.startsWith "fields" = true ∨ k ∈ names d := by
  simp [savesOk]

theorem usedFilter_ok (r : Option HouLiRow) : (∃ f, usedFilter r = .ok f) ↔
    ∀ h, r = some h → ∀ x, h.isOn = some x → truthy x = true → h.alpha ≠ none ∧ h.order ≠ none ∧ h.dims ≠ none := by
  cases r with
  | none => simp [usedFilter]
  | some h =>
    unfold usedFilter
    cases hx : h.isOn with
    | none => simp [hx]
    | some x => cases ht : truthy x with
      | false => simp [hx, ht]
      | true => cases ha : h.alpha <;> cases ho : h.order <;> cases hl : h.dims <;>
          simp [hx, ht, ha, ho, hl, key, bind, Except.bind]

theorem fpOk_iff (f : FpRow) (on : Raw) : fpOk f on = .ok () ↔ (truthy on = true → f.kind = some "dougherty") := by
  unfold fpOk
  cases truthy on with
  | false => simp
  | true => cases hk : f.kind with
    | none => simp [key, bind, Except.bind]
    | some k => simp [key, bind, Except.bind]

/-- A deck can be set up exactly if it is buildable, whatever its values. -/
theorem setup_iff (d : Deck) (v : Values) : (∃ u, setup d v = .ok u) ↔ Buildable d := by
  have hs := VlasovDeck.require_iff (savesOk d)
  unfold setup
  simp only [ok_bind, key_ok]
  constructor
  · rintro ⟨u0, h0, dr, h1, ex, h2, ey, h3, t, h4, u5, h5, e, h6, fp, h7, kr, h8, on, h9, kon, h10, u11, h11, hl, h12, -⟩
    refine ⟨(speciesOk_iff d).1 h0, ⟨ex, ey, ?_⟩, (savesOk_iff d).1 (hs.1 ⟨u5, h5⟩), t, e, fp, on, kon, h4, h6, h7, h9, ?_,
      (fpOk_iff fp on).1 h11, fun h r a b => (usedFilter_ok _).1 ⟨hl, h12⟩ h a r b⟩
    · rw [h1, ← h2, ← h3]
    · rw [h8, h10]
  · rintro ⟨h0, ⟨m, n, h1⟩, h5, t, e, f, on, kr, h4, h6, h7, h9, h8, h11, h12⟩
    obtain ⟨hl, h12⟩ := (usedFilter_ok t.houLi).2 fun h a r b => h12 h r a b
    obtain ⟨u5, h5⟩ := hs.2 ((savesOk_iff d).2 h5)
    exact ⟨(), (speciesOk_iff d).2 h0, _, h1, m, rfl, n, rfl, t, h4, u5, h5, e, h6, f, h7, some kr, h8, on, h9, kr, rfl, (),
      (fpOk_iff f on).2 h11, hl, h12, _, rfl⟩

/-! ### What runs is what was accepted -/

/-- The switches of Maxwell's equations and of the filter are truth values, or 0 or 1. -/
structure PlainDeck (d : Deck) : Prop where
  skip : ∀ t r, d.terms = some t → t.skip = some r → Plain r
  filter : ∀ t h r, d.terms = some t → t.houLi = some h → h.isOn = some r → Plain r

/-- The values of an accepted deck. -/
theorem validate_parts {word : String → Option Bool} {d : Deck} {t : Terms} {v : Values} (ht : d.terms = some t)
    (h : validate word d = .ok v) : switch word (some false) t.skip = .ok v.skip ∧
    switch word (some false) (t.fp.bind (·.isOn)) = .ok v.fpOn ∧ switch word (some false) (t.krook.bind id) = .ok v.krookOn ∧
    typedFilter word t.houLi = .ok v.filter ∧ v.exponential = decide (t.edfdv.getD "exponential" = "exponential") ∧
    v.drivers = ((d.drivers.getD (none, none)).1.getD 0, (d.drivers.getD (none, none)).2.getD 0) := by
  unfold validate at h
  rw [ht] at h
  change (switch word (some false) t.skip >>= _) = _ at h
  cases h1 : switch word (some false) t.skip with
  | error e => rw [h1] at h; cases h
  | ok a =>
    rw [h1] at h
    change (switch word (some false) (t.fp.bind (·.isOn)) >>= _) = _ at h
    cases h2 : switch word (some false) (t.fp.bind (·.isOn)) with
    | error e => rw [h2] at h; cases h
    | ok b =>
      rw [h2] at h
      change (switch word (some false) (t.krook.bind id) >>= _) = _ at h
      cases h3 : switch word (some false) (t.krook.bind id) with
      | error e => rw [h3] at h; cases h
      | ok c =>
        rw [h3] at h
        change (typedFilter word t.houLi >>= _) = _ at h
        cases h4 : typedFilter word t.houLi with
        | error e => rw [h4] at h; cases h
        | ok f =>
          rw [h4] at h
          change (if _ then (Except.ok _ : Except String Values) else _) = _ at h
          split at h <;> cases h
          exact ⟨rfl, rfl, rfl, rfl, rfl, rfl⟩

/-- The values of a run that was set up. -/
theorem setup_parts {d : Deck} {v u : Values} (h : setup d v = .ok u) : ∃ t e f on kr m n, d.terms = some t ∧ t.edfdv = some e ∧
    t.fp = some f ∧ f.isOn = some on ∧ t.krook = some (some kr) ∧ d.drivers = some (some m, some n) ∧
    usedFilter t.houLi = .ok u.filter ∧ u.exponential = decide (e = "exponential") ∧ u.skip = (t.skip.map truthy).getD false ∧
    u.fpOn = (truthy on && v.fpOn) ∧ u.krookOn = (truthy kr && v.krookOn) ∧ u.drivers = (m, n) := by
  obtain ⟨-, ⟨m, n, h1⟩, -, t, e, f, on, kr, h4, h6, h7, h9, h8, h11, h12⟩ := (setup_iff d v).1 ⟨u, h⟩
  refine ⟨t, e, f, on, kr, m, n, h4, h6, h7, h9, h8, h1, ?_⟩
  unfold setup at h
  cases a0 : speciesOk d with
  | error e => rw [a0] at h; cases h
  | ok u0 =>
    rw [a0, h1, h4] at h
    cases a1 : savesOk d with
    | false => rw [a1] at h; cases h
    | true =>
      rw [a1] at h
      simp only [key, bind, Except.bind, h6, h7, h9, h8, VlasovDeck.require, if_true, (fpOk_iff f on).2 h11] at h
      cases a2 : usedFilter t.houLi with
      | error e => rw [a2] at h; cases h
      | ok hl =>
        rw [a2] at h
        dsimp only at h
        cases h
        exact ⟨rfl, rfl, rfl, rfl, rfl, rfl⟩

theorem typed_truthy {word : String → Option Bool} (hw : word "" ≠ some true) {r : Raw} (h : typed word r = some true) : truthy r = true := by
  cases r with
  | bool b => cases b <;> simp_all [typed, truthy]
  | int n =>
    unfold typed at h
    dsimp only at h
    split at h
    · cases h
    · rename_i h0; simpa [truthy] using h0
  | str s =>
    have : s ≠ "" := by rintro rfl; exact hw h
    simpa [truthy] using this
  | null => cases h

theorem switch_true {word : String → Option Bool} (hw : word "" ≠ some true) {r : Raw} {b : Bool}
    (h : switch word (some false) (some r) = .ok b) : (truthy r && b) = b := by
  cases b with
  | false => simp
  | true =>
    rw [Bool.and_true]
    unfold switch at h
    dsimp only at h
    cases ht : typed word r with
    | none => rw [ht] at h; cases h
    | some c => rw [ht] at h; cases h; exact typed_truthy hw ht

/-- Collisions act in a run exactly as the accepted configuration says, however they are spelled; so do the
velocity push and the number of drivers. -/
theorem collisions_faithful {word : String → Option Bool} (hw : word "" ≠ some true) {d : Deck} {v u : Values}
    (hv : validate word d = .ok v) (hu : setup d v = .ok u) :
    u.fpOn = v.fpOn ∧ u.krookOn = v.krookOn ∧ u.exponential = v.exponential ∧ u.drivers = v.drivers := by
  obtain ⟨t, e, f, on, kr, m, n, ht, he, hf, hon, hk, hd, -, b2, -, b4, b5, b6⟩ := setup_parts hu
  obtain ⟨-, a2, a3, -, a5, a6⟩ := validate_parts ht hv
  rw [hf] at a2
  change switch word (some false) f.isOn = _ at a2
  rw [hon] at a2
  rw [hk] at a3
  refine ⟨by rw [b4, switch_true hw a2], by rw [b5, switch_true hw a3], by rw [b2, a5, he]; rfl, by rw [b6, a6, hd]; rfl⟩

theorem if_eq {α : Type} {c : Prop} [Decidable c] {a b : α} {e : String} (h : (if c then (.ok a : Except String α) else .error e) = .ok b) :
    a = b := by
  by_cases hc : c
  · rw [if_pos hc] at h; injection h
  · rw [if_neg hc] at h; cases h

/-- A run of a deck with plain switches has the values of the accepted configuration.  Missing: switches of
Maxwell's equations and of the filter given as words are on whatever the word says, see below. -/
theorem faithful_partial {word : String → Option Bool} (hw : word "" ≠ some true) {d : Deck} {v u : Values} (hp : PlainDeck d)
    (hv : validate word d = .ok v) (hu : setup d v = .ok u) : u = v := by
  obtain ⟨c1, c2, c3, c4⟩ := collisions_faithful hw hv hu
  obtain ⟨t, e, f, on, kr, m, n, ht, -, -, -, -, -, b1, -, b3, -⟩ := setup_parts hu
  obtain ⟨a1, -, -, a4, -⟩ := validate_parts ht hv
  have e1 : u.skip = v.skip := by
    rw [b3]
    cases hs : t.skip with
    | none => rw [hs] at a1; injection a1
    | some r =>
      rw [hs, switch_plain word _ (hp.skip t r ht hs)] at a1
      injection a1
  have e2 : u.filter = v.filter := by
    cases hh : t.houLi with
    | none => rw [hh] at a4 b1; injection a4 with a4; injection b1 with b1; rw [← a4, ← b1]
    | some h =>
      rw [hh] at a4 b1
      unfold typedFilter at a4
      unfold usedFilter at b1
      dsimp only at a4 b1
      cases ho : h.isOn with
      | none =>
        rw [ho] at a4 b1
        change (if _ then (Except.ok none : Except String _) else _) = _ at a4
        have a4 := if_eq a4
        change Except.ok none = _ at b1
        injection b1 with b1
        rw [← a4, ← b1]
      | some r =>
        rw [ho] at a4 b1
        rw [switch_plain word _ (hp.filter t h r ht hh ho)] at a4
        dsimp only at a4
        cases hr : truthy r with
        | false =>
          rw [hr] at a4
          simp only [Option.map_some, Option.getD_some, hr] at b1
          have a4 := if_eq a4
          injection b1 with b1
          rw [← a4, ← b1]; rfl
        | true =>
          rw [hr] at a4
          simp only [Option.map_some, Option.getD_some, hr, if_true] at b1
          have a4 := if_eq a4
          cases ha : h.alpha with
          | none => rw [ha] at b1; cases b1
          | some a => cases hor : h.order with
            | none => rw [ha, hor] at b1; cases b1
            | some o => cases hl : h.dims with
              | none => rw [ha, hor, hl] at b1; cases b1
              | some l =>
                rw [ha, hor, hl] at b1 a4
                change Except.ok _ = _ at b1
                injection b1 with b1
                rw [← a4, ← b1]; rfl
  cases u; cases v
  simp only at c1 c2 c3 c4 e1 e2
  subst c1 c2 c3 c4 e1 e2; rfl

/-- A deck starts exactly if it is acceptable and buildable. -/
theorem start_iff (word : String → Option Bool) (d : Deck) : (∃ u, start word d = .ok u) ↔ Acceptable word d ∧ Buildable d := by
  unfold start
  rw [ok_bind, ← accepted_iff]
  constructor
  · rintro ⟨v, hv, u, hu⟩
    exact ⟨⟨v, hv⟩, (setup_iff d v).1 ⟨u, hu⟩⟩
  · rintro ⟨⟨v, hv⟩, h⟩
    exact ⟨v, hv, (setup_iff d v).2 h⟩

/-- `grid.parallel` is checked and never read. -/
theorem parallel_unread (d : Deck) (a : Axes) (v : Values) : setup { d with parallel := a } v = setup d v := rfl

/-! ### Decks -/

/-- A deck in full. -/
def plain : Deck where
  terms := some ⟨some "exponential", none, none, none, some ⟨some (.bool false), none⟩, some (some (.bool false)), none⟩
  drivers := some (some 0, some 0)
  parallel := .absent
  nvx := some 64
  nvy := some 64
  vmax := some 6
  hasComponents := true
  saves := ["fields", "electron"]

/-- It is accepted and starts. -/
example : PlainDeck plain ∧ validate VlasovDeck.words plain = .ok ⟨true, false, false, false, none, 0, 0⟩ ∧
    start VlasovDeck.words plain = .ok ⟨true, false, false, false, none, 0, 0⟩ ∧ VlasovDeck.words "" ≠ some true := by
  refine ⟨⟨fun t r ht hr => ?_, fun t h r ht hh => ?_⟩, by decide +kernel, by decide +kernel, by decide +kernel⟩
  · cases ht; cases hr
  · cases ht; cases hh

/-- A deck that relies on the defaults of `terms`, of `drivers`, of collisions, of the velocity push or of the
filter is accepted and cannot be set up. -/
theorem defaults_lost : (∃ v, validate VlasovDeck.words { plain with terms := none, drivers := none } = .ok v) ∧
    start VlasovDeck.words { plain with terms := none } = .error "KeyError" ∧
    start VlasovDeck.words { plain with drivers := none } = .error "KeyError" ∧
    start VlasovDeck.words { plain with drivers := some (some 1, none) } = .error "KeyError" ∧
    start VlasovDeck.words { plain with terms := some { plain.terms.getD noTerms with edfdv := none } } = .error "KeyError" ∧
    start VlasovDeck.words { plain with terms := some { plain.terms.getD noTerms with fp := none } } = .error "KeyError" ∧
    start VlasovDeck.words { plain with terms := some { plain.terms.getD noTerms with fp := some ⟨some (.bool true), none⟩ } } =
      .error "KeyError" ∧
    start VlasovDeck.words { plain with terms := some { plain.terms.getD noTerms with
      houLi := some ⟨some (.bool true), none, none, none⟩ } } = .error "KeyError" :=
  ⟨⟨⟨true, false, false, false, none, 0, 0⟩, by decide +kernel⟩, by decide +kernel, by decide +kernel, by decide +kernel,
    by decide +kernel, by decide +kernel, by decide +kernel, by decide +kernel⟩

/-- The values of a deck that says nothing, and those of a filter that is only switched on. -/
theorem defaults (word : String → Option Bool) (d : Deck) (h : "fields" ∈ d.saves) (ha : d.parallel = .absent) (hd : d.drivers = none) :
    (d.terms = none → validate word d = .ok ⟨true, false, false, false, none, 0, 0⟩) ∧
    (d.terms = some { noTerms with houLi := some ⟨some (.bool true), none, none, none⟩ } →
      validate word d = .ok ⟨true, false, false, false, some (36, 36, true, true), 0, 0⟩) := by
  have hs : d.saves.contains "fields" = true := List.contains_iff_mem.2 h
  constructor
  · intro ht
    unfold validate
    rw [ht, ha, hd, hs]
    rfl
  · intro ht
    unfold validate
    rw [ht, ha, hd, hs]
    rfl

/-- Maxwell's equations are skipped by a deck that says not to skip them by a word, and the filter is on. -/
theorem switches_word : (validate VlasovDeck.words { plain with terms := some { plain.terms.getD noTerms with
      skip := some (.str "off"), houLi := some ⟨some (.str "off"), some 36, some 36, some ["x"]⟩ } }) =
      .ok ⟨true, false, false, false, none, 0, 0⟩ ∧
    start VlasovDeck.words { plain with terms := some { plain.terms.getD noTerms with
      skip := some (.str "off"), houLi := some ⟨some (.str "off"), some 36, some 36, some ["x"]⟩ } } =
      .ok ⟨true, true, false, false, some (36, 36, true, false), 0, 0⟩ := by
  constructor <;> decide +kernel

/-- Collisions switched off by a word do not act, but their kind is checked. -/
theorem collisions_word : start VlasovDeck.words { plain with terms := some { plain.terms.getD noTerms with
      fp := some ⟨some (.str "off"), some "dougherty"⟩ } } = .ok ⟨true, false, false, false, none, 0, 0⟩ ∧
    start VlasovDeck.words { plain with terms := some { plain.terms.getD noTerms with
      fp := some ⟨some (.str "off"), some "landau"⟩ } } = .error "NotImplementedError" := by
  constructor <;> decide +kernel

end Verif.Vlasov2dDeck

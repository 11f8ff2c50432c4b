import Verif.Model.Vlasov2VDeck
import Verif.Props.VlasovDeck

/-!
Which accepted decks Vlasov-1D2V starts, and what of the accepted values the run has (C233).
-/
namespace Verif.Vlasov2VDeck
open VlasovDeck

/-- What a deck has to be like for the run to be built from it. -/
structure Buildable (d : Deck) : Prop where
  diag : ∃ g, d.diagnostics = some g ∧ g.vlasov ≠ none ∧ g.fp ≠ none
  saves : ∀ k ∈ d.saves, k.startsWith "fields" = true ∨ k ∈ names d ∨ k = "diag-vlasov-cumulative" ∨ k = "diag-fp-cumulative"
  time : d.time = "sixth" ∨ d.time = "leapfrog"
  field : d.field = "poisson" ∨ d.field = "poisson-boltzmann" ∨ (d.field = "ampere" ∧ d.time = "leapfrog") ∨
    (d.field = "hampere" ∧ d.time = "leapfrog" ∧ (names d).eraseDups.length ≤ 1)
  push : d.edfdv = "exponential"
  electron : "electron" ∈ names d
  fpType : d.fpType ∈ ["dougherty", "dougherty_nodrag", "lenard_bernstein", "cylindrical_landau"]
  krook : truthy d.krookOn = false

theorem electronOk_iff (d : Deck) : electronOk d = .ok () ↔ "electron" ∈ names d := by
  unfold electronOk
  simp only [List.contains_iff_mem]
  by_cases h : "electron" ∈ names d <;> simp [h]

theorem savesOk_iff (d : Deck) (h : "electron" ∈ names d) (l : List String) : savesOk d l = .ok () ↔
    ∀ k ∈ l, k.startsWith "fields" = true ∨ k ∈ names d ∨ k = "diag-vlasov-cumulative" ∨ k = "diag-fp-cumulative" := by
  induction l with
  | nil => simp [savesOk]
  | cons k l ih =>
    rw [List.forall_mem_cons, ← ih]
    have hk : saveOk d k = .ok () ↔ k.startsWith "fields" = true ∨ k ∈ names d ∨ k = "diag-vlasov-cumulative" ∨ k = "diag-fp-cumulative" := by
      unfold saveOk
      simp only [List.contains_iff_mem]
      by_cases h1 : k.startsWith "fields" = true
      · rw [if_pos h1]; simp [h1]
      · rw [if_neg h1]
        by_cases h2 : k ∈ names d
        · rw [if_pos h2]; simp [h2]
        · rw [if_neg h2]
          by_cases h3 : k = "diag-vlasov-cumulative" ∨ k = "diag-fp-cumulative"
          · rw [if_pos h3, if_pos h]; simp [h3]
          · rw [if_neg h3]; simp only [reduceCtorEq, h1, h2, h3, false_or]
    rw [savesOk, ← hk]
    cases h : saveOk d k with
    | error e => simp
    | ok u => simp

/-- A deck can be set up exactly if it is buildable: with one exponential push, one species of the name
"electron", one of four operators and no Krook operator, and the filter as it may be. -/
theorem setup_iff (d : Deck) : (∃ u, setup d = .ok u) ↔ Buildable d := by
  unfold setup
  simp only [ok_bind]
  constructor
  · rintro ⟨dv, h1, df, h2, u3, h3, u4, h4, u5, h5, u6, h6, u7, h7, u8, h8, u9, h9, -⟩
    obtain ⟨g, hg, h1⟩ := (diagKey_ok d (·.vlasov)).1 ⟨_, h1⟩
    obtain ⟨g', hg', h2⟩ := (diagKey_ok d (·.fp)).1 ⟨_, h2⟩
    rw [hg] at hg'; cases hg'
    have he := (electronOk_iff d).1 h7
    refine ⟨⟨g, hg, h1, h2⟩, (savesOk_iff d he _).1 h3, ?_, (fieldOk_iff d).1 h5, ?_, he, ?_, ?_⟩
    · simpa using (require_iff _).1 ⟨_, h4⟩
    · simpa using (require_iff _).1 ⟨_, h6⟩
    · exact List.contains_iff_mem.1 ((require_iff _).1 ⟨_, h8⟩)
    · simpa using (require_iff _).1 ⟨_, h9⟩
  · intro h
    obtain ⟨g, hg, g1, g2⟩ := h.diag
    obtain ⟨dv, h1⟩ := (diagKey_ok d (·.vlasov)).2 ⟨g, hg, g1⟩
    obtain ⟨df, h2⟩ := (diagKey_ok d (·.fp)).2 ⟨g, hg, g2⟩
    obtain ⟨u4, h4⟩ := (require_iff (decide (d.time = "sixth" ∨ d.time = "leapfrog"))).2 (by simpa using h.time)
    obtain ⟨u6, h6⟩ := (require_iff (decide (d.edfdv = "exponential"))).2 (by simpa using h.push)
    obtain ⟨u8, h8⟩ := (require_iff (fpTypeOk d.fpType)).2 (List.contains_iff_mem.2 h.fpType)
    obtain ⟨u9, h9⟩ := (require_iff (!truthy d.krookOn)).2 (by simpa using h.krook)
    exact ⟨dv, h1, df, h2, (), (savesOk_iff d h.electron _).2 h.saves, u4, h4, (), (fieldOk_iff d).2 h.field, u6, h6, (),
      (electronOk_iff d).2 h.electron, u8, h8, u9, h9, _, rfl⟩

/-- The values of a run that was set up. -/
theorem setup_parts {d : Deck} {u : Used} (h : setup d = .ok u) :
    diagKey d (·.vlasov) = .ok u.diagVlasov ∧ diagKey d (·.fp) = .ok u.diagFp ∧ u.fpOn = truthy d.fpOn ∧ u.krookOn = false ∧
    u.fpM = d.fpM.getD 2 ∧ u.houLi = (false, 36, 36) := by
  have hb := (setup_iff d).1 ⟨u, h⟩
  unfold setup at h
  cases h1 : diagKey d (·.vlasov) with
  | error e => rw [h1] at h; cases h
  | ok a => cases h2 : diagKey d (·.fp) with
    | error e => rw [h1, h2] at h; cases h
    | ok b =>
      have r4 : require (decide (d.time = "sixth" ∨ d.time = "leapfrog")) = .ok () := by
        rw [decide_eq_true hb.time]; rfl
      have r6 : require (decide (d.edfdv = "exponential")) = .ok () := by rw [decide_eq_true hb.push]; rfl
      have r8 : require (fpTypeOk d.fpType) = .ok () := by
        rw [show fpTypeOk d.fpType = true from List.contains_iff_mem.2 hb.fpType]; rfl
      have r9 : require (!truthy d.krookOn) = .ok () := by rw [hb.krook]; rfl
      rw [h1, h2, (savesOk_iff d hb.electron _).2 hb.saves, r4, (fieldOk_iff d).2 hb.field, r6,
        (electronOk_iff d).2 hb.electron, r8, r9] at h
      change Except.ok _ = Except.ok _ at h
      cases h
      exact ⟨rfl, rfl, rfl, rfl, rfl, rfl⟩

/-- With plain switches the collisions and the diagnostics of a run are those of the accepted
configuration, and the Krook operator is off in both; the run takes its first step.  Missing: the filter,
which the run does not have, and switches given as words. -/
theorem faithful_partial {word : String → Option Bool} {d : Deck} {t : Typed} {u : Used} (hp : PlainDeck d)
    (ht : validate word d = .ok t) (hu : setup d = .ok u) : u.fpOn = t.fpOn ∧ u.fpM = t.fpM ∧ u.krookOn = t.krookOn ∧
    t.krookOn = false ∧ u.diagVlasov = t.diagVlasov ∧ u.diagFp = t.diagFp ∧ firstStep t u = .ok () := by
  obtain ⟨-, a2, a3, -, a5, a6, a7⟩ := validate_parts ht
  obtain ⟨b1, b2, b3, b4, b5, -⟩ := setup_parts hu
  have hk := ((setup_iff d).1 ⟨u, hu⟩).krook
  rw [switch_plain word _ hp.fp] at a2
  rw [switch_plain word _ hp.krook, hk] at a3
  have e2 : u.fpOn = t.fpOn := by rw [b3]; injection a2
  have e3 : t.krookOn = false := by injection a3 with a3; exact a3.symm
  refine ⟨e2, by rw [a7, b5], by rw [b4, e3], e3, diag_eq (fun r hr => (hp.diag r hr).1) a5 b1,
    diag_eq (fun r hr => (hp.diag r hr).2) a6 b2, ?_⟩
  unfold firstStep
  rw [e2]
  cases t.fpOn <;> rfl

/-- The filter of the deck changes nothing but whether the deck is accepted. -/
theorem filter_unread (d : Deck) (h : Option HouLiRow) : setup { d with houLi := h } = setup d := by
  have e : ∀ m, savesOk { d with houLi := h } m = savesOk d m := by
    intro m
    induction m with
    | nil => rfl
    | cons k m ih => unfold savesOk; rw [ih]; rfl
  unfold setup
  rw [e]
  rfl

/-- A run with Boltzmann electrons, which has to list its species, needs one of charge zero or more that is
called "electron". -/
theorem boltzmann_electron {word : String → Option Bool} {d : Deck} {t : Typed} {u : Used} (hf : d.field = "poisson-boltzmann")
    (ht : validate word d = .ok t) (hu : setup d = .ok u) : ∃ l s, d.species = some l ∧ s ∈ l ∧ s.name = "electron" ∧ 0 ≤ s.charge := by
  obtain ⟨s, l, hs, hc⟩ := ((accepted_iff word d).1 ⟨t, ht⟩).boltzmann hf
  have he := ((setup_iff d).1 ⟨u, hu⟩).electron
  unfold names at he
  rw [hs] at he
  obtain ⟨r, hr, hn⟩ := List.mem_map.1 he
  exact ⟨_, r, hs, hr, hn, hc r hr⟩

/-- With plain switches a deck runs its first step and save exactly if it is acceptable, buildable, and
asks for no diagnostic that is off. -/
theorem start_iff_partial {word : String → Option Bool} {d : Deck} (hp : PlainDeck d) (hv : "diag-vlasov-cumulative" ∉ names d)
    (hf : "diag-fp-cumulative" ∉ names d) : (∃ u, start word d = .ok u) ↔ Acceptable word d ∧ Buildable d ∧
      (∀ g, d.diagnostics = some g → ("diag-vlasov-cumulative" ∈ d.saves → g.vlasov = some (.bool true) ∨ g.vlasov = some (.int 1)) ∧
        ("diag-fp-cumulative" ∈ d.saves → g.fp = some (.bool true) ∨ g.fp = some (.int 1))) := by
  have hpl : ∀ {r : Raw}, Plain r → (truthy r = true ↔ r = .bool true ∨ r = .int 1) := by
    rintro r (⟨b, rfl⟩ | rfl | rfl)
    · cases b <;> simp [truthy]
    · simp [truthy]
    · simp [truthy]
  have hsave : ∀ {u : Used}, setup d = .ok u → (firstSave d u = .ok () ↔
      ∀ g, d.diagnostics = some g → ("diag-vlasov-cumulative" ∈ d.saves → g.vlasov = some (.bool true) ∨ g.vlasov = some (.int 1)) ∧
        ("diag-fp-cumulative" ∈ d.saves → g.fp = some (.bool true) ∨ g.fp = some (.int 1))) := by
    intro u hu
    obtain ⟨b1, b2, -⟩ := setup_parts hu
    unfold diagKey at b1 b2
    cases hd : d.diagnostics with
    | none => rw [hd] at b1; cases b1
    | some g =>
      rw [hd] at b1 b2
      cases h1 : g.vlasov with
      | none => simp [h1] at b1
      | some r1 => cases h2 : g.fp with
        | none => simp [h2] at b2
        | some r2 =>
          simp [h1] at b1
          simp [h2] at b2
          have p1 := hpl ((hp.diag g hd).1 r1 h1)
          have p2 := hpl ((hp.diag g hd).2 r2 h2)
          rw [b1] at p1; rw [b2] at p2
          simp only [Option.some.injEq, forall_eq', h1, h2, ← p1, ← p2]
          have n1 : (names d).contains "diag-vlasov-cumulative" = false := by simpa using hv
          have n2 : (names d).contains "diag-fp-cumulative" = false := by simpa using hf
          unfold firstSave
          rw [n1, n2]
          by_cases s1 : "diag-vlasov-cumulative" ∈ d.saves <;> by_cases s2 : "diag-fp-cumulative" ∈ d.saves <;>
            cases u.diagVlasov <;> cases u.diagFp <;> simp [s1, s2]
  have hst : ∀ {t u}, validate word d = .ok t → setup d = .ok u → firstStep t u = .ok () := fun ht hu =>
    (faithful_partial hp ht hu).2.2.2.2.2.2
  unfold start
  simp only [ok_bind]
  constructor
  · rintro ⟨t, ht, u, hu, -, -, v, hs, -⟩
    exact ⟨(accepted_iff word d).1 ⟨t, ht⟩, (setup_iff d).1 ⟨u, hu⟩, (hsave hu).1 hs⟩
  · rintro ⟨h1, h2, h3⟩
    obtain ⟨t, ht⟩ := (accepted_iff word d).2 h1
    obtain ⟨u, hu⟩ := (setup_iff d).2 h2
    exact ⟨t, ht, u, hu, (), hst ht hu, (), (hsave hu).2 h3, u, rfl⟩

/-! ### Decks -/

/-- A deck with everything off. -/
def plain2V : Deck := { plain with edfdv := "exponential" }

/-- It is accepted and starts. -/
example : PlainDeck plain2V ∧ start words plain2V = .ok ⟨false, 2, false, (false, 36, 36), false, false, []⟩ := by
  refine ⟨⟨.inl ⟨_, rfl⟩, .inl ⟨_, rfl⟩, fun h hh => (nomatch hh), fun g hg => ?_⟩, ?_⟩
  · cases hg
    exact ⟨fun r hr => by cases hr; exact .inl ⟨_, rfl⟩, fun r hr => by cases hr; exact .inl ⟨_, rfl⟩⟩
  · decide +kernel

/-- A filter that is on is accepted and is not there. -/
theorem filter_lost : validate words { plain2V with houLi := some ⟨.bool true, some 36, some 36, none⟩ } =
      .ok ⟨false, 2, false, (true, 36, 36), false, false, []⟩ ∧
    start words { plain2V with houLi := some ⟨.bool true, some 36, some 36, none⟩ } =
      .ok ⟨false, 2, false, (false, 36, 36), false, false, []⟩ := by
  constructor <;> decide +kernel

/-- The Krook operator switched off by a word is refused. -/
theorem krook_word : (∃ t, validate words { plain2V with krookOn := .str "off" } = .ok t ∧ t.krookOn = false) ∧
    start words { plain2V with krookOn := .str "off" } = .error "NotImplementedError" :=
  ⟨⟨⟨false, 2, false, (false, 36, 36), false, false, []⟩, by decide +kernel, rfl⟩, by decide +kernel⟩

/-- Vlasov-1D starts a run of ions with Boltzmann electrons, Vlasov-1D2V ends at its collision operator, which is
off. -/
theorem ions_alone : VlasovDeck.start words { plain2V with field := "poisson-boltzmann", species := some [⟨"ion", 1⟩],
                                                           saves := ["fields", "ion"] } =
      .ok ⟨false, 2, false, (false, 36, 36), false, false, []⟩ ∧
    start words { plain2V with field := "poisson-boltzmann", species := some [⟨"ion", 1⟩], saves := ["fields", "ion"] } =
      .error "KeyError" := by
  constructor <;> decide +kernel

/-- The section `diagnostics` has a default that is not used. -/
theorem diagnostics_needed : (∃ t, validate words { plain2V with diagnostics := none } = .ok t) ∧
    setup { plain2V with diagnostics := none } = .error "KeyError" :=
  ⟨⟨⟨false, 2, false, (false, 36, 36), false, false, []⟩, by decide +kernel⟩, by decide +kernel⟩

end Verif.Vlasov2VDeck

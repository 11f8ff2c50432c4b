import Verif.Props.VlasovInit
import Verif.Lemmas.Dict
import Verif.Props.Fft

/-! C191, C192: species, profiles, neutrality and the initial state of Vlasov-1D. -/
namespace Verif.VlasovInit
open Finset Verif.Spectral

/-! ### Comprehensions and dictionaries -/

theorem collect_ok {α β : Type} (f : α → Except String β) (l : List α) (r : List β) :
    collect f l = .ok r ↔ List.Forall₂ (fun a b => f a = .ok b) l r := by
  induction l generalizing r with
  | nil =>
    constructor
    · intro h
      injection h with h
      subst h
      exact .nil
    · intro h
      cases h
      rfl
  | cons a l ih =>
    unfold collect
    constructor
    · intro h
      split at h
      · cases h
      · next b hb =>
        split at h
        · cases h
        · next bs hbs =>
          injection h with h
          subst h
          exact .cons hb ((ih bs).1 hbs)
    · intro h
      cases h with
      | cons hb ht => rw [hb, (ih _).2 ht]

theorem collect_error {α β : Type} (f : α → Except String β) (l : List α) : (∃ e, collect f l = .error e) ↔ ∃ a ∈ l, ∃ e, f a = .error e := by
  induction l with
  | nil => simp [collect]
  | cons a l ih =>
    unfold collect
    cases ha : f a with
    | error e => simp [ha]
    | ok b =>
      cases hl : collect f l with
      | error e =>
        have := ih.1 ⟨e, hl⟩
        obtain ⟨a', ha', e', he'⟩ := this
        simp only [List.mem_cons]
        exact ⟨fun _ => ⟨a', Or.inr ha', e', he'⟩, fun _ => ⟨e, rfl⟩⟩
      | ok bs =>
        constructor
        · rintro ⟨e, he⟩; cases he
        · rintro ⟨a', ha', e', he'⟩
          rcases List.mem_cons.1 ha' with rfl | h
          · rw [ha] at he'; cases he'
          · obtain ⟨e, he⟩ := ih.2 ⟨a', h, e', he'⟩
            rw [hl] at he; cases he

theorem dictSet_fresh {κ ν : Type} [DecidableEq κ] (d : Dict κ ν) (k : κ) (v : ν) (h : k ∉ dictKeys d) : dictSet d k v = d ++ [(k, v)] := by
  induction d with
  | nil => rfl
  | cons p d ih =>
    obtain ⟨k', v'⟩ := p
    simp only [dictKeys, List.map_cons, List.mem_cons, not_or] at h
    unfold dictSet
    rw [if_neg (fun e => h.1 e.symm), ih h.2]
    rfl

theorem foldl_fresh {α κ ν : Type} [DecidableEq κ] (key : α → κ) (val : α → ν) (l : List α) (d : Dict κ ν)
    (h : (dictKeys d ++ l.map key).Nodup) :
    l.foldl (fun d a => dictSet d (key a) (val a)) d = d ++ l.map fun a => (key a, val a) := by
  induction l generalizing d with
  | nil => simp
  | cons a l ih =>
    rw [List.foldl_cons, List.map_cons]
    have hf : key a ∉ dictKeys d := by
      intro hm
      rw [List.nodup_append] at h
      exact h.2.2 _ hm (key a) (by simp) rfl
    rw [dictSet_fresh _ _ _ hf, ih]
    · simp
    · simpa [dictKeys] using h

/-- Different names: every species is kept, in order. -/
theorem byName_distinct {nx : ℕ} (ls : List (Loaded nx)) (h : (ls.map fun l => l.cfg.name).Nodup) : (byName ls).map Prod.snd = ls := by
  unfold byName
  rw [foldl_fresh (fun l : Loaded nx => l.cfg.name) (fun l => l) ls [] (by simpa [dictKeys] using h)]
  rw [List.nil_append, List.map_map]
  exact List.map_id ls

/-! ### C191: species of the deck -/

/-- C191: a species list is used as it stands. -/
theorem explicit_species (d : Deck) (s : SpeciesCfg) (l : List SpeciesCfg) (h : d.species = some (s :: l)) : speciesSet d = .ok (s :: l) := by
  unfold speciesSet; rw [h]

/-- C191: without a species list (or with an empty one) the run has electrons of charge -1 and mass 1 on the velocity grid of the
deck, made of all the `species-` entries in the order of the deck. -/
theorem legacy_species (d : Deck) (h : d.species = none ∨ d.species = some []) (v : ℝ) (n : ℕ) (hv : d.vmax = some v) (hn : d.nv = some n)
    (hc : ∃ k ∈ d.density.map Prod.fst, "species-".toList <+: k.toList) :
    ∃ s, speciesSet d = .ok [s] ∧ s.name = "electron" ∧ s.charge = -1 ∧ s.mass = 1 ∧ s.vmax = v ∧ s.lower = d.vmin.getD (-v) ∧ s.nv = n ∧
      s.components.Sublist (d.density.map Prod.fst) ∧
      ∀ k, k ∈ s.components ↔ k ∈ d.density.map Prod.fst ∧ "species-".toList <+: k.toList := by
  obtain ⟨k, hk, hp⟩ := hc
  have hne : ((d.density.map Prod.fst).filter fun k => "species-".toList.isPrefixOf k.toList) ≠ [] := by
    intro e
    have : k ∈ ((d.density.map Prod.fst).filter fun k => "species-".toList.isPrefixOf k.toList) :=
      List.mem_filter.2 ⟨hk, List.isPrefixOf_iff_prefix.2 hp⟩
    rw [e] at this
    cases this
  refine ⟨{ name := "electron", charge := -1, mass := 1, vmax := v, vmin := d.vmin, nv := n,
            components := (d.density.map Prod.fst).filter fun k => "species-".toList.isPrefixOf k.toList }, ?_, rfl, rfl, rfl, rfl, rfl, rfl,
          List.filter_sublist, fun k => ?_⟩
  · unfold speciesSet
    rcases h with h | h <;> rw [h] <;> simp only [if_neg hne, hv, hn]
  · dsimp only
    rw [List.mem_filter, List.isPrefixOf_iff_prefix]

/-- C191: a deck without species and without `species-` entries is rejected. -/
theorem no_species (d : Deck) (h : d.species = none ∨ d.species = some []) (hc : ∀ k ∈ d.density.map Prod.fst, ¬ "species-".toList <+: k.toList) :
    speciesSet d = .error "ValueError" := by
  have he : ((d.density.map Prod.fst).filter fun k => "species-".toList.isPrefixOf k.toList) = [] := by
    rw [List.filter_eq_nil_iff]
    intro k hk
    rw [List.isPrefixOf_iff_prefix]
    exact hc k hk
  unfold speciesSet
  rcases h with h | h <;> rw [h] <;> simp only [he, if_true]

/-- C191: `vmin` defaults to `-vmax`. -/
theorem default_vmin (s : SpeciesCfg) (h : s.vmin = none) : s.lower = -s.vmax := by unfold SpeciesCfg.lower; rw [h]; rfl

/-- What a successful set-up consists of. -/
theorem setup_ok {nx : ℕ} (d : Deck) (r : Rng) (x : ZMod nx → ℝ) (st : Setup nx) :
    setup d r x = .ok st ↔ ∃ ss all, speciesSet d = .ok ss ∧ List.Forall₂ (fun s l => load d r x s = .ok l) ss all ∧
      st.loaded = (byName all).map Prod.snd ∧ List.Forall₂ (fun l p => l.kinetic = .ok p) st.loaded st.species ∧
      check st.loaded = none ∧ (st.total = fun i => (st.loaded.map fun l => l.profile i).sum) ∧
      st.background = fun i => if 1 < ss.length then 0 else st.total i := by
  unfold setup
  constructor
  · intro h
    split at h
    · cases h
    · next ss hss =>
      split at h
      · cases h
      · next all hall =>
        dsimp only at h
        split at h
        · cases h
        · next sp hsp =>
          split at h
          · cases h
          · next hck =>
            injection h with h
            subst h
            exact ⟨ss, all, hss, (collect_ok _ _ _).1 hall, rfl, (collect_ok _ _ _).1 hsp, hck, rfl, rfl⟩
  · rintro ⟨ss, all, h1, h2, h3, h4, h5, h6, h7⟩
    rw [h1]
    dsimp only
    rw [(collect_ok _ _ _).2 h2]
    dsimp only
    rw [← h3, (collect_ok _ _ _).2 h4]
    dsimp only
    rw [h5]
    dsimp only
    obtain ⟨a, b, c, e⟩ := st
    dsimp only at *
    subst h6
    subst h7
    rfl

theorem load_cfg {nx : ℕ} {d : Deck} {r : Rng} {x : ZMod nx → ℝ} {s : SpeciesCfg} {l : Loaded nx} (h : load d r x s = .ok l) :
    l.cfg = s ∧ List.Forall₂ (fun name c => component d r x name = .ok c) s.components l.comps := by
  unfold load at h
  split at h
  · cases h
  · next cs hcs =>
    injection h with h
    subst h
    exact ⟨rfl, (collect_ok _ _ _).1 hcs⟩

/-- C191: the numbers of a kinetic species are those of the deck. -/
theorem kinetic_cfg {nx : ℕ} {l : Loaded nx} {p : String × Species nx} (h : l.kinetic = .ok p) :
    p.1 = l.cfg.name ∧ p.2.charge = l.cfg.charge ∧ p.2.mass = l.cfg.mass ∧ p.2.nv = l.cfg.nv ∧
      p.2.dv = (l.cfg.vmax - l.cfg.lower) / l.cfg.nv := by
  unfold Loaded.kinetic at h
  split at h
  · cases h
  · injection h with h
    subst h
    exact ⟨rfl, rfl, rfl, rfl, rfl⟩

/-- C191: a component that the deck does not define stops the set-up. -/
theorem missing_component {nx : ℕ} (d : Deck) (r : Rng) (x : ZMod nx → ℝ) (s : SpeciesCfg) (l : List SpeciesCfg) (h : d.species = some l) (hs : s ∈ l)
    (k : String) (hk : k ∈ s.components) (hm : k ∉ d.density.map Prod.fst) : ∃ e, setup d r x = .error e := by
  cases hst : setup d r x with
  | error e => exact ⟨e, rfl⟩
  | ok st =>
    obtain ⟨ss, all, h1, h2, -⟩ := (setup_ok d r x st).1 hst
    have hss : ss = l := by
      cases l with
      | nil => cases hs
      | cons a l =>
        rw [explicit_species d a l h] at h1
        injection h1 with h1
        exact h1.symm
    subst hss
    exfalso
    have : ∃ l', load d r x s = .ok l' := by
      clear hst h1 h
      induction h2 with
      | nil => cases hs
      | cons hb _ ih =>
        rcases List.mem_cons.1 hs with rfl | h
        · exact ⟨_, hb⟩
        · exact ih h
    obtain ⟨l', hl'⟩ := this
    have hf := (load_cfg hl').2
    have : ∃ c, component d r x k = .ok c := by
      clear hl'
      generalize s.components = names at hk hf
      generalize l'.comps = cs at hf
      induction hf with
      | nil => cases hk
      | cons hb _ ih =>
        rcases List.mem_cons.1 hk with rfl | h
        · exact ⟨_, hb⟩
        · exact ih h
    obtain ⟨c, hc⟩ := this
    unfold component at hc
    rw [(dictGet_none_iff d.density k).2 hm] at hc
    cases hc

/-- C191: every simulated species has a component: a species with an empty component list stops the set-up. -/
theorem setup_components {nx : ℕ} (d : Deck) (r : Rng) (x : ZMod nx → ℝ) (st : Setup nx) (h : setup d r x = .ok st) :
    ∀ l ∈ st.loaded, l.comps ≠ [] ∧ l.cfg.components ≠ [] := by
  obtain ⟨ss, all, -, h2, h3, -, h5, -⟩ := (setup_ok d r x st).1 h
  have hc : ∀ l ∈ st.loaded, l.comps ≠ [] := by
    intro l hl e
    unfold check at h5
    split at h5
    · cases h5
    · split at h5
      · cases h5
      · next hn =>
        apply hn
        rw [List.any_eq_true]
        exact ⟨l, hl, by rw [e]; rfl⟩
  intro l hl
  refine ⟨hc l hl, fun e => ?_⟩
  have hmem : ∃ s ∈ ss, load d r x s = .ok l := by
    have hall : l ∈ all := by
      rw [h3] at hl
      obtain ⟨q, hq, rfl⟩ := List.mem_map.1 hl
      have key : ∀ (ls : List (Loaded nx)) (d0 : Dict String (Loaded nx)), q ∈ ls.foldl (fun d l => dictSet d l.cfg.name l) d0 →
          q ∈ d0 ∨ q.2 ∈ ls := by
        intro ls
        induction ls with
        | nil => intro d0 hq; exact Or.inl hq
        | cons a ls ih =>
          intro d0 hq
          rcases ih _ hq with h | h
          · have sub : ∀ (d1 : Dict String (Loaded nx)), q ∈ dictSet d1 a.cfg.name a → q ∈ d1 ∨ q.2 = a := by
              intro d1
              induction d1 with
              | nil =>
                intro h
                unfold dictSet at h
                exact Or.inr (by rw [List.mem_singleton.1 h])
              | cons b d1 ih1 =>
                obtain ⟨kb, vb⟩ := b
                intro h
                unfold dictSet at h
                split at h
                · rcases List.mem_cons.1 h with h | h
                  · exact Or.inr (by rw [h])
                  · exact Or.inl (List.mem_cons_of_mem _ h)
                · rcases List.mem_cons.1 h with h | h
                  · exact Or.inl (by rw [h]; exact List.mem_cons_self)
                  · rcases ih1 h with h | h
                    · exact Or.inl (List.mem_cons_of_mem _ h)
                    · exact Or.inr h
            rcases sub _ h with h | h
            · exact Or.inl h
            · exact Or.inr (by rw [h]; exact List.mem_cons_self)
          · exact Or.inr (List.mem_cons_of_mem _ h)
      rcases key all [] hq with h | h
      · cases h
      · exact h
    clear h3 h5 hc hl h
    induction h2 with
    | nil => cases hall
    | cons hb _ ih =>
      rcases List.mem_cons.1 hall with rfl | h
      · exact ⟨_, List.mem_cons_self, hb⟩
      · obtain ⟨s, hs, h'⟩ := ih h
        exact ⟨s, List.mem_cons_of_mem _ hs, h'⟩
  obtain ⟨s, -, hs⟩ := hmem
  obtain ⟨h1, h2⟩ := load_cfg hs
  rw [h1] at e
  rw [e] at h2
  cases hl' : l.comps with
  | nil => exact hc l hl hl'
  | cons a b => rw [hl'] at h2; cases h2

/-- C190: the distribution of every simulated species is the sum over its components of the profile times the super-Gaussian of
that component with the mass of the species, normalised on the velocity grid of the species. -/
theorem setup_distribution {nx : ℕ} (hnx : 1 < nx) (d : Deck) (r : Rng) (x : ZMod nx → ℝ) (st : Setup nx) (h : setup d r x = .ok st) :
    List.Forall₂ (fun (l : Loaded nx) p => ∀ i j, p.2.f i j = (l.comps.map fun c => c.n i *
      (shape c.v0 c.m c.T0 l.cfg.mass (p.2.v j) / (∑ k ∈ range l.cfg.nv, shape c.v0 c.m c.T0 l.cfg.mass (vax l.cfg.lower l.cfg.vmax l.cfg.nv k)) /
        p.2.dv)).sum) st.loaded st.species := by
  obtain ⟨ss, all, -, -, -, h4, -⟩ := (setup_ok d r x st).1 h
  refine h4.imp fun l p hp => ?_
  unfold Loaded.kinetic at hp
  split at hp
  · cases hp
  · injection hp with hp
    subst hp
    intro i j
    show l.f i j.val = _
    unfold Loaded.f Comp.f unit
    simp only [if_pos hnx]

/-! ### C191: densities and neutrality -/

/-- C191: every kinetic species of the set-up has the density of its profile, exactly, on every grid with at least two cells. -/
theorem setup_density {nx : ℕ} (hnx : 1 < nx) (d : Deck) (r : Rng) (x : ZMod nx → ℝ) (st : Setup nx) (h : setup d r x = .ok st)
    (hv : ∀ l ∈ st.loaded, l.cfg.lower < l.cfg.vmax) :
    List.Forall₂ (fun (l : Loaded nx) p => p.2.charge = l.cfg.charge ∧ ∀ i, p.2.density i = l.profile i) st.loaded st.species := by
  obtain ⟨ss, all, -, -, -, h4, -⟩ := (setup_ok d r x st).1 h
  revert hv
  generalize st.loaded = ls at *
  generalize st.species = sp at *
  clear h
  intro hv
  induction h4 with
  | nil => exact .nil
  | cons hb _ ih =>
    refine .cons ⟨(kinetic_cfg hb).2.1, fun i => species_density hnx _ (hv _ (by simp)) _ hb i⟩ (ih fun l hl => hv l (by simp [hl]))

theorem charge_sum {nx : ℕ} (ls : List (Loaded nx)) (sp : List (String × Species nx))
    (h : List.Forall₂ (fun (l : Loaded nx) p => p.2.charge = l.cfg.charge ∧ ∀ i, p.2.density i = l.profile i) ls sp) (i : ZMod nx) :
    ((sp.map Prod.snd).map fun s => s.charge * s.density i).sum = (ls.map fun l => l.cfg.charge * l.profile i).sum := by
  induction h with
  | nil => rfl
  | cons hb _ ih =>
    simp only [List.map_cons, List.sum_cons]
    rw [hb.1, hb.2 i, ih]

/-- C191: the charge density the field solver sees at the start, for several species: no background is added. -/
theorem charge_many {nx : ℕ} (hnx : 1 < nx) (d : Deck) (r : Rng) (x : ZMod nx → ℝ) (st : Setup nx) (h : setup d r x = .ok st)
    (hv : ∀ l ∈ st.loaded, l.cfg.lower < l.cfg.vmax) (ss : List SpeciesCfg) (hss : speciesSet d = .ok ss) (h2 : 1 < ss.length) (i : ZMod nx) :
    chargeDensity (st.species.map Prod.snd) st.background i = (st.loaded.map fun l => l.cfg.charge * l.profile i).sum := by
  unfold chargeDensity
  rw [charge_sum _ _ (setup_density hnx d r x st h hv) i]
  obtain ⟨ss', all, h1, -, -, -, -, -, h7⟩ := (setup_ok d r x st).1 h
  rw [hss] at h1
  injection h1 with h1
  subst h1
  rw [h7]
  simp [h2]

/-- C191: with one species of charge `q` the start has the charge `(1 + q) n`: the background is the profile of the species with
charge +1. -/
theorem charge_one {nx : ℕ} (hnx : 1 < nx) (d : Deck) (r : Rng) (x : ZMod nx → ℝ) (st : Setup nx) (h : setup d r x = .ok st)
    (hv : ∀ l ∈ st.loaded, l.cfg.lower < l.cfg.vmax) (s : SpeciesCfg) (hss : speciesSet d = .ok [s]) (i : ZMod nx) :
    chargeDensity (st.species.map Prod.snd) st.background i = (1 + s.charge) * st.total i := by
  unfold chargeDensity
  rw [charge_sum _ _ (setup_density hnx d r x st h hv) i]
  obtain ⟨ss', all, h1, h2, h3, -, -, h6, h7⟩ := (setup_ok d r x st).1 h
  rw [hss] at h1
  injection h1 with h1
  subst h1
  cases h2 with
  | cons hb ht =>
    rename_i l1 _
    cases ht
    have hl : st.loaded = [l1] := by rw [h3, byName_distinct _ (by simp)]
    rw [h7, h6, hl]
    simp only [List.map_cons, List.map_nil, List.sum_cons, List.sum_nil, (load_cfg hb).1]
    simp
    ring

/-- C191: a run with electrons alone starts exactly neutral, cell by cell, and the field of its charge is zero. -/
theorem electrons_neutral {nx : ℕ} [NeZero nx] (hnx : 1 < nx) (d : Deck) (r : Rng) (x : ZMod nx → ℝ) (st : Setup nx) (h : setup d r x = .ok st)
    (hv : ∀ l ∈ st.loaded, l.cfg.lower < l.cfg.vmax) (s : SpeciesCfg) (hss : speciesSet d = .ok [s]) (hq : s.charge = -1) (dx : ℝ) (i : ZMod nx) :
    chargeDensity (st.species.map Prod.snd) st.background i = 0 ∧
      poisson dx (chargeDensity (st.species.map Prod.snd) st.background) i = 0 := by
  have z : ∀ i, chargeDensity (st.species.map Prod.snd) st.background i = 0 := fun i => by
    rw [charge_one hnx d r x st h hv s hss, hq]; ring
  refine ⟨z i, ?_⟩
  have e : chargeDensity (st.species.map Prod.snd) st.background = fun _ => 0 := funext z
  rw [e]
  unfold poisson
  have : fft (fun _ : ZMod nx => ((0 : ℝ) : ℂ)) = 0 := by
    unfold fft
    have : (fun _ : ZMod nx => ((0 : ℝ) : ℂ)) = 0 := by funext; simp
    rw [this, map_zero]
  rw [this]
  unfold ifft
  have e0 : (fun k : ZMod nx => -Complex.I * (oneOverK dx k : ℂ) * (0 : ZMod nx → ℂ) k) = 0 := by funext k; simp
  rw [e0, map_zero]
  simp

/-- A single species that is not an electron does not start neutral: with charge +1 the charge is twice its profile. -/
theorem ions_not_neutral_partial {nx : ℕ} (hnx : 1 < nx) (d : Deck) (r : Rng) (x : ZMod nx → ℝ) (st : Setup nx) (h : setup d r x = .ok st)
    (hv : ∀ l ∈ st.loaded, l.cfg.lower < l.cfg.vmax) (s : SpeciesCfg) (hss : speciesSet d = .ok [s]) (i : ZMod nx) (hi : st.total i ≠ 0) :
    chargeDensity (st.species.map Prod.snd) st.background i = 0 ↔ s.charge = -1 := by
  rw [charge_one hnx d r x st h hv s hss]
  constructor
  · intro h
    rcases mul_eq_zero.1 h with h | h
    · linarith
    · exact absurd h hi
  · intro h; rw [h]; ring

/-- The option `density.quasineutrality` has no effect. -/
theorem quasineutrality_ignored_partial {nx : ℕ} (d : Deck) (b : Bool) (r : Rng) (x : ZMod nx → ℝ) :
    setup { d with quasineutral := b } r x = setup d r x := rfl

/-- Two species of the same name: only the last is simulated, and without a background. -/
theorem duplicate_name_partial {nx : ℕ} (d : Deck) (r : Rng) (x : ZMod nx → ℝ) (st : Setup nx) (h : setup d r x = .ok st)
    (s1 s2 : SpeciesCfg) (hss : d.species = some [s1, s2]) (hn : s1.name = s2.name) :
    (∃ l, load d r x s2 = .ok l ∧ st.loaded = [l]) ∧ st.species.length = 1 ∧ ∀ i, st.background i = 0 := by
  obtain ⟨ss', all, h1, h2, h3, h4, -, -, h7⟩ := (setup_ok d r x st).1 h
  rw [explicit_species d s1 [s2] hss] at h1
  injection h1 with h1
  subst h1
  cases h2 with
  | cons hb ht =>
    rename_i l1 _
    cases ht with
    | cons hb2 ht2 =>
      rename_i l2 _
      cases ht2
      have e : st.loaded = [l2] := by
        rw [h3]
        unfold byName
        simp only [List.foldl_cons, List.foldl_nil]
        rw [(load_cfg hb).1, (load_cfg hb2).1, hn]
        simp [dictSet]
      refine ⟨⟨l2, hb2, e⟩, ?_, fun i => ?_⟩
      · have := h4.length_eq
        rw [← this, e]
        rfl
      · rw [h7]; simp

/-! ### C192: profiles -/

/-- C192: the profiles without noise are the documented functions. -/
theorem profiles (x : ℝ) (env : Driver.Envelope) (b c l a k : ℝ) :
    (∃ p, (Basis.uniform none none).eval = .ok p ∧ p x = 1) ∧ (∃ p, (Basis.uniform (some b) none).eval = .ok p ∧ p x = b) ∧
      (∃ p, (Basis.tanh env).eval = .ok p ∧ p x = env.eval x) ∧
      (∃ p, (Basis.linear c l a env).eval = .ok p ∧ p x = env.eval x * (a + (x - c) / l)) ∧
      (∃ p, (Basis.exponential c l a env).eval = .ok p ∧ p x = env.eval x * (a * Real.exp ((x - c) / l))) ∧
      (∃ p, (Basis.sine b a k).eval = .ok p ∧ p x = b * (1 + a * Real.sin (k * x))) :=
  ⟨⟨_, rfl, by simp⟩, ⟨_, rfl, by simp⟩, ⟨_, rfl, by simp⟩, ⟨_, rfl, rfl⟩, ⟨_, rfl, rfl⟩, ⟨_, rfl, rfl⟩⟩

/-- The entry `space-profile` of a uniform component is accepted and ignored. -/
theorem space_profile_ignored_partial (b : Option ℝ) (e : Option Driver.Envelope) : (Basis.uniform b e).eval = (Basis.uniform b none).eval := rfl

/-- C192: an unknown basis stops the set-up. -/
theorem unknown_basis {nx : ℕ} (c : CompCfg) (name : String) (h : c.basis = .other name) (r : Rng) (x : ZMod nx → ℝ) :
    c.toComp r x = .error "NotImplementedError" := by
  unfold CompCfg.toComp
  rw [h]
  rfl

/-- C192: the noise is relative: uniform noise of size `a` moves the density by at most `a` times its value, noise of any other
type than uniform and gaussian is none, and noise of size zero is none. -/
theorem noise_bounds {nx : ℕ} (c : CompCfg) (r : Rng) (hr : ∀ s i, |r.uniform s i| ≤ 1) (x : ZMod nx → ℝ) (p : ℝ → ℝ) (hp : c.basis.eval = .ok p) (q : Comp nx)
    (hq : c.toComp r x = .ok q) (i : ZMod nx) :
    (c.noise = .uniform → |q.n i - p (x i)| ≤ |c.noiseVal| * |p (x i)|) ∧ (c.noise = .other → q.n i = p (x i)) ∧
      (c.noiseVal = 0 → q.n i = p (x i)) ∧ q.v0 = c.v0 ∧ q.T0 = c.T0 ∧ q.m = c.m := by
  unfold CompCfg.toComp at hq
  rw [hp] at hq
  injection hq with hq
  subst hq
  dsimp only
  refine ⟨fun h => ?_, fun h => ?_, fun h => ?_, rfl, rfl, rfl⟩
  · unfold CompCfg.noiseAt
    rw [h]
    dsimp only
    rw [show p (x i) * (1 + c.noiseVal * r.uniform c.seed i.val) - p (x i) = c.noiseVal * p (x i) * r.uniform c.seed i.val by ring, abs_mul, abs_mul]
    exact mul_le_of_le_one_right (by positivity) (hr _ _)
  · unfold CompCfg.noiseAt
    rw [h]
    simp
  · unfold CompCfg.noiseAt
    rw [h]
    cases c.noise <;> simp

/-- C192: relative noise below one keeps a positive density positive. -/
theorem noise_positive {nx : ℕ} (c : CompCfg) (r : Rng) (hr : ∀ s i, |r.uniform s i| ≤ 1) (x : ZMod nx → ℝ) (p : ℝ → ℝ) (hp : c.basis.eval = .ok p) (q : Comp nx)
    (hq : c.toComp r x = .ok q) (i : ZMod nx) (hu : c.noise = .uniform) (ha : |c.noiseVal| < 1) (hpos : 0 < p (x i)) : 0 < q.n i := by
  have h := (noise_bounds c r hr x p hp q hq i).1 hu
  rw [abs_of_pos hpos] at h
  have := (abs_le.1 h).1
  nlinarith

/-! ### C192: the state -/

theorem setAll_get {ν : Type} (l : List (String × ν)) (d : Dict String ν) (k : String) (h : k ∉ l.map Prod.fst) : dictGet (setAll d l) k = dictGet d k := by
  unfold setAll
  induction l generalizing d with
  | nil => rfl
  | cons p l ih =>
    simp only [List.map_cons, List.mem_cons, not_or] at h
    rw [List.foldl_cons, ih _ h.2, dictGet_set_ne _ _ _ _ (fun e => h.1 e.symm)]

theorem setAll_nodup {ν : Type} (l : List (String × ν)) (h : (l.map Prod.fst).Nodup) : setAll [] l = l := by
  unfold setAll
  rw [foldl_fresh (fun p : String × ν => p.1) (fun p => p.2) l [] (by simpa [dictKeys] using h)]
  simp

/-- The names the solver uses for its own entries. -/
def reserved : List String := ["e", "de", "a", "da", "prev_a", "diag-vlasov-dfdt", "diag-fp-dfdt"]

theorem dict_of_mem {ν : Type} (l : List (String × ν)) (h : (l.map Prod.fst).Nodup) (p : String × ν) (hp : p ∈ l) : dictGet l p.1 = some p.2 :=
  dictGet_of_mem (d := l) h hp

/-- C192: the state holds the distribution of every species whose name is not one of the solver's own, and starts with zero fields,
zero vector potential with two boundary cells, and zero diagnostics exactly if they are switched on. -/
theorem state_entries {nx : ℕ} (species : List (String × Species nx)) (h : (species.map Prod.fst).Nodup) (vl fp : Bool) :
    (∀ p ∈ species, p.1 ∉ reserved → dictGet (initState species vl fp) p.1 = some (.dist p.2)) ∧
      dictGet (initState species vl fp) "e" = some (.zeros [nx]) ∧ dictGet (initState species vl fp) "de" = some (.zeros [nx]) ∧
      dictGet (initState species vl fp) "a" = some (.zeros [nx + 2]) ∧ dictGet (initState species vl fp) "da" = some (.zeros [nx + 2]) ∧
      dictGet (initState species vl fp) "prev_a" = some (.zeros [nx + 2]) := by
  have hn : ((species.map fun p => (p.1, Entry.dist p.2)).map Prod.fst).Nodup := by
    rw [List.map_map]; exact h
  refine ⟨fun p hp hr => ?_, ?_, ?_, ?_, ?_, ?_⟩
  · have g : dictGet (species.map fun p => (p.1, Entry.dist p.2)) p.1 = some (Entry.dist p.2) :=
      dict_of_mem _ hn (p.1, Entry.dist p.2) (List.mem_map.2 ⟨p, hp, rfl⟩)
    unfold initState
    dsimp only
    rw [setAll_nodup _ hn]
    simp only [reserved, List.mem_cons, not_or, List.not_mem_nil, not_false_eq_true, and_true] at hr
    obtain ⟨h1, h2, h3, h4, h5, h6, h7⟩ := hr
    have base : dictGet (setAll (setAll (species.map fun p => (p.1, Entry.dist p.2)) [("e", Entry.zeros [nx]), ("de", .zeros [nx])])
        [("a", .zeros [nx + 2]), ("da", .zeros [nx + 2]), ("prev_a", .zeros [nx + 2])]) p.1 = some (Entry.dist p.2) := by
      rw [setAll_get _ _ _ (by simp [h3, h4, h5]), setAll_get _ _ _ (by simp [h1, h2]), g]
    cases vl <;> cases fp <;> simp only [if_true, Bool.false_eq_true, if_false]
    · exact base
    · rw [dictGet_set_ne _ _ _ _ (fun e => h7 e.symm)]; exact base
    · rw [dictGet_set_ne _ _ _ _ (fun e => h6 e.symm)]; exact base
    · rw [dictGet_set_ne _ _ _ _ (fun e => h7 e.symm), dictGet_set_ne _ _ _ _ (fun e => h6 e.symm)]; exact base
  all_goals
    unfold initState
    dsimp only
    cases vl <;> cases fp <;> simp [setAll, dictGet_set]

/-- C192: the diagnostics are part of the state exactly if they are switched on. -/
theorem state_diagnostics {nx : ℕ} (species : List (String × Species nx)) (h : (species.map Prod.fst).Nodup) (vl fp : Bool)
    (hr : ∀ p ∈ species, p.1 ∉ reserved) :
    (dictGet (initState species vl fp) "diag-vlasov-dfdt").isSome = vl ∧ (dictGet (initState species vl fp) "diag-fp-dfdt").isSome = fp := by
  have hn : ((species.map fun p => (p.1, Entry.dist p.2)).map Prod.fst).Nodup := by
    rw [List.map_map]; exact h
  have g : ∀ k ∈ reserved, dictGet (species.map fun p => (p.1, Entry.dist p.2)) k = none := by
    intro k hk
    rw [dictGet_none_iff]
    intro hm
    unfold dictKeys at hm
    rw [List.map_map] at hm
    obtain ⟨p, hp, e⟩ := List.mem_map.1 hm
    exact hr p hp (by rw [show p.1 = k from e]; exact hk)
  have g1 := g "diag-vlasov-dfdt" (by simp [reserved])
  have g2 := g "diag-fp-dfdt" (by simp [reserved])
  unfold initState
  dsimp only
  rw [setAll_nodup _ hn]
  cases vl <;> cases fp <;> simp [setAll, dictGet_set, g1, g2]

/-- C192: the diagnostics have the velocities of the species called electron, or of the first species without one. -/
theorem diag_size {nx : ℕ} (species : List (String × Species nx)) (s : Species nx)
    (h : dictGet species "electron" = some s ∨ dictGet species "electron" = none ∧ species.head?.map Prod.snd = some s) :
    dictGet (initState species true true) "diag-vlasov-dfdt" = some (.zeros [nx, s.nv]) ∧
      dictGet (initState species true true) "diag-fp-dfdt" = some (.zeros [nx, s.nv]) := by
  have e : ((dictGet species "electron").or (species.head?.map Prod.snd)) = some s := by
    rcases h with h | ⟨h, h'⟩
    · rw [h]; rfl
    · rw [h, h']; rfl
  unfold initState
  dsimp only
  rw [e]
  simp [dictGet_set]

/-- With ions first, the diagnostics have the velocities of the electrons. -/
example (a b : Species 4) : dictGet (initState [("ion", a), ("electron", b)] true true) "diag-fp-dfdt" = some (.zeros [4, b.nv]) :=
  (diag_size _ b (Or.inl (by rfl))).2

/-- A species named like a field loses its distribution: it is overwritten with zeros. -/
theorem reserved_name_partial {nx : ℕ} (s : Species nx) (vl fp : Bool) : dictGet (initState [("e", s)] vl fp) "e" = some (.zeros [nx]) := by
  have := (state_entries [("e", s)] (by simp) vl fp).2.1
  exact this

/-! ### Examples -/

/-- A background with a bump of fast electrons. -/
noncomputable def demo : Deck where
  species := none
  density := [("species-background", ⟨.uniform none none, .uniform, 1 / 100, 42, 0, 1, 2⟩), ("species-beam", ⟨.sine (1 / 10) (1 / 2) 1, .other, 0, 7, 3, 1 / 4, 3⟩)]
  quasineutral := true
  vmax := some 6
  vmin := none
  nv := some 8

/-- The electrons of the example. -/
noncomputable def demoSpecies : SpeciesCfg :=
  { name := "electron", charge := -1, mass := 1, vmax := 6, vmin := none, nv := 8, components := ["species-background", "species-beam"] }

theorem demo_species : speciesSet demo = .ok [demoSpecies] := by
  unfold speciesSet demo demoSpecies
  have : ((["species-background", "species-beam"] : List String).filter fun k => "species-".toList.isPrefixOf k.toList) =
      ["species-background", "species-beam"] := by decide +kernel
  simp only [List.map_cons, List.map_nil, this]
  rw [if_neg (by simp)]

theorem demo_ok (r : Rng) (x : ZMod 4 → ℝ) : ∃ st, setup demo r x = .ok st ∧ ∀ l ∈ st.loaded, l.cfg.lower < l.cfg.vmax := by
  have hb : ∃ c : Comp 4, component demo r x "species-background" = .ok c := ⟨_, rfl⟩
  have hc : ∃ c : Comp 4, component demo r x "species-beam" = .ok c := ⟨_, rfl⟩
  obtain ⟨b, hb⟩ := hb
  obtain ⟨c, hc⟩ := hc
  let l : Loaded 4 := ⟨demoSpecies, [b, c]⟩
  have hl : load demo r x demoSpecies = .ok l := by
    unfold load
    have : collect (component demo r x) demoSpecies.components = .ok [b, c] := (collect_ok _ _ _).2 (.cons hb (.cons hc .nil))
    rw [this]
  have hk : ∃ p, l.kinetic = .ok p := ⟨_, rfl⟩
  obtain ⟨p, hp⟩ := hk
  refine ⟨⟨[l], [p], _, _⟩, (setup_ok demo r x _).2 ⟨[demoSpecies], [l], demo_species, .cons hl .nil, ?_, .cons hp .nil, rfl, rfl, rfl⟩, ?_⟩
  · exact (byName_distinct [l] (by simp)).symm
  · intro l' hl'
    rw [List.mem_singleton.1 hl']
    show -6 < (6 : ℝ)
    norm_num

/-- The example has components and a distribution. -/
example (r : Rng) (x : ZMod 4 → ℝ) : ∃ st, setup demo r x = .ok st ∧ ∀ l ∈ st.loaded, l.comps ≠ [] := by
  obtain ⟨st, h, -⟩ := demo_ok r x
  exact ⟨st, h, fun l hl => (setup_components demo r x st h l hl).1⟩

/-- The example starts neutral. -/
example (r : Rng) (x : ZMod 4 → ℝ) (i : ZMod 4) : ∃ st, setup demo r x = .ok st ∧ chargeDensity (st.species.map Prod.snd) st.background i = 0 := by
  obtain ⟨st, h, hv⟩ := demo_ok r x
  exact ⟨st, h, (electrons_neutral (by norm_num) demo r x st h hv demoSpecies demo_species rfl 1 i).1⟩

end Verif.VlasovInit

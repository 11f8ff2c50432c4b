import Verif.Model.OsirisCanned
import Mathlib.Tactic.Linarith
import Mathlib.Tactic.NormNum
import Mathlib.Tactic.Push

/-!
The standard figures of an OSIRIS run (C221).
-/
namespace Verif.OsirisCanned
open Verif

/-! ### Specification -/

/-- The figures a run should have. -/
def Wanted (r : Run) : Key → Prop
  | .spacetime c | .spacetimeLog c | .lineouts c | .omegaK c => ∃ d ∈ r.fields, d.name = c ∧ ∃ nt, d.series = some (2, nt)
  | .currentsSpacetime | .currentsLineouts => r.currents = true
  | .moment s q | .momentLog s q | .momentLineouts s q =>
    ∃ d ∈ r.moments, d.name = s ∧ d.sub = q ∧ ∃ nt, d.series = some (2, nt)
  | .density s => ∃ b, (s, true, b) ∈ r.species
  | .temperature s => ∃ b, (s, b, true) ∈ r.species
  | .phase s p | .phaseEvolution s p => ∃ d ∈ r.phases, d.name = s ∧ d.sub = p ∧ ∃ nt, d.series = some (3, nt) ∧ 1 ≤ nt
  | .decomposition c => c ∈ r.split
  | .energy | .components | .epw => True
  | .total | .partition => r.hist = true

/-- Whether an exception while drawing a figure is caught. -/
def Caught : Key → Exc → Prop
  | .spacetime _, _ | .spacetimeLog _, _ | .lineouts _, _ | .omegaK _, _ | .moment _ _, _ | .momentLog _ _, _
  | .momentLineouts _ _, _ | .phase _ _, _ => False
  | .energy, e | .components, e | .epw, e => e = .io
  | _, _ => True

/-! ### Blocks -/

theorem drawFigs_ok (out : Key → Option Exc) (l : List Key) (h : ∀ k ∈ l, out k = none) : drawFigs out l = (l, none) := by
  induction l with
  | nil => rfl
  | cons k l ih => rw [drawFigs, h k (by simp)]; simp only; rw [ih fun x hx => h x (by simp [hx])]

theorem drawFigs_mem (out : Key → Option Exc) (l : List Key) (k : Key) (h : k ∈ (drawFigs out l).1) : k ∈ l ∧ out k = none := by
  induction l with
  | nil => simp [drawFigs] at h
  | cons a l ih =>
    rw [drawFigs] at h
    cases ha : out a with
    | some e => rw [ha] at h; simp at h
    | none =>
      rw [ha] at h
      rcases List.mem_cons.1 h with rfl | h
      · exact ⟨by simp, ha⟩
      · exact ⟨by simp [(ih h).1], (ih h).2⟩

theorem drawFigs_some (out : Key → Option Exc) (l : List Key) (e : Exc) (h : (drawFigs out l).2 = some e) :
    ∃ k ∈ l, out k = some e := by
  induction l with
  | nil => simp [drawFigs] at h
  | cons a l ih =>
    rw [drawFigs] at h
    cases ha : out a with
    | some e' => rw [ha] at h; exact ⟨a, by simp, by rw [ha]; exact h⟩
    | none =>
      rw [ha] at h
      obtain ⟨k, h1, h2⟩ := ih h
      exact ⟨k, by simp [h1], h2⟩

theorem drawFigs_none (out : Key → Option Exc) (l : List Key) (h : (drawFigs out l).2 = none) : ∀ k ∈ l, out k = none := by
  induction l with
  | nil => simp
  | cons a l ih =>
    rw [drawFigs] at h
    cases ha : out a with
    | some e' => rw [ha] at h; simp at h
    | none =>
      rw [ha] at h
      intro k hk
      rcases List.mem_cons.1 hk with rfl | hk
      · exact ha
      · exact ih h k hk

/-- A block whose exception, if it has one, is caught. -/
def Fine (out : Key → Option Exc) (b : Block) : Prop := ∀ e, (drawFigs out b.figs).2 = some e → b.guard.catches e = true

theorem runBlocks_fine (out : Key → Option Exc) (b : Block) (bs : List Block) (h : Fine out b) :
    runBlocks out (b :: bs) = ((drawFigs out b.figs).1 ++ (runBlocks out bs).1, (runBlocks out bs).2) := by
  rw [runBlocks]
  split
  · rfl
  · rename_i e he
    rw [if_pos (h e he)]

theorem runBlocks_none (out : Key → Option Exc) (bs : List Block) :
    (runBlocks out bs).2 = none ↔ ∀ b ∈ bs, Fine out b := by
  induction bs with
  | nil => simp [runBlocks]
  | cons b bs ih =>
    by_cases h : Fine out b
    · rw [runBlocks_fine _ _ _ h]; simp only; rw [ih]; simp [h]
    · constructor
      · intro h2
        exfalso
        apply h
        intro e he
        by_contra hc
        rw [runBlocks, he] at h2
        simp only at h2
        rw [if_neg hc] at h2
        simp at h2
      · intro h2; exact absurd (h2 b (by simp)) h

theorem runBlocks_mem (out : Key → Option Exc) (bs : List Block) (h : ∀ b ∈ bs, Fine out b) (k : Key) :
    k ∈ (runBlocks out bs).1 ↔ ∃ b ∈ bs, k ∈ (drawFigs out b.figs).1 := by
  induction bs with
  | nil => simp [runBlocks]
  | cons b bs ih =>
    rw [runBlocks_fine _ _ _ (h b (by simp))]
    simp only [List.mem_append]
    rw [ih fun x hx => h x (by simp [hx])]
    simp

theorem runBlocks_sound (out : Key → Option Exc) (bs : List Block) (k : Key) (h : k ∈ (runBlocks out bs).1) :
    ∃ b ∈ bs, k ∈ (drawFigs out b.figs).1 := by
  induction bs with
  | nil => simp [runBlocks] at h
  | cons b bs ih =>
    by_cases hf : Fine out b
    · rw [runBlocks_fine _ _ _ hf] at h
      rcases List.mem_append.1 h with h | h
      · exact ⟨b, by simp, h⟩
      · obtain ⟨c, h1, h2⟩ := ih h; exact ⟨c, by simp [h1], h2⟩
    · unfold Fine at hf
      push Not at hf
      obtain ⟨e, he, hc⟩ := hf
      rw [runBlocks, he] at h
      simp only at h
      rw [if_neg hc] at h
      exact ⟨b, by simp, h⟩

theorem runBlocks_stop (out : Key → Option Exc) (bs cs : List Block) (h : (runBlocks out bs).2 ≠ none) :
    runBlocks out (bs ++ cs) = runBlocks out bs := by
  induction bs with
  | nil => simp [runBlocks] at h
  | cons b bs ih =>
    by_cases hf : Fine out b
    · rw [runBlocks_fine _ _ _ hf] at h
      rw [List.cons_append, runBlocks_fine _ _ _ hf, runBlocks_fine _ _ _ hf, ih h]
    · unfold Fine at hf
      push Not at hf
      obtain ⟨e, he, hc⟩ := hf
      rw [List.cons_append, runBlocks, runBlocks, he]
      simp only
      rw [if_neg hc, if_neg hc]

/-! ### The blocks of a run -/

theorem fieldBlock_some (d : Diag) (b : Block) :
    fieldBlock d = some b ↔ (∃ nt, d.series = some (2, nt)) ∧
      b = ⟨.bare, [.spacetime d.name, .spacetimeLog d.name, .lineouts d.name, .omegaK d.name]⟩ := by
  unfold fieldBlock
  split
  · rename_i nt h
    rw [h]
    constructor
    · intro h; exact ⟨⟨nt, rfl⟩, (Option.some.inj h).symm⟩
    · rintro ⟨-, rfl⟩; rfl
  · rename_i h
    constructor
    · intro h; cases h
    · rintro ⟨⟨nt, h2⟩, -⟩; exact absurd h2 (h nt)

theorem momentBlock_some (d : Diag) (b : Block) :
    momentBlock d = some b ↔ (∃ nt, d.series = some (2, nt)) ∧
      b = ⟨.bare, [.moment d.name d.sub, .momentLog d.name d.sub, .momentLineouts d.name d.sub]⟩ := by
  unfold momentBlock
  split
  · rename_i nt h
    rw [h]
    constructor
    · intro h; exact ⟨⟨nt, rfl⟩, (Option.some.inj h).symm⟩
    · rintro ⟨-, rfl⟩; rfl
  · rename_i h
    constructor
    · intro h; cases h
    · rintro ⟨⟨nt, h2⟩, -⟩; exact absurd h2 (h nt)

theorem phaseBlocks_mem (d : Diag) (b : Block) :
    b ∈ phaseBlocks d ↔ (∃ nt, d.series = some (3, nt) ∧ 1 ≤ nt) ∧
      (b = ⟨.bare, [.phase d.name d.sub]⟩ ∨ b = ⟨.all, [.phaseEvolution d.name d.sub]⟩) := by
  unfold phaseBlocks
  split
  · rename_i nt h
    rw [h]
    split_ifs with h1
    · constructor
      · intro h; simp at h
      · rintro ⟨⟨m, h2, h3⟩, -⟩
        have : nt = m := by simpa using h2
        omega
    · simp; omega
  · rename_i h
    constructor
    · intro h; simp at h
    · rintro ⟨⟨nt, h2, -⟩, -⟩; exact absurd h2 (h nt)

/-- Every block is of one of these kinds. -/
theorem mem_blocks (r : Run) (b : Block) : b ∈ blocks r ↔
    (∃ d ∈ r.fields, (∃ nt, d.series = some (2, nt)) ∧
      b = ⟨.bare, [.spacetime d.name, .spacetimeLog d.name, .lineouts d.name, .omegaK d.name]⟩) ∨
    b = ⟨.all, if r.currents then [.currentsSpacetime, .currentsLineouts] else []⟩ ∨
    (∃ d ∈ r.moments, (∃ nt, d.series = some (2, nt)) ∧
      b = ⟨.bare, [.moment d.name d.sub, .momentLog d.name d.sub, .momentLineouts d.name d.sub]⟩) ∨
    (∃ s ∈ r.species, b = ⟨.all, if s.2.1 then [.density s.1] else []⟩ ∨ b = ⟨.all, if s.2.2 then [.temperature s.1] else []⟩) ∨
    (∃ d ∈ r.phases, (∃ nt, d.series = some (3, nt) ∧ 1 ≤ nt) ∧
      (b = ⟨.bare, [.phase d.name d.sub]⟩ ∨ b = ⟨.all, [.phaseEvolution d.name d.sub]⟩)) ∨
    b = ⟨.all, r.split.map .decomposition⟩ ∨ b = ⟨.io, [.energy]⟩ ∨ b = ⟨.io, [.components]⟩ ∨ b = ⟨.io, [.epw]⟩ ∨
    b = ⟨.all, if r.hist then [.total] else []⟩ ∨ b = ⟨.all, if r.hist then [.partition] else []⟩ := by
  unfold blocks
  simp only [List.mem_append, List.mem_filterMap, List.mem_flatMap, List.mem_cons, List.not_mem_nil, or_false,
    fieldBlock_some, momentBlock_some, phaseBlocks_mem, profileBlocks, or_assoc]

theorem wanted_of_mem (r : Run) (b : Block) (hb : b ∈ blocks r) (k : Key) (hk : k ∈ b.figs) : Wanted r k := by
  rcases (mem_blocks r b).1 hb with ⟨d, hd, ⟨nt, hn⟩, rfl⟩ | rfl | ⟨d, hd, ⟨nt, hn⟩, rfl⟩ | ⟨⟨s, x, y⟩, hs, rfl | rfl⟩ |
    ⟨d, hd, hn, rfl | rfl⟩ | rfl | rfl | rfl | rfl | rfl | rfl
  · simp only [List.mem_cons, List.not_mem_nil, or_false] at hk
    rcases hk with rfl | rfl | rfl | rfl <;> exact ⟨d, hd, rfl, nt, hn⟩
  · simp only at hk
    split_ifs at hk with h
    · simp only [List.mem_cons, List.not_mem_nil, or_false] at hk
      rcases hk with rfl | rfl <;> exact h
    · simp at hk
  · simp only [List.mem_cons, List.not_mem_nil, or_false] at hk
    rcases hk with rfl | rfl | rfl <;> exact ⟨d, hd, rfl, rfl, nt, hn⟩
  · simp only at hk
    split_ifs at hk with h
    · rw [List.mem_singleton.1 hk]; exact ⟨y, by rw [h] at hs; exact hs⟩
    · simp at hk
  · simp only at hk
    split_ifs at hk with h
    · rw [List.mem_singleton.1 hk]; exact ⟨x, by rw [h] at hs; exact hs⟩
    · simp at hk
  · rw [List.mem_singleton.1 hk]; exact ⟨d, hd, rfl, rfl, hn⟩
  · rw [List.mem_singleton.1 hk]; exact ⟨d, hd, rfl, rfl, hn⟩
  · obtain ⟨c, hc, rfl⟩ := List.mem_map.1 hk; exact hc
  · rw [List.mem_singleton.1 hk]; trivial
  · rw [List.mem_singleton.1 hk]; trivial
  · rw [List.mem_singleton.1 hk]; trivial
  · simp only at hk
    split_ifs at hk with h
    · rw [List.mem_singleton.1 hk]; exact h
    · simp at hk
  · simp only at hk
    split_ifs at hk with h
    · rw [List.mem_singleton.1 hk]; exact h
    · simp at hk

/-- The block of a figure that is wanted, and what precedes the figure in it. -/
theorem block_of_wanted (r : Run) (k : Key) (hk : Wanted r k) : ∃ b ∈ blocks r, k ∈ b.figs ∧
    (∀ e, b.guard.catches e = true ↔ Caught k e) ∧ (b.guard = .io → b.figs = [k]) ∧
    (b.guard = .all → b.figs = [k] ∨ (∃ c, k = .decomposition c ∧ b.figs = r.split.map .decomposition) ∨
      b.figs = [.currentsSpacetime, .currentsLineouts]) := by
  cases k with
  | spacetime c | spacetimeLog c | lineouts c | omegaK c =>
    obtain ⟨d, hd, rfl, nt, hn⟩ := hk
    exact ⟨_, (mem_blocks r _).2 (Or.inl ⟨d, hd, ⟨nt, hn⟩, rfl⟩), by simp, by simp [Guard.catches, Caught], by simp, by simp⟩
  | currentsSpacetime | currentsLineouts =>
    have h : r.currents = true := hk
    exact ⟨_, (mem_blocks r _).2 (Or.inr (Or.inl rfl)), by simp [h], by simp [Guard.catches, Caught], by simp, by simp [h]⟩
  | moment s q | momentLog s q | momentLineouts s q =>
    obtain ⟨d, hd, rfl, rfl, nt, hn⟩ := hk
    exact ⟨_, (mem_blocks r _).2 (Or.inr (Or.inr (Or.inl ⟨d, hd, ⟨nt, hn⟩, rfl⟩))), by simp, by simp [Guard.catches, Caught],
      by simp, by simp⟩
  | density s =>
    obtain ⟨y, hs⟩ := hk
    exact ⟨_, (mem_blocks r _).2 (Or.inr (Or.inr (Or.inr (Or.inl ⟨_, hs, Or.inl rfl⟩)))), by simp,
      by simp [Guard.catches, Caught], by simp, by simp⟩
  | temperature s =>
    obtain ⟨y, hs⟩ := hk
    exact ⟨_, (mem_blocks r _).2 (Or.inr (Or.inr (Or.inr (Or.inl ⟨_, hs, Or.inr rfl⟩)))), by simp,
      by simp [Guard.catches, Caught], by simp, by simp⟩
  | phase s p =>
    obtain ⟨d, hd, rfl, rfl, hn⟩ := hk
    exact ⟨_, (mem_blocks r _).2 (Or.inr (Or.inr (Or.inr (Or.inr (Or.inl ⟨d, hd, hn, Or.inl rfl⟩))))), by simp,
      by simp [Guard.catches, Caught], by simp, by simp⟩
  | phaseEvolution s p =>
    obtain ⟨d, hd, rfl, rfl, hn⟩ := hk
    exact ⟨_, (mem_blocks r _).2 (Or.inr (Or.inr (Or.inr (Or.inr (Or.inl ⟨d, hd, hn, Or.inr rfl⟩))))), by simp,
      by simp [Guard.catches, Caught], by simp, by simp⟩
  | decomposition c =>
    have h : c ∈ r.split := hk
    refine ⟨⟨.all, r.split.map .decomposition⟩, (mem_blocks r _).2 (by simp), by simpa using h, by simp [Guard.catches, Caught],
      by simp, by simp⟩
  | energy => exact ⟨⟨.io, [.energy]⟩, (mem_blocks r _).2 (by simp), by simp, by intro e; cases e <;> simp [Guard.catches, Caught], by simp, by simp⟩
  | components => exact ⟨⟨.io, [.components]⟩, (mem_blocks r _).2 (by simp), by simp, by intro e; cases e <;> simp [Guard.catches, Caught], by simp, by simp⟩
  | epw => exact ⟨⟨.io, [.epw]⟩, (mem_blocks r _).2 (by simp), by simp, by intro e; cases e <;> simp [Guard.catches, Caught], by simp, by simp⟩
  | total =>
    have h : r.hist = true := hk
    exact ⟨⟨.all, if r.hist then [.total] else []⟩, (mem_blocks r _).2 (by simp), by simp [h], by simp [Guard.catches, Caught], by simp, by simp [h]⟩
  | partition =>
    have h : r.hist = true := hk
    exact ⟨⟨.all, if r.hist then [.partition] else []⟩, (mem_blocks r _).2 (by simp), by simp [h], by simp [Guard.catches, Caught], by simp, by simp [h]⟩

theorem guard_of_mem (r : Run) (b : Block) (hb : b ∈ blocks r) (k : Key) (hk : k ∈ b.figs) (e : Exc) (hc : Caught k e) :
    b.guard.catches e = true := by
  rcases (mem_blocks r b).1 hb with ⟨d, hd, ⟨nt, hn⟩, rfl⟩ | rfl | ⟨d, hd, ⟨nt, hn⟩, rfl⟩ | ⟨⟨s, x, y⟩, hs, rfl | rfl⟩ |
    ⟨d, hd, hn, rfl | rfl⟩ | rfl | rfl | rfl | rfl | rfl | rfl
  · simp only [List.mem_cons, List.not_mem_nil, or_false] at hk
    rcases hk with rfl | rfl | rfl | rfl <;> exact hc.elim
  · rfl
  · simp only [List.mem_cons, List.not_mem_nil, or_false] at hk
    rcases hk with rfl | rfl | rfl <;> exact hc.elim
  · rfl
  · rfl
  · rw [List.mem_singleton.1 hk] at hc; exact hc.elim
  · rfl
  · rfl
  · rw [List.mem_singleton.1 hk] at hc
    have : e = .io := hc
    rw [this]; rfl
  · rw [List.mem_singleton.1 hk] at hc
    have : e = .io := hc
    rw [this]; rfl
  · rw [List.mem_singleton.1 hk] at hc
    have : e = .io := hc
    rw [this]; rfl
  · rfl
  · rfl

/-! ### Properties -/

/-- **The function returns** exactly if every exception is one that is caught. -/
theorem canned_returns_iff (r : Run) (draw : Key → Option Exc) :
    (canned r draw).2 = none ↔ ∀ k, Wanted r k → ∀ e, outcome r draw k = some e → Caught k e := by
  unfold canned
  rw [runBlocks_none]
  constructor
  · intro h k hk e he
    obtain ⟨b, hb, hkb, h1, h2, -⟩ := block_of_wanted r k hk
    rw [← h1 e]
    cases hg : b.guard with
    | all => rfl
    | io =>
      have hf := h b hb
      unfold Fine at hf
      rw [h2 hg] at hf
      rw [← hg]
      exact hf e (by rw [drawFigs, he])
    | bare =>
      exfalso
      cases hd : (drawFigs (outcome r draw) b.figs).2 with
      | none => rw [drawFigs_none _ _ hd k hkb] at he; cases he
      | some e' => have := h b hb e' hd; rw [hg] at this; cases this
  · intro h b hb e he
    obtain ⟨k, hk, hke⟩ := drawFigs_some _ _ _ he
    exact guard_of_mem r b hb k hk e (h k (wanted_of_mem r b hb k hk) e hke)

/-- Whatever happens, a figure on disk is one that the run should have and that could be drawn. -/
theorem canned_sound (r : Run) (draw : Key → Option Exc) (k : Key) (h : k ∈ (canned r draw).1) :
    Wanted r k ∧ outcome r draw k = none := by
  obtain ⟨b, hb, hk⟩ := runBlocks_sound _ _ _ h
  obtain ⟨h1, h2⟩ := drawFigs_mem _ _ _ hk
  exact ⟨wanted_of_mem r b hb k h1, h2⟩

/-- **Best effort**: if the function returns, every figure that can be drawn is there, except that the second figure of the
currents needs the first and a component of the left/right split needs the others. -/
theorem canned_isolated (r : Run) (draw : Key → Option Exc) (h : (canned r draw).2 = none) (k : Key) (hw : Wanted r k)
    (hk : outcome r draw k = none)
    (hc : k = .currentsLineouts → outcome r draw .currentsSpacetime = none)
    (hd : ∀ c, k = .decomposition c → ∀ c' ∈ r.split, outcome r draw (.decomposition c') = none) :
    k ∈ (canned r draw).1 := by
  have hfine : ∀ b ∈ blocks r, Fine (outcome r draw) b := by
    have := h; unfold canned at this; exact (runBlocks_none _ _).1 this
  unfold canned
  rw [runBlocks_mem _ _ hfine]
  obtain ⟨b, hb, hkb, h1, h2, h3⟩ := block_of_wanted r k hw
  refine ⟨b, hb, ?_⟩
  have single : b.figs = [k] → k ∈ (drawFigs (outcome r draw) b.figs).1 := by
    intro e; rw [e, drawFigs, hk]; simp
  cases hg : b.guard with
  | io => exact single (h2 hg)
  | bare =>
    have : (drawFigs (outcome r draw) b.figs).2 = none := by
      cases hd : (drawFigs (outcome r draw) b.figs).2 with
      | none => rfl
      | some e => have := hfine b hb e hd; rw [hg] at this; cases this
    rw [drawFigs_ok _ _ (drawFigs_none _ _ this)]
    exact hkb
  | all =>
    rcases h3 hg with h4 | ⟨c, rfl, h4⟩ | h4
    · exact single h4
    · rw [drawFigs_ok]
      · exact hkb
      · intro x hx
        rw [h4] at hx
        obtain ⟨c', hc', rfl⟩ := List.mem_map.1 hx
        exact hd c rfl c' hc'
    · rw [h4] at hkb ⊢
      simp only [List.mem_cons, List.not_mem_nil, or_false] at hkb
      rcases hkb with rfl | rfl
      · rw [drawFigs, hk]; simp
      · rw [drawFigs, hc rfl, drawFigs, hk]; simp

/-- Without exceptions the figures on disk are exactly those the run should have. -/
theorem canned_all (r : Run) (draw : Key → Option Exc) (h : ∀ k, Wanted r k → outcome r draw k = none) :
    (canned r draw).2 = none ∧ ∀ k, k ∈ (canned r draw).1 ↔ Wanted r k := by
  have h1 : (canned r draw).2 = none := (canned_returns_iff r draw).2 fun k hk e he => by rw [h k hk] at he; cases he
  refine ⟨h1, fun k => ⟨fun hk => (canned_sound r draw k hk).1, fun hk => ?_⟩⟩
  exact canned_isolated r draw h1 k hk (h k hk) (fun e => h _ (by rw [e] at hk; exact hk)) fun c _ c' hc' => h _ hc'

/-- A diagnostic that cannot be read, or is not of the wanted dimension, has no influence on any other figure. -/
theorem canned_unreadable (r : Run) (draw : Key → Option Exc) (pre post : List Diag) (d : Diag)
    (h : ∀ nt, d.series ≠ some (2, nt)) :
    canned { r with fields := pre ++ d :: post } draw = canned { r with fields := pre ++ post } draw ∧
    canned { r with moments := pre ++ d :: post } draw = canned { r with moments := pre ++ post } draw := by
  have hf : fieldBlock d = none := by
    cases hb : fieldBlock d with
    | none => rfl
    | some b => obtain ⟨⟨nt, hn⟩, -⟩ := (fieldBlock_some d b).1 hb; exact absurd hn (h nt)
  have hm : momentBlock d = none := by
    cases hb : momentBlock d with
    | none => rfl
    | some b => obtain ⟨⟨nt, hn⟩, -⟩ := (momentBlock_some d b).1 hb; exact absurd hn (h nt)
  have ho : outcome { r with fields := pre ++ d :: post } draw = outcome { r with fields := pre ++ post } draw := by
    funext k
    cases k <;> try rfl
    rename_i c
    simp only [outcome, List.any_append, List.any_cons]
    have : dumpedOnce d = false := by
      unfold dumpedOnce
      split
      · rename_i nt hn; exact absurd hn (h nt)
      · rfl
    rw [this]; simp
  constructor
  · unfold canned
    rw [ho]
    refine congrArg _ ?_
    unfold blocks
    simp only [List.filterMap_append, List.filterMap_cons, hf]
  · have ho : outcome { r with moments := pre ++ d :: post } draw = outcome { r with moments := pre ++ post } draw := by
      funext k; cases k <;> rfl
    unfold canned
    rw [ho]
    refine congrArg _ ?_
    unfold blocks
    simp only [List.filterMap_append, List.filterMap_cons, hm]

theorem canned_unreadable_phase (r : Run) (draw : Key → Option Exc) (pre post : List Diag) (d : Diag)
    (h : ∀ nt, d.series = some (3, nt) → nt = 0) :
    canned { r with phases := pre ++ d :: post } draw = canned { r with phases := pre ++ post } draw := by
  have hp : phaseBlocks d = [] := by
    rw [List.eq_nil_iff_forall_not_mem]
    intro b hb
    obtain ⟨⟨nt, h1, h2⟩, -⟩ := (phaseBlocks_mem d b).1 hb
    have := h nt h1
    omega
  have ho : outcome { r with phases := pre ++ d :: post } draw = outcome { r with phases := pre ++ post } draw := by
    funext k; cases k <;> rfl
  unfold canned
  rw [ho]
  refine congrArg _ ?_
  unfold blocks
  simp only [List.flatMap_append, List.flatMap_cons, hp, List.nil_append]

/-- **What is missing**: drawing the fields is not inside a handler. One field that was dumped only once ends the function:
whatever else could be drawn, no figure but those of fields is made. -/
theorem once_dumped_field_partial (r : Run) (draw : Key → Option Exc) (d : Diag) (hd : d ∈ r.fields) (nt : ℕ)
    (hn : d.series = some (2, nt)) (ht : nt < 2) :
    (canned r draw).2 ≠ none ∧ ∀ k ∈ (canned r draw).1,
      ∃ c, k = .spacetime c ∨ k = .spacetimeLog c ∨ k = .lineouts c ∨ k = .omegaK c := by
  have ho : outcome r draw (.omegaK d.name) = some .other := by
    simp only [outcome]
    rw [if_pos]
    rw [List.any_eq_true]
    exact ⟨d, hd, by unfold dumpedOnce; rw [hn]; simp [ht]⟩
  have hfail : (runBlocks (outcome r draw) (r.fields.filterMap fieldBlock)).2 ≠ none := by
    rw [Ne, runBlocks_none]
    intro h
    have hb : (⟨.bare, [.spacetime d.name, .spacetimeLog d.name, .lineouts d.name, .omegaK d.name]⟩ : Block) ∈
        r.fields.filterMap fieldBlock := List.mem_filterMap.2 ⟨d, hd, (fieldBlock_some d _).2 ⟨⟨nt, hn⟩, rfl⟩⟩
    have hf := h _ hb
    cases hr : (drawFigs (outcome r draw) [.spacetime d.name, .spacetimeLog d.name, .lineouts d.name, .omegaK d.name]).2 with
    | none => rw [drawFigs_none _ _ hr (.omegaK d.name) (by simp)] at ho; cases ho
    | some e => have := hf e hr; cases this
  have e : canned r draw = runBlocks (outcome r draw) (r.fields.filterMap fieldBlock) := by
    unfold canned blocks
    simp only [List.append_assoc]
    exact runBlocks_stop _ _ _ hfail
  rw [e]
  refine ⟨hfail, fun k hk => ?_⟩
  obtain ⟨b, hb, hkb⟩ := runBlocks_sound _ _ _ hk
  obtain ⟨d', -, hb'⟩ := List.mem_filterMap.1 hb
  obtain ⟨-, rfl⟩ := (fieldBlock_some d' b).1 hb'
  have := (drawFigs_mem _ _ _ hkb).1
  simp only [List.mem_cons, List.not_mem_nil, or_false] at this
  exact ⟨d'.name, this⟩

/-- A run with two fields, a current, a moment, a species, a phase space and histories. -/
def sample (nt : ℕ) : Run where
  fields := [⟨['b', '3'], [], some (2, nt)⟩, ⟨['e', '1'], [], none⟩, ⟨['e', '2'], [], some (2, 9)⟩]
  currents := true
  moments := [⟨['s'], ['c', 'h', 'a', 'r', 'g', 'e'], some (2, 9)⟩]
  species := [(['s'], true, false)]
  phases := [⟨['s'], ['p', '1', 'x', '1'], some (3, 4)⟩]
  split := [['e', '2']]
  hist := true

/-- Everything can be drawn but the currents and the evolution of the phase space: all else is there. -/
example : (canned (sample 9) fun k => if k = .currentsSpacetime ∨ k = .phaseEvolution ['s'] ['p', '1', 'x', '1'] then some .other
    else none).2 = none := by rfl

example : ((canned (sample 9) fun k => if k = .currentsSpacetime ∨ k = .phaseEvolution ['s'] ['p', '1', 'x', '1'] then some .other
    else none).1).length = 19 := by rfl

/-- The same run with the first field dumped once: three figures. -/
example : (canned (sample 1) fun _ => none).1 = [.spacetime ['b', '3'], .spacetimeLog ['b', '3'], .lineouts ['b', '3']] := by rfl

end Verif.OsirisCanned

import Verif.Model.Vfp2dInit
import Verif.Props.VfpSetup

/-!
Profiles of VFP-2D decks (C212), initial distribution and save times of VFP-2D runs (C213).
-/
namespace Verif.Vfp2d.Profile2
open Finset

/-! ### Profiles -/

/-- The deck entry of a VFP-1D profile. -/
def ofOne : VfpInit.Profile → Raw
  | .uniform b => { basis := some "uniform", baseline := some b }
  | .tanh c w r b h shape =>
    { basis := some "tanh", baseline := some b, center := some c, width := some w, rise := some r, height := some h, shape := some shape }
  | .sine b a l => { basis := some "sine", baseline := some b, amplitude := some a, wavelength := some l }
  | .cosine b a l => { basis := some "cosine", baseline := some b, amplitude := some a, wavelength := some l }
  | .file rows c s => { basis := some "file", file := some (rows, c, s) }
  | .other b => { basis := some b }

/-- Bases known to VFP-1D. -/
def Known : VfpInit.Profile → Prop
  | .other b => b ∉ ["uniform", "sine", "cosine", "tanh", "file", "gaussian_spots"]
  | _ => True

/-- C212: a profile written for VFP-1D means the same in VFP-2D, in every cell, whatever its y. -/
theorem same_as_1d (p : VfpInit.Profile) (hp : Known p) (x y : ℝ) :
    ({ top := ofOne p } : Raw2).eval true x y = p.eval x := by
  have nb : ({ top := ofOne p } : Raw2).top.basis ≠ some "gaussian_spots" := by
    cases p with
    | other b =>
      intro h
      have : b = "gaussian_spots" := by simpa [ofOne] using h
      unfold Known at hp
      rw [this] at hp
      simp at hp
    | _ => simp [ofOne]
  unfold Raw2.eval
  rw [if_neg nb, if_neg (by simp)]
  have e : ((none : Option String).getD "x") ≠ "y" := by decide
  rw [if_neg e]
  show (ofOne p).eval true x = p.eval x
  cases p with
  | uniform b => simp [ofOne, Raw.eval, Raw.base, VfpInit.Profile.eval]
  | tanh c w r b h shape =>
    have e1 : (ofOne (.tanh c w r b h shape)).eval true x
        = .ok (b + h * envelope c w r (shape == "trough") x) := rfl
    have e2 : (VfpInit.Profile.tanh c w r b h shape).eval x
        = .ok (b + h * (if shape = "trough" then 1 - Driver.getEnvelope r r (c - w * 0.5) (c + w * 0.5) x else Driver.getEnvelope r r (c - w * 0.5) (c + w * 0.5) x)) := rfl
    rw [e1, e2]
    unfold envelope Driver.getEnvelope
    dsimp only
    rw [mul_comm w 0.5]
    by_cases hs : shape = "trough" <;> simp [hs]
  | sine b a l =>
    have e1 : (ofOne (.sine b a l)).eval true x = .ok (b * (1 + a * Real.sin (2 * Real.pi * x / l))) := rfl
    have e2 : (VfpInit.Profile.sine b a l).eval x = .ok (b * (1 + a * Real.sin (2 * Real.pi / l * x))) := rfl
    rw [e1, e2, div_mul_eq_mul_div]
  | cosine b a l =>
    have e1 : (ofOne (.cosine b a l)).eval true x = .ok (b * (1 + a * Real.cos (2 * Real.pi * x / l))) := rfl
    have e2 : (VfpInit.Profile.cosine b a l).eval x = .ok (b * (1 + a * Real.cos (2 * Real.pi / l * x))) := rfl
    rw [e1, e2, div_mul_eq_mul_div]
  | file rows c s => rfl
  | other b =>
    unfold Known at hp
    simp only [List.mem_cons, List.not_mem_nil, or_false, not_or] at hp
    have e1 : (ofOne (.other b)).eval true x = _ := rfl
    unfold Raw.eval at e1
    have g : (ofOne (.other b)).basis.getD "uniform" = b := rfl
    unfold Raw.eval
    rw [g]
    simp only [hp, if_false]
    rfl

/-- C212: with `axis: y` the same profile runs along y; it is the transpose of the one along x. -/
theorem axis_transpose (p : Raw) (hp : p.basis ≠ some "gaussian_spots") (ref : Bool) (x y : ℝ) :
    ({ top := p, axis := some "y" } : Raw2).eval ref x y = ({ top := p, axis := some "x" } : Raw2).eval ref y x
    ∧ ({ top := p } : Raw2).eval ref x y = ({ top := p, axis := some "x" } : Raw2).eval ref x y := by
  unfold Raw2.eval
  simp [hp]

/-- C212: the entries `x` and `y` make a product; a direction not given is uniform, and all other entries of the profile are not looked at. -/
theorem separable (t p q : Raw) (ax : Option String) (s : Spots) (ht : t.basis ≠ some "gaussian_spots") (ref : Bool) (x y u v : ℝ) (hp : p.eval ref x = .ok u) (hq : q.eval ref y = .ok v) :
    ({ top := t, x := some p, y := some q, axis := ax, spots := s } : Raw2).eval ref x y = .ok (u * v)
    ∧ ({ top := t, x := some p, axis := ax, spots := s } : Raw2).eval ref x y = .ok u
    ∧ ({ top := t, y := some q, axis := ax, spots := s } : Raw2).eval ref x y = .ok v := by
  have h1 : ∀ z, one.eval ref z = .ok 1 := fun z => by simp [one, Raw.eval, Raw.base]
  unfold Raw2.eval
  simp only [ht, if_false, Option.isSome_some, Option.isSome_none, or_true, if_true, Option.getD_some, Option.getD_none, hp, hq, h1, times, mul_one, one_mul, Bool.false_eq_true, or_false]
  exact ⟨trivial, trivial, trivial⟩

theorem gauss_eval (p : Raw2) (hp : p.top.basis = some "gaussian_spots") (r : ℝ) (hr : p.spots.xRadius = some r) (ref : Bool) (x y : ℝ) :
    p.eval ref x y = .ok (p.top.amplitude.getD 1 * Real.exp (-((x - p.spots.xCenter.getD 0) / r) ^ 2) * yEnvelope (p.spots.yRadius.getD r) p.spots.centers y) := by
  unfold Raw2.eval
  rw [if_pos hp]
  unfold Raw2.gauss
  rw [hr]
  rfl

theorem yEnvelope_bounds (r : ℝ) (cs : List ℝ) (y : ℝ) : 0 ≤ yEnvelope r cs y ∧ yEnvelope r cs y ≤ cs.length := by
  unfold yEnvelope
  induction cs with
  | nil => simp
  | cons c cs ih =>
    simp only [List.map_cons, List.sum_cons, List.length_cons, Nat.cast_add, Nat.cast_one]
    have h1 := Real.exp_pos (-((y - c) / r) ^ 2)
    have h2 : Real.exp (-((y - c) / r) ^ 2) ≤ 1 := by
      rw [Real.exp_le_one_iff]
      have := sq_nonneg ((y - c) / r)
      linarith
    constructor <;> linarith [ih.1, ih.2]

/-- C212: spots are never negative nor above the amplitude times their number, and positive where there is a spot. -/
theorem spots_bounds (p : Raw2) (hp : p.top.basis = some "gaussian_spots") (r A : ℝ) (hr : p.spots.xRadius = some r) (ha : p.top.amplitude = some A) (hA : 0 ≤ A)
    (ref : Bool) (x y : ℝ) : ∃ v, p.eval ref x y = .ok v ∧ 0 ≤ v ∧ v ≤ A * p.spots.centers.length ∧ (0 < A → p.spots.centers ≠ [] → 0 < v) := by
  rw [gauss_eval p hp r hr, ha]
  have hb := yEnvelope_bounds (p.spots.yRadius.getD r) p.spots.centers y
  have h1 := Real.exp_pos (-((x - p.spots.xCenter.getD 0) / r) ^ 2)
  have h2 : Real.exp (-((x - p.spots.xCenter.getD 0) / r) ^ 2) ≤ 1 := by
    rw [Real.exp_le_one_iff]
    have := sq_nonneg ((x - p.spots.xCenter.getD 0) / r)
    linarith
  simp only [Option.getD_some]
  refine ⟨_, rfl, mul_nonneg (mul_nonneg hA h1.le) hb.1, ?_, fun hA' hne => ?_⟩
  · refine mul_le_mul ?_ hb.2 hb.1 hA
    exact mul_le_of_le_one_right hA h2
  · refine mul_pos (mul_pos hA' h1) ?_
    unfold yEnvelope
    cases hc : p.spots.centers with
    | nil => exact absurd hc hne
    | cons c cs =>
      simp only [List.map_cons, List.sum_cons]
      have a1 := Real.exp_pos (-((y - c) / (p.spots.yRadius.getD r)) ^ 2)
      have a2 := (yEnvelope_bounds (p.spots.yRadius.getD r) cs y).1
      unfold yEnvelope at a2
      linarith

/-- C212: one round spot: the amplitude at its centre, a function of the distance alone, smaller by a factor e at the radius. -/
theorem spot_round (p : Raw2) (hp : p.top.basis = some "gaussian_spots") (r A xc yc : ℝ) (hr : p.spots.xRadius = some r) (hr0 : r ≠ 0) (hy : p.spots.yRadius = none)
    (ha : p.top.amplitude = some A) (hx : p.spots.xCenter = some xc) (hc : p.spots.yCenters = none) (hcy : p.spots.yCenter = some yc) (ref : Bool) (x y : ℝ) :
    p.eval ref x y = .ok (A * Real.exp (-(((x - xc) ^ 2 + (y - yc) ^ 2) / r ^ 2))) ∧ p.eval ref xc yc = .ok A
    ∧ ((x - xc) ^ 2 + (y - yc) ^ 2 = r ^ 2 → p.eval ref x y = .ok (A * Real.exp (-1))) := by
  have e : ∀ x y, p.eval ref x y = .ok (A * Real.exp (-(((x - xc) ^ 2 + (y - yc) ^ 2) / r ^ 2))) := fun x y => by
    rw [gauss_eval p hp r hr, ha, hx, hy]
    unfold Spots.centers yEnvelope
    rw [hc, hcy]
    simp only [Option.getD_some, Option.getD_none, List.map_cons, List.map_nil, List.sum_cons, List.sum_nil, add_zero]
    rw [mul_assoc, ← Real.exp_add]
    congr 3
    field_simp
    ring
  refine ⟨e x y, ?_, fun h => ?_⟩
  · rw [e]; simp
  · rw [e, h, div_self (pow_ne_zero 2 hr0)]

/-- C212: two spots at opposite places are symmetric about the axis between them, and each is added to the other. -/
theorem spots_pair (p : Raw2) (hp : p.top.basis = some "gaussian_spots") (r A d : ℝ) (hr : p.spots.xRadius = some r)
    (ha : p.top.amplitude = some A) (hc : p.spots.yCenters = some [-d, d]) (ref : Bool) (x y : ℝ) :
    p.eval ref x (-y) = p.eval ref x y
    ∧ p.eval ref x 0 = .ok (2 * (A * Real.exp (-((x - p.spots.xCenter.getD 0) / r) ^ 2) * Real.exp (-(d / p.spots.yRadius.getD r) ^ 2))) := by
  rw [gauss_eval p hp r hr, gauss_eval p hp r hr, gauss_eval p hp r hr, ha]
  unfold Spots.centers yEnvelope
  rw [hc]
  simp only [Option.getD_some, List.map_cons, List.map_nil, List.sum_cons, List.sum_nil, add_zero]
  generalize p.spots.yRadius.getD r = R
  constructor
  · have e1 : ((-y - -d) / R) ^ 2 = ((y - d) / R) ^ 2 := by ring
    have e2 : ((-y - d) / R) ^ 2 = ((y - -d) / R) ^ 2 := by ring
    rw [e1, e2, add_comm (Real.exp _)]
  · have e1 : ((0 - -d) / R) ^ 2 = (d / R) ^ 2 := by ring
    have e2 : ((0 - d) / R) ^ 2 = (d / R) ^ 2 := by ring
    rw [e1, e2]
    congr 1
    ring

/-- C212 fails for the axis: any other name than `y`, and so any misspelling, is taken as x. -/
theorem axis_unchecked_partial (p : Raw) (hp : p.basis ≠ some "gaussian_spots") (a : String) (ha : a ≠ "y") (ref : Bool) (x y : ℝ) :
    ({ top := p, axis := some a } : Raw2).eval ref x y = p.eval ref x := by
  unfold Raw2.eval
  simp [hp, ha]

/-- C212 fails for missing entries: without `basis` the profile is its baseline (one if absent too), whatever shape the other entries describe. -/
theorem basis_missing_partial (p : Raw) (hp : p.basis = none) (ref : Bool) (x y : ℝ) :
    ({ top := p } : Raw2).eval ref x y = .ok p.base ∧ (p.baseline = none → p.value = none → p.base = 1) := by
  refine ⟨?_, fun h1 h2 => by simp [Raw.base, h1, h2]⟩
  unfold Raw2.eval
  rw [if_neg (by simp [hp]), if_neg (by simp)]
  simp [Raw.eval, hp]

/-! ### Initial distribution -/

/-- A speed grid with a cell of nonzero speed and weight. -/
def Good (o : Op) : Prop := 0 < o.dv ∧ ∃ j < o.nv, o.v j ≠ 0

theorem juttnerNorm_pos (o : Op) (h : Good o) (theta : ℝ) : 0 < juttnerNorm o theta := by
  obtain ⟨hdv, j, hj, hv⟩ := h
  unfold juttnerNorm
  have hs : 0 < ∑ j ∈ range o.nv, juttner theta (o.v j) * o.v j ^ 2 := by
    refine sum_pos' (fun i _ => mul_nonneg (Real.exp_pos _).le (sq_nonneg _)) ⟨j, mem_range.2 hj, mul_pos (Real.exp_pos _) (by positivity)⟩
  have := Real.pi_pos
  positivity

/-- C213: a relativistic run starts with exactly the density of the profile on the grid, for any temperature. -/
theorem relativistic_density (o : Op) (h : Good o) (n theta : ℝ) :
    4 * Real.pi * (∑ j ∈ range o.nv, relativistic o n theta j * o.v j ^ 2) * o.dv = n := by
  have hp := juttnerNorm_pos o h theta
  have e : ∑ j ∈ range o.nv, relativistic o n theta j * o.v j ^ 2 = n / juttnerNorm o theta * ∑ j ∈ range o.nv, juttner theta (o.v j) * o.v j ^ 2 := by
    rw [mul_sum]
    refine sum_congr rfl fun j _ => ?_
    unfold relativistic
    ring
  rw [e]
  have : 4 * Real.pi * (n / juttnerNorm o theta * ∑ j ∈ range o.nv, juttner theta (o.v j) * o.v j ^ 2) * o.dv = n / juttnerNorm o theta * juttnerNorm o theta := by
    unfold juttnerNorm; ring
  rw [this, div_mul_cancel₀ _ hp.ne']

/-- C213: it is the Maxwell-Juettner distribution: the logarithm of the ratio of two speeds is the difference of kinetic energies over the temperature. -/
theorem relativistic_ratio (o : Op) (h : Good o) (n theta : ℝ) (hn : 0 < n) (i j : ℕ) :
    0 < relativistic o n theta j
    ∧ Real.log (relativistic o n theta i / relativistic o n theta j) = (Real.sqrt (1 + o.v j ^ 2) - Real.sqrt (1 + o.v i ^ 2)) / theta := by
  have hp := juttnerNorm_pos o h theta
  have pos : ∀ j, 0 < relativistic o n theta j := fun j => div_pos (mul_pos hn (Real.exp_pos _)) hp
  refine ⟨pos j, ?_⟩
  have e : relativistic o n theta i / relativistic o n theta j = Real.exp ((Real.sqrt (1 + o.v j ^ 2) - Real.sqrt (1 + o.v i ^ 2)) / theta) := by
    rw [div_eq_iff (pos j).ne']
    unfold relativistic juttner
    rw [mul_div_assoc', mul_left_comm, ← Real.exp_add]
    congr 3
    ring
  rw [e, Real.log_exp]

/-- C213: the initial isotropic part is the sum over the species of the deck, each with its own profiles; its density is the sum of the densities of the species. -/
theorem initial_sum (o : Op) (rel : Option ℝ) (vth x y : ℝ) (deck : List Species) (f : ℕ → ℝ) (n : ℝ) (h : initial o rel vth x y deck = .ok (f, n)) :
    ∃ r : List (Species × ℝ × ℝ), r.map Prod.fst = deck.filter Species.active ∧ r ≠ []
      ∧ (∀ e ∈ r, e.1.n.eval true x y = .ok e.2.1 ∧ e.1.T.eval true x y = .ok e.2.2)
      ∧ (∀ j, f j = (r.map fun e => localF o rel vth e.1.m e.2.1 e.2.2 j).sum) ∧ n = (r.map fun e => e.2.1).sum := by
  have key : ∀ (deck : List Species) (f : ℕ → ℝ) (n : ℝ), total o rel vth x y deck = .ok (f, n) →
      ∃ r : List (Species × ℝ × ℝ), r.map Prod.fst = deck.filter Species.active
        ∧ (∀ e ∈ r, e.1.n.eval true x y = .ok e.2.1 ∧ e.1.T.eval true x y = .ok e.2.2)
        ∧ (∀ j, f j = (r.map fun e => localF o rel vth e.1.m e.2.1 e.2.2 j).sum) ∧ n = (r.map fun e => e.2.1).sum := by
    intro deck
    induction deck with
    | nil => intro f n h; cases h; exact ⟨[], by simp⟩
    | cons s l ih =>
      intro f n h
      unfold total at h
      cases ht : total o rel vth x y l with
      | error e => rw [ht] at h; cases h
      | ok q =>
        obtain ⟨f', n'⟩ := q
        rw [ht] at h
        obtain ⟨r, h1, h2, h3, h4⟩ := ih f' n' ht
        dsimp only at h
        by_cases ha : s.active
        · rw [if_pos ha] at h
          cases e1 : s.n.eval true x y with
          | error e => rw [e1] at h; cases h
          | ok a =>
            cases e2 : s.T.eval true x y with
            | error e => rw [e1, e2] at h; cases h
            | ok t =>
              rw [e1, e2] at h
              cases h
              refine ⟨(s, a, t) :: r, by simp [ha, h1], ?_, fun j => by simp [h3], by simp [h4]⟩
              intro e he
              rcases List.mem_cons.1 he with rfl | he
              · exact ⟨e1, e2⟩
              · exact h2 e he
        · rw [if_neg ha] at h
          cases h
          exact ⟨r, by simp [ha, h1], h2, h3, h4⟩
  unfold initial at h
  cases ht : total o rel vth x y deck with
  | error e => rw [ht] at h; cases h
  | ok q =>
    rw [ht] at h
    dsimp only at h
    split at h
    · rename_i hany
      cases h
      obtain ⟨r, h1, h2, h3, h4⟩ := key deck f n ht
      refine ⟨r, h1, fun hr => ?_, h2, h3, h4⟩
      rw [hr] at h1
      obtain ⟨s, hs, ha⟩ := List.any_eq_true.1 hany
      have : s ∈ deck.filter Species.active := List.mem_filter.2 ⟨hs, ha⟩
      rw [← h1] at this
      simp at this
    · cases h

/-- C213: and so a relativistic run of any number of species starts with exactly the total density of the profiles. -/
theorem initial_density (o : Op) (h : Good o) (theta0 vth x y : ℝ) (deck : List Species) (f : ℕ → ℝ) (n : ℝ) (hi : initial o (some theta0) vth x y deck = .ok (f, n)) :
    4 * Real.pi * (∑ j ∈ range o.nv, f j * o.v j ^ 2) * o.dv = n := by
  obtain ⟨r, -, -, -, h3, h4⟩ := initial_sum o (some theta0) vth x y deck f n hi
  have key : ∀ r : List (Species × ℝ × ℝ), 4 * Real.pi * (∑ j ∈ range o.nv, (r.map fun e => localF o (some theta0) vth e.1.m e.2.1 e.2.2 j).sum * o.v j ^ 2) * o.dv
      = (r.map fun e => e.2.1).sum := by
    intro r
    induction r with
    | nil => simp
    | cons e r ih =>
      simp only [List.map_cons, List.sum_cons]
      rw [← ih]
      have := relativistic_density o h e.2.1 (theta0 * e.2.2)
      have s : ∑ j ∈ range o.nv, (localF o (some theta0) vth e.1.m e.2.1 e.2.2 j + (r.map fun e => localF o (some theta0) vth e.1.m e.2.1 e.2.2 j).sum) * o.v j ^ 2
          = ∑ j ∈ range o.nv, relativistic o e.2.1 (theta0 * e.2.2) j * o.v j ^ 2 + ∑ j ∈ range o.nv, (r.map fun e => localF o (some theta0) vth e.1.m e.2.1 e.2.2 j).sum * o.v j ^ 2 := by
        rw [← sum_add_distrib]
        refine sum_congr rfl fun j _ => ?_
        rw [add_mul]; rfl
      rw [s]
      linear_combination this
  simp only [h3]
  rw [key, h4]

/-- C213: without any entry named `species-…` the run is refused. -/
theorem no_species (o : Op) (rel : Option ℝ) (vth x y : ℝ) (deck : List Species) (h : ∀ s ∈ deck, s.active = false) :
    ∃ m, initial o rel vth x y deck = .error m := by
  cases hi : initial o rel vth x y deck with
  | error m => exact ⟨m, rfl⟩
  | ok q =>
    obtain ⟨r, h1, h2, -⟩ := initial_sum o rel vth x y deck q.1 q.2 hi
    have : deck.filter Species.active = [] := List.filter_eq_nil_iff.2 fun s hs => by simp [h s hs]
    rw [this] at h1
    exact absurd (List.map_eq_nil_iff.1 h1) h2

/-- C213 fails for super-Gaussian species of relativistic runs: their exponent is silently ignored. -/
theorem exponent_ignored_partial (o : Op) (theta0 vth m m' n T : ℝ) (j : ℕ) : localF o (some theta0) vth m n T j = localF o (some theta0) vth m' n T j := rfl

/-! ### Save times -/

/-- C213: the save times cover the run from its first to its last moment at equal distances; the default has one per step and the start, at most 101. -/
theorem saveTime_spec (lo hi : ℝ) (n : ℕ) (h : 2 ≤ n) :
    saveTime lo hi n 0 = lo ∧ saveTime lo hi n (n - 1) = hi ∧ (∀ i, saveTime lo hi n (i + 1) - saveTime lo hi n i = (hi - lo) / ((n : ℝ) - 1)) := by
  have hn : (n : ℝ) - 1 ≠ 0 := by
    have : (2 : ℝ) ≤ n := by exact_mod_cast h
    intro hc; linarith
  unfold saveTime
  refine ⟨by rw [if_neg (by omega)]; simp, ?_, fun i => ?_⟩
  · rw [if_neg (by omega), Nat.cast_sub (by omega)]
    push_cast
    rw [mul_div_cancel₀ _ hn]
    ring
  · rw [if_neg (by omega), if_neg (by omega)]
    push_cast
    ring

/-- C213: a run of up to a hundred steps saves every step by default, exactly at its time. -/
theorem default_saves_steps (tmin dt : ℝ) (nt : ℕ) (h1 : 1 ≤ nt) (h : nt ≤ 100) (i : ℕ) :
    saveCount none nt = nt + 1 ∧ saveTime tmin (tmin + nt * dt) (saveCount none nt) i = tmin + i * dt := by
  have e : saveCount none nt = nt + 1 := by unfold saveCount; simp; omega
  refine ⟨e, ?_⟩
  rw [e]
  unfold saveTime
  rw [if_neg (by omega)]
  have hn : (nt : ℝ) ≠ 0 := by exact_mod_cast (by omega : nt ≠ 0)
  push_cast
  rw [add_sub_cancel_right, add_sub_cancel_left, mul_div_cancel_left₀ _ hn]

/-- C213 fails for longer runs: whenever the number of steps is not a multiple of a hundred, the second default save time is not the time of any step, so
the saved state is an interpolation between two steps. -/
theorem saves_between_steps_partial (tmin dt : ℝ) (hdt : dt ≠ 0) (nt : ℕ) (h : 100 < nt) (hd : ¬ 100 ∣ nt) (k : ℕ) :
    saveTime tmin (tmin + nt * dt) (saveCount none nt) 1 ≠ tmin + k * dt := by
  have e : saveCount none nt = 101 := by unfold saveCount; simp; omega
  rw [e]
  unfold saveTime
  rw [if_neg (by omega)]
  intro hc
  push_cast at hc
  have h2 : ((nt : ℝ) - 100 * k) * dt = 0 := by linarith
  have h3 : (nt : ℝ) - 100 * k = 0 := (mul_eq_zero.1 h2).resolve_right hdt
  have h4 : nt = 100 * k := by
    have : (nt : ℝ) = ((100 * k : ℕ) : ℝ) := by push_cast; linarith
    exact_mod_cast this
  exact hd ⟨k, h4⟩

/-- Two species on a three-cell speed grid, one of them a spot. -/
noncomputable example : ∃ f n, initial ⟨⟨1, 1⟩, 3, fun j => j + 1, 1, fun j => j, .spectral 1, .spectral 1⟩ (some 0.1) 1 0 0
    [⟨"species-a", { top := { basis := some "gaussian_spots", amplitude := some 2 }, spots := { xRadius := some 5 } }, { top := one }, 2⟩,
     ⟨"quasineutrality", {}, {}, 0⟩, ⟨"species-b", { x := some { baseline := some 3 } }, { top := one }, 3⟩] = .ok (f, n) ∧ n = 5 := by
  have a1 : (⟨"species-a", { top := { basis := some "gaussian_spots", amplitude := some 2 }, spots := { xRadius := some 5 } }, { top := one }, 2⟩ : Species).active = true := by rfl
  have a2 : (⟨"quasineutrality", {}, {}, 0⟩ : Species).active = false := by rfl
  have a3 : (⟨"species-b", { x := some { baseline := some 3 } }, { top := one }, 3⟩ : Species).active = true := by rfl
  have e0 : ∀ z : Raw2, z = { top := one } → z.eval true 0 0 = .ok 1 := by rintro z rfl; simp [Raw2.eval, one, Raw.eval, Raw.base]
  have e1 : ({ top := { basis := some "gaussian_spots", amplitude := some 2 }, spots := { xRadius := some 5 } } : Raw2).eval true 0 0 = .ok 2 := by
    rw [gauss_eval _ rfl 5 rfl]; simp [Spots.centers, yEnvelope]
  have e2 : ({ x := some { baseline := some 3 } } : Raw2).eval true 0 0 = .ok 3 := by
    simp [Raw2.eval, times, one, Raw.eval, Raw.base]
  refine ⟨fun j => localF ⟨⟨1, 1⟩, 3, fun j => j + 1, 1, fun j => j, .spectral 1, .spectral 1⟩ (some 0.1) 1 2 2 1 j
      + (localF ⟨⟨1, 1⟩, 3, fun j => j + 1, 1, fun j => j, .spectral 1, .spectral 1⟩ (some 0.1) 1 3 3 1 j + 0), 2 + (3 + 0), ?_, ?_⟩
  · simp only [initial, total, a1, a2, a3, e0 _ rfl, e1, e2, List.any_cons, List.any_nil, Bool.or_true, Bool.true_or, if_true, Bool.false_eq_true, if_false]
  · norm_num

/-- C212: the level of a uniform profile: `baseline` if given, else `value`, else one; wherever and in either direction. -/
theorem uniform_level (b v : Option ℝ) (ref : Bool) (x y : ℝ) :
    ({ top := { basis := some "uniform", baseline := b, value := v } } : Raw2).eval ref x y =
      .ok (match b, v with
        | some b, _ => b
        | none, some v => v
        | none, none => 1) := by
  cases b <;> cases v <;> simp [Raw2.eval, Raw.eval, Raw.base]

/-- C212: a modulation without amplitude is uniform, and a step without height too. -/
theorem missing_amplitude (b l c w r x : ℝ) (ref : Bool) :
    ({ basis := some "sine", baseline := some b, wavelength := some l } : Raw).eval ref x = .ok b ∧
    ({ basis := some "cosine", baseline := some b, wavelength := some l } : Raw).eval ref x = .ok b ∧
    ({ basis := some "tanh", baseline := some b, center := some c, width := some w, rise := some r } : Raw).eval ref x = .ok b := by
  refine ⟨?_, ?_, ?_⟩ <;> simp [Raw.eval, Raw.trig, Raw.tanh, Raw.base, need]

end Verif.Vfp2d.Profile2

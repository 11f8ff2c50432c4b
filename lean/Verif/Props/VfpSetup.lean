import Verif.Props.VfpInit
import Verif.Props.VfpFile
import Verif.Props.Driver

/-! C188: profiles and the initial isotropic distribution; C189: saved moments. -/
namespace Verif.VfpInit
open Finset

/-! ### C188 -/

/-- The numbers of a profile keep it positive. -/
def Profile.Positive : Profile → Prop
  | .uniform b => 0 < b
  | .tanh _ w r b h _ => 0 < r ∧ 0 ≤ w ∧ 0 < b ∧ 0 < b + h
  | .sine b a _ => 0 < b ∧ |a| < 1
  | .cosine b a _ => 0 < b ∧ |a| < 1
  | .file rows c s => 0 < c ∧ 0 < s ∧ rows ≠ [] ∧ ∀ r ∈ rows, 0 < r.2
  | .other _ => False

theorem one_add_pos {a u : ℝ} (ha : |a| < 1) (hu : |u| ≤ 1) : 0 < 1 + a * u := by
  have : |a * u| < 1 := by
    rw [abs_mul]
    calc |a| * |u| ≤ |a| * 1 := mul_le_mul_of_nonneg_left hu (abs_nonneg a)
      _ < 1 := by linarith
  linarith [(abs_lt.1 this).1]

theorem env_unit (w pL pR x : ℝ) (hw : 0 < w) (h : pL ≤ pR) : 0 ≤ Driver.getEnvelope w w pL pR x ∧ Driver.getEnvelope w w pL pR x ≤ 1 := by
  have h1 := Driver.tanh_le (show (x - pR) / w ≤ (x - pL) / w by gcongr)
  have h2 := (Driver.getEnvelope_inside w w pL pR x hw hw).1
  refine ⟨?_, (abs_lt.1 h2).2.le⟩
  unfold Driver.getEnvelope
  linarith

/-- C188: positive numbers give a positive profile at every position. -/
theorem profile_positive (p : Profile) (hp : p.Positive) (x : ℝ) : ∃ y, p.eval x = .ok y ∧ 0 < y := by
  cases p with
  | uniform b => exact ⟨_, rfl, by rw [mul_one]; exact hp⟩
  | tanh c w r b h shape =>
    obtain ⟨hr, hw, hb, hbh⟩ := hp
    obtain ⟨e0, e1⟩ := env_unit r (c - w * 0.5) (c + w * 0.5) x hr (by linarith)
    refine ⟨_, rfl, ?_⟩
    have key : ∀ u : ℝ, 0 ≤ u → u ≤ 1 → 0 < b + h * u := fun u h0 h1 => by
      have e : b + h * u = (1 - u) * b + u * (b + h) := by ring
      rw [e]
      rcases h0.eq_or_lt with h0 | h0
      · rw [← h0]; linarith
      · have := mul_pos h0 hbh
        have := mul_nonneg (sub_nonneg.2 h1) hb.le
        linarith
    split
    · exact key _ (by linarith) (by linarith)
    · exact key _ e0 e1
  | sine b a l => exact ⟨_, rfl, mul_pos hp.1 (one_add_pos hp.2 (Real.abs_sin_le_one _))⟩
  | cosine b a l => exact ⟨_, rfl, mul_pos hp.1 (one_add_pos hp.2 (Real.abs_cos_le_one _))⟩
  | file rows c s =>
    obtain ⟨hc, hs, hne, hr⟩ := hp
    refine ⟨_, rfl, mul_pos ?_ hs⟩
    obtain ⟨lo, hlo, hmin⟩ : ∃ lo : ℝ, 0 < lo ∧ ∀ r ∈ rows, lo ≤ r.2 := by
      clear hne
      induction rows with
      | nil => exact ⟨1, one_pos, by simp⟩
      | cons a l ih =>
        obtain ⟨lo, h0, h1⟩ := ih fun r hr' => hr r (List.mem_cons_of_mem _ hr')
        refine ⟨min lo a.2, lt_min h0 (hr a (by simp)), fun r hr' => ?_⟩
        rcases List.mem_cons.1 hr' with rfl | hr'
        · exact min_le_right _ _
        · exact (min_le_left _ _).trans (h1 r hr')
    obtain ⟨hi, hmax⟩ : ∃ hi : ℝ, ∀ r ∈ rows, r.2 ≤ hi := by
      clear hne hr hmin
      induction rows with
      | nil => exact ⟨1, by simp⟩
      | cons a l ih =>
        obtain ⟨hi, h1⟩ := ih
        refine ⟨max hi a.2, fun r hr' => ?_⟩
        rcases List.mem_cons.1 hr' with rfl | hr'
        · exact le_max_right _ _
        · exact (h1 r hr').trans (le_max_left _ _)
    have := PicLoad.interp_range lo hi x (rows.map fun r => (r.1 * c, r.2)) (by simpa using hne) fun p hp => by
      obtain ⟨r, hr', rfl⟩ := List.mem_map.1 hp
      exact ⟨hmin r hr', hmax r hr'⟩
    linarith [this.1]
  | other b => exact hp.elim

/-- C188: a bump lies between the baseline and the baseline plus its height, a trough likewise; the two are mirror images. -/
theorem tanh_profile (c w r b h x : ℝ) (hr : 0 < r) (hw : 0 ≤ w) (hh : 0 ≤ h) :
    ∃ y z, (Profile.tanh c w r b h "bump").eval x = .ok y ∧ (Profile.tanh c w r b h "trough").eval x = .ok z ∧
      b ≤ y ∧ y ≤ b + h ∧ y + z = 2 * b + h := by
  obtain ⟨e0, e1⟩ := env_unit r (c - w * 0.5) (c + w * 0.5) x hr (by linarith)
  refine ⟨_, _, rfl, rfl, ?_⟩
  rw [if_neg (by decide), if_pos rfl]
  refine ⟨?_, ?_, by ring⟩ <;> nlinarith

/-- C188: the sine and cosine profiles repeat after one wavelength and average to the baseline over half of it. -/
theorem wave_profile (b a l x : ℝ) (hl : l ≠ 0) :
    (Profile.sine b a l).eval (x + l) = (Profile.sine b a l).eval x ∧ (Profile.cosine b a l).eval (x + l) = (Profile.cosine b a l).eval x ∧
    ∃ y z, (Profile.sine b a l).eval x = .ok y ∧ (Profile.sine b a l).eval (x + l / 2) = .ok z ∧ (y + z) / 2 = b := by
  have e1 : 2 * Real.pi / l * (x + l) = 2 * Real.pi / l * x + 2 * Real.pi := by field_simp
  have e2 : 2 * Real.pi / l * (x + l / 2) = 2 * Real.pi / l * x + Real.pi := by field_simp
  refine ⟨?_, ?_, _, _, rfl, rfl, ?_⟩
  · simp only [Profile.eval]; rw [e1, Real.sin_add_two_pi]
  · simp only [Profile.eval]; rw [e1, Real.cos_add_two_pi]
  · rw [e2, Real.sin_add_pi]; ring

/-- C188: a deck is accepted at every position exactly when some section is named `species-…` and each of those has
known profiles. -/
theorem accepted_iff (g : Vfp.Grid) (vth scale : ℝ) (d : List Species) (x : ℝ) :
    (∃ f, initialF0 g vth scale d x = .ok f) ↔
      (∃ s ∈ d, s.name.startsWith "species-" = true) ∧
        ∀ s ∈ d, s.name.startsWith "species-" = true → (∀ b, s.n ≠ .other b) ∧ ∀ b, s.T ≠ .other b := by
  have hev : ∀ p : Profile, (∃ y, p.eval x = .ok y) ↔ ∀ b, p ≠ .other b := by
    intro p
    cases p with
    | other b =>
      constructor
      · rintro ⟨y, hy⟩; cases hy
      · intro h; exact absurd rfl (h b)
    | _ => exact ⟨fun _ b h => (by cases h), fun _ => ⟨_, rfl⟩⟩
  have hlist : ∀ l : List Species, (∃ r, profilesAt x l = .ok r) ↔ ∀ s ∈ l, (∀ b, s.n ≠ .other b) ∧ ∀ b, s.T ≠ .other b := by
    intro l
    induction l with
    | nil => exact ⟨fun _ s hs => by simp at hs, fun _ => ⟨_, rfl⟩⟩
    | cons s l ih =>
      rw [profilesAt]
      constructor
      · rintro ⟨r, hr⟩
        cases h1 : s.n.eval x with
        | error e => rw [h1] at hr; cases hr
        | ok n =>
          cases h2 : s.T.eval x with
          | error e => rw [h1, h2] at hr; cases hr
          | ok T =>
            cases h3 : profilesAt x l with
            | error e => rw [h1, h2, h3] at hr; cases hr
            | ok q =>
              intro s' hs'
              rcases List.mem_cons.1 hs' with rfl | hs'
              · exact ⟨(hev _).1 ⟨n, h1⟩, (hev _).1 ⟨T, h2⟩⟩
              · exact ih.1 ⟨q, h3⟩ s' hs'
      · intro h
        obtain ⟨n, h1⟩ := (hev s.n).2 (h s (by simp)).1
        obtain ⟨T, h2⟩ := (hev s.T).2 (h s (by simp)).2
        obtain ⟨q, h3⟩ := ih.2 fun s' hs' => h s' (List.mem_cons_of_mem _ hs')
        rw [h1, h2, h3]
        exact ⟨_, rfl⟩
  have hact : active d = [] ↔ ¬ ∃ s ∈ d, s.name.startsWith "species-" = true := by
    unfold active
    rw [List.filter_eq_nil_iff]
    push Not
    simp
  unfold initialF0
  constructor
  · rintro ⟨f, hf⟩
    by_cases h : active d = []
    · rw [if_pos h] at hf; cases hf
    · rw [if_neg h] at hf
      refine ⟨by_contra fun hn => h (hact.2 hn), fun s hs hn => ?_⟩
      cases hp : profilesAt x (active d) with
      | error e => rw [hp] at hf; cases hf
      | ok r => exact (hlist _).1 ⟨r, hp⟩ s (List.mem_filter.2 ⟨hs, hn⟩)
  · rintro ⟨h1, h2⟩
    rw [if_neg fun h => hact.1 h h1]
    obtain ⟨r, hr⟩ := (hlist (active d)).2 fun s hs => h2 s (List.mem_filter.1 hs).1 (List.mem_filter.1 hs).2
    rw [hr]
    exact ⟨_, rfl⟩

/-- The pairs the species loop uses, spelled out. -/
theorem profilesAt_spec (x : ℝ) (l : List Species) (r : List (Species × ℝ × ℝ)) (h : profilesAt x l = .ok r) :
    r.map Prod.fst = l ∧ ∀ e ∈ r, e.1.n.eval x = .ok e.2.1 ∧ e.1.T.eval x = .ok e.2.2 := by
  induction l generalizing r with
  | nil => cases h; exact ⟨rfl, by simp⟩
  | cons s l ih =>
    rw [profilesAt] at h
    cases h1 : s.n.eval x with
    | error e => rw [h1] at h; cases h
    | ok n =>
      cases h2 : s.T.eval x with
      | error e => rw [h1, h2] at h; cases h
      | ok T =>
        cases h3 : profilesAt x l with
        | error e => rw [h1, h2, h3] at h; cases h
        | ok q =>
          rw [h1, h2, h3] at h
          cases h
          obtain ⟨a, b⟩ := ih q h3
          refine ⟨by rw [List.map_cons, a], fun e he => ?_⟩
          rcases List.mem_cons.1 he with rfl | he
          · exact ⟨h1, h2⟩
          · exact b e he

theorem list_sum_pos (l : List ℝ) (h0 : l ≠ []) (h : ∀ a ∈ l, 0 < a) : 0 < l.sum := by
  cases l with
  | nil => exact absurd rfl h0
  | cons a l =>
    rw [List.sum_cons]
    have := List.sum_nonneg fun b hb => (h b (List.mem_cons_of_mem _ hb)).le
    linarith [h a (by simp)]

/-- C188: with positive profiles the initial distribution is positive at every speed. -/
theorem initial_positive (g : Vfp.Grid) (vth scale : ℝ) (hv : 0 < vth) (hsc : 0 < scale) (d : List Species) (x : ℝ) (f : ℕ → ℝ)
    (hf : initialF0 g vth scale d x = .ok f) (hd : ∀ s ∈ active d, 0 < s.m ∧ s.n.Positive ∧ s.T.Positive) (j : ℕ) : 0 < f j := by
  unfold initialF0 at hf
  by_cases h : active d = []
  · rw [if_pos h] at hf; cases hf
  · rw [if_neg h] at hf
    cases hp : profilesAt x (active d) with
    | error e => rw [hp] at hf; cases hf
    | ok r =>
      rw [hp] at hf
      cases hf
      obtain ⟨a, b⟩ := profilesAt_spec x _ r hp
      refine mul_pos (list_sum_pos _ ?_ fun y hy => ?_) hsc
      · intro h0
        have : r = [] := by simpa using h0
        rw [this] at a
        exact h a.symm
      · obtain ⟨e, he, rfl⟩ := List.mem_map.1 hy
        obtain ⟨e1, e2⟩ := b e he
        obtain ⟨p1, p2, p3⟩ := hd e.1 (by rw [← a]; exact List.mem_map.2 ⟨e, he, rfl⟩)
        obtain ⟨n, hn, n0⟩ := profile_positive _ p2 x
        obtain ⟨T, hT, T0⟩ := profile_positive _ p3 x
        rw [e1] at hn; rw [e2] at hT
        cases hn; cases hT
        exact dist_pos _ _ _ _ _ p1 hv n0 T0

/-- The distribution of the accepted species as a function of the speed. -/
noncomputable def mixture (vth scale : ℝ) (r : List (Species × ℝ × ℝ)) (v : ℝ) : ℝ :=
  (r.map fun s => dist s.1.m vth s.2.1 s.2.2 v).sum * scale

open MeasureTheory Set in
/-- C186: the densities of the species add up, and so do their energies: the initial density is the sum of the density
profiles, in units of the reference density, and the initial temperature their density-weighted mean. -/
theorem mixture_moments (vth scale : ℝ) (hv : 0 < vth) (r : List (Species × ℝ × ℝ)) (h : ∀ s ∈ r, 0 < s.1.m ∧ 0 < s.2.1 ∧ 0 < s.2.2) :
    4 * Real.pi * ∫ v in Ioi (0 : ℝ), v ^ 2 * mixture vth scale r v = (r.map fun s => s.2.1).sum * scale ∧
    4 * Real.pi * ∫ v in Ioi (0 : ℝ), v ^ 4 * mixture vth scale r v = 3 * ((r.map fun s => s.2.1 * s.2.2).sum * (vth ^ 2 / 2)) * scale := by
  have key : ∀ k : ℕ, IntegrableOn (fun v => v ^ k * mixture vth scale r v) (Ioi 0) ∧
      ∫ v in Ioi (0 : ℝ), v ^ k * mixture vth scale r v =
        (r.map fun s => ∫ v in Ioi (0 : ℝ), v ^ k * dist s.1.m vth s.2.1 s.2.2 v).sum * scale := by
    intro k
    induction r with
    | nil =>
      have e : (fun v : ℝ => v ^ k * mixture vth scale [] v) = fun _ => 0 := by funext v; simp [mixture]
      rw [e]; simp
    | cons s l ih =>
      obtain ⟨i1, i2⟩ := ih fun s' hs' => h s' (List.mem_cons_of_mem _ hs')
      obtain ⟨a, b, c⟩ := h s (by simp)
      have hi := (dist_integrable s.1.m vth s.2.1 s.2.2 a hv c b k).mul_const scale
      have e : (fun v : ℝ => v ^ k * mixture vth scale (s :: l) v) =
          fun v => v ^ k * dist s.1.m vth s.2.1 s.2.2 v * scale + v ^ k * mixture vth scale l v := by
        funext v; simp only [mixture, List.map_cons, List.sum_cons]; ring
      rw [e]
      refine ⟨hi.add i1, ?_⟩
      rw [integral_add hi i1, i2, integral_mul_const, List.map_cons, List.sum_cons]
      ring
  have sums : ∀ (k : ℕ) (q : Species × ℝ × ℝ → ℝ), (∀ s ∈ r, 4 * Real.pi * (∫ v in Ioi (0 : ℝ), v ^ k * dist s.1.m vth s.2.1 s.2.2 v) = q s) →
      4 * Real.pi * (r.map fun s => ∫ v in Ioi (0 : ℝ), v ^ k * dist s.1.m vth s.2.1 s.2.2 v).sum = (r.map q).sum := by
    intro k q
    clear key h
    induction r with
    | nil => intro _; simp
    | cons s l ih =>
      intro hq
      rw [List.map_cons, List.sum_cons, List.map_cons, List.sum_cons, mul_add, hq s (by simp), ih fun s' hs' => hq s' (List.mem_cons_of_mem _ hs')]
  constructor
  · rw [(key 2).2, ← mul_assoc, sums 2 (fun s => s.2.1) fun s hs => by
      obtain ⟨a, b, c⟩ := h s hs
      exact density_continuum _ _ _ _ a hv c]
  · rw [(key 4).2, ← mul_assoc, sums 4 (fun s => 3 * s.2.1 * (s.2.2 * vth ^ 2 / 2)) fun s hs => by
      obtain ⟨a, b, c⟩ := h s hs
      exact energy_continuum _ _ _ _ a hv c]
    congr 1
    clear key sums h
    induction r with
    | nil => simp
    | cons s l ih => simp only [List.map_cons, List.sum_cons]; rw [ih]; ring

/-- The initial state at one position is that mixture, sampled at the speeds. -/
theorem initial_is_mixture (g : Vfp.Grid) (vth scale : ℝ) (d : List Species) (x : ℝ) (f : ℕ → ℝ) (hf : initialF0 g vth scale d x = .ok f) :
    ∃ r, r.map Prod.fst = active d ∧ (∀ e ∈ r, e.1.n.eval x = .ok e.2.1 ∧ e.1.T.eval x = .ok e.2.2) ∧
      ∀ j, f j = mixture vth scale r (g.v j) := by
  unfold initialF0 at hf
  by_cases h : active d = []
  · rw [if_pos h] at hf; cases hf
  · rw [if_neg h] at hf
    cases hp : profilesAt x (active d) with
    | error e => rw [hp] at hf; cases hf
    | ok r =>
      rw [hp] at hf
      cases hf
      obtain ⟨a, b⟩ := profilesAt_spec x _ r hp
      exact ⟨r, a, b, fun j => rfl⟩

/-! ### C189 -/

theorem moment1_e2c (g : Vfp.Grid) (f : ℕ → ℕ → ℝ) (i : ℕ) :
    Vfp.e2c (fun k => moment1 g (f k)) i = moment1 g fun j => Vfp.e2c (fun k => f k j) i := by
  unfold Vfp.e2c moment1
  have : ∑ j ∈ range g.nv, 0.5 * (f i j + f (i + 1) j) * g.v j ^ 3 =
      0.5 * (∑ j ∈ range g.nv, f i j * g.v j ^ 3 + ∑ j ∈ range g.nv, f (i + 1) j * g.v j ^ 3) := by
    rw [← sum_add_distrib, mul_sum]
    exact sum_congr rfl fun j _ => by ring
  rw [this]
  ring

/-- C189: every scalar of the default save is the mean over the cells of the field saved under the same name. -/
theorem scalars_are_means (g : Vfp.Grid) (f0 f10 : ℕ → ℕ → ℝ) :
    meanN g f0 = mean g.nx (fun i => savedN g (f0 i)) ∧ meanU g f0 = mean g.nx (fun i => savedU g (f0 i)) ∧
    meanJ g f10 = mean g.nx (fun i => savedV g f10 i) ∧ meanQ g f10 = mean g.nx (fun i => savedQ g f10 i) := by
  refine ⟨rfl, rfl, ?_, ?_⟩
  · unfold meanJ savedV
    congr 1; funext i
    exact (moment1_e2c g f10 i).symm
  · unfold meanQ savedQ
    congr 1; funext i
    rw [moment1_e2c]
    congr 1; funext j
    unfold Vfp.e2c
    ring

/-- C189: pressure, temperature and energy are those of one distribution: `P = n T = U / 3`, and `T` is the mean of `v²/3`
over the particles. -/
theorem moments_consistent (g : Vfp.Grid) (hg : 0 < g.nv ∧ 0 < g.vmax) (f0 : ℕ → ℝ) (hf : ∀ j < g.nv, 0 < f0 j) :
    0 < savedN g f0 ∧ savedN g f0 * savedT g f0 = savedP g f0 ∧ savedU g f0 = 3 * savedP g f0 ∧ 0 < savedT g f0 ∧ savedT g f0 < g.vmax ^ 2 / 3 := by
  have hnv : (0 : ℝ) < g.nv := by exact_mod_cast hg.1
  have hdv : 0 < g.dv := div_pos hg.2 hnv
  have hvj : ∀ j, 0 < g.v j := fun j => by unfold Vfp.Grid.v; positivity
  have hvm : ∀ j < g.nv, g.v j < g.vmax := by
    intro j hj
    have h1 : ((j : ℝ) + 1) ≤ g.nv := by exact_mod_cast hj
    have h2 : (g.nv : ℝ) * g.dv = g.vmax := by unfold Vfp.Grid.dv; field_simp
    have h3 := mul_le_mul_of_nonneg_right h1 hdv.le
    unfold Vfp.Grid.v
    linarith [h2]
  have hp := Real.pi_pos
  have sN : 0 < ∑ j ∈ range g.nv, f0 j * g.v j ^ 2 := sum_pos (fun j hj => by
    have := hf j (mem_range.1 hj); have := hvj j; positivity) ⟨0, mem_range.2 hg.1⟩
  have sU : 0 < ∑ j ∈ range g.nv, f0 j * g.v j ^ 2 * g.v j ^ 2 := sum_pos (fun j hj => by
    have := hf j (mem_range.1 hj); have := hvj j; positivity) ⟨0, mem_range.2 hg.1⟩
  have sL : ∑ j ∈ range g.nv, f0 j * g.v j ^ 2 * g.v j ^ 2 < g.vmax ^ 2 * ∑ j ∈ range g.nv, f0 j * g.v j ^ 2 := by
    rw [mul_sum]
    refine sum_lt_sum_of_nonempty ⟨0, mem_range.2 hg.1⟩ fun j hj => ?_
    have a := hf j (mem_range.1 hj); have b := hvj j; have c := hvm j (mem_range.1 hj)
    have : g.v j ^ 2 < g.vmax ^ 2 := by gcongr
    rw [mul_comm (g.vmax ^ 2)]
    exact mul_lt_mul_of_pos_left this (by positivity)
  have hN : 0 < savedN g f0 := by unfold savedN moment0; positivity
  have hU : 0 < savedU g f0 := by unfold savedU moment0; positivity
  have hL : savedU g f0 < g.vmax ^ 2 * savedN g f0 := by
    unfold savedU savedN moment0
    have := mul_lt_mul_of_pos_left sL (show 0 < 4 * Real.pi * g.dv by positivity)
    calc _ = 4 * Real.pi * g.dv * ∑ j ∈ range g.nv, f0 j * g.v j ^ 2 * g.v j ^ 2 := by ring
      _ < _ := this
      _ = _ := by ring
  refine ⟨hN, ?_, ?_, ?_, ?_⟩
  · unfold savedT; field_simp
  · unfold savedP; ring
  · unfold savedT savedP; positivity
  · unfold savedT savedP
    rw [div_lt_iff₀ hN]
    linarith

/-- C189: the saved mean velocity counts interior edges once and the two outer edges half: a current that vanishes at the walls
is averaged over the cells. -/
theorem mean_velocity (g : Vfp.Grid) (f10 : ℕ → ℕ → ℝ) (h0 : moment1 g (f10 0) = 0) (h1 : moment1 g (f10 g.nx) = 0) :
    meanJ g f10 = (∑ i ∈ range g.nx, moment1 g (f10 i)) / g.nx := by
  rw [(scalars_are_means g (fun _ _ => 0) f10).2.2.1]
  unfold mean savedV Vfp.e2c
  congr 1
  rw [← mul_sum, sum_add_distrib]
  have := sum_range_succ' (fun i => moment1 g (f10 i)) g.nx
  rw [sum_range_succ, h1, h0] at this
  rw [← (by linarith : ∑ i ∈ range g.nx, moment1 g (f10 i) = ∑ i ∈ range g.nx, moment1 g (f10 (i + 1)))]
  ring

/-- C189 (violated): the column labelled `cm-3` is the density in particles per cubic centimetre only if the reference
density of the run happens to be `9.09e21`; it does not depend on the laser wavelength. -/
theorem label_n_iff (n n0 : ℝ) (hn : n ≠ 0) :
    (∃ e ∈ columns "n", e.1 = "cm-3" ∧ n * e.2 = n * n0) ↔ n0 = 9.09 * 10 ^ 21 := by
  unfold columns
  rw [if_neg (by decide), if_pos rfl]
  constructor
  · rintro ⟨e, he, h1, h2⟩
    simp only [List.mem_cons, List.not_mem_nil, or_false] at he
    rcases he with rfl | rfl
    · exact (mul_left_cancel₀ hn h2).symm
    · exact absurd h1 (by decide)
  · rintro rfl
    exact ⟨("cm-3", 9.09 * 10 ^ 21), by simp, rfl, rfl⟩

/-- C189: every saved quantity has a column in code units. -/
theorem raw_column (k : String) : ∃ e ∈ columns k, e.2 = 1 := by
  unfold columns
  split_ifs
  · exact ⟨("a.u.", 1), by simp, rfl⟩
  · exact ⟨("n_c", 1), by simp, rfl⟩
  · exact ⟨("a.u.", 1), by simp, rfl⟩

theorem saveFails_none (d : List (String × List String)) :
    saveFails d = none ↔ ∀ e ∈ d, "t" ∈ e.2 ∧ ((e.1.startsWith "fields" || e.1.startsWith "electron") = true → e.2 = ["t"]) := by
  induction d with
  | nil => simp [saveFails]
  | cons e l ih =>
    rw [saveFails]
    by_cases h1 : "t" ∈ e.2
    · rw [if_neg (not_not.2 h1)]
      by_cases h2 : (e.1.startsWith "fields" || e.1.startsWith "electron") = true
      · by_cases h3 : e.2 = ["t"]
        · rw [if_neg (by simp [h3]), ih]
          constructor
          · intro h x hx
            rcases List.mem_cons.1 hx with rfl | hx
            · exact ⟨h1, fun _ => h3⟩
            · exact h x hx
          · exact fun h x hx => h x (List.mem_cons_of_mem _ hx)
        · rw [if_pos (by rw [h2]; simpa using h3)]
          refine ⟨fun h => (by cases h), fun h => absurd ((h e (by simp)).2 h2) h3⟩
      · rw [if_neg (by simp only [Bool.and_eq_true, not_and]; exact fun h => absurd h h2), ih]
        constructor
        · intro h x hx
          rcases List.mem_cons.1 hx with rfl | hx
          · exact ⟨h1, fun h => absurd h h2⟩
          · exact h x hx
        · exact fun h x hx => h x (List.mem_cons_of_mem _ hx)
    · rw [if_pos h1]
      exact ⟨fun h => (by cases h), fun h => absurd (h e (by simp)).1 h1⟩

/-- C189: a save section is accepted exactly when every entry is for fields or electrons and lists the time axis only; then every
entry is saved, and the scalars with them. -/
theorem save_accepted_iff (d : List (String × List String)) (keys : List String) :
    saveKeys d = .ok keys ↔
      (∀ e ∈ d, (e.1.startsWith "fields" = true ∨ e.1.startsWith "electron" = true) ∧ e.2 = ["t"]) ∧ keys = d.map Prod.fst ++ ["default"] := by
  unfold saveKeys
  constructor
  · intro h
    cases hs : saveFails d with
    | some e => rw [hs] at h; cases h
    | none =>
      rw [hs] at h
      dsimp only at h
      have hn := (saveFails_none d).1 hs
      split at h
      · next ha =>
        rw [List.all_eq_true] at ha
        cases h
        refine ⟨fun e he => ?_, rfl⟩
        have := ha e he
        refine ⟨?_, (hn e he).2 this⟩
        rwa [Bool.or_eq_true] at this
      · cases h
  · rintro ⟨h, rfl⟩
    have hn : saveFails d = none := (saveFails_none d).2 fun e he => ⟨by rw [(h e he).2]; simp, fun _ => (h e he).2⟩
    rw [hn]
    dsimp only
    rw [if_pos]
    rw [List.all_eq_true]
    intro e he
    rw [Bool.or_eq_true]
    exact (h e he).1

/-! ### Instances -/

noncomputable def demo : List Species :=
  [⟨"species-hot", 3, .sine 0.1 0.5 100, .uniform 4, ⟩, ⟨"species-cold", 2, .tanh 50 20 5 0.5 0.4 "bump", .uniform 1⟩,
    ⟨"ion", 2, .other "x", .other "x"⟩]

noncomputable def demoGrid : Vfp.Grid := ⟨0, 100, 10, 1, 8, 6, "periodic", "cartesian"⟩

theorem demo_active : active demo = demo.take 2 := by
  unfold active demo
  rw [List.filter_cons_of_pos (by decide +kernel), List.filter_cons_of_pos (by decide +kernel), List.filter_cons_of_neg (by decide +kernel)]
  rfl

theorem demo_ok (x : ℝ) : ∃ f, initialF0 demoGrid 0.1 0.2 demo x = .ok f := by
  rw [accepted_iff]
  refine ⟨⟨⟨"species-hot", 3, .sine 0.1 0.5 100, .uniform 4⟩, by unfold demo; simp, by decide +kernel⟩, fun s hs hn => ?_⟩
  have : s ∈ active demo := List.mem_filter.2 ⟨hs, hn⟩
  rw [demo_active] at this
  simp only [demo, List.take, List.mem_cons, List.not_mem_nil, or_false] at this
  rcases this with rfl | rfl <;> exact ⟨fun b h => (by cases h), fun b h => (by cases h)⟩

example (x : ℝ) : ∃ f, initialF0 demoGrid 0.1 0.2 demo x = .ok f ∧ ∀ j, 0 < f j := by
  obtain ⟨f, hf⟩ := demo_ok x
  refine ⟨f, hf, initial_positive demoGrid 0.1 0.2 (by norm_num) (by norm_num) demo x f hf fun s hs => ?_⟩
  rw [demo_active] at hs
  simp only [demo, List.take, List.mem_cons, List.not_mem_nil, or_false] at hs
  rcases hs with rfl | rfl
  · exact ⟨by norm_num, ⟨by norm_num, by rw [abs_lt]; constructor <;> norm_num⟩, by unfold Profile.Positive; norm_num⟩
  · exact ⟨by norm_num, ⟨by norm_num, by norm_num, by norm_num, by norm_num⟩, by unfold Profile.Positive; norm_num⟩

example : saveKeys [("fields", ["t"]), ("electron", ["t"])] = .ok ["fields", "electron", "default"] := by
  rw [save_accepted_iff]
  refine ⟨fun e he => ?_, rfl⟩
  simp only [List.mem_cons, List.not_mem_nil, or_false] at he
  rcases he with rfl | rfl
  · exact ⟨.inl (by decide +kernel), rfl⟩
  · exact ⟨.inr (by decide +kernel), rfl⟩

end Verif.VfpInit

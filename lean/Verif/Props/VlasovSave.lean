import Verif.Model.VlasovSave
import Verif.Props.VlasovSetup
import Verif.Props.Fft

/-! C193: the saved moments and scalars of Vlasov-1D. -/
namespace Verif.VlasovSave
open Finset Verif.Spectral

theorem moment_add {nx : ℕ} (s : Species nx) (a b : ZMod s.nv → ℝ) : moment s (fun j => a j + b j) = moment s a + moment s b := by
  unfold moment; rw [sum_add_distrib]; ring

theorem moment_mul {nx : ℕ} (s : Species nx) (c : ℝ) (a : ZMod s.nv → ℝ) : moment s (fun j => c * a j) = c * moment s a := by
  unfold moment; rw [← mul_sum]; ring

/-- C193: the scalars are the averages over the box of the saved fields. -/
theorem scalars_of_fields {nx : ℕ} [NeZero nx] (s : Species nx) :
    meanN s = mean (fieldN s) ∧ meanJ s = mean (fieldJ s) ∧ meanS s = mean (fieldS s) ∧ meanF2 s = mean (fieldF2 s) := by
  refine ⟨rfl, rfl, ?_, rfl⟩
  unfold meanS fieldS
  congr 1; funext x; congr 1; funext j; ring

/-- C193: the current is density times mean velocity. -/
theorem current {nx : ℕ} (s : Species nx) (x : ZMod nx) (hn : fieldN s x ≠ 0) : fieldJ s x = fieldN s x * fieldV s x := by
  unfold fieldV; field_simp

/-- C193: the second moment is thermal pressure plus ram pressure. -/
theorem second_moment {nx : ℕ} (s : Species nx) (x : ZMod nx) (hn : fieldN s x ≠ 0) :
    (moment s fun j => s.f x j * s.v j ^ 2) = fieldP s x + fieldN s x * fieldV s x ^ 2 := by
  have hj := current s x hn
  have e : fieldP s x = (moment s fun j => s.f x j * s.v j ^ 2) - 2 * fieldV s x * fieldJ s x + fieldV s x ^ 2 * fieldN s x := by
    unfold fieldP
    generalize fieldV s x = u
    have : (fun j => s.f x j * (s.v j - u) ^ 2) = fun j => (s.f x j * s.v j ^ 2 + -(2 * u) * (s.f x j * s.v j)) + u ^ 2 * s.f x j := by
      funext j; ring
    rw [this, moment_add, moment_add, moment_mul, moment_mul]
    unfold fieldJ fieldN
    ring
  rw [e, hj]
  ring

/-- C193: the third moment is heat flux plus convected pressure and flow. -/
theorem third_moment {nx : ℕ} (s : Species nx) (x : ZMod nx) (hn : fieldN s x ≠ 0) :
    (moment s fun j => s.f x j * s.v j ^ 3) = fieldQ s x + 3 * fieldV s x * fieldP s x + fieldN s x * fieldV s x ^ 3 := by
  have hj := current s x hn
  have h2 := second_moment s x hn
  have e : fieldQ s x = (moment s fun j => s.f x j * s.v j ^ 3) - 3 * fieldV s x * (moment s fun j => s.f x j * s.v j ^ 2) +
      3 * fieldV s x ^ 2 * fieldJ s x - fieldV s x ^ 3 * fieldN s x := by
    unfold fieldQ
    generalize fieldV s x = u
    have : (fun j => s.f x j * (s.v j - u) ^ 3) =
        fun j => ((s.f x j * s.v j ^ 3 + -(3 * u) * (s.f x j * s.v j ^ 2)) + 3 * u ^ 2 * (s.f x j * s.v j)) + -u ^ 3 * s.f x j := by
      funext j; ring
    rw [this, moment_add, moment_add, moment_add, moment_mul, moment_mul, moment_mul]
    unfold fieldJ fieldN
    ring
  rw [e, h2, hj]
  ring

/-- C193: the mean heat flux and the mean pressure of the scalars contain the convected parts, cell by cell. -/
theorem mean_flux {nx : ℕ} [NeZero nx] (s : Species nx) (hn : ∀ x, fieldN s x ≠ 0) :
    meanQ s = mean (fun x => fieldQ s x + 3 * fieldV s x * fieldP s x + fieldN s x * fieldV s x ^ 3) ∧
      meanP s = mean (fun x => fieldP s x + fieldN s x * fieldV s x ^ 2) := by
  constructor
  · unfold meanQ
    congr 1
    funext x
    exact third_moment s x (hn x)
  · unfold meanP
    congr 1
    funext x
    exact second_moment s x (hn x)

/-- C193: the saved pressure of a non-negative distribution is not negative, and zero only for a cold beam. -/
theorem pressure {nx : ℕ} (s : Species nx) (x : ZMod nx) (hd : 0 < s.dv) (hf : ∀ j, 0 ≤ s.f x j) :
    0 ≤ fieldP s x ∧ (fieldP s x = 0 ↔ ∀ j, s.f x j ≠ 0 → s.v j = fieldV s x) := by
  have nn : ∀ j ∈ (univ : Finset (ZMod s.nv)), 0 ≤ s.f x j * (s.v j - fieldV s x) ^ 2 := fun j _ => mul_nonneg (hf j) (sq_nonneg _)
  refine ⟨mul_nonneg (sum_nonneg nn) hd.le, ?_⟩
  unfold fieldP moment
  rw [mul_eq_zero, or_iff_left hd.ne', sum_eq_zero_iff_of_nonneg nn]
  refine forall_congr' fun j => ?_
  constructor
  · intro h hfj
    rcases mul_eq_zero.1 (h (mem_univ _)) with h | h
    · exact absurd h hfj
    · have := pow_eq_zero_iff (two_ne_zero) |>.1 h
      linarith
  · intro h _
    by_cases hfj : s.f x j = 0
    · rw [hfj, zero_mul]
    · rw [h hfj]; ring

/-- C193: the saved pressure and heat flux do not depend on the frame: a distribution moved by `u` has the same. -/
theorem galilean {nx : ℕ} (s : Species nx) (u : ℝ) (x : ZMod nx) (hn : fieldN s x ≠ 0) :
    let s' : Species nx := { s with v := fun j => s.v j + u }
    fieldN s' x = fieldN s x ∧ fieldV s' x = fieldV s x + u ∧ fieldP s' x = fieldP s x ∧ fieldQ s' x = fieldQ s x := by
  intro s'
  have hN : fieldN s' x = fieldN s x := rfl
  have hV : fieldV s' x = fieldV s x + u := by
    unfold fieldV
    rw [hN]
    have : fieldJ s' x = fieldJ s x + u * fieldN s x := by
      unfold fieldJ fieldN
      have : (fun j => s'.f x j * s'.v j) = fun j => s.f x j * s.v j + u * s.f x j := by
        funext j
        show s.f x j * (s.v j + u) = _
        ring
      show moment s' (fun j => s'.f x j * s'.v j) = _
      rw [this]
      show moment s (fun j => s.f x j * s.v j + u * s.f x j) = _
      rw [moment_add, moment_mul]
    rw [this]
    field_simp
  refine ⟨hN, hV, ?_, ?_⟩
  · unfold fieldP
    rw [hV]
    show (moment s fun j => s.f x j * (s.v j + u - (fieldV s x + u)) ^ 2) = _
    congr 1; funext j; ring
  · unfold fieldQ
    rw [hV]
    show (moment s fun j => s.f x j * (s.v j + u - (fieldV s x + u)) ^ 3) = _
    congr 1; funext j; ring

/-- C193: the kinetic energy is the mean of half the mass times thermal plus ram pressure, summed over the species. -/
theorem kinetic_energy {nx : ℕ} [NeZero nx] (ss : List (Species nx)) (hn : ∀ s ∈ ss, ∀ x, fieldN s x ≠ 0) :
    kinetic ss = (ss.map fun s => mean fun x => s.mass / 2 * (fieldP s x + fieldN s x * fieldV s x ^ 2)).sum := by
  unfold kinetic
  congr 1
  refine List.map_congr_left fun s hs => ?_
  unfold meanP mean
  rw [sum_congr rfl fun x _ => second_moment s x (hn s hs x), ← mul_sum]
  ring

/-- C193: the saved total energy is the sum of the saved kinetic and field energy, none negative for non-negative distributions. -/
theorem total_energy {nx : ℕ} [NeZero nx] (ss : List (Species nx)) (e : ZMod nx → ℝ) :
    totalEnergy ss e = kinetic ss + fieldEnergy e ∧ 0 ≤ fieldEnergy e ∧ (fieldEnergy e = 0 ↔ ∀ x, e x = 0) ∧
      ((∀ s ∈ ss, 0 ≤ s.mass ∧ 0 ≤ s.dv ∧ ∀ x j, 0 ≤ s.f x j) → 0 ≤ kinetic ss) := by
  have hx : (0 : ℝ) < nx := by exact_mod_cast Nat.pos_of_ne_zero (NeZero.ne nx)
  have nn : 0 ≤ ∑ x, e x ^ 2 := sum_nonneg fun x _ => sq_nonneg _
  refine ⟨rfl, ?_, ?_, fun h => ?_⟩
  · unfold fieldEnergy mean; positivity
  · unfold fieldEnergy mean
    rw [mul_eq_zero, or_iff_right (by norm_num), div_eq_zero_iff, or_iff_left hx.ne', sum_eq_zero_iff_of_nonneg fun x _ => sq_nonneg _]
    simp
  · unfold kinetic
    refine List.sum_nonneg fun y hy => ?_
    obtain ⟨s, hs, rfl⟩ := List.mem_map.1 hy
    obtain ⟨h1, h2, h3⟩ := h s hs
    have : 0 ≤ meanP s := by
      unfold meanP mean moment
      exact div_nonneg (sum_nonneg fun x _ => mul_nonneg (sum_nonneg fun j _ => mul_nonneg (h3 x j) (sq_nonneg _)) h2) hx.le
    positivity

/-- C193: the entropy of a distribution between zero and one is not negative; `f^2` is zero only for an empty cell. -/
theorem entropy {nx : ℕ} (s : Species nx) (x : ZMod nx) (hd : 0 < s.dv) :
    ((∀ j, 0 ≤ s.f x j ∧ s.f x j ≤ 1) → 0 ≤ fieldS s x) ∧ (fieldF2 s x = 0 ↔ ∀ j, s.f x j = 0) := by
  constructor
  · intro h
    unfold fieldS moment
    refine mul_nonneg (sum_nonneg fun j _ => ?_) hd.le
    rw [abs_of_nonneg (h j).1]
    have := Real.log_nonpos (h j).1 (h j).2
    nlinarith [(h j).1]
  · unfold fieldF2 moment
    rw [mul_eq_zero, or_iff_left hd.ne', sum_eq_zero_iff_of_nonneg fun j _ => mul_self_nonneg _]
    simp

/-- C193: the mean ponderomotive force is the difference of the light pressure at the two ends of the box. -/
theorem mean_pond (dx : ℝ) (nx : ℕ) (a : ℕ → ℝ) :
    meanPond dx nx a = -((a (nx + 1) ^ 2 + a nx ^ 2) - (a 1 ^ 2 + a 0 ^ 2)) / (4 * dx * nx) := by
  have tel : ∑ i ∈ range nx, pond dx a i = -((a (nx + 1) ^ 2 + a nx ^ 2) - (a 1 ^ 2 + a 0 ^ 2)) / (4 * dx) := by
    induction nx with
    | zero => simp
    | succ n ih =>
      rw [sum_range_succ, ih]
      unfold pond
      ring
  unfold meanPond
  rw [tel, div_div]

/-- C193: at the start the saved density of every species is the profile of the deck, and the saved mean its average. -/
theorem initial_density {nx : ℕ} [NeZero nx] (hnx : 1 < nx) (d : VlasovInit.Deck) (r : VlasovInit.Rng) (x : ZMod nx → ℝ) (st : VlasovInit.Setup nx)
    (h : VlasovInit.setup d r x = .ok st) (hv : ∀ l ∈ st.loaded, l.cfg.lower < l.cfg.vmax) :
    List.Forall₂ (fun (l : VlasovInit.Loaded nx) p => (∀ i, fieldN p.2 i = l.profile i) ∧ meanN p.2 = mean l.profile) st.loaded st.species := by
  refine (VlasovInit.setup_density hnx d r x st h hv).imp fun l p hp => ?_
  have e : ∀ i, fieldN p.2 i = l.profile i := fun i => hp.2 i
  refine ⟨e, ?_⟩
  rw [(scalars_of_fields p.2).1]
  congr 1
  exact funext e

/-- C193: the deposited total of the initial state is the deck's: the sum of the saved densities is `n_prof_total`. -/
theorem initial_total {nx : ℕ} (hnx : 1 < nx) (d : VlasovInit.Deck) (r : VlasovInit.Rng) (x : ZMod nx → ℝ) (st : VlasovInit.Setup nx)
    (h : VlasovInit.setup d r x = .ok st) (hv : ∀ l ∈ st.loaded, l.cfg.lower < l.cfg.vmax) (i : ZMod nx) :
    (st.species.map fun p => fieldN p.2 i).sum = st.total i := by
  obtain ⟨ss, all, -, -, -, -, -, h6, -⟩ := (VlasovInit.setup_ok d r x st).1 h
  rw [h6]
  have f := VlasovInit.setup_density hnx d r x st h hv
  generalize st.loaded = ls at f
  generalize st.species = sp at f
  induction f with
  | nil => rfl
  | cons hb _ ih =>
    simp only [List.map_cons, List.sum_cons]
    rw [ih, show fieldN _ i = _ from hb.2 i]

/-- Two equal beams: the hypotheses can be met, and the pressure is the square of the beam velocity. -/
noncomputable def beams : Species 2 where
  nv := 2
  pos := ⟨by norm_num⟩
  charge := -1
  mass := 1
  dv := 1
  v := fun j => if j = 0 then 3 else 5
  f := fun _ _ => 1 / 2

example (x : ZMod 2) : fieldN beams x = 1 ∧ fieldV beams x = 4 ∧ fieldP beams x = 1 ∧ fieldQ beams x = 0 := by
  have sum2 : ∀ g : ZMod beams.nv → ℝ, ∑ j, g j = g (0 : ZMod 2) + g (1 : ZMod 2) := fun g => Fin.sum_univ_two (f := (g : Fin 2 → ℝ))
  have h1 : ((1 : ZMod 2) = 0) = False := by decide
  have hN : fieldN beams x = 1 := by
    unfold fieldN moment
    rw [sum2]
    simp only [beams]
    norm_num
  have hV : fieldV beams x = 4 := by
    unfold fieldV fieldJ moment
    rw [hN, sum2]
    simp only [beams, h1, if_true, if_false]
    norm_num
  refine ⟨hN, hV, ?_, ?_⟩
  · unfold fieldP moment
    rw [sum2, hV]
    simp only [beams, h1, if_true, if_false]
    norm_num
  · unfold fieldQ moment
    rw [sum2, hV]
    simp only [beams, h1, if_true, if_false]
    norm_num

end Verif.VlasovSave

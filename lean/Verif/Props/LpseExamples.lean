import Verif.Props.LpseTpd
import Verif.Props.LpseDeck
import Verif.Props.LpseSymmetry
import Verif.Props.Speckle

/-! Concrete plasmas and pumps that meet the hypotheses of the envelope theorems. -/
namespace Verif.Lpse
open Finset Complex Verif.Spectral
open scoped ComplexConjugate

/-- A uniform plasma on 8 x 8 cells. -/
noncomputable def demo (tpd : Bool) : Epw 8 8 where
  dx := 1
  dy := 1
  dt := 1 / 10
  wp0 := 1
  w0 := 2
  vteSq := 1 / 100
  e := 1
  me := 1
  nuColl := 1 / 1000
  envelopeDensity := 1 / 4
  density := fun _ _ => 1 / 4
  boundary := fun _ _ => 1
  lowPass := fun a _ => if a = 4 then 0 else 1
  tpd := tpd
  noise := false
  densityGradient := true
  phases := fun _ _ _ => 0

theorem demo_physical (tpd : Bool) : Physical (demo tpd) where
  dx := by norm_num [demo]
  dy := by norm_num [demo]
  dt := by norm_num [demo]
  wp0 := by norm_num [demo]
  vte := by norm_num [demo]
  nu := by norm_num [demo]
  low a b := by unfold demo; dsimp only; split <;> norm_num
  bnd _ _ := by norm_num [demo]

theorem demo_uniform (tpd : Bool) : Uniform (demo tpd) (1 / 4) where
  density _ _ := rfl
  boundary _ _ := rfl
  low a b := by unfold demo; dsimp only; split <;> norm_num

/-- C164: a wave that really loses energy. -/
example (l : Light 8 8) (s : State 8 8) (n : ℕ) : eSq 1 1 (run (demo false) l none s (n + 1)).epw ≤ eSq 1 1 (run (demo false) l none s n).epw :=
  (run_energy (demo false) (demo_physical false) rfl rfl l none s n).2.1

/-- C165: the first mode, after a thousand steps. -/
example (l : Light 8 8) (s : State 8 8) : ‖(run (demo false) l none s 1000).epw 1 0‖ =
    ‖s.epw 1 0‖ * Real.exp (-((demo false).landau 1 0 + 1 / 1000) * 100) := by
  have h1 : ¬((1 : ZMod 8) = 0 ∧ (0 : ZMod 8) = 0) := by decide
  have h2 : (demo false).lowPass 1 0 = 1 := by
    unfold demo; dsimp only; rw [if_neg (by decide)]
  rw [exact_wave (demo false) (1 / 4) (demo_uniform false) rfl rfl rfl (by norm_num [demo]) (by norm_num [demo]) l none s 1000 1 0 h1 h2]
  rw [norm_mul, norm_mul, norm_real, Real.norm_eq_abs, abs_of_pos (Real.exp_pos _)]
  have : ∀ r : ℝ, ‖cexp (-I * (r : ℂ))‖ = 1 := fun r => by
    rw [show -I * (r : ℂ) = ((-r : ℝ) : ℂ) * I by push_cast; ring, norm_exp_ofReal_mul_I]
  rw [this, mul_one]
  congr 3
  norm_num [demo]

/-- C165: and that mode's damping rate is positive and textbook. -/
example : 0 < (demo false).landau 1 0 ∧ (demo false).landau 1 0 = landauRate 1 (Real.sqrt ((demo false).ksq 1 0) * Real.sqrt (1 / 100) / 1) :=
  ⟨landau_pos _ (demo_physical false) 1 0 (by decide), landau_spec _ (demo_physical false) 1 0 (by decide)⟩

/-- C167: two daughters with different wave numbers. -/
example (t : ℝ) (phi : Arr 8 8 ℂ) (A : ℂ) : ((demo true).ksq 1 1 : ℂ) * conj (phi 1 1) * source (demo true) t phi (planePump A 3) 1 1 =
    ((demo true).ksq (3 - 1) (-1) : ℂ) * conj (phi (3 - 1) (-1)) * source (demo true) t phi (planePump A 3) (3 - 1) (-1) := by
  refine manley_rowe (demo true) t phi A 3 1 1 (by decide) ?_ ?_ ?_ ?_
  · exact (ksq_pos_iff (p := demo true) (by norm_num [demo]) (by norm_num [demo]) _ _).2 (by decide)
  · exact (ksq_pos_iff (p := demo true) (by norm_num [demo]) (by norm_num [demo]) _ _).2 (by decide)
  · unfold demo; dsimp only; rw [if_neg (by decide)]
  · unfold demo; dsimp only; rw [if_neg (by decide)]

/-- A pump at quarter-critical density on 16 x 4 cells with wave number spacing one. -/
noncomputable def demoLight : Light 16 4 where
  E0 := 1
  c := 1
  w0 := 2
  wp0 := 1
  dx := 2 * Real.pi / 16
  density := fun _ _ => 1 / 4
  speckle := none

theorem demoLight_dk : demoLight.dk = 1 := by
  unfold Light.dk demoLight
  have := Real.pi_ne_zero
  push_cast; field_simp

theorem demoLight_k0 : 1.6 < demoLight.k0 0 ∧ demoLight.k0 0 < 1.8 := by
  have e : demoLight.k0 0 = 2 * Real.sqrt (3 / 4) := by unfold Light.k0 demoLight; norm_num
  rw [e]
  have h1 : (0.8 : ℝ) < Real.sqrt (3 / 4) := Real.lt_sqrt_of_sq_lt (by norm_num)
  have h2 : Real.sqrt (3 / 4) < 0.9 := by rw [Real.sqrt_lt' (by norm_num)]; norm_num
  constructor <;> linarith

theorem demoLight_mode : demoLight.modeOf 0 = 2 := by
  unfold Light.modeOf
  rw [demoLight_dk, div_one]
  obtain ⟨h1, h2⟩ := demoLight_k0
  have hr := Pic.roundEven_near (demoLight.k0 0)
  rw [abs_le] at hr
  have h3 : (1 : ℝ) < Pic.roundEven (demoLight.k0 0) := by linarith [hr.2]
  have h4 : (Pic.roundEven (demoLight.k0 0) : ℝ) < 3 := by linarith [hr.1]
  have h3' : 1 < Pic.roundEven (demoLight.k0 0) := by exact_mod_cast h3
  have h4' : Pic.roundEven (demoLight.k0 0) < 3 := by exact_mod_cast h4
  omega

theorem demo_kmax : kmax 16 (2 * Real.pi / 16) = 7 := by
  have hp := Real.pi_pos
  have hone : 2 * Real.pi / (((16 : ℕ) : ℝ) * (2 * Real.pi / 16)) = 1 := by push_cast; field_simp
  rw [kmax_eq (by positivity), hone]; norm_num
theorem demo_nyquist : nyquist 16 (2 * Real.pi / 16) = 8 := by
  have hp := Real.pi_pos
  have hone : 2 * Real.pi / (((16 : ℕ) : ℝ) * (2 * Real.pi / 16)) = 1 := by push_cast; field_simp
  rw [nyquist_eq (by positivity), hone]; norm_num
theorem demo_nyquist_y : nyquist 4 1 = Real.pi := by rw [nyquist_eq (by norm_num)]; norm_num; ring

/-- C168: the shifted band exists, keeps the first mode and its partner, and `alias_free` applies to them. -/
example : ∃ F : Arr 16 4 ℝ, filterGrid demoLight.dx 1 0.9 0 "shifted-band" (pumpSupport demoLight.w0 demoLight.c demoLight.wp0 (some (0, none))) = .ok F ∧
    F 1 0 ≠ 0 ∧ F ((demoLight.modeOf 0 : ZMod 16) - 1) 0 ≠ 0 ∧
    kax demoLight.dx ((demoLight.modeOf 0 : ZMod 16) - 1) + kax demoLight.dx (1 : ZMod 16) = demoLight.modeOf 0 * demoLight.dk := by
  have hp := Real.pi_pos
  have hone : 2 * Real.pi / (((16 : ℕ) : ℝ) * (2 * Real.pi / 16)) = 1 := by push_cast; field_simp
  have k1 : kax (2 * Real.pi / 16) ((1 : ℤ) : ZMod 16) = 1 := by
    rw [kax_unique (N := 16) _ 1 (by norm_num) (by norm_num), hone]; norm_num
  have k1' : kax (2 * Real.pi / 16) (1 : ZMod 16) = 1 := by rw [← k1]; norm_num
  have hs : pumpSupport demoLight.w0 demoLight.c demoLight.wp0 (some (0, none)) = (demoLight.k0 0, 0) := by
    unfold pumpSupport Light.k0 demoLight; norm_num
  obtain ⟨h1, h2⟩ := demoLight_k0
  have hdx : demoLight.dx = 2 * Real.pi / 16 := rfl
  have hne : ¬(nyquist 16 demoLight.dx - demoLight.k0 0 ≤ 0 ∨ nyquist 4 (1 : ℝ) - 0 ≤ 0) := by
    rw [hdx, demo_nyquist, demo_nyquist_y]
    push Not
    constructor <;> linarith
  have hF : filterGrid (nx := 16) (ny := 4) demoLight.dx 1 0.9 0 "shifted-band" (pumpSupport demoLight.w0 demoLight.c demoLight.wp0 (some (0, none))) =
      .ok fun a b => isotropic demoLight.dx 1 0.9 0 a b *
        if |kax demoLight.dx a| ≤ nyquist 16 demoLight.dx - demoLight.k0 0 ∧ |kax (1 : ℝ) b| ≤ nyquist 4 (1 : ℝ) - 0 then 1 else 0 := by
    rw [hs]; unfold filterGrid
    rw [if_pos rfl]
    dsimp only
    rw [if_neg hne]
  have hz : kax (1 : ℝ) (0 : ZMod 4) = 0 := by rw [kax_eq, kfull_zero]
  have hr : isotropic demoLight.dx 1 0.9 0 (1 : ZMod 16) (0 : ZMod 4) *
      (if |kax demoLight.dx (1 : ZMod 16)| ≤ nyquist 16 demoLight.dx - demoLight.k0 0 ∧ |kax (1 : ℝ) (0 : ZMod 4)| ≤ nyquist 4 (1 : ℝ) - 0 then 1 else 0) ≠ 0 := by
    rw [if_pos]
    · unfold isotropic kmag
      rw [hdx, demo_kmax, k1', hz]
      norm_num
    · rw [hdx, k1', hz, demo_nyquist, demo_nyquist_y]
      simp only [abs_one, abs_zero]
      constructor <;> linarith
  have h21 : ((demoLight.modeOf 0 : ZMod 16) - 1) = 1 := by rw [demoLight_mode]; decide
  refine ⟨_, hF, hr, ?_, ?_⟩
  · rw [h21]; exact hr
  · refine alias_free demoLight 1 0.9 0 0 none _ (by rw [hdx]; positivity) (by norm_num [demoLight]) (by norm_num [demoLight]) hF 0 (by norm_num) le_rfl
      (by linarith) 1 0 0 hr ?_
    rw [h21]; exact hr

/-- C169: two colours on different grid modes. -/
example (t : ℝ) : ∃ qs : List (Colour 4), qs.length = 2 ∧
    (∑ x, ‖demoLight.update t qs x 0‖ ^ 2) / (16 : ℕ) = 1 ^ 2 * (qs.map fun q => q.intensity 0).sum / Real.sqrt (1 - 1 / 4) := by
  let q0 : Colour 4 := ⟨0, fun _ => 1 / 2, fun _ => 0⟩
  let q1 : Colour 4 := ⟨1, fun _ => 1 / 2, fun _ => 0⟩
  have hk : demoLight.modeOf 1 = 4 := by
    have e : demoLight.k0 1 = 2 * Real.sqrt (15 / 4) := by unfold Light.k0 demoLight; norm_num
    unfold Light.modeOf
    rw [demoLight_dk, div_one]
    have h1 : (1.9 : ℝ) < Real.sqrt (15 / 4) := Real.lt_sqrt_of_sq_lt (by norm_num)
    have h2 : Real.sqrt (15 / 4) < 1.95 := by rw [Real.sqrt_lt' (by norm_num)]; norm_num
    have hr := Pic.roundEven_near (demoLight.k0 1)
    rw [abs_le, e] at hr
    rw [e]
    have h3 : (3 : ℝ) < Pic.roundEven (2 * Real.sqrt (15 / 4)) := by linarith [hr.2]
    have h4 : (Pic.roundEven (2 * Real.sqrt (15 / 4)) : ℝ) < 5 := by linarith [hr.1]
    have h3' : 3 < Pic.roundEven (2 * Real.sqrt (15 / 4)) := by exact_mod_cast h3
    have h4' : Pic.roundEven (2 * Real.sqrt (15 / 4)) < 5 := by exact_mod_cast h4
    omega
  refine ⟨[q0, q1], rfl, (mean_intensity demoLight t [q0, q1] 0 (1 / 4) (by norm_num) (by norm_num) (by norm_num [demoLight]) (fun _ => rfl) rfl ?_ ?_).1⟩
  · intro q hq
    rcases List.mem_cons.1 hq with rfl | hq
    · norm_num [q0]
    · rcases List.mem_cons.1 hq with rfl | hq
      · norm_num [q1]
      · simp at hq
  · simp only [List.map_cons, List.map_nil, q0, q1, Light.index, demoLight_mode, hk]
    decide

/-- C178: the hypotheses hold for the uniform plasma with the two-plasmon source on. -/
example (phi : Arr 8 8 ℂ) (A : ℂ) (s : ZMod 8) : (demo true).step 0 (moveY s phi) (planePump A 3) = moveY s ((demo true).step 0 phi (planePump A 3)) :=
  translation (demo true) rfl (fun _ _ _ => rfl) (fun _ _ _ => rfl) 0 phi _ (fun _ _ _ => rfl) s

end Verif.Lpse

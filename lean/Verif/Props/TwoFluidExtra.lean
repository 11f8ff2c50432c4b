import Verif.Props.TwoFluidLinear
import Verif.Props.PicLoad
import Mathlib.Analysis.SpecialFunctions.Exponential

/-! C133-C137: existence of the linear waves, the frequency table, damping and trapping, translations, odd grids. -/
namespace Verif.TwoFluid
open Finset ZMod Complex Verif.Spectral
open scoped ComplexConjugate

variable {N : ℕ} [NeZero N]

/-- The linear waves exist: from every disturbance there is a solution of the linear equations. -/
theorem waves_exist (s : Setup N) (n0 p0 : Sp → ℝ) (y0 : State N) :
    ∃ Y : ℝ → State N, Y 0 = y0 ∧ ∀ t, HasDerivAt Y (fun sp q => linear s n0 p0 (Y t) sp q) t := by
  let A : State N →L[ℝ] State N := LinearMap.toContinuousLinearMap (linearL s n0 p0)
  refine ⟨fun t => NormedSpace.exp (t • A) y0, by simp, fun t => ?_⟩
  have h := (hasDerivAt_exp_smul_const' A t)
  have h2 := h.clm_apply (hasDerivAt_const t y0)
  refine h2.congr_deriv ?_
  simp only [map_zero, add_zero]
  rfl

/-! ### The table -/

theorem interp_node (l : List (ℝ × ℝ)) (hs : (l.map Prod.fst).Pairwise (· < ·)) (r : ℝ × ℝ) (hr : r ∈ l) : PicLoad.interp r.1 l = r.2 := by
  induction l with
  | nil => simp at hr
  | cons a l ih =>
    cases l with
    | nil => rw [List.mem_singleton] at hr; subst hr; rfl
    | cons b l =>
      rw [List.map_cons, List.pairwise_cons] at hs
      unfold PicLoad.interp
      rcases List.mem_cons.1 hr with h | h
      · subst h; rw [if_pos le_rfl]
      · have hlt : a.1 < r.1 := hs.1 _ (List.mem_map_of_mem h)
        rw [if_neg (not_le.2 hlt)]
        have hge : ¬ r.1 < b.1 := by
          rcases List.mem_cons.1 h with h' | h'
          · subst h'; exact lt_irrefl _
          · have := (List.pairwise_cons.1 hs.2).1 r.1 (List.mem_map_of_mem h')
            exact not_lt.2 this.le
        rw [if_neg hge]
        exact ih hs.2 h

theorem interp_beyond (l : List (ℝ × ℝ)) (hs : (l.map Prod.fst).Pairwise (· < ·)) (hl : l ≠ []) (x : ℝ) (hx : (l.getLast hl).1 ≤ x) :
    PicLoad.interp x l = (l.getLast hl).2 := by
  induction l with
  | nil => exact absurd rfl hl
  | cons a l ih =>
    cases l with
    | nil => rfl
    | cons b l =>
      rw [List.map_cons, List.pairwise_cons] at hs
      rw [List.getLast_cons (by simp)] at hx ⊢
      have hb : b.1 ≤ ((b :: l).getLast (by simp)).1 := by
        rcases List.mem_cons.1 (List.getLast_mem (l := b :: l) (by simp)) with h | h
        · rw [h]
        · exact ((List.pairwise_cons.1 hs.2).1 _ (List.mem_map_of_mem h)).le
      have ha : a.1 < b.1 := hs.1 _ (by simp)
      unfold PicLoad.interp
      rw [if_neg (by linarith), if_neg (by linarith)]
      exact ih hs.2 (by simp) hx

/-- C133: at a tabulated wave number the frequency and the damping rate are those of the dispersion root; below the table the frequency is the plasma
frequency without damping; beyond it the last row holds. -/
theorem table_meaning (root : ℝ → ℂ) (klds : List ℝ) (hs : klds.Pairwise (· < ·)) (ph : Physics) (hg : ph.gamma = none) (hl : ph.landau = true) (dx : ℝ) (N j : ℕ) :
    (∀ k ∈ klds, wr root klds ph k = (root k).re ∧ (kr N dx j = k → wi root klds dx N ph j = (root k).im)) ∧
    (∀ k0 ks, klds = k0 :: ks → ∀ k, k < k0 → wr root klds ph k = 1 ∧ (kr N dx j = k → wi root klds dx N ph j = 0)) ∧
    (∀ h : klds ≠ [], ∀ k, klds.getLast h ≤ k → wr root klds ph k = (root (klds.getLast h)).re ∧
      (kr N dx j = k → wi root klds dx N ph j = (root (klds.getLast h)).im)) := by
  have hiso : ph.gamma.isNone = true := by rw [hg]; rfl
  have e1 : (table root true klds).map (fun r => (r.1, r.2.1)) = klds.map fun k => (k, (root k).re) := by
    unfold table; rw [List.map_map]; rfl
  have e2 : (table root true klds).map (fun r => (r.1, r.2.2)) = klds.map fun k => (k, (root k).im) := by
    unfold table; rw [List.map_map]; rfl
  have sorted : ∀ f : ℝ → ℝ, ((klds.map fun k => (k, f k)).map Prod.fst).Pairwise (· < ·) := by
    intro f; rw [List.map_map]; simpa [Function.comp_def] using hs
  have head : ∀ k0 ks, klds = k0 :: ks → ∀ k ∈ klds, ¬ k < k0 := by
    intro k0 ks h k hk
    rw [h] at hk hs
    rcases List.mem_cons.1 hk with h' | h'
    · rw [h']; exact lt_irrefl _
    · exact not_lt.2 ((List.pairwise_cons.1 hs).1 k h').le
  have node : ∀ (left : ℝ) (f : ℝ → ℝ) k, k ∈ klds → interpL left (klds.map fun k => (k, f k)) k = f k := by
    intro left f k hk
    have hn := interp_node _ (sorted f) (k, f k) (List.mem_map_of_mem (f := fun k => (k, f k)) hk)
    unfold interpL
    cases hc : klds with
    | nil => rw [hc] at hk; simp at hk
    | cons k0 ks =>
      rw [hc] at hn
      simp only [List.map_cons] at hn ⊢
      rw [if_neg (head k0 ks hc k hk), hn]
  have below : ∀ (left : ℝ) (f : ℝ → ℝ) k0 ks k, klds = k0 :: ks → k < k0 → interpL left (klds.map fun k => (k, f k)) k = left := by
    intro left f k0 ks k h hk
    rw [h]; unfold interpL; simp only [List.map_cons]; rw [if_pos hk]
  have beyond : ∀ (left : ℝ) (f : ℝ → ℝ) (h : klds ≠ []) k, klds.getLast h ≤ k → interpL left (klds.map fun k => (k, f k)) k = f (klds.getLast h) := by
    intro left f h k hk
    have hne : (klds.map fun k => (k, f k)) ≠ [] := by simpa using h
    have hb := interp_beyond _ (sorted f) hne k (by rw [List.getLast_map]; exact hk)
    rw [List.getLast_map] at hb
    obtain ⟨k0, ks, hc⟩ : ∃ k0 ks, klds = k0 :: ks := List.exists_cons_of_ne_nil h
    have hlast := head k0 ks hc _ (List.getLast_mem h)
    have hcons : interpL left (klds.map fun k => (k, f k)) k = if k < k0 then left else PicLoad.interp k (klds.map fun k => (k, f k)) := by
      rw [hc]; rfl
    rw [hcons, if_neg (by linarith [not_lt.1 hlast]), hb]
  have ewr : ∀ k, wr root klds ph k = interpL 1 (klds.map fun k => (k, (root k).re)) k := by
    intro k; unfold wr; rw [hiso, e1]
  have ewi : wi root klds dx N ph j = interpL 0 (klds.map fun k => (k, (root k).im)) (kr N dx j) := by
    unfold wi; rw [if_pos hl, hiso, e2]
  refine ⟨fun k hk => ⟨by rw [ewr]; exact node 1 (fun k => (root k).re) k hk, fun h => by rw [ewi, h]; exact node 0 (fun k => (root k).im) k hk⟩,
    fun k0 ks h k hk => ⟨by rw [ewr]; exact below 1 (fun k => (root k).re) k0 ks k h hk, fun h' => by rw [ewi, h']; exact below 0 (fun k => (root k).im) k0 ks k h hk⟩,
    fun h k hk => ⟨by rw [ewr]; exact beyond 1 (fun k => (root k).re) h k hk, fun h' => by rw [ewi, h']; exact beyond 0 (fun k => (root k).im) h k hk⟩⟩

/-- The damping rates never exceed zero if the table's do not, and vanish with the switch off. -/
theorem wi_nonpos (root : ℝ → ℂ) (klds : List ℝ) (ph : Physics) (dx : ℝ) (N j : ℕ) (h : ∀ k ∈ klds, (root k).im ≤ 0) :
    wi root klds dx N ph j ≤ 0 ∧ (ph.landau = false → wi root klds dx N ph j = 0) := by
  refine ⟨?_, fun hl => by unfold wi; rw [hl]; rfl⟩
  unfold wi
  split
  · have e : (table root ph.gamma.isNone klds).map (fun r => (r.1, r.2.2)) = klds.map fun k => (k, (root k).im) := by
      unfold table; rw [List.map_map]; rfl
    rw [e]
    unfold interpL
    cases klds with
    | nil => simp
    | cons k0 ks =>
      simp only [List.map_cons]
      split
      · exact le_rfl
      · obtain ⟨lo, hlo⟩ : ∃ lo : ℝ, ∀ p ∈ ((k0, (root k0).im) :: ks.map fun k => (k, (root k).im)), lo ≤ p.2 := by
          have hf : ((((k0, (root k0).im) :: ks.map fun k => (k, (root k).im)).map Prod.snd).toFinset : Set ℝ).Finite := Finset.finite_toSet _
          obtain ⟨lo, hlo⟩ := hf.bddBelow
          exact ⟨lo, fun p hp => hlo (by simpa using List.mem_map_of_mem (f := Prod.snd) hp)⟩
        refine (PicLoad.interp_range lo 0 _ _ (by simp) fun p hp => ⟨hlo p hp, ?_⟩).2
        rcases List.mem_cons.1 hp with h' | h'
        · rw [h']; exact h k0 (by simp)
        · obtain ⟨k, hk, rfl⟩ := List.mem_map.1 h'
          exact h k (by simp [hk])
  · exact le_rfl

/-! ### C135: damping and trapping -/

/-- C135: the factor on the damping is between 0 and 1; the `delta` model leaves it 1 where nothing is trapped and lowers it as more is; without trapping it is 1;
the `zk` model is the constant 1/2 whatever the field. -/
theorem damping_factor (ph : Physics) (d d' : ℝ) :
    0 < coeff (trapModel ph) d ∧ coeff (trapModel ph) d ≤ 1 ∧ (|d| ≤ |d'| → coeff "delta" d' ≤ coeff "delta" d) ∧ coeff "delta" 0 = 1 ∧
    (ph.trapping = none → coeff (trapModel ph) d = 1) ∧ coeff "zk" d = 1 / 2 ∧ coeff "none" d = 1 := by
  have hd : coeff "delta" d = 1 / (1 + d ^ 2) := rfl
  have hd' : coeff "delta" d' = 1 / (1 + d' ^ 2) := rfl
  have hz : coeff "zk" d = 1 / 2 := by show (0.5 : ℝ) = 1 / 2; norm_num
  have hgen : ∀ m, 0 < coeff m d ∧ coeff m d ≤ 1 := by
    intro m
    unfold coeff
    split
    · norm_num
    · split
      · have : 0 < 1 + d ^ 2 := by positivity
        exact ⟨by positivity, by rw [div_le_one this]; nlinarith [sq_nonneg d]⟩
      · norm_num
  refine ⟨(hgen _).1, (hgen _).2, fun h => ?_, by show (1 : ℝ) / (1 + 0 ^ 2) = 1; norm_num, fun h => by unfold trapModel; rw [h]; rfl, hz, rfl⟩
  rw [hd, hd']
  have := sq_le_sq.2 h
  gcongr

/-- C135: without local trapping the damping takes energy out of the flow, whatever the flow: `∑ u (damping) ≤ 0`, and nothing when all rates vanish. -/
theorem damping_dissipates (wis : ℕ → ℝ) (hw : ∀ k, wis k ≤ 0) (model : String) (hm : model ≠ "delta") (u delta : ZMod N → ℝ) :
    ∑ x, u x * landauTerm wis model u delta x ≤ 0 ∧ ((∀ k, wis k = 0) → ∀ x, landauTerm wis model u delta x = 0) := by
  have hN : (0 : ℝ) < N := Nat.cast_pos.2 (Nat.pos_of_ne_zero (NeZero.ne N))
  obtain ⟨c, hc, hc'⟩ : ∃ c : ℝ, 0 ≤ c ∧ ∀ d, coeff model d = c := by
    unfold coeff
    by_cases h : model = "zk"
    · exact ⟨0.5, by norm_num, fun d => by rw [if_pos h]⟩
    · exact ⟨1, by norm_num, fun d => by rw [if_neg h, if_neg hm]⟩
  have hq : ∑ x, u x * filterRow (fun k => (wis k : ℂ)) u x ≤ 0 := by
    have h := parseval (fun j => (u j : ℂ)) (fun j => (filterRow (fun k => (wis k : ℂ)) u j : ℂ))
    have hk : ∀ k : ZMod N, ∃ r : ℝ, r ≤ 0 ∧ conj (fft (fun j => (u j : ℂ)) k) * fft (fun j => (filterRow (fun k => (wis k : ℂ)) u j : ℂ)) k = (r : ℂ) := by
      intro k
      obtain ⟨i, hi⟩ := hermitian_real wis k
      refine ⟨wis i * normSq (fft (fun j => (u j : ℂ)) k), mul_nonpos_of_nonpos_of_nonneg (hw i) (normSq_nonneg _), ?_⟩
      rw [fft_filterRow, hi]
      push_cast
      rw [normSq_eq_conj_mul_self]
      ring
    choose r hr hr' using hk
    simp only [hr', conj_ofReal] at h
    have h' : ∑ k, r k = N * ∑ j, u j * filterRow (fun k => (wis k : ℂ)) u j := by exact_mod_cast h
    have hs : ∑ k, r k ≤ 0 := sum_nonpos fun k _ => hr k
    rw [h'] at hs
    exact nonpos_of_mul_nonpos_right hs hN
  refine ⟨?_, fun h0 x => ?_⟩
  · have : ∑ x, u x * landauTerm wis model u delta x = 2 * c * ∑ x, u x * filterRow (fun k => (wis k : ℂ)) u x := by
      rw [Finset.mul_sum]
      exact sum_congr rfl fun x _ => by unfold landauTerm; rw [hc']; ring
    rw [this]
    exact mul_nonpos_of_nonneg_of_nonpos (by positivity) hq
  · unfold landauTerm
    have : filterRow (N := N) (fun k => (wis k : ℂ)) u = fun _ => 0 := by
      refine fft_inj fun k => ?_
      obtain ⟨i, hi⟩ := hermitian_real wis k
      rw [fft_filterRow, hi, h0 i]
      have hz : fft (N := N) (fun _ => ((0 : ℝ) : ℂ)) k = 0 := by
        unfold fft; rw [dft_apply]; simp
      rw [hz]; simp
    rw [this]; simp

/-- The rates the trapping model multiplies its source with: the table's, zero beyond it (`right=0.0`). -/
noncomputable def trapWi (root : ℝ → ℂ) (klds : List ℝ) (ph : Physics) (dx : ℝ) (N : ℕ) (j : ℕ) : ℝ :=
  if ((klds.getLast?).getD 0) < kr N dx j then 0 else interpL 0 (klds.map fun k => (k, (root k).im)) (kr N dx j)

theorem irfft_ek (wis : ℕ → ℝ) (e : ZMod N → ℝ) (x : ZMod N) : irfft N (fun k => ek e k * N / 2 * (wis k : ℂ)) x = filterRow (fun k => (wis k : ℂ)) e x := by
  have hN : (N : ℂ) ≠ 0 := Nat.cast_ne_zero.2 (NeZero.ne N)
  unfold filterRow
  congr 1
  funext k
  unfold ek
  field_simp

/-- C135: the trapped-particle variable is carried at the phase velocity `wr(kld) / kld` of the driven mode, and its source is never negative, so its total never falls. -/
theorem trapping_source (root : ℝ → ℂ) (klds : List ℝ) (dx : ℝ) (ph : Physics) (t : Trapping) (nuG : ℝ → ℝ → ℝ → ℝ) (e delta : ZMod N → ℝ) :
    (∃ S : ZMod N → ℝ, (∀ x, 0 ≤ S x) ∧ (∀ x, filterRow (fun k => (trapWi root klds ph dx N k : ℂ)) e x = 0 → S x = 0) ∧
      ∀ x, trapper root klds dx ph t nuG e delta x = -(wr root klds ph t.kld / t.kld) * gradient dx delta x + S x) ∧
    0 ≤ ∑ x, trapper root klds dx ph t nuG e delta x := by
  have key : ∃ S : ZMod N → ℝ, (∀ x, 0 ≤ S x) ∧ (∀ x, filterRow (fun k => (trapWi root klds ph dx N k : ℂ)) e x = 0 → S x = 0) ∧
      ∀ x, trapper root klds dx ph t nuG e delta x = -(wr root klds ph t.kld / t.kld) * gradient dx delta x + S x := by
    have e2 : (table root ph.gamma.isNone klds).map (fun r => (r.1, r.2.2)) = klds.map fun k => (k, (root k).im) := by
      unfold table; rw [List.map_map]; rfl
    refine ⟨fun x => _, fun x => ?_, fun x hx => ?_, fun x => rfl⟩
    · positivity
    · have h := irfft_ek (trapWi root klds ph dx N) e x
      rw [hx] at h
      unfold trapWi at h
      simp only [e2, h]
      simp
  refine ⟨key, ?_⟩
  obtain ⟨S, hS, _, h⟩ := key
  simp only [h]
  rw [sum_add_distrib, ← Finset.mul_sum]
  have h0 := gradient_skew dx (fun _ => 1) delta
  simp only [gradient_const, zero_mul, add_zero, one_mul] at h0
  rw [h0, mul_zero, zero_add]
  exact sum_nonneg fun x _ => hS x

/-! ### C136: translations -/

/-- A cyclic translation by `c` cells. -/
def move (c : ZMod N) (a : ZMod N → ℝ) : ZMod N → ℝ := fun x => a (x - c)

theorem fft_move (c : ZMod N) (a : ZMod N → ℝ) (k : ZMod N) : fft (fun j => (move c a j : ℂ)) k = stdAddChar (-(c * k)) * fft (fun j => (a j : ℂ)) k := by
  unfold fft move
  rw [dft_apply, dft_apply, Finset.mul_sum, ← Equiv.sum_comp (Equiv.addRight c)]
  refine sum_congr rfl fun j _ => ?_
  simp only [Equiv.coe_addRight, add_sub_cancel_right, smul_eq_mul]
  rw [← mul_assoc, ← AddChar.map_add_eq_mul]
  congr 2; ring

theorem gradient_move (dx : ℝ) (c : ZMod N) (a : ZMod N → ℝ) : gradient dx (move c a) = move c (gradient dx a) := by
  refine fft_inj fun k => ?_
  rw [fft_gradient, fft_move, fft_move, fft_gradient]
  split <;> ring

theorem filterRow_move (m : ℕ → ℂ) (c : ZMod N) (a : ZMod N → ℝ) : filterRow m (move c a) = move c (filterRow m a) := by
  refine fft_inj fun k => ?_
  rw [fft_filterRow, fft_move, fft_move, fft_filterRow]; ring

theorem poisson_move (dx : ℝ) (c : ZMod N) (a : ZMod N → ℝ) : poissonField dx (move c a) = move c (poissonField dx a) := by
  have hF : ∀ a : ZMod N → ℝ, ∀ k, fft (fun x => (poissonField dx a x : ℂ)) k = if 2 * k.val = N then 0 else
      I * (oneOverK dx k : ℂ) * fft (fun j => (a j : ℂ)) k := by
    intro a k
    have h := fft_odd_kernel (N := N) (fun k => -oneOverK dx k) (fun k hz hk => by rw [oneOverK_odd dx k hz hk])
      (by unfold oneOverK; simp) a k
    have e : ∀ k : ZMod N, -I * ((-oneOverK dx k : ℝ) : ℂ) * fft (fun j => (a j : ℂ)) k = I * (oneOverK dx k : ℂ) * fft (fun j => (a j : ℂ)) k :=
      fun k => by push_cast; ring
    simp only [e] at h
    exact h
  refine fft_inj fun k => ?_
  rw [hF, fft_move, fft_move, hF]
  split <;> ring

theorem ek_move (c : ZMod N) (a : ZMod N → ℝ) (k : ℕ) : ‖ek (move c a) k‖ = ‖ek a k‖ := by
  unfold ek rfft
  rw [fft_move, norm_div, norm_div, norm_mul, norm_mul, norm_mul, AddChar.norm_apply, one_mul]

theorem trapper_move (root : ℝ → ℂ) (klds : List ℝ) (dx : ℝ) (ph : Physics) (t : Trapping) (nuG : ℝ → ℝ → ℝ → ℝ) (c : ZMod N) (e delta : ZMod N → ℝ) :
    trapper root klds dx ph t nuG (move c e) (move c delta) = move c (trapper root klds dx ph t nuG e delta) := by
  funext x
  show _ = trapper root klds dx ph t nuG e delta (x - c)
  unfold trapper
  simp only [irfft_ek, ek_move, gradient_move, filterRow_move]
  rfl

/-- The state moved by `c` cells. -/
def moveS (c : ZMod N) : State N →ₗ[ℝ] State N where
  toFun y := fun sp q => move c (y sp q)
  map_add' _ _ := rfl
  map_smul' _ _ := rfl

theorem vf_move (s s' : Setup N) (c : ZMod N) (hs : s' = { s with x := s'.x }) (hx : ∀ x, s'.x x = s.x (x - c)) (t : ℝ) (y : State N) :
    s'.vf t (moveS c y) = moveS c (s.vf t y) := by
  have h1 : s'.dx = s.dx := by rw [hs]
  have h2 : s'.klds = s.klds := by rw [hs]
  have h3 : s'.root = s.root := by rw [hs]
  have h4 : s'.ph = s.ph := by rw [hs]
  have h5 : s'.pulses = s.pulses := by rw [hs]
  have h6 : s'.nuG = s.nuG := by rw [hs]
  have hed : ∀ x, s'.ed t x = s.ed t (x - c) := by
    intro x; unfold Setup.ed; rw [h5]; simp only [hx]
  have he : s'.e (moveS c y) = move c (s.e y) := by
    unfold Setup.e
    rw [h1, h4, ← poisson_move]
    rfl
  have hpm : ∀ (sp : Sp) (m : ℝ), gradient s.dx (fun x => moveS c y sp .p x / m) = move c (gradient s.dx fun x => y sp .p x / m) := by
    intro sp m; rw [← gradient_move]; rfl
  have hg : ∀ sp q, gradient s.dx (moveS c y sp q) = move c (gradient s.dx (y sp q)) := fun sp q => gradient_move _ _ _
  funext sp q x
  show s'.vf t (moveS c y) sp q x = s.vf t y sp q (x - c)
  unfold Setup.vf
  cases q with
  | n =>
    dsimp only
    rw [h4, h1]
    split
    · unfold pushN; rw [hg, hg]; rfl
    · rfl
  | u =>
    dsimp only
    rw [h4, h1, h2, h3, he]
    split
    · unfold pushU restoring landauTerm
      have hr : filterRow (fun k => (wrCorr s.root s.klds s.dx N (s.ph sp) k : ℂ))
          (fun z => gradient s.dx (fun x => moveS c y sp .p x / (s.ph sp).mass) z / moveS c y sp .n z) =
          move c (filterRow (fun k => (wrCorr s.root s.klds s.dx N (s.ph sp) k : ℂ)) fun z => gradient s.dx (fun x => y sp .p x / (s.ph sp).mass) z / y sp .n z) := by
        rw [← filterRow_move, hpm]; rfl
      have hf : filterRow (fun k => (wi s.root s.klds s.dx N (s.ph sp) k : ℂ)) (moveS c y sp .u) = move c (filterRow (fun k => (wi s.root s.klds s.dx N (s.ph sp) k : ℂ)) (y sp .u)) :=
        filterRow_move _ _ _
      rw [hr, hf, hg]
      beta_reduce
      rw [hed]
      rfl
    · rfl
  | p =>
    dsimp only
    rw [h4, h1, he]
    split
    · unfold pushE; rw [hpm, hg]; rfl
    · rfl
  | delta =>
    dsimp only
    rw [h4, h1, h2, h3, h6, he]
    split
    · exact congrFun (trapper_move _ _ _ _ _ _ _ _ _) x
    · rfl

section rk
variable {E : Type*} [AddCommGroup E] [Module ℝ E]

/-- A linear symmetry of the right-hand side is one of the run. -/
theorem symmetry (T : E →ₗ[ℝ] E) (m : Method) (F F' : ℝ → E → E) (h : ∀ t y, F' t (T y) = T (F t y)) (y0 : E) (hs : List ℝ) (d : ℝ) (b : ℕ → ℝ) :
    saved m F' (T y0) hs d b = T (saved m F y0 hs d b) := by
  have hst : ∀ (t d : ℝ) (y : E) (i : ℕ), stage m F' t d (T y) i = T (stage m F t d y i) := by
    intro t d y i
    induction i using Nat.strong_induction_on with
    | _ i ih =>
      rw [stage_eq, stage_eq, ← h]
      congr 1
      rw [map_add, _root_.map_smul, map_sum]
      congr 2
      exact sum_congr rfl fun j _ => by rw [ih j j.2, _root_.map_smul]
  have hk : ∀ (b : ℕ → ℝ) (t d : ℝ) (y : E), rkStep m b F' t d (T y) = T (rkStep m b F t d y) := by
    intro b t d y
    unfold rkStep
    rw [map_add, _root_.map_smul, map_sum]
    congr 2
    exact sum_congr rfl fun j _ => by rw [hst, _root_.map_smul]
  have hr : ∀ (hs : List ℝ) (t : ℝ) (y : E), run m F' t (T y) hs = ((run m F t y hs).1, T (run m F t y hs).2) := by
    intro hs
    induction hs with
    | nil => intro t y; rfl
    | cons d hs ih => intro t y; unfold run; rw [hk, ih]
  unfold saved
  rw [hr, hk]

end rk

/-- C136: the solver does not know where the box starts: moving the initial state and the driver by `c` cells moves the whole simulation, every quantity, at every saved time. -/
theorem translation (s s' : Setup N) (c : ZMod N) (hs : s' = { s with x := s'.x }) (hx : ∀ x, s'.x x = s.x (x - c)) (m : Method) (y0 : State N)
    (steps : List ℝ) (d : ℝ) (b : ℕ → ℝ) (sp : Sp) (q : Q) (x : ZMod N) :
    saved m s'.vf (moveS c y0) steps d b sp q x = saved m s.vf y0 steps d b sp q (x - c) := by
  rw [symmetry (moveS c) m s.vf s'.vf (vf_move s s' c hs hx) y0 steps d b]
  rfl

/-! ### C137: odd grids -/

/-- C137: the velocity equation is evaluated exactly on grids with an even number of cells: with an odd number the filtered terms come back one cell short and the sum
is refused. -/
theorem even_cells (n : ℕ) (hn : 2 < n) : (broadcasts n (filterLen n) ↔ n % 2 = 0) ∧ (n % 2 = 1 → filterLen n = n - 1) := by
  unfold broadcasts filterLen irfftLen rfftLen
  constructor <;> omega

example : broadcasts 32 (filterLen 32) ∧ ¬ broadcasts 33 (filterLen 33) := by
  unfold broadcasts filterLen irfftLen rfftLen; omega

/-! ### Hypotheses met -/

/-- Kinetic electrons over immobile ions, with a driver. -/
noncomputable def sample : Setup 8 where
  dx := 1
  x := fun j => j.val
  klds := [0.2, 0.3]
  root := fun k => ⟨1 + k ^ 2, -k ^ 4⟩
  ph
    | .ion => ⟨false, false, 1, 1836, 1, some 3, none⟩
    | .electron => ⟨true, true, -1, 1, 1, none, none⟩
  pulses := [⟨0.3, 1.1, 0, 10, 5, 1, 4, 4, 1, 0.01⟩]
  nuG := fun _ _ _ => 0

example : (sample.ph .electron).isOn = true ∧ (sample.ph .electron).gamma = none ∧ (sample.ph .electron).charge ^ 2 = 1 ∧ (sample.ph .electron).mass = 1 ∧
    (sample.ph .electron).trapping = none ∧ (sample.ph .ion).isOn = false ∧ sample.dx ≠ 0 ∧ Resolved 8 3 ∧ sample.klds.Pairwise (· < ·) := by
  refine ⟨rfl, rfl, ?_, rfl, rfl, rfl, ?_, ?_, ?_⟩
  · show (-1 : ℝ) ^ 2 = 1; norm_num
  · exact one_ne_zero
  · unfold Resolved; decide
  · show [0.2, (0.3 : ℝ)].Pairwise (· < ·)
    norm_num

/-- The waves of `kinetic_waves` for this setup exist, from any disturbance; this one is beyond the table. -/
example (y0 : State 8) : ∃ Y : ℝ → State 8, Y 0 = y0 ∧ ∃ A B, ∀ t : ℝ, mode (Y t .electron .u) 3 =
    cexp (((-0.0081 : ℝ) : ℂ) * t) * (A * cexp (I * Real.sqrt (1.09 ^ 2 - (-0.0081) ^ 2) * t) + B * cexp (-(I * Real.sqrt (1.09 ^ 2 - (-0.0081) ^ 2) * t))) := by
  obtain ⟨Y, h, hY⟩ := waves_exist sample (fun _ => 1) (fun _ => 1) y0
  refine ⟨Y, h, ?_⟩
  have hkr : (0.3 : ℝ) ≤ kr 8 sample.dx 3 := by
    unfold kr Grid.rfftfreqAt
    have := Real.two_le_pi
    show (0.3 : ℝ) ≤ ((3 : ℕ) : ℝ) / (((8 : ℕ) : ℝ) * 1) * (2 * Real.pi)
    norm_num
    linarith
  have hlast : sample.klds.getLast (by show [0.2, (0.3 : ℝ)] ≠ []; simp) = 0.3 := rfl
  have ht := (table_meaning sample.root sample.klds (by show [0.2, (0.3 : ℝ)].Pairwise (· < ·); norm_num) (sample.ph .electron) rfl rfl sample.dx 8 3).2.2
    (by show [0.2, (0.3 : ℝ)] ≠ []; simp) (kr 8 sample.dx 3) (by rw [hlast]; exact hkr)
  rw [hlast] at ht
  have h1 : wr sample.root sample.klds (sample.ph .electron) (kr 8 sample.dx 3) = 1.09 := by
    rw [ht.1]; show (1 : ℝ) + 0.3 ^ 2 = 1.09; norm_num
  have h2 : wi sample.root sample.klds sample.dx 8 (sample.ph .electron) 3 = -0.0081 := by
    rw [ht.2 rfl]; show -(0.3 : ℝ) ^ 4 = -0.0081; norm_num
  have hk := kinetic_waves sample one_ne_zero .electron Y rfl (by show (-1 : ℝ) ^ 2 = 1; norm_num) rfl rfl hY rfl
    (fun sp' h => by cases sp' with
      | ion => rfl
      | electron => exact absurd rfl h) (p := 3) (by unfold Resolved; decide) (by decide)
  dsimp only at hk
  rw [show (3 : ℤ).natAbs = 3 from rfl, h1, h2] at hk
  exact hk (by norm_num)

end Verif.TwoFluid

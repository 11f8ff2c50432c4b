import Verif.Props.Collisions

/-! C34, C35, C56, C57: budgets of the Dougherty operator, the drag-free operator, Krook,
species. -/
namespace Verif.FP
open Finset

/-! ### Momentum and energy budgets of the central Dougherty operator (C56) -/

/-- Summing an edge quantity built from a cell quantity with weights on both sides. -/
theorem sum_edges (m : ℕ) (a b : ℕ → ℝ) :
    ∑ e ∈ range m, (a e + b (e + 1)) = ∑ i ∈ range (m + 1), (a i + b i) - a m - b 0 := by
  rw [sum_add_distrib, sum_add_distrib, sum_range_succ a, sum_range_succ' b]; ring

theorem sum_edges' {m : ℕ} {g a b : ℕ → ℝ} (h : ∀ e < m, g e = a e + b (e + 1)) :
    ∑ e ∈ range m, g e = ∑ i ∈ range (m + 1), (a i + b i) - a m - b 0 := by
  rw [← sum_edges]; exact sum_congr rfl fun e he => h e (mem_range.1 he)

/-- C56: the exact momentum budget of one Dougherty step with the central scheme
(`m + 1` cells): the only source is what the distribution has in the two end cells. -/
theorem dougherty_momentum_budget (m : ℕ) (v : ℕ → ℝ) (dv β ν dt : ℝ) (f f' : ℕ → ℝ) (hdv : dv ≠ 0) (hβ : β ≠ 0)
    (hv : Uniform (m + 1) dv v) (hN : ∑ i ∈ range (m + 1), f i ≠ 0)
    (h : SolveOneX (m + 1) (central (m + 1) dv (betaModel v (vbarOf (m + 1) v f) β).1
      (fun _ => (betaModel v (vbarOf (m + 1) v f) β).2) (fun _ => ν) dt) f f') :
    (1 + dt * ν) * (∑ i ∈ range (m + 1), v i * f' i - ∑ i ∈ range (m + 1), v i * f i) =
      dt * ν * (f' m * ((v m + dv / 2 - vbarOf (m + 1) v f) / 2 - 1 / (2 * β) / dv) +
        f' 0 * ((v 0 - dv / 2 - vbarOf (m + 1) v f) / 2 + 1 / (2 * β) / dv)) := by
  have hs := collisions_conserve_density _ _ _ _ ν dt f f f' (Or.inl h)
  rw [central_is_finite_volume] at h
  set u := vbarOf (m + 1) v f with hu
  have hP : ∑ i ∈ range (m + 1), v i * f i = u * ∑ i ∈ range (m + 1), f i := by
    rw [hu]; unfold vbarOf; rw [div_mul_cancel₀ _ hN]
    exact sum_congr rfl fun i _ => mul_comm _ _
  set F := flux (betaModel v u β).1 (fun _ => (betaModel v u β).2) (fun _ => 1 / 2) dv f' with hF
  have h1 : ∑ i ∈ range (m + 1), v i * f' i = ∑ i ∈ range (m + 1), v i * f i + dt * ν / dv * ∑ i ∈ range (m + 1), v i * netFlux (m + 1) F i := by
    rw [mul_sum, ← sum_add_distrib]
    refine sum_congr rfl fun i hi => ?_
    rw [h i (mem_range.1 hi)]; ring
  rw [sum_netFlux_mul] at h1
  have h2 : ∑ e ∈ range (m + 1 - 1), F e * (v e - v (e + 1)) = -dv * ∑ e ∈ range m, F e := by
    rw [mul_sum, Nat.add_sub_cancel]
    refine sum_congr rfl fun e he => ?_
    rw [hv e (by rw [mem_range] at he; omega)]; ring
  have h3 : ∑ e ∈ range m, F e = ∑ i ∈ range (m + 1), ((v i + dv / 2 - u) / 2 * f' i - 1 / (2 * β) / dv * f' i +
      ((v i - dv / 2 - u) / 2 * f' i + 1 / (2 * β) / dv * f' i)) - ((v m + dv / 2 - u) / 2 * f' m - 1 / (2 * β) / dv * f' m) -
      ((v 0 - dv / 2 - u) / 2 * f' 0 + 1 / (2 * β) / dv * f' 0) := by
    refine sum_edges' (a := fun i => (v i + dv / 2 - u) / 2 * f' i - 1 / (2 * β) / dv * f' i)
      (b := fun i => (v i - dv / 2 - u) / 2 * f' i + 1 / (2 * β) / dv * f' i) fun e he => ?_
    rw [hF]
    simp only [flux, betaModel]
    rw [hv e (by omega)]
    field_simp
    ring
  have h4 : ∑ i ∈ range (m + 1), ((v i + dv / 2 - u) / 2 * f' i - 1 / (2 * β) / dv * f' i +
      ((v i - dv / 2 - u) / 2 * f' i + 1 / (2 * β) / dv * f' i)) =
      ∑ i ∈ range (m + 1), v i * f' i - u * ∑ i ∈ range (m + 1), f' i := by
    rw [mul_sum, ← sum_sub_distrib]
    exact sum_congr rfl fun i _ => by ring
  rw [h4, hs, ← hP] at h3
  rw [h2, h3] at h1
  field_simp at h1 ⊢
  linarith

/-- C56: the energy budget of the same step with the default closure `β = 1/(2T)`.
Besides the end cells and the momentum error there is a loss of `dtν N dv²/2`: the energy
is not conserved, even for a distribution that is negligible at the ends. -/
theorem dougherty_energy_budget (m : ℕ) (v : ℕ → ℝ) (dv ν dt : ℝ) (f f' : ℕ → ℝ) (hdv : dv ≠ 0)
    (hT : discreteT (m + 1) v dv (vbarOf (m + 1) v f) f ≠ 0)
    (hv : Uniform (m + 1) dv v) (hN : ∑ i ∈ range (m + 1), f i ≠ 0)
    (h : SolveOneX (m + 1) (central (m + 1) dv
      (betaModel v (vbarOf (m + 1) v f) (betaInit (m + 1) v dv (vbarOf (m + 1) v f) f)).1
      (fun _ => (betaModel v (vbarOf (m + 1) v f) (betaInit (m + 1) v dv (vbarOf (m + 1) v f) f)).2) (fun _ => ν) dt) f f') :
    (1 + 2 * (dt * ν)) * (∑ i ∈ range (m + 1), v i ^ 2 * f' i - ∑ i ∈ range (m + 1), v i ^ 2 * f i) =
      -(dt * ν * (dv ^ 2 / 2) * ∑ i ∈ range (m + 1), f i) +
      2 * (dt * ν) * vbarOf (m + 1) v f * (∑ i ∈ range (m + 1), v i * f' i - ∑ i ∈ range (m + 1), v i * f i) +
      2 * (dt * ν) * (f' m * ((v m + dv / 2) * ((v m + dv / 2 - vbarOf (m + 1) v f) / 2 -
          discreteT (m + 1) v dv (vbarOf (m + 1) v f) f / dv)) +
        f' 0 * ((v 0 - dv / 2) * ((v 0 - dv / 2 - vbarOf (m + 1) v f) / 2 +
          discreteT (m + 1) v dv (vbarOf (m + 1) v f) f / dv))) := by
  set u := vbarOf (m + 1) v f with hu
  set T := discreteT (m + 1) v dv u f with hTd
  have hβ : betaInit (m + 1) v dv u f = 1 / (2 * T) := rfl
  rw [hβ] at h
  have hβ0 : 1 / (2 * T) ≠ 0 := by positivity
  have hs := collisions_conserve_density _ _ _ _ ν dt f f f' (Or.inl h)
  rw [central_is_finite_volume] at h
  have hP : ∑ i ∈ range (m + 1), v i * f i = u * ∑ i ∈ range (m + 1), f i := by
    rw [hu]; unfold vbarOf; rw [div_mul_cancel₀ _ hN]
    exact sum_congr rfl fun i _ => mul_comm _ _
  have hE : T * ∑ i ∈ range (m + 1), f i = ∑ i ∈ range (m + 1), v i ^ 2 * f i - u * ∑ i ∈ range (m + 1), v i * f i := by
    rw [hTd]; unfold discreteT
    rw [← sum_mul, ← sum_mul, mul_div_mul_right _ _ hdv, div_mul_cancel₀ _ hN]
    have : ∑ i ∈ range (m + 1), f i * (v i - u) ^ 2 = ∑ i ∈ range (m + 1), v i ^ 2 * f i - 2 * u * ∑ i ∈ range (m + 1), v i * f i +
        u ^ 2 * ∑ i ∈ range (m + 1), f i := by
      rw [mul_sum, mul_sum, ← sum_sub_distrib, ← sum_add_distrib]
      exact sum_congr rfl fun i _ => by ring
    rw [this, hP]; ring
  set F := flux (betaModel v u (1 / (2 * T))).1 (fun _ => (betaModel v u (1 / (2 * T))).2) (fun _ => 1 / 2) dv f' with hF
  have h1 : ∑ i ∈ range (m + 1), v i ^ 2 * f' i =
      ∑ i ∈ range (m + 1), v i ^ 2 * f i + dt * ν / dv * ∑ i ∈ range (m + 1), v i ^ 2 * netFlux (m + 1) F i := by
    rw [mul_sum, ← sum_add_distrib]
    refine sum_congr rfl fun i hi => ?_
    rw [h i (mem_range.1 hi)]; ring
  rw [sum_netFlux_mul (m + 1) F (fun i => v i ^ 2)] at h1
  have h2 : ∑ e ∈ range (m + 1 - 1), F e * (v e ^ 2 - v (e + 1) ^ 2) = -(2 * dv) * ∑ e ∈ range m, (v e + dv / 2) * F e := by
    rw [mul_sum, Nat.add_sub_cancel]
    refine sum_congr rfl fun e he => ?_
    rw [hv e (by rw [mem_range] at he; omega)]; ring
  have h3 : ∑ e ∈ range m, (v e + dv / 2) * F e =
      ∑ i ∈ range (m + 1), ((v i + dv / 2) * ((v i + dv / 2 - u) / 2 * f' i - T / dv * f' i) +
      (v i - dv / 2) * ((v i - dv / 2 - u) / 2 * f' i + T / dv * f' i)) -
      (v m + dv / 2) * ((v m + dv / 2 - u) / 2 * f' m - T / dv * f' m) -
      (v 0 - dv / 2) * ((v 0 - dv / 2 - u) / 2 * f' 0 + T / dv * f' 0) := by
    refine sum_edges' (a := fun i => (v i + dv / 2) * ((v i + dv / 2 - u) / 2 * f' i - T / dv * f' i))
      (b := fun i => (v i - dv / 2) * ((v i - dv / 2 - u) / 2 * f' i + T / dv * f' i)) fun e he => ?_
    rw [hF]
    simp only [flux, betaModel]
    rw [hv e (by omega)]
    field_simp
    ring
  have h4 : ∑ i ∈ range (m + 1), ((v i + dv / 2) * ((v i + dv / 2 - u) / 2 * f' i - T / dv * f' i) +
      (v i - dv / 2) * ((v i - dv / 2 - u) / 2 * f' i + T / dv * f' i)) =
      ∑ i ∈ range (m + 1), v i ^ 2 * f' i - u * ∑ i ∈ range (m + 1), v i * f' i + (dv ^ 2 / 4 - T) * ∑ i ∈ range (m + 1), f' i := by
    rw [mul_sum, mul_sum, ← sum_sub_distrib, ← sum_add_distrib]
    refine sum_congr rfl fun i _ => ?_
    field_simp
    ring
  rw [h4, hs] at h3
  rw [h2, h3] at h1
  have hc : dt * ν / dv * (-(2 * dv)) = -(2 * (dt * ν)) := by field_simp
  rw [← mul_assoc, hc] at h1
  linear_combination h1 + 2 * (dt * ν) * hE

/-- The premises of both budgets hold, for example, for three cells `1, 2, 1` at
`-1, 0, 1`: the mean is 0, the temperature 1/2, and a step exists for every `ν dt ≥ 0`. -/
example (ν dt : ℝ) (hν : 0 ≤ ν) (hdt : 0 ≤ dt) :
    ∃ f', SolveOneX (2 + 1) (central (2 + 1) 1
      (betaModel (fun i => (i : ℝ) - 1) (vbarOf (2 + 1) (fun i => (i : ℝ) - 1) (fun i => if i = 1 then 2 else 1))
        (betaInit (2 + 1) (fun i => (i : ℝ) - 1) 1 (vbarOf (2 + 1) (fun i => (i : ℝ) - 1) (fun i => if i = 1 then 2 else 1))
          (fun i => if i = 1 then 2 else 1))).1
      (fun _ => (betaModel (fun i => (i : ℝ) - 1) (vbarOf (2 + 1) (fun i => (i : ℝ) - 1) (fun i => if i = 1 then 2 else 1))
        (betaInit (2 + 1) (fun i => (i : ℝ) - 1) 1 (vbarOf (2 + 1) (fun i => (i : ℝ) - 1) (fun i => if i = 1 then 2 else 1))
          (fun i => if i = 1 then 2 else 1))).2) (fun _ => ν) dt) (fun i => if i = 1 then 2 else 1) f' := by
  have hu : vbarOf (2 + 1) (fun i => (i : ℝ) - 1) (fun i => if i = 1 then 2 else 1) = 0 := by
    simp [vbarOf, sum_range_succ]; norm_num
  have hT : betaInit (2 + 1) (fun i => (i : ℝ) - 1) 1 0 (fun i => if i = 1 then 2 else 1) = 1 := by
    simp [betaInit, discreteT, sum_range_succ]; norm_num
  rw [hu, hT]
  refine (central_unique_partial _ _ _ _ _ _ one_pos hdt (fun _ _ => hν) ?_ _).1
  intro e he
  have : e < 2 := by omega
  simp only [betaModel]
  interval_cases e <;> norm_num

/-! ### The drag-free operator (C57) -/

/-- The discrete second derivative with closed ends. -/
noncomputable def lap (n : ℕ) (dv D : ℝ) (f : ℕ → ℝ) (i : ℕ) : ℝ :=
  netFlux n (fun e => D * (f (e + 1) - f e) / dv) i / dv

theorem nodragLap_eq (n : ℕ) (hn : 2 ≤ n) (dv D : ℝ) (f : ℕ → ℝ) (i : ℕ) (hi : i < n) :
    nodragLap n dv D f i = lap n dv D f i := by
  unfold nodragLap lap netFlux
  dsimp only
  by_cases h1 : i = n - 1
  · subst h1
    rw [if_pos rfl, if_neg (show ¬ n - 1 + 1 < n by omega), if_pos (show 0 < n - 1 by omega)]
    have : n - 1 - 1 = n - 2 := by omega
    have h2 : n - 2 + 1 = n - 1 := by omega
    rw [this, h2]; ring
  · rw [if_neg h1, if_pos (show i + 1 < n by omega)]
    by_cases h2 : i = 0
    · subst h2
      rw [if_pos rfl, if_neg (lt_irrefl 0)]
      ring
    · rw [if_neg h2, if_pos (show 0 < i by omega)]
      have : i - 1 + 1 = i := by omega
      rw [this]; ring

/-- C57: the drag-free operator conserves density. -/
theorem nodrag_conserves_density (n : ℕ) (hn : 2 ≤ n) (v : ℕ → ℝ) (dv vbar β ν dt : ℝ) (f f' : ℕ → ℝ)
    (h : NodragStep n v dv vbar β ν dt f f') : ∑ i ∈ range n, f' i = ∑ i ∈ range n, f i := by
  obtain ⟨g, hg, h1⟩ := h
  rw [← collisions_conserve_density _ _ _ _ ν dt f f g (Or.inl hg)]
  have : ∑ i ∈ range n, f' i = ∑ i ∈ range n, (g i - dt * ν / dv * netFlux n (fun e => (betaModel v vbar β).2 *
      (nodragMaxwellian n v dv vbar β f (e + 1) - nodragMaxwellian n v dv vbar β f e) / dv) i) := by
    refine sum_congr rfl fun i hi => ?_
    rw [h1 i (mem_range.1 hi), nodragLap_eq n hn _ _ _ i (mem_range.1 hi)]
    unfold lap; ring
  rw [this, sum_sub_distrib, ← mul_sum, sum_netFlux]; ring

theorem lap_zero_const {n : ℕ} {dv D : ℝ} (hdv : dv ≠ 0) (hD : D ≠ 0) {f : ℕ → ℝ} (h : ∀ i < n, lap n dv D f i = 0) :
    ∀ i < n, f i = f 0 := by
  have key : ∀ e, e + 1 < n → D * (f (e + 1) - f e) / dv = 0 := by
    intro e
    induction e with
    | zero =>
      intro h0
      have := h 0 (by omega)
      unfold lap netFlux at this
      rw [if_pos h0, if_neg (lt_irrefl 0), sub_zero] at this
      exact (div_eq_zero_iff.1 this).resolve_right hdv
    | succ e ih =>
      intro h0
      have := h (e + 1) (by omega)
      unfold lap netFlux at this
      rw [if_pos h0, if_pos (Nat.succ_pos e), Nat.add_sub_cancel] at this
      have := (div_eq_zero_iff.1 this).resolve_right hdv
      have h2 := ih (by omega)
      simp only at this
      linarith
  intro i
  induction i with
  | zero => intro _; rfl
  | succ i ih =>
    intro hi
    have := (div_eq_zero_iff.1 (key i hi)).resolve_right hdv
    have := (mul_eq_zero.1 this).resolve_left hD
    rw [← ih (by omega)]; linarith

theorem sum_lap (n : ℕ) (dv D : ℝ) (f : ℕ → ℝ) : ∑ i ∈ range n, lap n dv D f i = 0 := by
  unfold lap
  rw [← sum_div, sum_netFlux, zero_div]

/-- C57: although the code says the Maxwellian is a discrete fixed point of the drag-free
operator, the implicit and the explicit halves do not cancel: no Maxwellian of finite
temperature on three or more cells is left unchanged by a step. -/
theorem nodrag_maxwellian_not_fixed (n : ℕ) (hn : 3 ≤ n) (v : ℕ → ℝ) (dv vbar β ν dt c : ℝ) (hdv : 0 < dv) (hβ : β ≠ 0)
    (hν : ν ≠ 0) (hdt : dt ≠ 0) (hc : c ≠ 0) (hv : Uniform n dv v) (f : ℕ → ℝ)
    (hf : ∀ i < n, f i = c * Real.exp (-β * (v i - vbar) ^ 2)) : ¬ NodragStep n v dv vbar β ν dt f f := by
  rintro ⟨g, hg, h1⟩
  -- the reference Maxwellian is `f`
  have hmx : ∀ i < n, nodragMaxwellian n v dv vbar β f i = f i := by
    intro i hi
    unfold nodragMaxwellian
    simp only
    have e : ∑ j ∈ range n, f j = c * ∑ j ∈ range n, Real.exp (-β * (v j - vbar) ^ 2) := by
      rw [mul_sum]; exact sum_congr rfl fun j hj => hf j (mem_range.1 hj)
    have hp : 0 < ∑ j ∈ range n, Real.exp (-β * (v j - vbar) ^ 2) :=
      sum_pos (fun _ _ => Real.exp_pos _) ⟨0, mem_range.2 (by omega)⟩
    rw [e, hf i hi, mul_assoc c, mul_div_assoc, div_self (mul_pos hp hdv).ne']; ring
  set D := (betaModel v vbar β).2 with hDdef
  have hD : D ≠ 0 := by rw [hDdef]; simp only [betaModel]; positivity
  have hlc : ∀ a b : ℕ → ℝ, (∀ i < n, a i = b i) → ∀ i < n, lap n dv D a i = lap n dv D b i := by
    intro a b hab i hi
    unfold lap netFlux
    by_cases h3 : i + 1 < n <;> by_cases h2 : 0 < i
    · have : i - 1 + 1 = i := by omega
      simp only [h3, h2, if_true, this, hab i hi, hab _ h3, hab (i - 1) (by omega)]
    · simp only [h3, h2, if_true, if_false, hab i hi, hab _ h3]
    · have : i - 1 + 1 = i := by omega
      simp only [h3, h2, if_true, if_false, this, hab i hi, hab (i - 1) (by omega)]
    · simp only [h3, h2, if_false]
  -- `g = f + τ L f`
  have hg1 : ∀ i < n, g i = f i + dt * ν * lap n dv D f i := by
    intro i hi
    have := h1 i hi
    rw [nodragLap_eq n (by omega) _ _ _ i hi, hlc _ f hmx i hi] at this
    linarith
  rw [central_is_finite_volume] at hg
  have hfl : ∀ x : ℕ → ℝ, ∀ i, netFlux n (flux (fun _ => 0) (fun _ => D) (fun _ => 1 / 2) dv x) i / dv = lap n dv D x i := by
    intro x i
    unfold lap; congr 2; funext e; unfold flux; ring
  have hlin : ∀ i < n, lap n dv D g i = lap n dv D f i + dt * ν * lap n dv D (lap n dv D f) i := by
    intro i hi
    rw [hlc g _ hg1 i hi]
    unfold lap netFlux
    by_cases h3 : i + 1 < n <;> by_cases h2 : 0 < i
    · simp only [h3, h2, if_true]; ring
    · simp only [h3, h2, if_true, if_false]; ring
    · simp only [h3, h2, if_true, if_false]; ring
    · simp only [h3, h2, if_false]; ring
  have hLL : ∀ i < n, lap n dv D (lap n dv D f) i = 0 := by
    intro i hi
    have a := hg i hi
    rw [hfl, hlin i hi, hg1 i hi] at a
    have : (dt * ν) * (dt * ν) * lap n dv D (lap n dv D f) i = 0 := by linarith
    have ht : (dt * ν) * (dt * ν) ≠ 0 := by positivity
    exact (mul_eq_zero.1 this).resolve_left ht
  have hLc := lap_zero_const hdv.ne' hD hLL
  have hL0 : lap n dv D f 0 = 0 := by
    have := sum_lap n dv D f
    rw [sum_congr rfl fun i hi => hLc i (mem_range.1 hi), sum_const, card_range, nsmul_eq_mul] at this
    refine (mul_eq_zero.1 this).resolve_left ?_
    exact_mod_cast (by omega : n ≠ 0)
  have hconst := lap_zero_const hdv.ne' hD (fun i hi => (hLc i hi).trans hL0)
  -- but three equally spaced points are not all equally far from `vbar`
  have sq : ∀ i < n, (v i - vbar) ^ 2 = (v 0 - vbar) ^ 2 := by
    intro i hi
    have := hconst i hi
    rw [hf i hi, hf 0 (by omega)] at this
    have := Real.exp_injective (mul_left_cancel₀ hc this)
    have : β * ((v i - vbar) ^ 2 - (v 0 - vbar) ^ 2) = 0 := by linarith
    have := (mul_eq_zero.1 this).resolve_left hβ
    linarith
  have s1 := sq 1 (by omega)
  have s2 := sq 2 (by omega)
  have v1 : v 1 = v 0 + dv := hv 0 (by omega)
  have v2 : v 2 = v 0 + dv + dv := by rw [← v1]; exact hv 1 (by omega)
  rw [v1] at s1
  rw [v2] at s2
  have : dv ^ 2 = 0 := by linarith [mul_comm dv dv, show (v 0 + dv + dv - vbar) ^ 2 - 2 * (v 0 + dv - vbar) ^ 2 + (v 0 - vbar) ^ 2 = 2 * dv ^ 2 by ring]
  exact hdv.ne' (pow_eq_zero_iff (two_ne_zero) |>.1 this)

/-- A drag-free step exists for every non-negative rate, so the theorem is about something. -/
example (f : ℕ → ℝ) : ∃ f', NodragStep 3 (fun i => (i : ℝ) - 1) 1 0 1 1 1 f f' := by
  obtain ⟨g, hg⟩ := (central_unique_partial 3 1 (fun _ => 0) (fun _ => (betaModel (fun i => (i : ℝ) - 1) 0 1).2) (fun _ => 1) 1
    one_pos zero_le_one (fun _ _ => zero_le_one) (fun e _ => by simp [betaModel]) f).1
  exact ⟨_, g, hg, fun _ _ => rfl⟩

/-! ### Krook (C34) -/

theorem krook_maxwellian_norm (n : ℕ) (hn : 0 < n) (v : ℕ → ℝ) (dv T0 mass : ℝ) (hdv : dv ≠ 0) :
    (∑ i ∈ range n, krookMaxwellian n v dv T0 mass i) * dv = 1 ∧ (0 < dv → ∀ i, 0 < krookMaxwellian n v dv T0 mass i) := by
  have hp : 0 < ∑ j ∈ range n, Real.exp (-(v j ^ 2) / (2 * T0 / mass)) :=
    sum_pos (fun _ _ => Real.exp_pos _) ⟨0, mem_range.2 hn⟩
  unfold krookMaxwellian
  simp only
  constructor
  · rw [← sum_div, ← sum_div, div_self hp.ne', one_div, inv_mul_cancel₀ hdv]
  · intro h i
    exact div_pos (div_pos (Real.exp_pos _) hp) h

/-- C34: a Krook step multiplies the deviation from `n` times the Maxwellian by
`exp (-ν dt)`; everything else follows. -/
theorem krook_relaxes (n : ℕ) (dv : ℝ) (fmx : ℕ → ℝ) (ν : ℝ) (f : ℕ → ℝ) (dt : ℝ) (i : ℕ) :
    krook n dv fmx ν f dt i - (∑ j ∈ range n, f j) * dv * fmx i =
      Real.exp (-(dt * ν)) * (f i - (∑ j ∈ range n, f j) * dv * fmx i) := by
  unfold krook; ring

/-- C34: the operator of the code, for every rate, step and distribution. -/
theorem krook_step (n : ℕ) (hn : 0 < n) (v : ℕ → ℝ) (dv T0 mass : ℝ) (hdv : 0 < dv) (ν dt : ℝ) (f : ℕ → ℝ) :
    let M := krookMaxwellian n v dv T0 mass
    let N := (∑ j ∈ range n, f j) * dv
    -- density
    (∑ i ∈ range n, krook n dv M ν f dt i) * dv = N ∧
    -- between the distribution and the equilibrium
    (0 ≤ dt * ν → ∀ i, min (f i) (N * M i) ≤ krook n dv M ν f dt i ∧ krook n dv M ν f dt i ≤ max (f i) (N * M i)) ∧
    -- positivity
    (0 ≤ dt * ν → (∀ i < n, 0 ≤ f i) → ∀ i < n, 0 ≤ krook n dv M ν f dt i) ∧
    -- identity without collisions
    (ν = 0 ∨ dt = 0 → ∀ i, krook n dv M ν f dt i = f i) ∧
    -- equilibrium
    ((∀ i < n, f i = N * M i) → ∀ i < n, krook n dv M ν f dt i = f i) ∧
    -- two steps are one
    (∀ dt' i, krook n dv M ν (krook n dv M ν f dt) dt' i = krook n dv M ν f (dt + dt') i) := by
  intro M N
  obtain ⟨hM, hMp⟩ := krook_maxwellian_norm n hn v dv T0 mass hdv.ne'
  have hdens : (∑ i ∈ range n, krook n dv M ν f dt i) * dv = N := by
    have : ∑ i ∈ range n, krook n dv M ν f dt i = Real.exp (-(dt * ν)) * ∑ i ∈ range n, f i +
        N * (1 - Real.exp (-(dt * ν))) * ∑ i ∈ range n, M i := by
      rw [mul_sum, mul_sum, ← sum_add_distrib]
      exact sum_congr rfl fun i _ => by unfold krook; simp only [N]; ring
    rw [this, add_mul, mul_assoc (N * _), hM]
    simp only [N]; ring
  have hconv : 0 ≤ dt * ν → ∀ i, min (f i) (N * M i) ≤ krook n dv M ν f dt i ∧ krook n dv M ν f dt i ≤ max (f i) (N * M i) := by
    intro h i
    have h1 : Real.exp (-(dt * ν)) ≤ 1 := by rw [Real.exp_le_one_iff]; linarith
    have h0 := Real.exp_pos (-(dt * ν))
    have e : krook n dv M ν f dt i = Real.exp (-(dt * ν)) * f i + (1 - Real.exp (-(dt * ν))) * (N * M i) := by
      unfold krook; simp only [N]; ring
    rw [e]
    constructor
    · calc min (f i) (N * M i) = Real.exp (-(dt * ν)) * min (f i) (N * M i) + (1 - Real.exp (-(dt * ν))) * min (f i) (N * M i) := by ring
        _ ≤ _ := add_le_add (mul_le_mul_of_nonneg_left (min_le_left _ _) h0.le)
            (mul_le_mul_of_nonneg_left (min_le_right _ _) (by linarith))
    · calc _ ≤ Real.exp (-(dt * ν)) * max (f i) (N * M i) + (1 - Real.exp (-(dt * ν))) * max (f i) (N * M i) :=
          add_le_add (mul_le_mul_of_nonneg_left (le_max_left _ _) h0.le)
            (mul_le_mul_of_nonneg_left (le_max_right _ _) (by linarith))
        _ = _ := by ring
  refine ⟨hdens, hconv, ?_, ?_, ?_, ?_⟩
  · intro h hf i hi
    refine le_trans ?_ (hconv h i).1
    have : 0 ≤ N := mul_nonneg (sum_nonneg fun j hj => hf j (mem_range.1 hj)) hdv.le
    exact le_min (hf i hi) (mul_nonneg this (hMp hdv i).le)
  · rintro (rfl | rfl) i <;> simp [krook]
  · intro hf i hi
    have e : krook n dv M ν f dt i = Real.exp (-(dt * ν)) * f i + (1 - Real.exp (-(dt * ν))) * (N * M i) := by
      unfold krook; simp only [N]; ring
    rw [e, ← hf i hi]; ring
  · intro dt' i
    have e1 : krook n dv M ν (krook n dv M ν f dt) dt' i = krook n dv M ν f dt i * Real.exp (-(dt' * ν)) +
        N * M i * (1 - Real.exp (-(dt' * ν))) := by
      rw [← hdens]; rfl
    have e2 : Real.exp (-((dt + dt') * ν)) = Real.exp (-(dt * ν)) * Real.exp (-(dt' * ν)) := by
      rw [← Real.exp_add]; congr 1; ring
    rw [e1]
    unfold krook
    simp only [e2, N]
    ring

example : let M := krookMaxwellian 3 (fun i => (i : ℝ) - 1) 1 1 1
    (∑ i ∈ range 3, krook 3 1 M 2 (fun i => (i : ℝ)) 1 i) * 1 = (∑ j ∈ range 3, (j : ℝ)) * 1 :=
  (krook_step 3 (by norm_num) _ 1 1 1 one_pos 2 1 _).1

/-! ### Species and switches (C35) -/

/-- C35: the species acted on is `"electron"` when there is one, else the first; there is
none only without species. -/
theorem reference_species {α : Type} (grids : Dict String α) :
    ("electron" ∈ dictKeys grids → collisionSpecies grids = some "electron") ∧
    ("electron" ∉ dictKeys grids → collisionSpecies grids = (dictKeys grids).head?) ∧
    (collisionSpecies grids = none ↔ grids = []) := by
  unfold collisionSpecies
  refine ⟨fun h => if_pos h, fun h => if_neg h, ?_⟩
  cases grids with
  | nil => simp [dictKeys]
  | cons p t =>
    simp only [List.cons_ne_nil, iff_false]
    split <;> simp [dictKeys]

/-- C35: the step keeps every species and their order, changes the reference species by
the collision operator and leaves all others untouched. -/
theorem only_reference_species {α : Type} (ref : String) (apply : α → α) (f : Dict String α) :
    dictKeys (collisions ref apply f) = dictKeys f ∧
    (∀ k, k ≠ ref → (collisions ref apply f).lookup k = f.lookup k) ∧
    (collisions ref apply f).lookup ref = (f.lookup ref).map apply := by
  unfold collisions
  refine ⟨?_, ?_, ?_⟩
  · unfold dictKeys
    rw [List.map_map]
    refine List.map_congr_left fun p _ => ?_
    simp only [Function.comp]; split <;> rfl
  · intro k hk
    induction f with
    | nil => rfl
    | cons p t ih =>
      obtain ⟨a, b⟩ := p
      simp only [List.map_cons, List.lookup]
      by_cases h : a = ref
      · subst h
        have : (k == a) = false := by simpa using hk
        simp only [if_true, this]; exact ih
      · rw [if_neg h]
        simp only
        cases k == a
        · exact ih
        · rfl
  · induction f with
    | nil => rfl
    | cons p t ih =>
      obtain ⟨a, b⟩ := p
      simp only [List.map_cons, List.lookup]
      by_cases h : a = ref
      · subst h; simp
      · rw [if_neg h]
        have : (ref == a) = false := by simpa using fun e => h e.symm
        simp only [this]; exact ih

/-- C35: switched off, the operators do nothing; switched on, Fokker-Planck acts first. -/
theorem collide_switches {α : Type} (fp kr : α → α) (f : α) :
    collide false false fp kr f = f ∧ collide true false fp kr f = fp f ∧ collide false true fp kr f = kr f ∧
    collide true true fp kr f = kr (fp f) := ⟨rfl, rfl, rfl, rfl⟩

/-- The operator names of the documentation and what each one stands for. -/
def documentedKinds : List (String × Kind) := [("lenard_bernstein", .lenardBernsteinCentral),
  ("chang_cooper", .lenardBernsteinCC), ("lenard_bernstein_chang_cooper", .lenardBernsteinCC),
  ("chang_cooper_dougherty", .doughertyCC), ("dougherty_chang_cooper", .doughertyCC), ("dougherty", .doughertyCentral),
  ("super_gaussian", .superGaussian), ("super_gaussian_chang_cooper", .superGaussian), ("dougherty_nodrag", .nodrag)]

/-- C35: exactly these names are accepted. -/
theorem fp_kinds (t : String) (k : Kind) : fpKind t = some k ↔ (t, k) ∈ documentedKinds := by
  unfold fpKind documentedKinds
  simp only [List.mem_cons, List.not_mem_nil, or_false, Prod.mk.injEq]
  constructor
  · intro h
    split at h
    · next h0 => cases h; subst h0; simp
    split at h
    · next h0 => cases h; rcases h0 with rfl | rfl <;> simp
    split at h
    · next h0 => cases h; rcases h0 with rfl | rfl <;> simp
    split at h
    · next h0 => cases h; subst h0; simp
    split at h
    · next h0 => cases h; rcases h0 with rfl | rfl <;> simp
    split at h
    · next h0 => cases h; subst h0; simp
    · cases h
  · rintro (⟨rfl, rfl⟩ | ⟨rfl, rfl⟩ | ⟨rfl, rfl⟩ | ⟨rfl, rfl⟩ | ⟨rfl, rfl⟩ | ⟨rfl, rfl⟩ | ⟨rfl, rfl⟩ | ⟨rfl, rfl⟩ | ⟨rfl, rfl⟩) <;>
      decide

example : (collisions "electron" (· + 1) [("ion", (1 : Nat)), ("electron", 2)]) = [("ion", 1), ("electron", 3)] := by decide

end Verif.FP

import Verif.Model.Spectrax
import Verif.Spec.Spectrax
import Verif.Props.HermiteForce
import Verif.Lemmas.Vfp2dStep

/-! C148: the moment equations are the projection of the Vlasov equation. -/
namespace Verif.Spectrax
open Finset Complex Verif.Hermite
open Polynomial (derivative)

/-! ### Hermite functions with integer index -/

/-- `h_n`, zero for negative `n`. -/
noncomputable def bz (a u : ℝ) (n : ℤ) : Polynomial ℝ := if n < 0 then 0 else basis a u n.toNat

theorem bz_nat (a u : ℝ) (n : ℕ) : bz a u (n : ℤ) = basis a u n := by
  rw [bz, if_neg (by omega), Int.toNat_natCast]

theorem bz_neg (a u : ℝ) {n : ℤ} (h : n < 0) : bz a u n = 0 := by rw [bz, if_pos h]

theorem bz_deriv (a u : ℝ) (n : ℕ) : derivative (basis a u n) = Polynomial.C (Real.sqrt n * Real.sqrt 2 / a) * bz a u ((n : ℤ) + -1) := by
  rcases n with _ | n
  · rw [basis_zero]; simp
  · rw [show ((n + 1 : ℕ) : ℤ) + -1 = (n : ℤ) by push_cast; ring, bz_nat, basis_deriv]
    push_cast
    congr 2; ring

theorem half_sqrt (x : ℝ) : Real.sqrt (x / 2) = Real.sqrt x / Real.sqrt 2 := Real.sqrt_div' x (by norm_num)

theorem bz_three {a : ℝ} (ha : a ≠ 0) (u : ℝ) (n : ℕ) :
    Polynomial.X * basis a u n = Polynomial.C (a * (Real.sqrt ((n : ℝ) + 1) / Real.sqrt 2)) * bz a u ((n : ℤ) + 1)
      + Polynomial.C (a * (Real.sqrt n / Real.sqrt 2)) * bz a u ((n : ℤ) + -1) + Polynomial.C u * bz a u n := by
  rw [bz_nat, show (n : ℤ) + 1 = ((n + 1 : ℕ) : ℤ) by push_cast; ring, bz_nat]
  rcases n with _ | n
  · rw [basis_three_zero a u ha, bz_neg _ _ (by norm_num), half_sqrt]; simp
  · rw [show ((n + 1 : ℕ) : ℤ) + -1 = (n : ℤ) by push_cast; ring, bz_nat, basis_three a u ha, half_sqrt, half_sqrt]
    push_cast; rfl

variable {d : Dims}

theorem represents_pad {s : Species} {M : Dist} {C : Tens d ℂ} (h : Represents s.alpha s.u M C) (p m n : ℤ) :
    M (bz (s.alpha 0) (s.u 0) n) (bz (s.alpha 1) (s.u 1) m) (bz (s.alpha 2) (s.u 2) p) =
      ((s.alpha 0 * s.alpha 1 * s.alpha 2 : ℝ) : ℂ) * pad C p m n := by
  unfold pad
  by_cases hn : n < 0
  · rw [bz_neg _ _ hn, dif_neg (by omega)]; simp
  by_cases hm : m < 0
  · rw [bz_neg (s.alpha 1) _ hm, dif_neg (by omega)]; simp
  by_cases hp : p < 0
  · rw [bz_neg (s.alpha 2) _ hp, dif_neg (by omega)]; simp
  obtain ⟨n, rfl⟩ := Int.eq_ofNat_of_zero_le (by omega : 0 ≤ n)
  obtain ⟨m, rfl⟩ := Int.eq_ofNat_of_zero_le (by omega : 0 ≤ m)
  obtain ⟨p, rfl⟩ := Int.eq_ofNat_of_zero_le (by omega : 0 ≤ p)
  rw [bz_nat, bz_nat, bz_nat]
  by_cases hr : p < d.np ∧ m < d.nm ∧ n < d.nn
  · rw [dif_pos (by omega)]
    exact h.1 ⟨p, hr.1⟩ ⟨m, hr.2.1⟩ ⟨n, hr.2.2⟩
  · rw [dif_neg (by omega), mul_zero]
    exact h.2 p m n hr

theorem dist1 (M : Dist) (c : ℝ) (p q r : Polynomial ℝ) : M (Polynomial.C c * p) q r = (c : ℂ) * M p q r := by
  rw [← Polynomial.smul_eq_C_mul, _root_.map_smul]; simp
theorem dist2 (M : Dist) (c : ℝ) (p q r : Polynomial ℝ) : M p (Polynomial.C c * q) r = (c : ℂ) * M p q r := by
  rw [← Polynomial.smul_eq_C_mul, _root_.map_smul]; simp
theorem dist3 (M : Dist) (c : ℝ) (p q r : Polynomial ℝ) : M p q (Polynomial.C c * r) = (c : ℂ) * M p q r := by
  rw [← Polynomial.smul_eq_C_mul, _root_.map_smul]; simp

theorem r2_ne : r2 ≠ 0 := by
  rw [r2, Ne, ofReal_eq_zero]; exact (Real.sqrt_pos.mpr (by norm_num)).ne'
theorem r2_sq : r2 * r2 = 2 := by
  rw [r2, ← ofReal_mul, two_sq]; norm_num

/-- C148, force: the Hermite coefficients change by the force `E + v × B`. -/
theorem lorentz_galerkin (s : Species) (ha : ∀ i, s.alpha i ≠ 0) (C : Tens d ℂ) (E B : Fin 3 → ℂ) (M : Dist) (hM : Represents s.alpha s.u M C)
    (p : Fin d.np) (m : Fin d.nm) (n : Fin d.nn) :
    ((s.alpha 0 * s.alpha 1 * s.alpha 2 : ℝ) : ℂ) * lorentzAt s C E B p m n =
      forceRate M E B (basis (s.alpha 0) (s.u 0) n) (basis (s.alpha 1) (s.u 1) m) (basis (s.alpha 2) (s.u 2) p) := by
  have h0 : (s.alpha 0 : ℂ) ≠ 0 := ofReal_ne_zero.mpr (ha 0)
  have h1 : (s.alpha 1 : ℂ) ≠ 0 := ofReal_ne_zero.mpr (ha 1)
  have h2 : (s.alpha 2 : ℂ) ≠ 0 := ofReal_ne_zero.mpr (ha 2)
  unfold forceRate
  simp only [bz_deriv, bz_three (ha 0), bz_three (ha 1), bz_three (ha 2), map_add, LinearMap.add_apply, dist1, dist2, dist3]
  simp only [← bz_nat, represents_pad hM]
  unfold lorentzAt auxX auxY auxZ
  simp only [shift, add_zero]
  obtain ⟨g, hg⟩ : ∃ g : ℤ → ℤ → ℤ → ℂ, g = pad C := ⟨_, rfl⟩
  simp only [← hg]
  have hsp : ∀ k : ℕ, ((Real.sqrt ((k : ℝ) + 1) : ℝ) : ℂ) = sp k := fun _ => rfl
  have hsm : ∀ k : ℕ, ((Real.sqrt (k : ℝ) : ℝ) : ℂ) = sm k := fun _ => rfl
  have hr : ((Real.sqrt 2 : ℝ) : ℂ) = r2 := rfl
  push_cast
  simp only [hsp, hsm, hr]
  have hr0 := r2_ne
  have hr2 := r2_sq
  generalize r2 = r at *
  generalize sm (p : ℕ) = a at *
  generalize sm (m : ℕ) = b at *
  generalize sm (n : ℕ) = c at *
  generalize sp (p : ℕ) = a' at *
  generalize sp (m : ℕ) = b' at *
  generalize sp (n : ℕ) = c' at *
  field_simp
  ring

/-- C148, streaming: the Hermite coefficients change by `-v · ∇f`, for every mode kept. -/
theorem advect_galerkin (s : Species) (ha : ∀ i, s.alpha i ≠ 0) (x : Fin 3 → ℝ) (C : Tens d ℂ) (M : Dist) (hM : Represents s.alpha s.u M C)
    (p : Fin d.np) (m : Fin d.nm) (n : Fin d.nn) :
    ((s.alpha 0 * s.alpha 1 * s.alpha 2 : ℝ) : ℂ) * advect s x C p m n =
      streamRate M x (basis (s.alpha 0) (s.u 0) n) (basis (s.alpha 1) (s.u 1) m) (basis (s.alpha 2) (s.u 2) p) := by
  have h0 : (s.alpha 0 : ℂ) ≠ 0 := ofReal_ne_zero.mpr (ha 0)
  have h1 : (s.alpha 1 : ℂ) ≠ 0 := ofReal_ne_zero.mpr (ha 1)
  have h2 : (s.alpha 2 : ℂ) ≠ 0 := ofReal_ne_zero.mpr (ha 2)
  unfold streamRate
  simp only [bz_three (ha 0), bz_three (ha 1), bz_three (ha 2), map_add, LinearMap.add_apply, dist1, dist2, dist3]
  simp only [← bz_nat, represents_pad hM]
  unfold advect
  have hC : C p m n = pad C p m n := by
    unfold pad
    rw [dif_pos (by have := p.2; have := m.2; have := n.2; omega)]
    rfl
  rw [hC]
  simp only [shift, add_zero]
  obtain ⟨g, hg⟩ : ∃ g : ℤ → ℤ → ℤ → ℂ, g = pad C := ⟨_, rfl⟩
  simp only [← hg]
  have hsp : ∀ k : ℕ, ((Real.sqrt ((k : ℝ) + 1) : ℝ) : ℂ) = sp k := fun _ => rfl
  have hsm : ∀ k : ℕ, ((Real.sqrt (k : ℝ) : ℝ) : ℂ) = sm k := fun _ => rfl
  have hr : ((Real.sqrt 2 : ℝ) : ℂ) = r2 := rfl
  push_cast
  simp only [hsp, hsm, hr]
  have hr0 := r2_ne
  generalize r2 = r at *
  field_simp
  ring

/-- The distribution `a(vx) b(vy) c(vz)`. -/
noncomputable def outer (a b c : Polynomial ℝ →ₗ[ℝ] ℂ) : Dist where
  toFun p :=
    { toFun := fun q =>
        { toFun := fun r => a p * b q * c r
          map_add' := fun x y => by rw [map_add]; ring
          map_smul' := fun t x => by rw [_root_.map_smul]; simp only [RingHom.id_apply, Complex.real_smul]; ring }
      map_add' := fun x y => by ext; simp; ring
      map_smul' := fun t x => by ext; simp; ring }
  map_add' := fun x y => by ext; simp; ring
  map_smul' := fun t x => by ext; simp; ring

theorem outer_apply (a b c : Polynomial ℝ →ₗ[ℝ] ℂ) (p q r : Polynomial ℝ) : outer a b c p q r = a p * b q * c r := rfl

/-- Every array of coefficients belongs to a distribution. -/
theorem represents_of3 (s : Species) (ha : ∀ i, s.alpha i ≠ 0) (C : Tens d ℂ) : ∃ M : Dist, Represents s.alpha s.u M C := by
  have key : ∀ j : Fin 3, ∀ w : ℕ → ℂ, ∃ e : Polynomial ℝ →ₗ[ℝ] ℂ, ∀ k, e (basis (s.alpha j) (s.u j) k) = w k := fun j w =>
    represents_exists (ha j) (s.u j) w
  choose e he using key
  let A : ℂ := ((s.alpha 0 * s.alpha 1 * s.alpha 2 : ℝ) : ℂ)
  have hv : ∀ (p m n : ℕ), (∑ p' : Fin d.np, ∑ m' : Fin d.nm,
      outer (e 0 fun k => if h : k < d.nn then A * C p' m' ⟨k, h⟩ else 0) (e 1 fun k => if k = m'.val then 1 else 0) (e 2 fun k => if k = p'.val then 1 else 0))
      (basis (s.alpha 0) (s.u 0) n) (basis (s.alpha 1) (s.u 1) m) (basis (s.alpha 2) (s.u 2) p) =
      ∑ p' : Fin d.np, ∑ m' : Fin d.nm, (if h : n < d.nn then A * C p' m' ⟨n, h⟩ else 0) * (if m = m'.val then 1 else 0) * (if p = p'.val then 1 else 0) := by
    intro p m n
    simp only [LinearMap.sum_apply, outer_apply, he]
  refine ⟨_, fun p m n => (hv p m n).trans ?_, fun p m n h => (hv p m n).trans ?_⟩
  · rw [Finset.sum_eq_single_of_mem p (Finset.mem_univ _), Finset.sum_eq_single_of_mem m (Finset.mem_univ _)]
    · simp [A]
    · intro b _ hb
      rw [if_neg (show ¬ m.val = b.val from fun h => hb (Fin.ext h.symm)), mul_zero, zero_mul]
    · intro b _ hb
      refine Finset.sum_eq_zero fun c _ => ?_
      rw [if_neg (show ¬ p.val = b.val from fun h => hb (Fin.ext h.symm)), mul_zero]
  · refine Finset.sum_eq_zero fun p' _ => Finset.sum_eq_zero fun m' _ => ?_
    by_cases h1 : n < d.nn
    · by_cases h2 : m < d.nm
      · rw [if_neg (show ¬ p = p'.val from fun e => h ⟨e ▸ p'.2, h2, h1⟩), mul_zero]
      · rw [if_neg (show ¬ m = m'.val from fun e => h2 (e ▸ m'.2)), mul_zero, zero_mul]
    · rw [dif_neg h1, zero_mul, zero_mul]

/-! ### Moments -/

/-- A property of polynomials that is linear and holds for the first `N` Hermite functions holds for every polynomial of
lower degree. -/
theorem low_induction {a u : ℝ} (ha : a ≠ 0) (N : ℕ) (P : Polynomial ℝ → Prop) (hb : ∀ i < N, P (basis a u i))
    (hadd : ∀ p q, P p → P q → P (p + q)) (hmul : ∀ (c : ℝ) p, P p → P (Polynomial.C c * p)) (h0 : P 0) (p : Polynomial ℝ) (hp : p.natDegree < N) : P p := by
  obtain ⟨k, hk⟩ : ∃ k, p.natDegree = k := ⟨_, rfl⟩
  induction k using Nat.strong_induction_on generalizing p with
  | _ k ih =>
    by_cases hz : p = 0
    · rw [hz]; exact h0
    have hl : (basis a u k).leadingCoeff ≠ 0 := Polynomial.leadingCoeff_ne_zero.mpr (basis_ne_zero ha u k)
    let c := p.leadingCoeff / (basis a u k).leadingCoeff
    have hc : c ≠ 0 := div_ne_zero (Polynomial.leadingCoeff_ne_zero.mpr hz) hl
    have hsplit : p = (p - Polynomial.C c * basis a u k) + Polynomial.C c * basis a u k := by ring
    rw [hsplit]
    refine hadd _ _ ?_ (hmul c _ (hb k (by omega)))
    by_cases hq : p - Polynomial.C c * basis a u k = 0
    · rw [hq]; exact h0
    have hdeg : (p - Polynomial.C c * basis a u k).degree < p.degree := by
      refine Polynomial.degree_sub_lt ?_ hz ?_
      · rw [Polynomial.degree_C_mul hc, Polynomial.degree_eq_natDegree (basis_ne_zero ha u k), Polynomial.degree_eq_natDegree hz, hk,
          basis_natDegree ha u k]
      · rw [Polynomial.leadingCoeff_mul, Polynomial.leadingCoeff_C]
        exact (div_mul_cancel₀ _ hl).symm
    have hlt : (p - Polynomial.C c * basis a u k).natDegree < k := by
      have := (Polynomial.natDegree_lt_natDegree_iff hq).mpr hdeg
      omega
    exact ih _ hlt _ (by omega) rfl

/-- Linear in each of three polynomials. -/
structure Tri (F : Polynomial ℝ → Polynomial ℝ → Polynomial ℝ → ℂ) : Prop where
  add1 : ∀ p p' q r, F (p + p') q r = F p q r + F p' q r
  add2 : ∀ p q q' r, F p (q + q') r = F p q r + F p q' r
  add3 : ∀ p q r r', F p q (r + r') = F p q r + F p q r'
  mul1 : ∀ (c : ℝ) p q r, F (Polynomial.C c * p) q r = c * F p q r
  mul2 : ∀ (c : ℝ) p q r, F p (Polynomial.C c * q) r = c * F p q r
  mul3 : ∀ (c : ℝ) p q r, F p q (Polynomial.C c * r) = c * F p q r

theorem Tri.comp (M : Dist) (f g h : Polynomial ℝ →ₗ[ℝ] Polynomial ℝ) : Tri fun p q r => M (f p) (g q) (h r) := by
  have e : ∀ (f : Polynomial ℝ →ₗ[ℝ] Polynomial ℝ) (c : ℝ) p, f (Polynomial.C c * p) = Polynomial.C c * f p := fun f c p => by
    rw [← Polynomial.smul_eq_C_mul, _root_.map_smul, Polynomial.smul_eq_C_mul]
  exact ⟨fun _ _ _ _ => by simp, fun _ _ _ _ => by simp, fun _ _ _ _ => by simp, fun _ _ _ _ => by rw [e, dist1], fun _ _ _ _ => by rw [e, dist2],
    fun _ _ _ _ => by rw [e, dist3]⟩

theorem Tri.add {F G : Polynomial ℝ → Polynomial ℝ → Polynomial ℝ → ℂ} (hF : Tri F) (hG : Tri G) : Tri fun p q r => F p q r + G p q r :=
  ⟨fun _ _ _ _ => by rw [hF.add1, hG.add1]; ring, fun _ _ _ _ => by rw [hF.add2, hG.add2]; ring, fun _ _ _ _ => by rw [hF.add3, hG.add3]; ring,
    fun _ _ _ _ => by rw [hF.mul1, hG.mul1]; ring, fun _ _ _ _ => by rw [hF.mul2, hG.mul2]; ring, fun _ _ _ _ => by rw [hF.mul3, hG.mul3]; ring⟩

theorem Tri.smul {F : Polynomial ℝ → Polynomial ℝ → Polynomial ℝ → ℂ} (c : ℂ) (hF : Tri F) : Tri fun p q r => c * F p q r :=
  ⟨fun _ _ _ _ => by rw [hF.add1]; ring, fun _ _ _ _ => by rw [hF.add2]; ring, fun _ _ _ _ => by rw [hF.add3]; ring,
    fun _ _ _ _ => by rw [hF.mul1]; ring, fun _ _ _ _ => by rw [hF.mul2]; ring, fun _ _ _ _ => by rw [hF.mul3]; ring⟩

theorem Tri.sub {F G : Polynomial ℝ → Polynomial ℝ → Polynomial ℝ → ℂ} (hF : Tri F) (hG : Tri G) : Tri fun p q r => F p q r - G p q r := by
  have := hF.add (hG.smul (-1))
  simpa [sub_eq_add_neg] using this

theorem Tri.dist (M : Dist) : Tri fun p q r => M p q r := Tri.comp M LinearMap.id LinearMap.id LinearMap.id

theorem Tri.force (M : Dist) (E B : Fin 3 → ℂ) : Tri (forceRate M E B) := by
  have c := fun f g h => Tri.comp M f g h
  let x : Polynomial ℝ →ₗ[ℝ] Polynomial ℝ := LinearMap.mulLeft ℝ Polynomial.X
  let i : Polynomial ℝ →ₗ[ℝ] Polynomial ℝ := LinearMap.id
  exact ((((c derivative i i).smul (E 0)).add (((c derivative x i).smul (B 2)).sub ((c derivative i x).smul (B 1)))).add
    (((c i derivative i).smul (E 1)).add (((c i derivative x).smul (B 0)).sub ((c x derivative i).smul (B 2))))).add
    (((c i i derivative).smul (E 2)).add (((c x i derivative).smul (B 1)).sub ((c i x derivative).smul (B 0))))

theorem Tri.stream (M : Dist) (k : Fin 3 → ℝ) : Tri (streamRate M k) := by
  have c := fun f g h => Tri.comp M f g h
  let x : Polynomial ℝ →ₗ[ℝ] Polynomial ℝ := LinearMap.mulLeft ℝ Polynomial.X
  let i : Polynomial ℝ →ₗ[ℝ] Polynomial ℝ := LinearMap.id
  exact ((((c x i i).smul (k 0 : ℂ)).add ((c i x i).smul (k 1 : ℂ))).add ((c i i x).smul (k 2 : ℂ))).smul (-I)

/-- Two trilinear maps that agree on the Hermite functions agree on polynomials of lower degree. -/
theorem low_agree (s : Species) (ha : ∀ i, s.alpha i ≠ 0) {F G : Polynomial ℝ → Polynomial ℝ → Polynomial ℝ → ℂ} (hF : Tri F) (hG : Tri G)
    (h : ∀ (p : Fin d.np) (m : Fin d.nm) (n : Fin d.nn),
      F (basis (s.alpha 0) (s.u 0) n) (basis (s.alpha 1) (s.u 1) m) (basis (s.alpha 2) (s.u 2) p) =
      G (basis (s.alpha 0) (s.u 0) n) (basis (s.alpha 1) (s.u 1) m) (basis (s.alpha 2) (s.u 2) p))
    (p q r : Polynomial ℝ) (hp : p.natDegree < d.nn) (hq : q.natDegree < d.nm) (hr : r.natDegree < d.np) : F p q r = G p q r := by
  have z1 : ∀ {F : Polynomial ℝ → Polynomial ℝ → Polynomial ℝ → ℂ}, Tri F → ∀ q r, F 0 q r = 0 := fun hF q r => by
    have := hF.mul1 0 0 q r; simpa using this
  have z2 : ∀ {F : Polynomial ℝ → Polynomial ℝ → Polynomial ℝ → ℂ}, Tri F → ∀ q r, F q 0 r = 0 := fun hF q r => by
    have := hF.mul2 0 q 0 r; simpa using this
  have z3 : ∀ {F : Polynomial ℝ → Polynomial ℝ → Polynomial ℝ → ℂ}, Tri F → ∀ q r, F q r 0 = 0 := fun hF q r => by
    have := hF.mul3 0 q r 0; simpa using this
  refine low_induction (u := s.u 0) (ha 0) d.nn (fun p => F p q r = G p q r) (fun i hi => ?_) (fun p p' e e' => by rw [hF.add1, hG.add1, e, e'])
    (fun c p e => by rw [hF.mul1, hG.mul1, e]) (by rw [z1 hF, z1 hG]) p hp
  refine low_induction (u := s.u 1) (ha 1) d.nm (fun q => F (basis (s.alpha 0) (s.u 0) i) q r = G (basis (s.alpha 0) (s.u 0) i) q r) (fun j hj => ?_)
    (fun p p' e e' => by rw [hF.add2, hG.add2, e, e']) (fun c p e => by rw [hF.mul2, hG.mul2, e]) (by rw [z2 hF, z2 hG]) q hq
  exact low_induction (u := s.u 2) (ha 2) d.np (fun r => F (basis (s.alpha 0) (s.u 0) i) (basis (s.alpha 1) (s.u 1) j) r = G (basis (s.alpha 0) (s.u 0) i) (basis (s.alpha 1) (s.u 1) j) r)
    (fun k hk => h ⟨k, hk⟩ ⟨j, hj⟩ ⟨i, hi⟩) (fun p p' e e' => by rw [hF.add3, hG.add3, e, e']) (fun c p e => by rw [hF.mul3, hG.mul3, e]) (by rw [z3 hF, z3 hG]) r hr

/-- C148: every moment whose degree in each velocity is below the mode count changes exactly as under the force. -/
theorem force_moments (s : Species) (ha : ∀ i, s.alpha i ≠ 0) (C : Tens d ℂ) (E B : Fin 3 → ℂ) (M M' : Dist) (hM : Represents s.alpha s.u M C)
    (hM' : Represents s.alpha s.u M' (lorentzAt s C E B)) (p q r : Polynomial ℝ) (hp : p.natDegree < d.nn) (hq : q.natDegree < d.nm)
    (hr : r.natDegree < d.np) : M' p q r = forceRate M E B p q r :=
  low_agree s ha (Tri.dist M') (Tri.force M E B) (fun p m n => by rw [hM'.1, lorentz_galerkin s ha C E B M hM]) p q r hp hq hr

/-- … and as under streaming. -/
theorem stream_moments3 (s : Species) (ha : ∀ i, s.alpha i ≠ 0) (x : Fin 3 → ℝ) (C : Tens d ℂ) (M M' : Dist) (hM : Represents s.alpha s.u M C)
    (hM' : Represents s.alpha s.u M' (advect s x C)) (p q r : Polynomial ℝ) (hp : p.natDegree < d.nn) (hq : q.natDegree < d.nm)
    (hr : r.natDegree < d.np) : M' p q r = streamRate M x p q r :=
  low_agree s ha (Tri.dist M') (Tri.stream M x) (fun p m n => by rw [hM'.1, advect_galerkin s ha x C M hM]) p q r hp hq hr

/-- Number, momentum and energy: no force changes the number; the momentum changes by `E n + flow × B`; the sum of the squares by
`2 E · flow`, the magnetic field does no work. -/
theorem force_fluid (s : Species) (ha : ∀ i, s.alpha i ≠ 0) (C : Tens d ℂ) (E B : Fin 3 → ℂ) (M M' : Dist) (hM : Represents s.alpha s.u M C)
    (hM' : Represents s.alpha s.u M' (lorentzAt s C E B)) :
    (0 < d.np → 0 < d.nm → 0 < d.nn → number M' = 0) ∧
    (1 < d.np → 1 < d.nm → 1 < d.nn → ∀ j, flow M' j = E j * number M + cross (flow M) B j) ∧
    (2 < d.np → 2 < d.nm → 2 < d.nn → square M' 0 + square M' 1 + square M' 2 = 2 * (E 0 * flow M 0 + E 1 * flow M 1 + E 2 * flow M 2)) := by
  have key := force_moments s ha C E B M M' hM hM'
  have d1 : (1 : Polynomial ℝ).natDegree = 0 := Polynomial.natDegree_one
  have dX : (Polynomial.X : Polynomial ℝ).natDegree = 1 := Polynomial.natDegree_X
  have dX2 : (Polynomial.X ^ 2 : Polynomial ℝ).natDegree = 2 := Polynomial.natDegree_X_pow 2
  refine ⟨fun hp hm hn => ?_, fun hp hm hn j => ?_, fun hp hm hn => ?_⟩
  · rw [number, key 1 1 1 (by omega) (by omega) (by omega), forceRate]
    simp
  · have h0 := key Polynomial.X 1 1 (by omega) (by omega) (by omega)
    have h1 := key 1 Polynomial.X 1 (by omega) (by omega) (by omega)
    have h2 := key 1 1 Polynomial.X (by omega) (by omega) (by omega)
    simp only [forceRate, Polynomial.derivative_one, Polynomial.derivative_X, map_zero, LinearMap.zero_apply, mul_one, mul_zero, add_zero, sub_zero, zero_add] at h0 h1 h2
    fin_cases j
    · simp only [flow, number, cross, Fin.zero_eta, Matrix.cons_val_zero, Matrix.cons_val_one, Matrix.cons_val] at h0 ⊢
      rw [h0]; ring
    · simp only [flow, number, cross, Fin.mk_one, Matrix.cons_val_zero, Matrix.cons_val_one, Matrix.cons_val] at h1 ⊢
      rw [h1]; ring
    · simp only [flow, number, cross, Fin.reduceFinMk, Matrix.cons_val_zero, Matrix.cons_val_one, Matrix.cons_val] at h2 ⊢
      rw [h2]; ring
  · have h0 := key (Polynomial.X ^ 2) 1 1 (by omega) (by omega) (by omega)
    have h1 := key 1 (Polynomial.X ^ 2) 1 (by omega) (by omega) (by omega)
    have h2 := key 1 1 (Polynomial.X ^ 2) (by omega) (by omega) (by omega)
    have hd : derivative (Polynomial.X ^ 2 : Polynomial ℝ) = Polynomial.C 2 * Polynomial.X := by
      simp; rw [show (2 : ℝ) = 1 + 1 by norm_num, map_add, map_one]
    simp only [forceRate, Polynomial.derivative_one, hd, map_zero, LinearMap.zero_apply, mul_one, mul_zero, add_zero, sub_zero, zero_add, dist1, dist2, dist3] at h0 h1 h2
    simp only [square, flow, Matrix.cons_val_zero, Matrix.cons_val_one, Matrix.cons_val]
    rw [h0, h1, h2]; push_cast; ring

variable {Ny Nx Nz : ℕ} [NeZero Ny] [NeZero Nx] [NeZero Nz]

/-- C148: the whole right-hand side of a species at the wave vector `k`. -/
theorem rhs_galerkin (s : Species) (ha : ∀ i, s.alpha i ≠ 0) (L : Fin 3 → ℝ) (omega nu D : ℝ) (C : Tens d (K Ny Nx Nz → ℂ)) (E B : Fin 3 → K Ny Nx Nz → ℂ)
    (k : K Ny Nx Nz) (M : Dist) (hM : Represents s.alpha s.u M (slice C k)) (Mx : K Ny Nx Nz → Dist) (hMx : ∀ x, Represents s.alpha s.u (Mx x) (coefX C x))
    (p : Fin d.np) (m : Fin d.nm) (n : Fin d.nn) :
    ((s.alpha 0 * s.alpha 1 * s.alpha 2 : ℝ) : ℂ) * rhs s L omega nu D C E B p m n k =
      streamRate M (xi L k) (basis (s.alpha 0) (s.u 0) n) (basis (s.alpha 1) (s.u 1) m) (basis (s.alpha 2) (s.u 2) p) +
      (s.q / s.m * omega : ℝ) * masked3 (toK3 fun x => forceRate (Mx x) (fieldX E x) (fieldX B x)
        (basis (s.alpha 0) (s.u 0) n) (basis (s.alpha 1) (s.u 1) m) (basis (s.alpha 2) (s.u 2) p)) k -
      (nu * col d p m n + D * k2 k : ℝ) * M (basis (s.alpha 0) (s.u 0) n) (basis (s.alpha 1) (s.u 1) m) (basis (s.alpha 2) (s.u 2) p) := by
  have hK : ∀ (a : ℂ) (f : K Ny Nx Nz → ℂ) (k : K Ny Nx Nz), toK3 (fun x => a * f x) k = a * toK3 f k := by
    intro a f k
    have e : ∀ {N : ℕ} [NeZero N] (f : ZMod N → ℂ) (k : ZMod N), toK (fun x => a * f x) k = a * toK f k := by
      intro N _ f k
      unfold toK
      have := Vfp2d.fft_smul a f k
      rw [this]; ring
    unfold toK3
    simp only [e]
  have hm : ∀ (a : ℂ) (c : K Ny Nx Nz → ℂ), masked3 (fun k => a * c k) k = a * masked3 c k := by
    intro a c; unfold masked3; split <;> simp
  rw [hM.1]
  unfold rhs
  rw [mul_add, mul_add, mul_add, advect_galerkin s ha (xi L k) (slice C k) M hM]
  have e : (fun x => forceRate (Mx x) (fieldX E x) (fieldX B x) (basis (s.alpha 0) (s.u 0) n) (basis (s.alpha 1) (s.u 1) m) (basis (s.alpha 2) (s.u 2) p)) =
      fun x => ((s.alpha 0 * s.alpha 1 * s.alpha 2 : ℝ) : ℂ) * lorentzAt s (coefX C x) (fieldX E x) (fieldX B x) p m n := by
    funext x; rw [lorentz_galerkin s ha _ _ _ (Mx x) (hMx x)]
  rw [e]
  have e2 : (toK3 fun x => ((s.alpha 0 * s.alpha 1 * s.alpha 2 : ℝ) : ℂ) * lorentzAt s (coefX C x) (fieldX E x) (fieldX B x) p m n) =
      fun k => ((s.alpha 0 * s.alpha 1 * s.alpha 2 : ℝ) : ℂ) * toK3 (fun x => lorentzAt s (coefX C x) (fieldX E x) (fieldX B x) p m n) k := by
    funext k; exact hK _ _ k
  rw [e2, hm]
  unfold lorentz slice
  push_cast
  ring

end Verif.Spectrax

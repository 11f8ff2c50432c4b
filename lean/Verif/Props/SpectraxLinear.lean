import Verif.Props.SpectraxForce
import Verif.Props.HermiteRun
import Verif.Props.HermiteConserve
import Mathlib.Analysis.Calculus.MeanValue
import Mathlib.Analysis.Calculus.Deriv.Star

/-! C152, C153: the two exponentials are the exact flows of the linear terms. -/
namespace Verif.Spectrax
open Finset Complex Verif.Hermite
open scoped ComplexConjugate Matrix

/-! ### Maxwell -/

/-- `iξ × b`. -/
noncomputable def curl (x : Fin 3 → ℝ) (b : Fin 3 → ℂ) : Fin 3 → ℂ := fun j => I * cross (fun i => (x i : ℂ)) b j

/-- The two scalar functions of the exponential. -/
noncomputable def c1 (x : Fin 3 → ℝ) (s : ℝ) : ℝ := Real.sin (safeOmega x * s) / safeOmega x
noncomputable def c2 (x : Fin 3 → ℝ) (s : ℝ) : ℝ := (1 - Real.cos (safeOmega x * s)) / safeOmega x ^ 2

theorem norm_sq (x : Fin 3 → ℝ) : Real.sqrt (x 0 ^ 2 + x 1 ^ 2 + x 2 ^ 2) ^ 2 = x 0 ^ 2 + x 1 ^ 2 + x 2 ^ 2 :=
  Real.sq_sqrt (by positivity)

theorem safeOmega_pos (x : Fin 3 → ℝ) : 0 < safeOmega x := by
  unfold safeOmega; dsimp only; split_ifs with h
  · exact h
  · exact one_pos

/-- Either the wave vector is zero or `safeOmega` is its length. -/
theorem safeOmega_cases (x : Fin 3 → ℝ) : (x 0 = 0 ∧ x 1 = 0 ∧ x 2 = 0) ∨ safeOmega x ^ 2 = x 0 ^ 2 + x 1 ^ 2 + x 2 ^ 2 := by
  by_cases h : 0 < Real.sqrt (x 0 ^ 2 + x 1 ^ 2 + x 2 ^ 2)
  · right
    unfold safeOmega; dsimp only
    rw [if_pos h, norm_sq]
  · left
    have h0 : x 0 ^ 2 + x 1 ^ 2 + x 2 ^ 2 ≤ 0 := by
      by_contra hc
      exact h (Real.sqrt_pos.2 (not_le.1 hc))
    have a := sq_nonneg (x 0); have b := sq_nonneg (x 1); have c := sq_nonneg (x 2)
    exact ⟨by nlinarith, by nlinarith, by nlinarith⟩

theorem c1_deriv (x : Fin 3 → ℝ) (s : ℝ) : HasDerivAt (c1 x) (1 - safeOmega x ^ 2 * c2 x s) s := by
  have hw := safeOmega_pos x
  have h : HasDerivAt (fun s : ℝ => safeOmega x * s) (safeOmega x) s := by simpa using (hasDerivAt_id s).const_mul (safeOmega x)
  refine (h.sin.div_const (safeOmega x)).congr_deriv ?_
  unfold c2
  field_simp
  ring

theorem c2_deriv (x : Fin 3 → ℝ) (s : ℝ) : HasDerivAt (c2 x) (c1 x s) s := by
  have hw := safeOmega_pos x
  have h : HasDerivAt (fun s : ℝ => safeOmega x * s) (safeOmega x) s := by simpa using (hasDerivAt_id s).const_mul (safeOmega x)
  refine ((h.cos.const_sub 1).div_const (safeOmega x ^ 2)).congr_deriv ?_
  unfold c1
  field_simp

theorem c1_add (x : Fin 3 → ℝ) (s t : ℝ) : c1 x (s + t) = c1 x s * (1 - safeOmega x ^ 2 * c2 x t) + (1 - safeOmega x ^ 2 * c2 x s) * c1 x t := by
  have hw := safeOmega_pos x
  unfold c1 c2
  rw [mul_add, Real.sin_add]
  field_simp
  ring

theorem c2_add (x : Fin 3 → ℝ) (s t : ℝ) : c2 x (s + t) = c2 x s + c2 x t - safeOmega x ^ 2 * c2 x s * c2 x t + c1 x s * c1 x t := by
  have hw := safeOmega_pos x
  unfold c1 c2
  rw [mul_add, Real.cos_add]
  field_simp
  ring

theorem maxwell_zero (x : Fin 3 → ℝ) (E B : Fin 3 → ℂ) : maxwell x 0 E B = (E, B) := by
  unfold maxwell
  simp

/-- The wave vector times the two functions: what remains when it vanishes. -/
theorem w_mul (x : Fin 3 → ℝ) (j : Fin 3) : ((safeOmega x : ℝ) : ℂ) ^ 2 * (x j : ℂ) = ((x 0 : ℂ) ^ 2 + (x 1 : ℂ) ^ 2 + (x 2 : ℂ) ^ 2) * (x j : ℂ) := by
  rcases safeOmega_cases x with ⟨h0, h1, h2⟩ | h
  · fin_cases j <;> simp [h0, h1, h2]
  · rw [← ofReal_pow, h]; push_cast; ring

theorem cross_apply (a b : Fin 3 → ℂ) : cross a b 0 = a 1 * b 2 - a 2 * b 1 ∧ cross a b 1 = a 2 * b 0 - a 0 * b 2 ∧ cross a b 2 = a 0 * b 1 - a 1 * b 0 :=
  ⟨rfl, rfl, rfl⟩

theorem maxwell_E (x : Fin 3 → ℝ) (s : ℝ) (E B : Fin 3 → ℂ) (j : Fin 3) : (maxwell x s E B).1 j =
    E j + (c1 x s : ℂ) * (I * cross (fun i => (x i : ℂ)) B j) + (c2 x s : ℂ) *
      ((x j : ℂ) * ((x 0 : ℂ) * E 0 + (x 1 : ℂ) * E 1 + (x 2 : ℂ) * E 2) - E j * ((x 0 : ℂ) ^ 2 + (x 1 : ℂ) ^ 2 + (x 2 : ℂ) ^ 2)) := by
  unfold maxwell; dsimp only
  rw [norm_sq, c1, c2]; push_cast; rfl

theorem maxwell_B (x : Fin 3 → ℝ) (s : ℝ) (E B : Fin 3 → ℂ) (j : Fin 3) : (maxwell x s E B).2 j =
    B j + (c1 x s : ℂ) * (-I * cross (fun i => (x i : ℂ)) E j) + (c2 x s : ℂ) *
      ((x j : ℂ) * ((x 0 : ℂ) * B 0 + (x 1 : ℂ) * B 1 + (x 2 : ℂ) * B 2) - B j * ((x 0 : ℂ) ^ 2 + (x 1 : ℂ) ^ 2 + (x 2 : ℂ) ^ 2)) := by
  unfold maxwell; dsimp only
  rw [norm_sq, c1, c2]; push_cast; rfl

/-- C152: the field exponential is the exact solution of `∂E/∂t = ∇ × B`, `∂B/∂t = -∇ × E` at every wave vector. -/
theorem maxwell_flow (x : Fin 3 → ℝ) (s : ℝ) (E B : Fin 3 → ℂ) (j : Fin 3) :
    HasDerivAt (fun s => (maxwell x s E B).1 j) (curl x (maxwell x s E B).2 j) s ∧
    HasDerivAt (fun s => (maxwell x s E B).2 j) (-curl x (maxwell x s E B).1 j) s := by
  have d1 : HasDerivAt (fun s => (c1 x s : ℂ)) ((1 - safeOmega x ^ 2 * c2 x s : ℝ) : ℂ) s := (c1_deriv x s).ofReal_comp
  have d2 : HasDerivAt (fun s => (c2 x s : ℂ)) ((c1 x s : ℝ) : ℂ) s := (c2_deriv x s).ofReal_comp
  have w0 := w_mul x 0
  have w1 := w_mul x 1
  have w2 := w_mul x 2
  have i2 := I_mul_I
  constructor
  · simp only [maxwell_E]
    refine (((d1.mul_const _).const_add (E j)).add (d2.mul_const _)).congr_deriv ?_
    unfold curl
    push_cast
    fin_cases j <;> simp only [Fin.zero_eta, Fin.mk_one, Fin.reduceFinMk, cross_apply, maxwell_B]
    · linear_combination (-(c2 x s : ℂ) * I * B 2) * w1 + ((c2 x s : ℂ) * I * B 1) * w2 - (c1 x s : ℂ) * ((x 0 : ℂ) * ((x 1 : ℂ) * E 1 + (x 2 : ℂ) * E 2) - E 0 * ((x 1 : ℂ) ^ 2 + (x 2 : ℂ) ^ 2)) * (-i2)
    · linear_combination (-(c2 x s : ℂ) * I * B 0) * w2 + ((c2 x s : ℂ) * I * B 2) * w0 - (c1 x s : ℂ) * ((x 1 : ℂ) * ((x 0 : ℂ) * E 0 + (x 2 : ℂ) * E 2) - E 1 * ((x 0 : ℂ) ^ 2 + (x 2 : ℂ) ^ 2)) * (-i2)
    · linear_combination (-(c2 x s : ℂ) * I * B 1) * w0 + ((c2 x s : ℂ) * I * B 0) * w1 - (c1 x s : ℂ) * ((x 2 : ℂ) * ((x 0 : ℂ) * E 0 + (x 1 : ℂ) * E 1) - E 2 * ((x 0 : ℂ) ^ 2 + (x 1 : ℂ) ^ 2)) * (-i2)
  · simp only [maxwell_B]
    refine (((d1.mul_const _).const_add (B j)).add (d2.mul_const _)).congr_deriv ?_
    unfold curl
    push_cast
    fin_cases j <;> simp only [Fin.zero_eta, Fin.mk_one, Fin.reduceFinMk, cross_apply, maxwell_E]
    · linear_combination ((c2 x s : ℂ) * I * E 2) * w1 - ((c2 x s : ℂ) * I * E 1) * w2 - (c1 x s : ℂ) * ((x 0 : ℂ) * ((x 1 : ℂ) * B 1 + (x 2 : ℂ) * B 2) - B 0 * ((x 1 : ℂ) ^ 2 + (x 2 : ℂ) ^ 2)) * (-i2)
    · linear_combination ((c2 x s : ℂ) * I * E 0) * w2 - ((c2 x s : ℂ) * I * E 2) * w0 - (c1 x s : ℂ) * ((x 1 : ℂ) * ((x 0 : ℂ) * B 0 + (x 2 : ℂ) * B 2) - B 1 * ((x 0 : ℂ) ^ 2 + (x 2 : ℂ) ^ 2)) * (-i2)
    · linear_combination ((c2 x s : ℂ) * I * E 1) * w0 - ((c2 x s : ℂ) * I * E 0) * w1 - (c1 x s : ℂ) * ((x 2 : ℂ) * ((x 0 : ℂ) * B 0 + (x 1 : ℂ) * B 1) - B 2 * ((x 0 : ℂ) ^ 2 + (x 1 : ℂ) ^ 2)) * (-i2)

/-- C152: the divergences of both fields do not change, whatever the step. -/
theorem maxwell_div (x : Fin 3 → ℝ) (s : ℝ) (E B : Fin 3 → ℂ) :
    (∑ j, (x j : ℂ) * (maxwell x s E B).1 j = ∑ j, (x j : ℂ) * E j) ∧ ∑ j, (x j : ℂ) * (maxwell x s E B).2 j = ∑ j, (x j : ℂ) * B j := by
  simp only [Fin.sum_univ_three, maxwell_E, maxwell_B, cross_apply]
  constructor <;> ring

/-- C152: a longitudinal electric field without magnetic field does not change. -/
theorem maxwell_longitudinal (x : Fin 3 → ℝ) (s : ℝ) (a : ℂ) : maxwell x s (fun i => a * (x i : ℂ)) 0 = (fun i => a * (x i : ℂ), 0) := by
  refine Prod.ext (funext fun j => ?_) (funext fun j => ?_)
  · rw [maxwell_E]; fin_cases j <;> simp [cross_apply] <;> ring_nf <;> simp
  · rw [maxwell_B]; fin_cases j <;> simp [cross_apply] <;> ring_nf <;> simp

/-- C152: the field energy at each wave vector does not change, whatever the step. -/
theorem maxwell_energy (x : Fin 3 → ℝ) (s : ℝ) (E B : Fin 3 → ℂ) :
    ∑ j, (normSq ((maxwell x s E B).1 j) + normSq ((maxwell x s E B).2 j)) = ∑ j, (normSq (E j) + normSq (B j)) := by
  obtain ⟨W, hW⟩ : ∃ W : ℝ → ℂ, W = fun s => ∑ j, ((maxwell x s E B).1 j * conj ((maxwell x s E B).1 j) + (maxwell x s E B).2 j * conj ((maxwell x s E B).2 j)) := ⟨_, rfl⟩
  have hd : ∀ s, HasDerivAt W 0 s := by
    intro s
    have h1 : ∀ j, HasDerivAt (fun s => conj ((maxwell x s E B).1 j)) (conj (curl x (maxwell x s E B).2 j)) s := fun j => (maxwell_flow x s E B j).1.star
    have h2 : ∀ j, HasDerivAt (fun s => conj ((maxwell x s E B).2 j)) (conj (-curl x (maxwell x s E B).1 j)) s := fun j => (maxwell_flow x s E B j).2.star
    rw [hW]
    refine (HasDerivAt.fun_sum (u := Finset.univ) fun j _ => (((maxwell_flow x s E B j).1.mul (h1 j)).add ((maxwell_flow x s E B j).2.mul (h2 j)))).congr_deriv ?_
    simp only [Fin.sum_univ_three, curl, cross_apply, map_neg, map_mul, map_sub, conj_I, conj_ofReal]
    ring
  have hc : W s = W 0 := is_const_of_deriv_eq_zero (fun s => (hd s).differentiableAt) (fun s => (hd s).deriv) s 0
  rw [hW] at hc
  simp only [maxwell_zero, mul_conj] at hc
  exact_mod_cast hc

/-- C152: two steps are one step of the summed size; in particular the step `-s` undoes the step `s`. -/
theorem maxwell_add (x : Fin 3 → ℝ) (s t : ℝ) (E B : Fin 3 → ℂ) :
    maxwell x t (maxwell x s E B).1 (maxwell x s E B).2 = maxwell x (s + t) E B := by
  have w0 := w_mul x 0
  have w1 := w_mul x 1
  have w2 := w_mul x 2
  have i2 := I_mul_I
  obtain ⟨W, hW⟩ : ∃ W : ℂ, W = ((safeOmega x : ℝ) : ℂ) ^ 2 := ⟨_, rfl⟩
  have a1 : ((c1 x (s + t) : ℝ) : ℂ) = (c1 x s : ℂ) * (1 - W * (c2 x t : ℂ)) + (1 - W * (c2 x s : ℂ)) * (c1 x t : ℂ) := by
    rw [c1_add, hW]; push_cast; ring
  have a2 : ((c2 x (s + t) : ℝ) : ℂ) = (c2 x s : ℂ) + (c2 x t : ℂ) - W * (c2 x s : ℂ) * (c2 x t : ℂ) + (c1 x s : ℂ) * (c1 x t : ℂ) := by
    rw [c2_add, hW]; push_cast; ring
  rw [← hW] at w0 w1 w2
  rcases safeOmega_cases x with ⟨h0, h1, h2⟩ | h
  · have e : ∀ (s : ℝ) (E B : Fin 3 → ℂ), maxwell x s E B = (E, B) := by
      intro s E B
      refine Prod.ext (funext fun j => ?_) (funext fun j => ?_)
      · rw [maxwell_E]; fin_cases j <;> simp [cross_apply, h0, h1, h2]
      · rw [maxwell_B]; fin_cases j <;> simp [cross_apply, h0, h1, h2]
    rw [e, e, e]
  · have hw : W = (x 0 : ℂ) ^ 2 + (x 1 : ℂ) ^ 2 + (x 2 : ℂ) ^ 2 := by
      rw [hW, ← ofReal_pow, h]; push_cast; ring
    rw [hw] at a1 a2
    clear w0 w1 w2 hW hw
    refine Prod.ext (funext fun j => ?_) (funext fun j => ?_)
    · rw [maxwell_E x (s + t), a1, a2, maxwell_E x t]
      obtain ⟨p1, hp1⟩ : ∃ p : ℂ, p = (c1 x s : ℂ) := ⟨_, rfl⟩
      fin_cases j <;> simp only [Fin.zero_eta, Fin.mk_one, Fin.reduceFinMk, cross_apply, maxwell_E, maxwell_B] <;> ring_nf <;> simp only [I_sq] <;> ring
    · rw [maxwell_B x (s + t), a1, a2, maxwell_B x t]
      fin_cases j <;> simp only [Fin.zero_eta, Fin.mk_one, Fin.reduceFinMk, cross_apply, maxwell_E, maxwell_B] <;> ring_nf <;> simp only [I_sq] <;> ring

/-- A vacuum wave along x: the exponential rotates `(Ey, Bz)` at the light frequency. -/
example (s : ℝ) : (maxwell ![1, 0, 0] s ![0, 1, 0] 0).1 1 = (Real.cos s : ℂ) := by
  have hs : safeOmega ![1, 0, 0] = 1 := by unfold safeOmega; simp
  rw [maxwell_E, c2, hs, (cross_apply _ _).2.1]
  simp

/-! ### Free streaming -/

variable {Ny Nx Nz : ℕ} [NeZero Ny] [NeZero Nx] [NeZero Nz] {d : Dims}

/-- The propagator of one direction at the wave number `x`. -/
noncomputable def prop {n : ℕ} (e : Eigh n) (a x s : ℝ) : Matrix (Fin n) (Fin n) ℂ := fc e fun l => cexp (-I * a * s * l * x)

/-- Its generator. -/
noncomputable def gen (n : ℕ) (a u x : ℝ) : Matrix (Fin n) (Fin n) ℂ := (-I * a * x : ℂ) • (streamMatrix n a u).map ofReal

/-- A matrix acting on one of the three mode numbers. -/
noncomputable def actX (X : Matrix (Fin d.nn) (Fin d.nn) ℂ) (C : Tens d ℂ) : Tens d ℂ := fun p m n => ∑ l, X n l * C p m l
noncomputable def actY (Y : Matrix (Fin d.nm) (Fin d.nm) ℂ) (C : Tens d ℂ) : Tens d ℂ := fun p m n => ∑ j, Y m j * C p j n
noncomputable def actZ (Z : Matrix (Fin d.np) (Fin d.np) ℂ) (C : Tens d ℂ) : Tens d ℂ := fun p m n => ∑ i, Z p i * C i m n

theorem actX_mul (A B : Matrix (Fin d.nn) (Fin d.nn) ℂ) (C : Tens d ℂ) : actX A (actX B C) = actX (A * B) C := by
  funext p m n
  have := congrFun (Matrix.mulVec_mulVec (C p m) A B) n
  exact this
theorem actY_mul (A B : Matrix (Fin d.nm) (Fin d.nm) ℂ) (C : Tens d ℂ) : actY A (actY B C) = actY (A * B) C := by
  funext p m n
  have := congrFun (Matrix.mulVec_mulVec (fun j => C p j n) A B) m
  exact this
theorem actZ_mul (A B : Matrix (Fin d.np) (Fin d.np) ℂ) (C : Tens d ℂ) : actZ A (actZ B C) = actZ (A * B) C := by
  funext p m n
  have := congrFun (Matrix.mulVec_mulVec (fun i => C i m n) A B) p
  exact this

theorem actZY (A : Matrix (Fin d.np) (Fin d.np) ℂ) (B : Matrix (Fin d.nm) (Fin d.nm) ℂ) (C : Tens d ℂ) : actZ A (actY B C) = actY B (actZ A C) := by
  funext p m n
  simp only [actZ, actY, mul_sum]
  rw [sum_comm]
  exact sum_congr rfl fun _ _ => sum_congr rfl fun _ _ => by ring
theorem actZX (A : Matrix (Fin d.np) (Fin d.np) ℂ) (B : Matrix (Fin d.nn) (Fin d.nn) ℂ) (C : Tens d ℂ) : actZ A (actX B C) = actX B (actZ A C) := by
  funext p m n
  simp only [actZ, actX, mul_sum]
  rw [sum_comm]
  exact sum_congr rfl fun _ _ => sum_congr rfl fun _ _ => by ring
theorem actYX (A : Matrix (Fin d.nm) (Fin d.nm) ℂ) (B : Matrix (Fin d.nn) (Fin d.nn) ℂ) (C : Tens d ℂ) : actY A (actX B C) = actX B (actY A C) := by
  funext p m n
  simp only [actY, actX, mul_sum]
  rw [sum_comm]
  exact sum_congr rfl fun _ _ => sum_congr rfl fun _ _ => by ring

theorem freeStream_eq (eX : Eigh d.nn) (eY : Eigh d.nm) (eZ : Eigh d.np) (sp : Species) (L : Fin 3 → ℝ) (s : ℝ) (C : Tens d (K Ny Nx Nz → ℂ))
    (k : K Ny Nx Nz) : slice (freeStream eX eY eZ sp L none s C) k =
      actZ (prop eZ (sp.alpha 2) (xi L k 2) s) (actY (prop eY (sp.alpha 1) (xi L k 1) s) (actX (prop eX (sp.alpha 0) (xi L k 0) s) (slice C k))) := by
  funext p m n
  unfold slice freeStream streamZ streamY streamX gammaDamp
  simp only [stream_eq, Matrix.mulVec, dotProduct]
  rfl

theorem prop_zero {n : ℕ} {e : Eigh n} {a u : ℝ} (he : IsEigh e (streamMatrix n a u)) (x : ℝ) : prop e a x 0 = 1 := by
  unfold prop
  rw [← fc_one he]; congr 1; funext l; simp

theorem prop_add {n : ℕ} {e : Eigh n} {a u : ℝ} (he : IsEigh e (streamMatrix n a u)) (x s t : ℝ) : prop e a x t * prop e a x s = prop e a x (s + t) := by
  unfold prop
  rw [fc_mul he]
  congr 1; funext l
  rw [← Complex.exp_add]; congr 1; push_cast; ring

theorem actX_one (C : Tens d ℂ) : actX 1 C = C := by funext p m n; exact congrFun (Matrix.one_mulVec (C p m)) n
theorem actY_one (C : Tens d ℂ) : actY 1 C = C := by funext p m n; exact congrFun (Matrix.one_mulVec fun j => C p j n) m
theorem actZ_one (C : Tens d ℂ) : actZ 1 C = C := by funext p m n; exact congrFun (Matrix.one_mulVec fun i => C i m n) p

/-- The ladder of each direction is the generator. -/
theorem advect_eq (s : Species) (x : Fin 3 → ℝ) (C : Tens d ℂ) (p : Fin d.np) (m : Fin d.nm) (n : Fin d.nn) :
    advect s x C p m n = actX (gen d.nn (s.alpha 0) (s.u 0) (x 0)) C p m n + actY (gen d.nm (s.alpha 1) (s.u 1) (x 1)) C p m n +
      actZ (gen d.np (s.alpha 2) (s.u 2) (x 2)) C p m n := by
  have one : ∀ {n : ℕ} (a u x : ℝ) (c : Fin n → ℂ) (i : Fin n), ∑ l, gen n a u x i l * c l =
      -I * a * x * (sp i / r2 * at' c (i.val + 1) + sm i / r2 * (if i.val = 0 then 0 else at' c (i.val - 1)) + ((u / a : ℝ) : ℂ) * c i) := by
    intro n a u x c i
    have h := streamMatrix_mul a u c i
    have e : ∑ l, gen n a u x i l * c l = -I * a * x * (((streamMatrix n a u).map ofReal : Matrix (Fin n) (Fin n) ℂ) *ᵥ c) i := by
      rw [Matrix.mulVec, dotProduct, mul_sum]
      exact sum_congr rfl fun l _ => by rw [gen, Matrix.smul_apply, smul_eq_mul]; ring
    rw [e, h, half_sqrt, half_sqrt]
    unfold sp sm r2
    split_ifs <;> push_cast <;> ring
  have s1 : shift C 1 0 0 p m n = at' (C p m) (n.val + 1) := by
    unfold shift pad at'
    split_ifs with h1 h2 h3
    · congr 1
    · omega
    · have := p.2; have := m.2; exact absurd ⟨⟨by omega, by omega⟩, ⟨by omega, by omega⟩, by omega, by omega⟩ h1
    · rfl
  have s2 : shift C (-1) 0 0 p m n = if n.val = 0 then 0 else at' (C p m) (n.val - 1) := by
    have := p.2; have := m.2; have := n.2
    unfold shift pad at'
    split_ifs with h1 h2 h3 h4 h5
    · omega
    · congr 1; ext; simp; omega
    · omega
    · rfl
    · exact absurd ⟨⟨by omega, by omega⟩, ⟨by omega, by omega⟩, by omega, by omega⟩ h1
    · rfl
  have s3 : shift C 0 1 0 p m n = at' (fun j => C p j n) (m.val + 1) := by
    have := p.2; have := m.2; have := n.2
    unfold shift pad at'
    split_ifs with h1 h2 h3
    · congr 1
    · omega
    · exact absurd ⟨⟨by omega, by omega⟩, ⟨by omega, by omega⟩, by omega, by omega⟩ h1
    · rfl
  have s4 : shift C 0 (-1) 0 p m n = if m.val = 0 then 0 else at' (fun j => C p j n) (m.val - 1) := by
    have := p.2; have := m.2; have := n.2
    unfold shift pad at'
    split_ifs with h1 h2 h3 h4 h5
    · omega
    · congr 1; ext; simp; omega
    · omega
    · rfl
    · exact absurd ⟨⟨by omega, by omega⟩, ⟨by omega, by omega⟩, by omega, by omega⟩ h1
    · rfl
  have s5 : shift C 0 0 1 p m n = at' (fun i => C i m n) (p.val + 1) := by
    have := p.2; have := m.2; have := n.2
    unfold shift pad at'
    split_ifs with h1 h2 h3
    · congr 1
    · omega
    · exact absurd ⟨⟨by omega, by omega⟩, ⟨by omega, by omega⟩, by omega, by omega⟩ h1
    · rfl
  have s6 : shift C 0 0 (-1) p m n = if p.val = 0 then 0 else at' (fun i => C i m n) (p.val - 1) := by
    have := p.2; have := m.2; have := n.2
    unfold shift pad at'
    split_ifs with h1 h2 h3 h4 h5
    · omega
    · congr 1; ext; simp; omega
    · omega
    · rfl
    · exact absurd ⟨⟨by omega, by omega⟩, ⟨by omega, by omega⟩, by omega, by omega⟩ h1
    · rfl
  unfold actX actY actZ
  rw [one, one _ _ _ (fun j => C p j n), one _ _ _ (fun i => C i m n)]
  unfold advect
  rw [s1, s2, s3, s4, s5, s6]
  ring

theorem prop_deriv {n : ℕ} {e : Eigh n} {a u : ℝ} (he : IsEigh e (streamMatrix n a u)) (x s : ℝ) (i j : Fin n) :
    HasDerivAt (fun s => prop e a x s i j) ((gen n a u x * prop e a x s) i j) s := by
  have h1 : ∀ j : Fin n, HasDerivAt (fun s : ℝ => cexp (-I * a * s * e.lam j * x)) ((-I * a * x) * (e.lam j * cexp (-I * a * s * e.lam j * x))) s := by
    intro j
    have e' : HasDerivAt (fun s : ℝ => (-I * a * s * e.lam j * x : ℂ)) (-I * a * e.lam j * x) s := by
      have := (Complex.ofRealCLM.hasDerivAt (x := s)).const_mul (-I * a : ℂ)
      have := (this.mul_const (e.lam j : ℂ)).mul_const (x : ℂ)
      exact this.congr_deriv (by simp)
    exact e'.cexp.congr_deriv (by ring)
  have ent : ∀ (g : ℝ → ℂ) (i j : Fin n), fc e g i j = ∑ l, (e.V i l : ℂ) * g (e.lam l) * (e.V j l : ℂ) := by
    intro g i j
    rw [fc, Matrix.mul_apply]
    exact sum_congr rfl fun l _ => by rw [Matrix.mul_diagonal]; rfl
  have e1 : gen n a u x * prop e a x s = (-I * a * x : ℂ) • fc e fun l => (l : ℂ) * cexp (-I * a * s * l * x) := by
    rw [gen, prop, Matrix.smul_mul, ← fc_id he, fc_mul he]
  rw [e1, Matrix.smul_apply, ent, smul_eq_mul]
  have e2 : (fun s => prop e a x s i j) = fun s : ℝ => ∑ l, (e.V i l : ℂ) * cexp (-I * a * s * e.lam l * x) * (e.V j l : ℂ) := by
    funext s; rw [prop, ent]
  rw [e2]
  refine (HasDerivAt.fun_sum (u := Finset.univ) fun l _ => (((h1 l).const_mul (e.V i l : ℂ)).mul_const (e.V j l : ℂ))).congr_deriv ?_
  rw [mul_sum]
  exact sum_congr rfl fun l _ => by ring

/-- C153: without the damping inside it, the streaming exponential solves exactly the advection terms of the explicit right-hand side:
the truncated moment equations of `∂f/∂t + v·∇f = 0`, at every wave vector and every mode. -/
theorem freeStream_flow (eX : Eigh d.nn) (eY : Eigh d.nm) (eZ : Eigh d.np) (sp : Species)
    (hX : IsEigh eX (streamMatrix d.nn (sp.alpha 0) (sp.u 0))) (hY : IsEigh eY (streamMatrix d.nm (sp.alpha 1) (sp.u 1)))
    (hZ : IsEigh eZ (streamMatrix d.np (sp.alpha 2) (sp.u 2))) (L : Fin 3 → ℝ) (s : ℝ) (C : Tens d (K Ny Nx Nz → ℂ))
    (p : Fin d.np) (m : Fin d.nm) (n : Fin d.nn) (k : K Ny Nx Nz) :
    HasDerivAt (fun s => freeStream eX eY eZ sp L none s C p m n k) (advect sp (xi L k) (slice (freeStream eX eY eZ sp L none s C) k) p m n) s := by
  have e1 : ∀ s, freeStream eX eY eZ sp L none s C p m n k = ∑ i, prop eZ (sp.alpha 2) (xi L k 2) s p i * ∑ j, prop eY (sp.alpha 1) (xi L k 1) s m j *
      ∑ l, prop eX (sp.alpha 0) (xi L k 0) s n l * slice C k i j l := by
    intro s
    exact congrFun (congrFun (congrFun (freeStream_eq eX eY eZ sp L s C k) p) m) n
  simp only [e1]
  rw [advect_eq, freeStream_eq]
  have h : ∀ i : Fin d.np, HasDerivAt (fun s => prop eZ (sp.alpha 2) (xi L k 2) s p i * ∑ j, prop eY (sp.alpha 1) (xi L k 1) s m j *
      ∑ l, prop eX (sp.alpha 0) (xi L k 0) s n l * slice C k i j l) _ s := fun i =>
    (prop_deriv hZ (xi L k 2) s p i).mul (HasDerivAt.fun_sum (u := Finset.univ) fun j _ => (prop_deriv hY (xi L k 1) s m j).mul
      (HasDerivAt.fun_sum (u := Finset.univ) fun l _ => (prop_deriv hX (xi L k 0) s n l).mul_const (slice C k i j l)))
  refine (HasDerivAt.fun_sum (u := Finset.univ) fun i _ => h i).congr_deriv ?_
  rw [← actZX, ← actYX, actX_mul, ← actZY, actY_mul, actZ_mul]
  simp only [sum_add_distrib, mul_add]
  unfold actX actY actZ
  ring

/-- The steps add up: the exponential is a flow. -/
theorem freeStream_add (eX : Eigh d.nn) (eY : Eigh d.nm) (eZ : Eigh d.np) (sp : Species)
    (hX : IsEigh eX (streamMatrix d.nn (sp.alpha 0) (sp.u 0))) (hY : IsEigh eY (streamMatrix d.nm (sp.alpha 1) (sp.u 1)))
    (hZ : IsEigh eZ (streamMatrix d.np (sp.alpha 2) (sp.u 2))) (L : Fin 3 → ℝ) (s t : ℝ) (C : Tens d (K Ny Nx Nz → ℂ)) :
    freeStream eX eY eZ sp L none t (freeStream eX eY eZ sp L none s C) = freeStream eX eY eZ sp L none (s + t) C ∧
    freeStream eX eY eZ sp L none 0 C = C := by
  have ext : ∀ A B : Tens d (K Ny Nx Nz → ℂ), (∀ k, slice A k = slice B k) → A = B := fun A B h => by
    funext p m n k; exact congrFun (congrFun (congrFun (h k) p) m) n
  refine ⟨ext _ _ fun k => ?_, ext _ _ fun k => ?_⟩
  · rw [freeStream_eq, freeStream_eq, freeStream_eq, ← actZX, ← actYX, actX_mul, ← actZY, actY_mul, actZ_mul, prop_add hX, prop_add hY, prop_add hZ]
  · rw [freeStream_eq, prop_zero hX, prop_zero hY, prop_zero hZ, actX_one, actY_one, actZ_one]

/-- C153: streaming keeps the sum of squares of the coefficients at each wave vector. -/
theorem freeStream_norm (eX : Eigh d.nn) (eY : Eigh d.nm) (eZ : Eigh d.np) (sp : Species)
    (hX : IsEigh eX (streamMatrix d.nn (sp.alpha 0) (sp.u 0))) (hY : IsEigh eY (streamMatrix d.nm (sp.alpha 1) (sp.u 1)))
    (hZ : IsEigh eZ (streamMatrix d.np (sp.alpha 2) (sp.u 2))) (L : Fin 3 → ℝ) (s : ℝ) (C : Tens d (K Ny Nx Nz → ℂ)) (k : K Ny Nx Nz) :
    ∑ p, ∑ m, ∑ n, normSq (freeStream eX eY eZ sp L none s C p m n k) = ∑ p, ∑ m, ∑ n, normSq (C p m n k) := by
  unfold freeStream gammaDamp
  have a : ∀ C : Tens d (K Ny Nx Nz → ℂ), ∑ p, ∑ m, ∑ n, normSq (streamX eX (sp.alpha 0) (L 0) s C p m n k) = ∑ p, ∑ m, ∑ n, normSq (C p m n k) := fun C =>
    sum_congr rfl fun p _ => sum_congr rfl fun m _ => stream_norm hX (sp.alpha 0) (kx (L 0)) (fun j q => C p m j (k.1, q, k.2.2)) s k.2.1
  have b : ∀ C : Tens d (K Ny Nx Nz → ℂ), ∑ p, ∑ m, ∑ n, normSq (streamY eY (sp.alpha 1) (L 1) s C p m n k) = ∑ p, ∑ m, ∑ n, normSq (C p m n k) := fun C =>
    sum_congr rfl fun p _ => by
      rw [sum_comm, sum_comm (f := fun m n => normSq (C p m n k))]
      exact sum_congr rfl fun n _ => stream_norm hY (sp.alpha 1) (kx (L 1)) (fun j q => C p j n (q, k.2)) s k.1
  have c : ∀ C : Tens d (K Ny Nx Nz → ℂ), ∑ p, ∑ m, ∑ n, normSq (streamZ eZ (sp.alpha 2) (L 2) s C p m n k) = ∑ p, ∑ m, ∑ n, normSq (C p m n k) := fun C => by
    have sw : ∀ f : Fin d.np → Fin d.nm → Fin d.nn → ℝ, ∑ p, ∑ m, ∑ n, f p m n = ∑ m, ∑ n, ∑ p, f p m n := fun f => by
      rw [sum_comm]; exact sum_congr rfl fun m _ => sum_comm
    rw [sw, sw]
    exact sum_congr rfl fun m _ => sum_congr rfl fun n _ => stream_norm hZ (sp.alpha 2) (kx (L 2)) (fun j q => C j m n (k.1, k.2.1, q)) s k.2.2
  rw [c, b, a]

end Verif.Spectrax

import Verif.Lemmas.Vfp2d
import Verif.Props.Spectral
import Verif.Model.Vfp2dStep
import Mathlib.LinearAlgebra.Pi
import Mathlib.Algebra.BigOperators.Pi
import Mathlib.LinearAlgebra.StdBasis

/-! Derivatives of VFP-2D as linear maps; the Fourier transform in two dimensions. -/
namespace Verif.Vfp2d
open Finset Complex Verif.Spectral

local notation "conj" => starRingEnd ℂ
variable {N : ℕ} [NeZero N]

theorem fft_add (a b : ZMod N → ℂ) (k : ZMod N) : fft (fun j => a j + b j) k = fft a k + fft b k := by
  have := congrFun (map_add (ZMod.dft (N := N) (E := ℂ)) a b) k
  exact this

theorem fft_smul (c : ℂ) (a : ZMod N → ℂ) (k : ZMod N) : fft (fun j => c * a j) k = c * fft a k := by
  have := congrFun (map_smul (ZMod.dft (N := N) (E := ℂ)) c a) k
  exact this

theorem deriv_add (D : Deriv) (a b : ZMod N → ℂ) (i : ZMod N) : D.apply (fun j => a j + b j) i = D.apply a i + D.apply b i := by
  cases D with
  | spectral d =>
    simp only [Deriv.apply, fft_add]
    rw [← ifft_add]
    congr 1; funext k; ring
  | second h => simp only [Deriv.apply]; ring
  | fourth h => simp only [Deriv.apply]; ring

theorem deriv_smul (D : Deriv) (c : ℂ) (a : ZMod N → ℂ) (i : ZMod N) : D.apply (fun j => c * a j) i = c * D.apply a i := by
  cases D with
  | spectral d =>
    simp only [Deriv.apply, fft_smul]
    rw [← ifft_smul]
    congr 1; funext k; ring
  | second h => simp only [Deriv.apply]; ring
  | fourth h => simp only [Deriv.apply]; ring

/-- A derivative as a matrix. -/
noncomputable def Deriv.mat (D : Deriv) (i j : ZMod N) : ℂ := D.apply (fun t => if t = j then 1 else 0) i

theorem deriv_mat (D : Deriv) (a : ZMod N → ℂ) (i : ZMod N) : D.apply a i = ∑ j, D.mat i j * a j := by
  let T : (ZMod N → ℂ) →ₗ[ℂ] ℂ :=
    { toFun := fun a => D.apply a i
      map_add' := fun a b => deriv_add D a b i
      map_smul' := fun c a => deriv_smul D c a i }
  have h := LinearMap.pi_apply_eq_sum_univ T a
  change T a = _
  rw [h]
  refine sum_congr rfl fun j _ => ?_
  rw [smul_eq_mul, mul_comm]
  congr 1
  change D.apply _ i = D.apply _ i
  congr 1
  funext t
  simp only [Pi.single_apply, eq_comm]

theorem applyR_mat (D : Deriv) (a : ZMod N → ℝ) (i : ZMod N) : D.applyR a i = ∑ j, (D.mat i j).re * a j := by
  unfold Deriv.applyR
  rw [deriv_mat, Complex.re_sum]
  exact sum_congr rfl fun j _ => by simp

theorem applyR_add (D : Deriv) (a b : ZMod N → ℝ) (i : ZMod N) : D.applyR (fun j => a j + b j) i = D.applyR a i + D.applyR b i := by
  simp only [applyR_mat, mul_add, sum_add_distrib]

theorem applyR_smul (D : Deriv) (c : ℝ) (a : ZMod N → ℝ) (i : ZMod N) : D.applyR (fun j => c * a j) i = c * D.applyR a i := by
  simp only [applyR_mat, mul_sum]
  exact sum_congr rfl fun j _ => by ring

theorem applyR_const (D : Deriv) (c : ℝ) (i : ZMod N) : D.applyR (fun _ => c) i = 0 := by
  unfold Deriv.applyR
  rw [deriv_const]; rfl

theorem applyR_skew (D : Deriv) (a b : ZMod N → ℝ) : ∑ i, a i * D.applyR b i = -∑ i, D.applyR a i * b i := by
  have h := congrArg Complex.re (deriv_skew D (fun i => (a i : ℂ)) (fun i => (b i : ℂ)))
  rw [Complex.neg_re, Complex.re_sum, Complex.re_sum] at h
  simpa [Deriv.applyR] using h

theorem applyR_sum (D : Deriv) (a : ZMod N → ℝ) : ∑ i, D.applyR a i = 0 := by
  have h := applyR_skew D (fun _ => 1) a
  simpa [applyR_const] using h

section
variable {nx ny : ℕ} [NeZero nx] [NeZero ny]

theorem ddx_ddy (D D' : Deriv) (a : Scal nx ny) : ddx D (ddy D' a) = ddy D' (ddx D a) := by
  funext x y
  simp only [ddx, ddy, applyR_mat, mul_sum]
  rw [sum_comm]
  exact sum_congr rfl fun j _ => sum_congr rfl fun i _ => by ring

theorem ddx_add (D : Deriv) (a b : Scal nx ny) (x : ZMod nx) (y : ZMod ny) : ddx D (fun x y => a x y + b x y) x y = ddx D a x y + ddx D b x y :=
  applyR_add D _ _ _
theorem ddy_add (D : Deriv) (a b : Scal nx ny) (x : ZMod nx) (y : ZMod ny) : ddy D (fun x y => a x y + b x y) x y = ddy D a x y + ddy D b x y :=
  applyR_add D _ _ _
theorem ddx_smul (D : Deriv) (c : ℝ) (a : Scal nx ny) (x : ZMod nx) (y : ZMod ny) : ddx D (fun x y => c * a x y) x y = c * ddx D a x y :=
  applyR_smul D _ _ _
theorem ddy_smul (D : Deriv) (c : ℝ) (a : Scal nx ny) (x : ZMod nx) (y : ZMod ny) : ddy D (fun x y => c * a x y) x y = c * ddy D a x y :=
  applyR_smul D _ _ _
theorem ddx_neg (D : Deriv) (a : Scal nx ny) (x : ZMod nx) (y : ZMod ny) : ddx D (fun x y => -a x y) x y = -ddx D a x y := by
  have := ddx_smul D (-1) a x y
  simpa using this
theorem ddy_neg (D : Deriv) (a : Scal nx ny) (x : ZMod nx) (y : ZMod ny) : ddy D (fun x y => -a x y) x y = -ddy D a x y := by
  have := ddy_smul D (-1) a x y
  simpa using this
theorem ddx_sub (D : Deriv) (a b : Scal nx ny) (x : ZMod nx) (y : ZMod ny) : ddx D (fun x y => a x y - b x y) x y = ddx D a x y - ddx D b x y := by
  simp only [sub_eq_add_neg]; rw [ddx_add, ddx_neg]
theorem ddy_sub (D : Deriv) (a b : Scal nx ny) (x : ZMod nx) (y : ZMod ny) : ddy D (fun x y => a x y - b x y) x y = ddy D a x y - ddy D b x y := by
  simp only [sub_eq_add_neg]; rw [ddy_add, ddy_neg]

theorem ddx_skew (D : Deriv) (a b : Scal nx ny) : ∑ x, ∑ y, a x y * ddx D b x y = -∑ x, ∑ y, ddx D a x y * b x y := by
  rw [sum_comm, sum_comm (f := fun x y => ddx D a x y * b x y), ← sum_neg_distrib]
  exact sum_congr rfl fun y _ => applyR_skew D (fun x => a x y) fun x => b x y
theorem ddy_skew (D : Deriv) (a b : Scal nx ny) : ∑ x, ∑ y, a x y * ddy D b x y = -∑ x, ∑ y, ddy D a x y * b x y := by
  rw [← sum_neg_distrib]
  exact sum_congr rfl fun x _ => applyR_skew D (fun y => a x y) fun y => b x y
theorem ddx_sum (D : Deriv) (a : Scal nx ny) : ∑ x, ∑ y, ddx D a x y = 0 := by
  rw [sum_comm]
  exact sum_eq_zero fun y _ => applyR_sum D fun x => a x y
theorem ddy_sum (D : Deriv) (a : Scal nx ny) : ∑ x, ∑ y, ddy D a x y = 0 :=
  sum_eq_zero fun x _ => applyR_sum D fun y => a x y
end

/-! ### Two-dimensional transform -/
section
variable {nx ny : ℕ} [NeZero nx] [NeZero ny]

theorem fft2_ifft2 (a : ZMod nx → ZMod ny → ℂ) : fft2 (ifft2 a) = a := by
  funext k l
  unfold fft2 ifft2
  have h1 : ∀ x : ZMod nx, fft (fun y => ifft (fun k => ifft (a k) y) x) l = ifft (fun k => a k l) x := by
    intro x
    have : (fun y => ifft (fun k => ifft (a k) y) x) = fun y => ∑ k, (ifft (fun t => if t = k then (1 : ℂ) else 0) x) * ifft (a k) y := by
      funext y
      have lin : ∀ g : ZMod nx → ℂ, ifft g x = ∑ k, ifft (fun t => if t = k then (1 : ℂ) else 0) x * g k := by
        intro g
        let T : (ZMod nx → ℂ) →ₗ[ℂ] ℂ :=
          { toFun := fun a => ifft a x
            map_add' := fun a b => ifft_add a b x
            map_smul' := fun c a => ifft_smul c a x }
        have h := LinearMap.pi_apply_eq_sum_univ T g
        change T g = _
        rw [h]
        refine sum_congr rfl fun j _ => ?_
        rw [smul_eq_mul, mul_comm]
        congr 1
        change ifft _ x = ifft _ x
        congr 1
        funext t
        simp only [Pi.single_apply, eq_comm]
      rw [lin]
    rw [this]
    have fs : ∀ (c : ZMod nx → ℂ) (g : ZMod nx → ZMod ny → ℂ) (s : Finset (ZMod nx)), fft (fun y => ∑ k ∈ s, c k * g k y) l = ∑ k ∈ s, c k * fft (g k) l := by
      intro c g s
      classical
      induction s using Finset.induction_on with
      | empty =>
        simp only [sum_empty]
        have := fft_smul (N := ny) 0 (fun _ => 0) l
        simpa using this
      | insert a s ha ih =>
        simp only [sum_insert ha]
        rw [fft_add, fft_smul, ih]
    rw [fs]
    have lin : ∀ g : ZMod nx → ℂ, ifft g x = ∑ k, ifft (fun t => if t = k then (1 : ℂ) else 0) x * g k := by
      intro g
      let T : (ZMod nx → ℂ) →ₗ[ℂ] ℂ :=
        { toFun := fun a => ifft a x
          map_add' := fun a b => ifft_add a b x
          map_smul' := fun c a => ifft_smul c a x }
      have h := LinearMap.pi_apply_eq_sum_univ T g
      change T g = _
      rw [h]
      refine sum_congr rfl fun j _ => ?_
      rw [smul_eq_mul, mul_comm]
      congr 1
      change ifft _ x = ifft _ x
      congr 1
      funext t
      simp only [Pi.single_apply, eq_comm]
    rw [lin]
    exact sum_congr rfl fun k _ => by rw [fft_ifft]
  simp only [h1]
  exact congrFun (fft_ifft fun k => a k l) k

theorem fft2_inj {a b : ZMod nx → ZMod ny → ℂ} (h : ∀ k l, fft2 a k l = fft2 b k l) : a = b := by
  funext x
  have h1 : ∀ l, (fun x => fft (a x) l) = fun x => fft (b x) l := by
    intro l
    rw [← ifft_fft (fun x => fft (a x) l), ← ifft_fft (fun x => fft (b x) l)]
    congr 1
    funext k
    exact h k l
  rw [← ifft_fft (a x), ← ifft_fft (b x)]
  congr 1
  funext l
  exact congrFun (h1 l) x

theorem fft2_conj (a : ZMod nx → ZMod ny → ℂ) (k : ZMod nx) (l : ZMod ny) :
    fft2 (fun x y => conj (a x y)) k l = conj (fft2 a (-k) (-l)) := by
  unfold fft2
  rw [← fft_conj]
  congr 1
  funext x
  exact fft_conj (a x) l

theorem fft2_add (a b : ZMod nx → ZMod ny → ℂ) (k : ZMod nx) (l : ZMod ny) :
    fft2 (fun x y => a x y + b x y) k l = fft2 a k l + fft2 b k l := by
  unfold fft2
  rw [← fft_add]
  congr 1
  funext x
  exact fft_add _ _ _

theorem fft2_smul (c : ℂ) (a : ZMod nx → ZMod ny → ℂ) (k : ZMod nx) (l : ZMod ny) :
    fft2 (fun x y => c * a x y) k l = c * fft2 a k l := by
  unfold fft2
  rw [← fft_smul]
  congr 1
  funext x
  exact fft_smul _ _ _

/-- The spectrum of the real part. -/
theorem fft2_re (a : ZMod nx → ZMod ny → ℂ) (k : ZMod nx) (l : ZMod ny) :
    fft2 (fun x y => ((a x y).re : ℂ)) k l = (fft2 a k l + conj (fft2 a (-k) (-l))) / 2 := by
  have : (fun x y => ((a x y).re : ℂ)) = fun x y => (1 / 2 : ℂ) * (a x y + conj (a x y)) := by
    funext x y
    rw [Complex.add_conj]; push_cast; ring
  rw [this, fft2_smul, fft2_add, fft2_conj]
  ring

theorem fft2_ddx (d : ℝ) (a : ZMod nx → ZMod ny → ℂ) (k : ZMod nx) (l : ZMod ny) :
    fft2 (fun x y => (Deriv.spectral d).apply (fun x' => a x' y) x) k l = I * (kfull d k : ℂ) * fft2 a k l := by
  unfold fft2
  rw [← fft_specDeriv]
  congr 1
  funext x
  -- the two transforms commute
  simp only [deriv_mat]
  have fs : ∀ (c : ZMod nx → ℂ) (g : ZMod nx → ZMod ny → ℂ) (s : Finset (ZMod nx)), fft (fun y => ∑ k ∈ s, c k * g k y) l = ∑ k ∈ s, c k * fft (g k) l := by
    intro c g s
    classical
    induction s using Finset.induction_on with
    | empty =>
      simp only [sum_empty]
      have := fft_smul (N := ny) 0 (fun _ => 0) l
      simpa using this
    | insert a s ha ih =>
      simp only [sum_insert ha]
      rw [fft_add, fft_smul, ih]
  exact fs _ _ _

theorem fft2_ddy (d : ℝ) (a : ZMod nx → ZMod ny → ℂ) (k : ZMod nx) (l : ZMod ny) :
    fft2 (fun x y => (Deriv.spectral d).apply (a x) y) k l = I * (kfull d l : ℂ) * fft2 a k l := by
  unfold fft2
  rw [← fft_smul]
  congr 1
  funext x
  exact fft_specDeriv d (a x) l
end
end Verif.Vfp2d

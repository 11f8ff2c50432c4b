import Verif.Props.SpectraxGauss

/-! C155: the fields and distributions stay real. -/
namespace Verif.Spectrax
open Finset Complex Verif.Hermite
open scoped ComplexConjugate Matrix

variable {Ny Nx Nz : ℕ} [NeZero Ny] [NeZero Nx] [NeZero Nz] {d de di : Dims}

section generic
variable {E : Type*} [AddCommGroup E] [Module ℝ E]

theorem lawson_mem (W : Submodule ℝ E) (S F : ℝ → E → E) (hS : ∀ s, ∀ v ∈ W, S s v ∈ W) (hF : ∀ s, ∀ v ∈ W, F s v ∈ W) (t h : ℝ) {y : E} (hy : y ∈ W) :
    lawson S F t h y ∈ W := by
  have h1 := hF t y hy
  have h2 := hF (t + h / 2) _ (W.add_mem (hS (h / 2) y hy) (W.smul_mem (h / 2) (hS (h / 2) _ h1)))
  have h3 := hF (t + h / 2) _ (W.add_mem (hS (h / 2) y hy) (W.smul_mem (h / 2) h2))
  have h4 := hF (t + h) _ (W.add_mem (hS h y hy) (W.smul_mem h (hS (h / 2) _ h3)))
  rw [lawson_stages S F t h y rfl rfl rfl rfl]
  exact W.add_mem (hS h y hy) (W.smul_mem _ (W.add_mem (W.add_mem (hS h _ h1) (W.smul_mem _ (hS _ _ h2))) (W.add_mem (W.smul_mem _ (hS _ _ h3)) h4)))

theorem rk_mem (W : Submodule ℝ E) (m : TwoFluid.Method) (b : ℕ → ℝ) (F : ℝ → E → E) (hF : ∀ s, ∀ v ∈ W, F s v ∈ W) (t h : ℝ) {y : E} (hy : y ∈ W) :
    TwoFluid.rkStep m b F t h y ∈ W := by
  have hst : ∀ i, TwoFluid.stage m F t h y i ∈ W := by
    intro i
    induction i using Nat.strong_induction_on with
    | _ i ih =>
      rw [TwoFluid.stage_eq]
      exact hF _ _ (W.add_mem hy (W.smul_mem _ (W.sum_mem fun j _ => W.smul_mem _ (ih j j.2))))
  exact W.add_mem hy (W.smul_mem _ (W.sum_mem fun i _ => W.smul_mem _ (hst i)))

theorem loop_mem (W : Submodule ℝ E) (step : ℝ → ℝ → E → E) (hs : ∀ t h, ∀ v ∈ W, step t h v ∈ W) (hh : List ℝ) :
    ∀ (t : ℝ) (y : E), y ∈ W → (loop step t y hh).2 ∈ W := by
  induction hh with
  | nil => intro t y hy; exact hy
  | cons h hh ih => intro t y hy; rw [loop]; exact ih _ _ (hs t h y hy)
end generic

/-! ### Transforms -/

theorem char_neg {N : ℕ} [NeZero N] (a : ZMod N) : conj (ZMod.stdAddChar a : ℂ) = ZMod.stdAddChar (-a) := by
  rw [AddChar.map_neg_eq_conj]

theorem conj_toX {N : ℕ} [NeZero N] (c : ZMod N → ℂ) (x : ZMod N) : conj (toX c x) = toX (fun k => conj (c (-k))) x := by
  rw [toX_sum, toX_sum, map_sum, ← Equiv.sum_comp (Equiv.neg (ZMod N))]
  refine sum_congr rfl fun k _ => ?_
  rw [map_mul, char_neg, Equiv.neg_apply]
  congr 2; ring

theorem conj_toK {N : ℕ} [NeZero N] (f : ZMod N → ℂ) (k : ZMod N) : conj (toK f k) = toK (fun x => conj (f x)) (-k) := by
  rw [toK_sum, toK_sum, map_sum]
  refine sum_congr rfl fun x _ => ?_
  rw [map_div₀, map_mul, char_neg, conj_natCast]
  congr 3; ring

theorem conj_toX3 (c : K Ny Nx Nz → ℂ) (x : K Ny Nx Nz) : conj (toX3 c x) = toX3 (fun k => conj (c (-k))) x := by
  unfold toX3
  simp only [conj_toX]
  rfl

theorem conj_toK3 (f : K Ny Nx Nz → ℂ) (k : K Ny Nx Nz) : conj (toK3 f k) = toK3 (fun x => conj (f x)) (-k) := by
  unfold toK3
  simp only [conj_toK]
  rfl

/-- A spectrum of a real function. -/
def Herm (c : K Ny Nx Nz → ℂ) : Prop := ∀ k, c (-k) = conj (c k)

/-- It is exactly what makes the field real on the grid. -/
theorem herm_iff (c : K Ny Nx Nz → ℂ) : Herm c ↔ ∀ x, (toX3 c x).im = 0 := by
  constructor
  · intro h x
    rw [← Complex.conj_eq_iff_im, conj_toX3]
    congr 1
    funext k
    rw [h k, conj_conj]
  · intro h k
    have e : toK3 (toX3 c) = c := toK3_toX3 c
    rw [← congrFun e (-k), ← congrFun e k, conj_toK3]
    congr 1
    funext x
    exact (Complex.conj_eq_iff_im.2 (h x)).symm

theorem herm_toK3 {f : K Ny Nx Nz → ℂ} (h : ∀ x, conj (f x) = f x) : Herm (toK3 f) := by
  intro k
  rw [conj_toK3]
  simp only [h]

theorem real_toX3 {c : K Ny Nx Nz → ℂ} (h : Herm c) (x : K Ny Nx Nz) : conj (toX3 c x) = toX3 c x := by
  rw [Complex.conj_eq_iff_im]; exact (herm_iff c).1 h x

theorem kx_neg {N : ℕ} [NeZero N] (hN : Odd N) (L : ℝ) (q : ZMod N) : kx L (-q) = -kx L q := by
  have hq : 2 * q.val ≠ N := by
    intro h
    obtain ⟨r, hr⟩ := hN
    omega
  by_cases hz : q.val = 0
  · rw [(ZMod.val_eq_zero q).mp hz, neg_zero, kx_zero, neg_zero]
  · rw [kx_eq, kx_eq]; exact Spectral.kfull_odd _ q hz hq

theorem mask23_neg {N : ℕ} [NeZero N] (hN : Odd N) (q : ZMod N) : mask23 N (-q) = mask23 N q := by
  have h := kx_neg hN 1 q
  unfold kx at h
  have hp := Real.pi_pos.ne'
  have e : Grid.fftfreqAt N (1 : ℝ) (-q).val * N = -(Grid.fftfreqAt N (1 : ℝ) q.val * N) := by
    have h2 : (Grid.fftfreqAt N (1 : ℝ) (-q).val * N + Grid.fftfreqAt N (1 : ℝ) q.val * N) * (2 * Real.pi) = 0 := by
      rw [div_one, div_one] at h
      linarith
    have := (mul_eq_zero.1 h2).resolve_right (by positivity)
    linarith
  unfold mask23
  rw [e, abs_neg]

/-- Grids with an odd number of points in each direction. -/
def AllOdd (Ny Nx Nz : ℕ) : Prop := Odd Ny ∧ Odd Nx ∧ Odd Nz

theorem mask_neg (h : AllOdd Ny Nx Nz) (k : K Ny Nx Nz) : mask (-k) = mask k := by
  unfold mask
  rw [Prod.fst_neg, Prod.snd_neg, Prod.fst_neg, Prod.snd_neg, mask23_neg h.1, mask23_neg h.2.1, mask23_neg h.2.2]

theorem xi_neg (h : AllOdd Ny Nx Nz) (L : Fin 3 → ℝ) (k : K Ny Nx Nz) (i : Fin 3) : xi L (-k) i = -xi L k i := by
  unfold xi
  fin_cases i
  · exact kx_neg h.2.1 _ _
  · exact kx_neg h.1 _ _
  · exact kx_neg h.2.2 _ _

theorem k2_neg (h : AllOdd Ny Nx Nz) (k : K Ny Nx Nz) : k2 (-k) = k2 k := by
  unfold k2
  rw [Prod.fst_neg, Prod.snd_neg, Prod.fst_neg, Prod.snd_neg, kx_neg h.1, kx_neg h.2.1, kx_neg h.2.2, neg_sq, neg_sq, neg_sq]

theorem herm_masked (h : AllOdd Ny Nx Nz) {c : K Ny Nx Nz → ℂ} (hc : Herm c) : Herm (masked3 c) := by
  intro k
  unfold masked3
  rw [mask_neg h]
  split_ifs
  · exact hc k
  · simp

/-! ### The operators commute with complex conjugation -/

theorem conj_pad (C C' : Tens d ℂ) (h : ∀ p m n, C' p m n = conj (C p m n)) (p m n : ℤ) : pad C' p m n = conj (pad C p m n) := by
  unfold pad; split_ifs
  · exact h _ _ _
  · simp

theorem conj_lorentzAt (s : Species) (C : Tens d ℂ) (E B : Fin 3 → ℂ) (hC : ∀ p m n, conj (C p m n) = C p m n) (hE : ∀ i, conj (E i) = E i)
    (hB : ∀ i, conj (B i) = B i) (p : Fin d.np) (m : Fin d.nm) (n : Fin d.nn) : conj (lorentzAt s C E B p m n) = lorentzAt s C E B p m n := by
  have hp : ∀ p m n, conj (pad C p m n) = pad C p m n := fun p m n => (conj_pad C C (fun p m n => (hC p m n).symm) p m n).symm
  unfold lorentzAt auxX auxY auxZ shift sp sm r2
  simp only [map_add, map_sub, map_mul, map_div₀, conj_ofReal, hE, hB, hp]

theorem herm_lorentz (h : AllOdd Ny Nx Nz) (s : Species) (omega : ℝ) (C : Tens d (K Ny Nx Nz → ℂ)) (E B : Fin 3 → K Ny Nx Nz → ℂ)
    (hC : ∀ p m n, Herm (C p m n)) (hE : ∀ i, Herm (E i)) (hB : ∀ i, Herm (B i)) (p : Fin d.np) (m : Fin d.nm) (n : Fin d.nn) :
    Herm (lorentz s omega C E B p m n) := by
  intro k
  unfold lorentz
  rw [map_mul, conj_ofReal]
  congr 1
  refine herm_masked h (herm_toK3 fun x => ?_) k
  exact conj_lorentzAt s _ _ _ (fun p m n => real_toX3 (herm_masked h (hC p m n)) x) (fun i => real_toX3 (herm_masked h (hE i)) x)
    (fun i => real_toX3 (herm_masked h (hB i)) x) p m n

theorem herm_advect (h : AllOdd Ny Nx Nz) (s : Species) (L : Fin 3 → ℝ) (C : Tens d (K Ny Nx Nz → ℂ)) (hC : ∀ p m n, Herm (C p m n))
    (p : Fin d.np) (m : Fin d.nm) (n : Fin d.nn) (k : K Ny Nx Nz) : advect s (xi L (-k)) (slice C (-k)) p m n = conj (advect s (xi L k) (slice C k) p m n) := by
  have hp := conj_pad (slice C k) (slice C (-k)) fun p m n => hC p m n k
  have hs : slice C (-k) p m n = conj (slice C k p m n) := hC p m n k
  unfold advect shift sp sm r2
  simp only [xi_neg h, hp, hs, map_add, map_sub, map_mul, map_div₀, map_neg, conj_ofReal, conj_I, ofReal_neg]
  ring

theorem herm_rhs (h : AllOdd Ny Nx Nz) (s : Species) (L : Fin 3 → ℝ) (omega nu D : ℝ) (C : Tens d (K Ny Nx Nz → ℂ)) (E B : Fin 3 → K Ny Nx Nz → ℂ)
    (hC : ∀ p m n, Herm (C p m n)) (hE : ∀ i, Herm (E i)) (hB : ∀ i, Herm (B i)) (p : Fin d.np) (m : Fin d.nm) (n : Fin d.nn) :
    Herm (rhs s L omega nu D C E B p m n) := by
  intro k
  unfold rhs
  rw [herm_advect h s L C hC, herm_lorentz h s omega C E B hC hE hB p m n k, k2_neg h, hC p m n k]
  simp only [map_add, map_mul, map_neg, conj_ofReal]

theorem herm_filter (f : Option (ℝ × ℕ)) (C : Tens d (K Ny Nx Nz → ℂ)) (hC : ∀ p m n, Herm (C p m n)) (p : Fin d.np) (m : Fin d.nm) (n : Fin d.nn) :
    Herm (applyFilter f C p m n) := by
  cases f with
  | none => exact hC p m n
  | some q =>
    intro k
    simp only [applyFilter, hC p m n k, map_mul, conj_ofReal]

theorem herm_curl (h : AllOdd Ny Nx Nz) (L : Fin 3 → ℝ) (B : Fin 3 → K Ny Nx Nz → ℂ) (hB : ∀ i, Herm (B i)) (k : K Ny Nx Nz) (j : Fin 3) :
    I * cross (fun i => (xi L (-k) i : ℂ)) (fun i => B i (-k)) j = conj (I * cross (fun i => (xi L k i : ℂ)) (fun i => B i k) j) := by
  have hb : ∀ i, B i (-k) = conj (B i k) := fun i => hB i k
  fin_cases j <;> simp only [Fin.zero_eta, Fin.mk_one, Fin.reduceFinMk, cross_apply, xi_neg h, hb, map_mul, map_sub, conj_I, conj_ofReal, ofReal_neg] <;> ring

theorem herm_current (s : Species) (C : Tens d (K Ny Nx Nz → ℂ)) (hC : ∀ p m n, Herm (C p m n)) (k : K Ny Nx Nz) (j : Fin 3) :
    current s (slice C (-k)) j = conj (current s (slice C k) j) := by
  have hp := conj_pad (slice C k) (slice C (-k)) fun p m n => hC p m n k
  unfold current r2
  fin_cases j <;> simp only [Fin.zero_eta, Fin.mk_one, Fin.reduceFinMk, Matrix.cons_val_zero, Matrix.cons_val_one, Matrix.cons_val, hp, map_mul, map_add, map_div₀,
    map_one, conj_ofReal]

/-- The states whose distributions and fields are real on the grid. -/
def realStates (de di : Dims) (Ny Nx Nz : ℕ) [NeZero Ny] [NeZero Nx] [NeZero Nz] : Submodule ℝ (St de di Ny Nx Nz) where
  carrier := {y | (∀ p m n, Herm (y.1 p m n)) ∧ (∀ p m n, Herm (y.2.1 p m n)) ∧ (∀ j, Herm (y.2.2.1 j)) ∧ ∀ j, Herm (y.2.2.2 j)}
  add_mem' := by
    rintro y z ⟨a, b, c, e⟩ ⟨a', b', c', e'⟩
    refine ⟨fun p m n k => ?_, fun p m n k => ?_, fun j k => ?_, fun j k => ?_⟩ <;> simp only [Prod.fst_add, Prod.snd_add, Pi.add_apply, map_add]
    · rw [a p m n k, a' p m n k]
    · rw [b p m n k, b' p m n k]
    · rw [c j k, c' j k]
    · rw [e j k, e' j k]
  zero_mem' := ⟨fun _ _ _ _ => by simp, fun _ _ _ _ => by simp, fun _ _ => by simp, fun _ _ => by simp⟩
  smul_mem' := by
    rintro r y ⟨a, b, c, e⟩
    refine ⟨fun p m n k => ?_, fun p m n k => ?_, fun j k => ?_, fun j k => ?_⟩ <;> simp only [Prod.smul_fst, Prod.smul_snd, Pi.smul_apply, real_smul, map_mul, conj_ofReal]
    · rw [a p m n k]
    · rw [b p m n k]
    · rw [c j k]
    · rw [e j k]

/-- In terms of grid values. -/
theorem mem_realStates (y : St de di Ny Nx Nz) : y ∈ realStates de di Ny Nx Nz ↔
    (∀ p m n x, (toX3 (y.1 p m n) x).im = 0) ∧ (∀ p m n x, (toX3 (y.2.1 p m n) x).im = 0) ∧ (∀ j x, (toX3 (y.2.2.1 j) x).im = 0) ∧
      ∀ j x, (toX3 (y.2.2.2 j) x).im = 0 := by
  show ((∀ p m n, Herm (y.1 p m n)) ∧ (∀ p m n, Herm (y.2.1 p m n)) ∧ (∀ j, Herm (y.2.2.1 j)) ∧ ∀ j, Herm (y.2.2.2 j)) ↔ _
  simp only [herm_iff]

theorem herm_prop {n : ℕ} (e : Eigh n) (a x s : ℝ) (i j : Fin n) : prop e a (-x) s i j = conj (prop e a x s i j) := by
  have ent : ∀ (g : ℝ → ℂ) (i j : Fin n), fc e g i j = ∑ l, (e.V i l : ℂ) * g (e.lam l) * (e.V j l : ℂ) := by
    intro g i j
    rw [fc, Matrix.mul_apply]
    exact sum_congr rfl fun l _ => by rw [Matrix.mul_diagonal]; rfl
  unfold prop
  rw [ent, ent, map_sum]
  refine sum_congr rfl fun l _ => ?_
  rw [map_mul, map_mul, conj_ofReal, conj_ofReal, ← Complex.exp_conj]
  congr 3
  simp only [map_mul, map_neg, conj_I, conj_ofReal, ofReal_neg]; ring

theorem herm_streamX (hx : Odd Nx) (e : Eigh d.nn) (a L s : ℝ) (C : Tens d (K Ny Nx Nz → ℂ)) (hC : ∀ p m n, Herm (C p m n)) (p : Fin d.np) (m : Fin d.nm) (n : Fin d.nn) :
    Herm (streamX e a L s C p m n) := by
  intro k
  unfold streamX
  rw [stream_eq, stream_eq]
  show (prop e a (kx L (-k.2.1)) s *ᵥ fun l => C p m l (-k)) n = conj ((prop e a (kx L k.2.1) s *ᵥ fun l => C p m l k) n)
  rw [kx_neg hx]
  simp only [Matrix.mulVec, dotProduct, map_sum, map_mul, herm_prop]
  exact sum_congr rfl fun l _ => by rw [hC p m l k]
theorem herm_streamY (hx : Odd Ny) (e : Eigh d.nm) (a L s : ℝ) (C : Tens d (K Ny Nx Nz → ℂ)) (hC : ∀ p m n, Herm (C p m n)) (p : Fin d.np) (m : Fin d.nm) (n : Fin d.nn) :
    Herm (streamY e a L s C p m n) := by
  intro k
  unfold streamY
  rw [stream_eq, stream_eq]
  show (prop e a (kx L (-k.1)) s *ᵥ fun l => C p l n (-k)) m = conj ((prop e a (kx L k.1) s *ᵥ fun l => C p l n k) m)
  rw [kx_neg hx]
  simp only [Matrix.mulVec, dotProduct, map_sum, map_mul, herm_prop]
  exact sum_congr rfl fun l _ => by rw [hC p l n k]
theorem herm_streamZ (hx : Odd Nz) (e : Eigh d.np) (a L s : ℝ) (C : Tens d (K Ny Nx Nz → ℂ)) (hC : ∀ p m n, Herm (C p m n)) (p : Fin d.np) (m : Fin d.nm) (n : Fin d.nn) :
    Herm (streamZ e a L s C p m n) := by
  intro k
  unfold streamZ
  rw [stream_eq, stream_eq]
  show (prop e a (kx L (-k.2.2)) s *ᵥ fun l => C l m n (-k)) p = conj ((prop e a (kx L k.2.2) s *ᵥ fun l => C l m n k) p)
  rw [kx_neg hx]
  simp only [Matrix.mulVec, dotProduct, map_sum, map_mul, herm_prop]
  exact sum_congr rfl fun l _ => by rw [hC l m n k]

theorem herm_exp (h : AllOdd Ny Nx Nz) (p : Setup de di Ny Nx Nz) (s : ℝ) (y : St de di Ny Nx Nz) (hy : y ∈ realStates de di Ny Nx Nz) :
    p.exp s y ∈ realStates de di Ny Nx Nz := by
  obtain ⟨a, b, c, e⟩ := hy
  have fs : ∀ {d : Dims} (eX : Eigh d.nn) (eY : Eigh d.nm) (eZ : Eigh d.np) (sp : Species) (g : Option (ℝ × ℕ)) (C : Tens d (K Ny Nx Nz → ℂ))
      (_ : ∀ p m n, Herm (C p m n)) (a b c), Herm (diagonal p.nu p.D s (freeStream eX eY eZ sp p.L g s C) a b c) := by
    intro d eX eY eZ sp g C hC a b c k
    have hg : ∀ a b c, Herm (gammaDamp g s (streamX eX (sp.alpha 0) (p.L 0) s C) a b c) := by
      intro a b c
      have := herm_streamX h.2.1 eX (sp.alpha 0) (p.L 0) s C hC a b c
      unfold gammaDamp
      split
      · split_ifs
        · intro k; beta_reduce; rw [this k, map_mul, conj_ofReal]
        · exact this
      · exact this
    have := herm_streamZ h.2.2 eZ (sp.alpha 2) (p.L 2) s _ (herm_streamY h.1 eY (sp.alpha 1) (p.L 1) s _ hg) a b c
    unfold diagonal freeStream
    rw [this k, k2_neg h, map_mul, conj_ofReal]
  have mx : ∀ k : K Ny Nx Nz, (∀ j, y.2.2.1 j (-k) = conj (y.2.2.1 j k)) ∧ ∀ j, y.2.2.2 j (-k) = conj (y.2.2.2 j k) := fun k => ⟨fun j => c j k, fun j => e j k⟩
  have so : ∀ k : K Ny Nx Nz, safeOmega (xi p.L (-k)) = safeOmega (xi p.L k) := by
    intro k; unfold safeOmega; simp only [xi_neg h, neg_sq]
  have c1n : ∀ k : K Ny Nx Nz, c1 (xi p.L (-k)) s = c1 (xi p.L k) s := fun k => by unfold c1; rw [so]
  have c2n : ∀ k : K Ny Nx Nz, c2 (xi p.L (-k)) s = c2 (xi p.L k) s := fun k => by unfold c2; rw [so]
  refine ⟨fs _ _ _ _ _ _ a, fun a' b' c' => ?_, fun j k => ?_, fun j k => ?_⟩
  · unfold Setup.exp
    simp only
    split_ifs
    · exact b a' b' c'
    · exact fs _ _ _ _ _ _ b a' b' c'
  · show (maxwell (xi p.L (-k)) s (fun i => y.2.2.1 i (-k)) (fun i => y.2.2.2 i (-k))).1 j = conj ((maxwell (xi p.L k) s (fun i => y.2.2.1 i k) (fun i => y.2.2.2 i k)).1 j)
    rw [maxwell_E, maxwell_E, c1n, c2n]
    fin_cases j <;> simp only [Fin.zero_eta, Fin.mk_one, Fin.reduceFinMk, cross_apply, xi_neg h, mx, map_add, map_mul, map_sub, map_pow, conj_I, conj_ofReal, ofReal_neg] <;> ring
  · show (maxwell (xi p.L (-k)) s (fun i => y.2.2.1 i (-k)) (fun i => y.2.2.2 i (-k))).2 j = conj ((maxwell (xi p.L k) s (fun i => y.2.2.1 i k) (fun i => y.2.2.2 i k)).2 j)
    rw [maxwell_B, maxwell_B, c1n, c2n]
    fin_cases j <;> simp only [Fin.zero_eta, Fin.mk_one, Fin.reduceFinMk, cross_apply, xi_neg h, mx, map_add, map_mul, map_sub, map_neg, map_pow, conj_I, conj_ofReal, ofReal_neg] <;> ring

theorem herm_sponge (s : Option (ZMod Nx → ℝ)) (w : ℝ) (C : Tens d (K Ny Nx Nz → ℂ)) (hC : ∀ p m n, Herm (C p m n)) (p : Fin d.np) (m : Fin d.nm) (n : Fin d.nn) :
    Herm (spongeC s w C p m n) := by
  cases s with
  | none => exact hC p m n
  | some s =>
    simp only [spongeC]
    refine herm_toK3 fun x => ?_
    rw [map_mul, conj_ofReal, real_toX3 (hC p m n)]

theorem herm_spongeF (s : Option (ZMod Nx → ℝ)) (w : ℝ) (E : Fin 3 → K Ny Nx Nz → ℂ) (hE : ∀ i, Herm (E i)) (i : Fin 3) : Herm (spongeField s w E i) := by
  cases s with
  | none => exact hE i
  | some s =>
    simp only [spongeField]
    refine herm_toK3 fun x => ?_
    rw [map_mul, conj_ofReal, real_toX3 (hE i)]

theorem herm_damp (p : Setup de di Ny Nx Nz) (f : Option (ℝ × ℕ)) (w : ℝ) (y : St de di Ny Nx Nz) (hy : y ∈ realStates de di Ny Nx Nz) :
    p.damp f w y ∈ realStates de di Ny Nx Nz :=
  ⟨herm_filter _ _ (herm_sponge _ _ _ hy.1), herm_filter _ _ (herm_sponge _ _ _ hy.2.1), herm_spongeF _ _ _ hy.2.2.1, herm_spongeF _ _ _ hy.2.2.2⟩

/-- The driven field is real. -/
theorem herm_drive (qs : List Pulse) (x : ZMod Nx → ℝ) (t : ℝ) : Herm (drive (Ny := Ny) (Nz := Nz) qs x t) := by
  intro k
  unfold drive
  rw [conj_toK]
  simp only [conj_ofReal]
  rfl

theorem herm_J (p : Setup de di Ny Nx Nz) (v : St de di Ny Nx Nz) (hv : v ∈ realStates de di Ny Nx Nz) (k : K Ny Nx Nz) (j : Fin 3) :
    p.J v (-k) j = conj (p.J v k j) := by
  unfold Setup.J
  rw [herm_current _ _ hv.1, map_add]
  congr 1
  split_ifs
  · simp
  · exact herm_current _ _ hv.2.1 _ _

theorem herm_nonlinear (h : AllOdd Ny Nx Nz) (p : Setup de di Ny Nx Nz) (hd : ∀ t j, Herm (p.driver t j)) (hE : p.noiseE = none) (hI : p.noiseI = none) (s : ℝ)
    (v : St de di Ny Nx Nz) (hv : v ∈ realStates de di Ny Nx Nz) : p.nonlinear s v ∈ realStates de di Ny Nx Nz := by
  have J := herm_J p
  refine ⟨fun a b c => ?_, fun a b c => ?_, fun j k => ?_, fun j k => by simp [Setup.nonlinear]⟩
  · unfold Setup.nonlinear
    simp only [hE, Option.map_none, addNoise]
    exact herm_filter _ _ (herm_lorentz h _ _ _ _ _ hv.1 hv.2.2.1 hv.2.2.2) a b c
  · unfold Setup.nonlinear
    simp only [hI, Option.map_none, addNoise]
    split_ifs
    · intro k; simp
    · exact herm_filter _ _ (herm_lorentz h _ _ _ _ _ hv.2.1 hv.2.2.1 hv.2.2.2) a b c
  · show -p.J v (-k) j / p.omega + p.driver s j (-k) = conj (-p.J v k j / p.omega + p.driver s j k)
    rw [J v hv, hd s j k]
    simp only [map_add, map_div₀, map_neg, conj_ofReal]

theorem herm_explicit (h : AllOdd Ny Nx Nz) (p : Setup de di Ny Nx Nz) (hd : ∀ t j, Herm (p.driver t j)) (hE : p.noiseE = none) (hI : p.noiseI = none) (s : ℝ)
    (v : St de di Ny Nx Nz) (hv : v ∈ realStates de di Ny Nx Nz) : p.explicit s v ∈ realStates de di Ny Nx Nz := by
  have J := herm_J p
  refine ⟨fun a b c => ?_, fun a b c => ?_, fun j k => ?_, fun j k => ?_⟩
  · unfold Setup.explicit
    simp only [hE, Option.map_none, addNoise]
    exact herm_filter _ _ (herm_rhs h _ _ _ _ _ _ _ _ hv.1 hv.2.2.1 hv.2.2.2) a b c
  · unfold Setup.explicit
    simp only [hI, Option.map_none, addNoise]
    split_ifs
    · intro k; simp
    · exact herm_filter _ _ (herm_rhs h _ _ _ _ _ _ _ _ hv.2.1 hv.2.2.1 hv.2.2.2) a b c
  · show I * cross (fun i => (xi p.L (-k) i : ℂ)) (fun i => v.2.2.2 i (-k)) j - p.J v (-k) j / p.omega + p.driver s j (-k) =
      conj (I * cross (fun i => (xi p.L k i : ℂ)) (fun i => v.2.2.2 i k) j - p.J v k j / p.omega + p.driver s j k)
    rw [herm_curl h p.L v.2.2.2 hv.2.2.2, J v hv, hd s j k]
    simp only [map_add, map_sub, map_div₀, conj_ofReal]
  · show -I * cross (fun i => (xi p.L (-k) i : ℂ)) (fun i => v.2.2.1 i (-k)) j = conj (-I * cross (fun i => (xi p.L k i : ℂ)) (fun i => v.2.2.1 i k) j)
    have := herm_curl h p.L v.2.2.1 hv.2.2.1 k j
    rw [neg_mul, this, neg_mul, map_neg]

/-- C155: on grids with an odd number of points in every direction, distributions and fields that are real stay real: in every run of either
integrator, with collisions, filters, sponges and drivers, at all step ends and saved times. -/
theorem real_runs (h : AllOdd Ny Nx Nz) (p : Setup de di Ny Nx Nz) (hd : ∀ t j, Herm (p.driver t j)) (hE : p.noiseE = none) (hI : p.noiseI = none)
    (me : TwoFluid.Method) (t : ℝ) (y : St de di Ny Nx Nz) (hy : y ∈ realStates de di Ny Nx Nz) (hh : List ℝ) (b : ℕ → ℝ) (th w : ℝ) :
    (let z := loop p.expStep t y hh;
      z.2 ∈ realStates de di Ny Nx Nz ∧ p.savedExp z.1 w th z.2 ∈ realStates de di Ny Nx Nz) ∧
    (let z := loop (p.rkStep me) t y hh;
      z.2 ∈ realStates de di Ny Nx Nz ∧ TwoFluid.rkStep me b p.explicit z.1 w z.2 ∈ realStates de di Ny Nx Nz) := by
  have l1 : ∀ (t w : ℝ) (v : St de di Ny Nx Nz), v ∈ realStates de di Ny Nx Nz → p.lawsonStep t w v ∈ realStates de di Ny Nx Nz := fun t w v hv =>
    lawson_mem (realStates de di Ny Nx Nz) p.exp p.nonlinear (herm_exp h p) (herm_nonlinear h p hd hE hI) t w hv
  have l2 : ∀ (t w : ℝ) (v : St de di Ny Nx Nz), v ∈ realStates de di Ny Nx Nz → p.expStep t w v ∈ realStates de di Ny Nx Nz := fun t w v hv =>
    herm_damp p _ _ _ (l1 t w v hv)
  have l3 : ∀ (c : ℕ → ℝ) (t w : ℝ) (v : St de di Ny Nx Nz), v ∈ realStates de di Ny Nx Nz → TwoFluid.rkStep me c p.explicit t w v ∈ realStates de di Ny Nx Nz :=
    fun c t w v hv => rk_mem _ me c p.explicit (herm_explicit h p hd hE hI) t w hv
  have l4 : ∀ (t w : ℝ) (v : St de di Ny Nx Nz), v ∈ realStates de di Ny Nx Nz → p.rkStep me t w v ∈ realStates de di Ny Nx Nz := fun t w v hv =>
    herm_damp p _ _ _ (l3 me.b t w v hv)
  have r1 := loop_mem (realStates de di Ny Nx Nz) p.expStep l2 hh t y hy
  have r2 := loop_mem (realStates de di Ny Nx Nz) (p.rkStep me) l4 hh t y hy
  exact ⟨⟨r1, (realStates de di Ny Nx Nz).add_mem r1 ((realStates de di Ny Nx Nz).smul_mem _ ((realStates de di Ny Nx Nz).sub_mem (l1 _ _ _ r1) r1))⟩,
    r2, l3 b _ _ _ r2⟩

/-- C155 fails for an even number of points: the Nyquist mode streams with a wave number of one sign, so a real density ripple at the shortest
wavelength gets an imaginary flow at once. -/
theorem nyquist_not_real_partial : (wave2.exp 0 flow2 ∈ realStates ⟨1, 1, 2⟩ ⟨1, 1, 1⟩ 1 2 1) ∧
    wave2.exp (Real.pi / 2) flow2 ∉ realStates ⟨1, 1, 2⟩ ⟨1, 1, 1⟩ 1 2 1 := by
  have neg : ∀ k : K 1 2 1, -k = k := by decide
  constructor
  · rw [exp_zero wave2 wave2_ok rfl]
    refine ⟨fun p m n k => ?_, fun p m n k => by simp [flow2], fun j k => by simp [flow2], fun j k => by simp [flow2]⟩
    rw [neg]
    simp only [flow2]
    split_ifs <;> simp
  · intro hy
    have h := hy.1 0 0 0 k1
    rw [neg, (orbit (Real.pi / 2)).2.2.1, Real.sin_pi_div_two] at h
    simp only [ofReal_one, mul_one, conj_I] at h
    have := congrArg Complex.im h
    norm_num at this

end Verif.Spectrax

import Verif.Props.SpectraxRun

/-! C149, C150, C151: what the runs conserve. -/
namespace Verif.Spectrax
open Finset Complex Verif.Hermite
open scoped ComplexConjugate Matrix

variable {Ny Nx Nz : ℕ} [NeZero Ny] [NeZero Nx] [NeZero Nz] {d de di : Dims}

/-! ### Linear quantities -/

section generic
variable {E V : Type*} [AddCommGroup E] [Module ℝ E] [AddCommGroup V] [Module ℝ V]

theorem lawson_linear_invariant (l : E →ₗ[ℝ] V) (S F : ℝ → E → E) (hS : ∀ s v, l (S s v) = l v) (hF : ∀ s v, l (F s v) = 0) (t h : ℝ) (y : E) :
    l (lawson S F t h y) = l y := by
  unfold lawson
  simp only [map_add, map_smul, hS, hF, smul_zero, add_zero]

theorem rk_linear_invariant (l : E →ₗ[ℝ] V) (m : TwoFluid.Method) (b : ℕ → ℝ) (F : ℝ → E → E) (hF : ∀ s v, l (F s v) = 0) (t h : ℝ) (y : E) :
    l (TwoFluid.rkStep m b F t h y) = l y := by
  unfold TwoFluid.rkStep
  rw [map_add, map_smul, map_sum, sum_eq_zero, smul_zero, add_zero]
  intro i _
  rw [map_smul, TwoFluid.stage_eq, hF, smul_zero]

theorem loop_linear_invariant (l : E →ₗ[ℝ] V) (step : ℝ → ℝ → E → E) (hs : ∀ t h y, l (step t h y) = l y) (hh : List ℝ) :
    ∀ (t : ℝ) (y : E), l (loop step t y hh).2 = l y := by
  induction hh with
  | nil => intro t y; rfl
  | cons h hh ih => intro t y; rw [loop, ih, hs]
end generic

/-- The coefficient `(p, m, n)` of the electrons, or of the ions, at a wave vector; zero outside the table. -/
noncomputable def coefE (p m n : ℤ) (k : K Ny Nx Nz) : St de di Ny Nx Nz →ₗ[ℝ] ℂ where
  toFun y := pad (slice y.1 k) p m n
  map_add' y z := by unfold pad slice; split_ifs <;> simp
  map_smul' c z := by unfold pad slice; split_ifs <;> simp
noncomputable def coefI (p m n : ℤ) (k : K Ny Nx Nz) : St de di Ny Nx Nz →ₗ[ℝ] ℂ where
  toFun y := pad (slice y.2.1 k) p m n
  map_add' y z := by unfold pad slice; split_ifs <;> simp
  map_smul' c z := by unfold pad slice; split_ifs <;> simp

theorem xi_zero (L : Fin 3 → ℝ) : xi L (0 : K Ny Nx Nz) = 0 := by
  unfold xi
  funext i
  fin_cases i <;> simp [kx_zero]

theorem k2_zero : k2 (0 : K Ny Nx Nz) = 0 := by unfold k2; simp [kx_zero]

/-- The force never changes a density. -/
theorem lorentzAt_density (s : Species) (C : Tens d ℂ) (E B : Fin 3 → ℂ) (p : Fin d.np) (m : Fin d.nm) (n : Fin d.nn) (hp : p.val = 0) (hm : m.val = 0)
    (hn : n.val = 0) : lorentzAt s C E B p m n = 0 := by
  have z : sm 0 = 0 := by simp [sm]
  unfold lorentzAt auxX auxY auxZ
  rw [hp, hm, hn, z]; ring

theorem toK3_zero : toK3 (fun _ : K Ny Nx Nz => (0 : ℂ)) = 0 := by
  funext k
  unfold toK3 toK
  have z : ∀ {N : ℕ} [NeZero N] (k : ZMod N), Spectral.fft (fun _ : ZMod N => (0 : ℂ)) k = 0 := by
    intro N _ k
    simpa using Vfp2d.fft_smul 0 (fun _ : ZMod N => (0 : ℂ)) k
  simp [z]

theorem lorentz_density (s : Species) (omega : ℝ) (C : Tens d (K Ny Nx Nz → ℂ)) (E B : Fin 3 → K Ny Nx Nz → ℂ) (k : K Ny Nx Nz)
    (p : Fin d.np) (m : Fin d.nm) (n : Fin d.nn) (hp : p.val = 0) (hm : m.val = 0) (hn : n.val = 0) : lorentz s omega C E B p m n k = 0 := by
  unfold lorentz
  simp only [lorentzAt_density s _ _ _ p m n hp hm hn, toK3_zero]
  unfold masked3
  split_ifs <;> simp

theorem col_density (p : Fin d.np) (m : Fin d.nm) (n : Fin d.nn) (hp : p.val = 0) (hm : m.val = 0) (hn : n.val = 0) : col d p m n = 0 := by
  unfold col hyperCol
  rw [hp, hm, hn]; simp

/-- Whether a filter leaves the density alone: the order must be positive (`0 ** 0` is 1). -/
def GoodFilter (f : Option (ℝ × ℕ)) : Prop := ∀ q ∈ f, 0 < q.2

theorem houli_density {st : ℝ} {o : ℕ} (ho : 0 < o) (p : Fin d.np) (m : Fin d.nm) (n : Fin d.nn) (hp : p.val = 0) (hm : m.val = 0) (hn : n.val = 0) :
    houli d st o p m n = 1 := by
  have a : ∀ N, axisFilter st o N 0 = 1 := by
    intro N; unfold axisFilter
    split_ifs
    · rfl
    · simp [ho.ne']
  unfold houli
  rw [hp, hm, hn, a, a, a]; ring

theorem filter_density {f : Option (ℝ × ℕ)} (hf : GoodFilter f) (C : Tens d (K Ny Nx Nz → ℂ)) (p : Fin d.np) (m : Fin d.nm) (n : Fin d.nn)
    (hp : p.val = 0) (hm : m.val = 0) (hn : n.val = 0) (k : K Ny Nx Nz) : applyFilter f C p m n k = C p m n k := by
  cases f with
  | none => rfl
  | some q =>
    obtain ⟨s, o⟩ := q
    simp only [applyFilter]
    rw [houli_density (hf (s, o) rfl) p m n hp hm hn]; simp

theorem toX_sum {N : ℕ} [NeZero N] (c : ZMod N → ℂ) (x : ZMod N) : toX c x = ∑ k, ZMod.stdAddChar (k * x) * c k := by
  have hN : (N : ℂ) ≠ 0 := Nat.cast_ne_zero.mpr (NeZero.ne N)
  unfold toX Spectral.ifft
  rw [ZMod.invDFT_apply, smul_eq_mul, ← mul_assoc, mul_inv_cancel₀ hN, one_mul]
  rfl
theorem toK_sum {N : ℕ} [NeZero N] (f : ZMod N → ℂ) (k : ZMod N) : toK f k = ∑ x, ZMod.stdAddChar (-(x * k)) * f x / N := by
  unfold toK Spectral.fft
  rw [ZMod.dft_apply, sum_div]
  rfl

theorem toK_toX_comm {N M : ℕ} [NeZero N] [NeZero M] (F : ZMod M → ZMod N → ℂ) (y : ZMod M) (c : ZMod N) :
    toK (fun z => toX (fun a => F a z) y) c = toX (fun a => toK (fun z => F a z) c) y := by
  simp only [toX_sum, toK_sum, mul_sum, sum_div]
  rw [sum_comm]
  exact sum_congr rfl fun _ _ => sum_congr rfl fun _ _ => by ring

theorem toK3_toX3 (c : K Ny Nx Nz → ℂ) : toK3 (toX3 c) = c := by
  funext k
  obtain ⟨a, b, c'⟩ := k
  unfold toK3 toX3
  simp only [toK_toX_comm]
  have e : ∀ {N : ℕ} [NeZero N] (f : ZMod N → ℂ) (k : ZMod N), toK (fun z => toX (fun q => f q) z) k = f k := by
    intro N _ f k; exact congrFun (toK_toX f) k
  simp only [e]

theorem toX3_toK3 (c : K Ny Nx Nz → ℂ) : toX3 (toK3 c) = c := by
  funext k
  obtain ⟨a, b, c'⟩ := k
  unfold toK3 toX3
  simp only [← toK_toX_comm]
  have e : ∀ {N : ℕ} [NeZero N] (f : ZMod N → ℂ) (k : ZMod N), toX (fun z => toK (fun q => f q) z) k = f k := by
    intro N _ f k; exact congrFun (toX_toK f) k
  simp only [e]

theorem sponge_density (s : Option (ZMod Nx → ℝ)) (h : ℝ) (C : Tens d (K Ny Nx Nz → ℂ)) (p : Fin d.np) (m : Fin d.nm) (n : Fin d.nn)
    (hp : p.val = 0) (hm : m.val = 0) (hn : n.val = 0) : spongeC s h C p m n = C p m n := by
  cases s with
  | none => rfl
  | some s =>
    simp only [spongeC, hp, hm, hn, and_self, if_true, ofReal_one, mul_one]
    exact toK3_toX3 _

/-- A density mode of a species under the whole explicit right-hand side. -/
theorem rhs_density (s : Species) (L : Fin 3 → ℝ) (omega nu D : ℝ) (C : Tens d (K Ny Nx Nz → ℂ)) (E B : Fin 3 → K Ny Nx Nz → ℂ) (k : K Ny Nx Nz)
    (p : Fin d.np) (m : Fin d.nm) (n : Fin d.nn) (hp : p.val = 0) (hm : m.val = 0) (hn : n.val = 0) :
    rhs s L omega nu D C E B p m n k = advect s (xi L k) (slice C k) p m n - (D : ℂ) * (k2 k : ℂ) * C p m n k := by
  unfold rhs
  rw [lorentz_density s omega C E B k p m n hp hm hn, col_density p m n hp hm hn]
  push_cast; ring

theorem pad_cases (_C : Tens d ℂ) : (∃ (p : Fin d.np) (m : Fin d.nm) (n : Fin d.nn), p.val = 0 ∧ m.val = 0 ∧ n.val = 0 ∧ ∀ C' : Tens d ℂ, pad C' 0 0 0 = C' p m n) ∨
    ∀ C' : Tens d ℂ, pad C' 0 0 0 = 0 := by
  by_cases h : 0 < d.np ∧ 0 < d.nm ∧ 0 < d.nn
  · refine Or.inl ⟨⟨0, h.1⟩, ⟨0, h.2.1⟩, ⟨0, h.2.2⟩, rfl, rfl, rfl, fun C' => ?_⟩
    unfold pad
    rw [dif_pos ⟨⟨le_refl _, by omega⟩, ⟨le_refl _, by omega⟩, le_refl _, by omega⟩]
    rfl
  · refine Or.inr fun C' => ?_
    unfold pad
    rw [dif_neg (by omega)]

theorem freeStream_mean (eX : Eigh d.nn) (eY : Eigh d.nm) (eZ : Eigh d.np) (sp : Species)
    (hX : IsEigh eX (streamMatrix d.nn (sp.alpha 0) (sp.u 0))) (hY : IsEigh eY (streamMatrix d.nm (sp.alpha 1) (sp.u 1)))
    (hZ : IsEigh eZ (streamMatrix d.np (sp.alpha 2) (sp.u 2))) (L : Fin 3 → ℝ) (g : Option (ℝ × ℕ)) (s : ℝ) (C : Tens d (K Ny Nx Nz → ℂ))
    (p : Fin d.np) (m : Fin d.nm) (n : Fin d.nn) (hn : n.val = 0) :
    freeStream eX eY eZ sp L g s C p m n 0 = C p m n 0 := by
  unfold freeStream streamZ
  rw [stream_mean hZ _ _ _ _ _ (by simp [kx_zero])]
  unfold streamY
  simp only
  rw [stream_mean hY _ _ _ _ _ (by simp [kx_zero])]
  have hz : gammaDamp g s (streamX eX (sp.alpha 0) (L 0) s C) p m n (0 : K Ny Nx Nz) = streamX eX (sp.alpha 0) (L 0) s C p m n 0 := by
    unfold gammaDamp
    split
    · split_ifs with h
      · simp [hn, h.2.ne']
      · rfl
    · rfl
  have : ((0 : K Ny Nx Nz).1, (0 : K Ny Nx Nz).2.1, (0 : K Ny Nx Nz).2.2) = 0 := rfl
  show gammaDamp g s (streamX eX (sp.alpha 0) (L 0) s C) p m n (0 : K Ny Nx Nz) = _
  rw [hz]
  unfold streamX
  rw [stream_mean hX _ _ _ _ _ (by simp [kx_zero])]

/-! ### C149: particle numbers -/

/-- C149 (exponential integrator): the number of particles of each species, at every step end and at every saved time in between, is the
initial one, for all step sizes: with collisions, diffusion, drivers, sponges and filters of positive order. -/
theorem exp_number (p : Setup de di Ny Nx Nz) (hp : p.Ok) (hf : GoodFilter p.filter) (hE : p.noiseE = none) (hI : p.noiseI = none) (t : ℝ)
    (y : St de di Ny Nx Nz) (hh : List ℝ) (th h : ℝ) :
    let z := loop p.expStep t y hh
    (pad (slice z.2.1 0) 0 0 0 = pad (slice y.1 0) 0 0 0 ∧ pad (slice z.2.2.1 0) 0 0 0 = pad (slice y.2.1 0) 0 0 0) ∧
    (pad (slice (p.savedExp z.1 h th z.2).1 0) 0 0 0 = pad (slice y.1 0) 0 0 0 ∧
      pad (slice (p.savedExp z.1 h th z.2).2.1 0) 0 0 0 = pad (slice y.2.1 0) 0 0 0) := by
  intro z
  have SE : ∀ s v, coefE 0 0 0 0 (p.exp s v) = coefE (de := de) (di := di) 0 0 0 0 v := by
    intro s v
    show pad (slice (p.exp s v).1 0) 0 0 0 = pad (slice v.1 0) 0 0 0
    rcases pad_cases (slice v.1 0) with ⟨a, b, c, ha, hb, hc, he⟩ | he
    · rw [he, he]
      unfold slice Setup.exp diagonal
      simp only
      rw [freeStream_mean _ _ _ _ hp.eX hp.eY hp.eZ _ _ _ _ _ _ _ hc, col_density a b c ha hb hc, k2_zero]; simp
    · rw [he, he]
  have SI : ∀ s v, coefI 0 0 0 0 (p.exp s v) = coefI (de := de) (di := di) 0 0 0 0 v := by
    intro s v
    show pad (slice (p.exp s v).2.1 0) 0 0 0 = pad (slice v.2.1 0) 0 0 0
    rcases pad_cases (slice v.2.1 0) with ⟨a, b, c, ha, hb, hc, he⟩ | he
    · rw [he, he]
      unfold slice Setup.exp diagonal
      simp only
      split_ifs
      · rfl
      · simp only
        rw [freeStream_mean _ _ _ _ hp.iX hp.iY hp.iZ _ _ _ _ _ _ _ hc, col_density a b c ha hb hc, k2_zero]; simp
    · rw [he, he]
  have FE : ∀ s v, coefE (de := de) (di := di) 0 0 0 0 (p.nonlinear s v) = 0 := by
    intro s v
    show pad (slice (p.nonlinear s v).1 0) 0 0 0 = 0
    rcases pad_cases (slice v.1 0) with ⟨a, b, c, ha, hb, hc, he⟩ | he
    · rw [he]
      unfold slice Setup.nonlinear
      simp only [hE, Option.map_none, addNoise]
      rw [filter_density hf _ _ _ _ ha hb hc, lorentz_density _ _ _ _ _ _ _ _ _ ha hb hc]
    · rw [he]
  have FI : ∀ s v, coefI (de := de) (di := di) 0 0 0 0 (p.nonlinear s v) = 0 := by
    intro s v
    show pad (slice (p.nonlinear s v).2.1 0) 0 0 0 = 0
    rcases pad_cases (slice v.2.1 0) with ⟨a, b, c, ha, hb, hc, he⟩ | he
    · rw [he]
      unfold slice Setup.nonlinear
      simp only [hI, Option.map_none, addNoise]
      split_ifs
      · rfl
      · rw [filter_density hf _ _ _ _ ha hb hc, lorentz_density _ _ _ _ _ _ _ _ _ ha hb hc]
    · rw [he]
  have DE : ∀ h v, coefE 0 0 0 0 (p.damp p.filter h v) = coefE (de := de) (di := di) 0 0 0 0 v := by
    intro h v
    show pad (slice (p.damp p.filter h v).1 0) 0 0 0 = pad (slice v.1 0) 0 0 0
    rcases pad_cases (slice v.1 0) with ⟨a, b, c, ha, hb, hc, he⟩ | he
    · rw [he, he]
      unfold slice Setup.damp
      simp only
      rw [filter_density hf _ _ _ _ ha hb hc, sponge_density _ _ _ _ _ _ ha hb hc]
    · rw [he, he]
  have DI : ∀ h v, coefI 0 0 0 0 (p.damp p.filter h v) = coefI (de := de) (di := di) 0 0 0 0 v := by
    intro h v
    show pad (slice (p.damp p.filter h v).2.1 0) 0 0 0 = pad (slice v.2.1 0) 0 0 0
    rcases pad_cases (slice v.2.1 0) with ⟨a, b, c, ha, hb, hc, he⟩ | he
    · rw [he, he]
      unfold slice Setup.damp
      simp only
      rw [filter_density hf _ _ _ _ ha hb hc, sponge_density _ _ _ _ _ _ ha hb hc]
    · rw [he, he]
  have le := lawson_linear_invariant (coefE (de := de) (di := di) 0 0 0 (0 : K Ny Nx Nz)) p.exp p.nonlinear SE FE
  have li := lawson_linear_invariant (coefI (de := de) (di := di) 0 0 0 (0 : K Ny Nx Nz)) p.exp p.nonlinear SI FI
  have re := loop_linear_invariant (coefE (de := de) (di := di) 0 0 0 (0 : K Ny Nx Nz)) p.expStep (fun t h y => by
    unfold Setup.expStep; rw [DE]; exact le t h y) hh t y
  have ri := loop_linear_invariant (coefI (de := de) (di := di) 0 0 0 (0 : K Ny Nx Nz)) p.expStep (fun t h y => by
    unfold Setup.expStep; rw [DI]; exact li t h y) hh t y
  refine ⟨⟨re, ri⟩, ?_, ?_⟩
  · have : coefE (de := de) (di := di) 0 0 0 (0 : K Ny Nx Nz) (p.savedExp z.1 h th z.2) = coefE 0 0 0 0 y := by
      unfold Setup.savedExp
      rw [map_add, map_smul, map_sub]
      rw [show coefE (de := de) (di := di) 0 0 0 (0 : K Ny Nx Nz) (p.lawsonStep z.1 h z.2) = coefE 0 0 0 0 z.2 from le _ _ _, sub_self, smul_zero, add_zero]
      exact re
    exact this
  · have : coefI (de := de) (di := di) 0 0 0 (0 : K Ny Nx Nz) (p.savedExp z.1 h th z.2) = coefI 0 0 0 0 y := by
      unfold Setup.savedExp
      rw [map_add, map_smul, map_sub]
      rw [show coefI (de := de) (di := di) 0 0 0 (0 : K Ny Nx Nz) (p.lawsonStep z.1 h z.2) = coefI 0 0 0 0 z.2 from li _ _ _, sub_self, smul_zero, add_zero]
      exact ri
    exact this

/-- C149 (explicit integrator): the same for any Runge-Kutta method, any step sizes, and the dense output with any weights `b`. -/
theorem rk_number (p : Setup de di Ny Nx Nz) (hE : p.noiseE = none) (hI : p.noiseI = none) (me : TwoFluid.Method) (t : ℝ)
    (y : St de di Ny Nx Nz) (hh : List ℝ) (b : ℕ → ℝ) (h : ℝ) :
    let z := loop (p.rkStep me) t y hh
    (pad (slice z.2.1 0) 0 0 0 = pad (slice y.1 0) 0 0 0 ∧ pad (slice z.2.2.1 0) 0 0 0 = pad (slice y.2.1 0) 0 0 0) ∧
    (pad (slice (TwoFluid.rkStep me b p.explicit z.1 h z.2).1 0) 0 0 0 = pad (slice y.1 0) 0 0 0 ∧
      pad (slice (TwoFluid.rkStep me b p.explicit z.1 h z.2).2.1 0) 0 0 0 = pad (slice y.2.1 0) 0 0 0) := by
  intro z
  have ad : ∀ {d : Dims} (s : Species) (C : Tens d ℂ) a b c, advect s (xi p.L (0 : K Ny Nx Nz)) C a b c = 0 := by
    intro d s C a b c; rw [xi_zero]; unfold advect; simp
  have fz : ∀ {d : Dims} (f : Option (ℝ × ℕ)) (C : Tens d (K Ny Nx Nz → ℂ)) a b c k, C a b c k = 0 → applyFilter f C a b c k = 0 := by
    intro d f C a b c k h
    cases f with
    | none => exact h
    | some q => simp only [applyFilter, h, zero_mul]
  have FE : ∀ s v, coefE (de := de) (di := di) 0 0 0 0 (p.explicit s v) = 0 := by
    intro s v
    show pad (slice (p.explicit s v).1 0) 0 0 0 = 0
    rcases pad_cases (slice v.1 0) with ⟨a, b, c, ha, hb, hc, he⟩ | he
    · rw [he]
      unfold slice Setup.explicit
      simp only [hE, Option.map_none, addNoise]
      refine fz _ _ _ _ _ _ ?_
      rw [rhs_density _ _ _ _ _ _ _ _ _ _ _ _ ha hb hc, ad, k2_zero]; simp
    · rw [he]
  have FI : ∀ s v, coefI (de := de) (di := di) 0 0 0 0 (p.explicit s v) = 0 := by
    intro s v
    show pad (slice (p.explicit s v).2.1 0) 0 0 0 = 0
    rcases pad_cases (slice v.2.1 0) with ⟨a, b, c, ha, hb, hc, he⟩ | he
    · rw [he]
      unfold slice Setup.explicit
      simp only [hI, Option.map_none, addNoise]
      split_ifs
      · rfl
      · refine fz _ _ _ _ _ _ ?_
        rw [rhs_density _ _ _ _ _ _ _ _ _ _ _ _ ha hb hc, ad, k2_zero]; simp
    · rw [he]
  have DE : ∀ h v, coefE 0 0 0 0 (p.damp none h v) = coefE (de := de) (di := di) 0 0 0 0 v := by
    intro h v
    show pad (slice (p.damp none h v).1 0) 0 0 0 = pad (slice v.1 0) 0 0 0
    rcases pad_cases (slice v.1 0) with ⟨a, b, c, ha, hb, hc, he⟩ | he
    · rw [he, he]
      unfold slice Setup.damp
      simp only [applyFilter]
      rw [sponge_density _ _ _ _ _ _ ha hb hc]
    · rw [he, he]
  have DI : ∀ h v, coefI 0 0 0 0 (p.damp none h v) = coefI (de := de) (di := di) 0 0 0 0 v := by
    intro h v
    show pad (slice (p.damp none h v).2.1 0) 0 0 0 = pad (slice v.2.1 0) 0 0 0
    rcases pad_cases (slice v.2.1 0) with ⟨a, b, c, ha, hb, hc, he⟩ | he
    · rw [he, he]
      unfold slice Setup.damp
      simp only [applyFilter]
      rw [sponge_density _ _ _ _ _ _ ha hb hc]
    · rw [he, he]
  have le := fun b => rk_linear_invariant (coefE (de := de) (di := di) 0 0 0 (0 : K Ny Nx Nz)) me b p.explicit FE
  have li := fun b => rk_linear_invariant (coefI (de := de) (di := di) 0 0 0 (0 : K Ny Nx Nz)) me b p.explicit FI
  have re := loop_linear_invariant (coefE (de := de) (di := di) 0 0 0 (0 : K Ny Nx Nz)) (p.rkStep me) (fun t h y => by
    unfold Setup.rkStep; rw [DE]; exact le _ t h y) hh t y
  have ri := loop_linear_invariant (coefI (de := de) (di := di) 0 0 0 (0 : K Ny Nx Nz)) (p.rkStep me) (fun t h y => by
    unfold Setup.rkStep; rw [DI]; exact li _ t h y) hh t y
  exact ⟨⟨re, ri⟩, (le b z.1 h z.2).trans re, (li b z.1 h z.2).trans ri⟩

/-- C149, what the hypothesis on the filter excludes: with `filter_order: 0` the filter takes `exp(-strength)` of the particles per
direction with more than one mode, at every application. -/
theorem order_zero_filter (st : ℝ) (C : Tens ⟨1, 1, 2⟩ (K Ny Nx Nz → ℂ)) (k : K Ny Nx Nz) :
    applyFilter (some (st, 0)) C 0 0 0 k = C 0 0 0 k * ((Real.exp (-st) : ℝ) : ℂ) := by
  simp [applyFilter, houli, axisFilter]

/-! ### C151: the magnetic field stays divergence-free -/

/-- `ξ · B`, and `iξ · E - ρ/Ω` with the charge density of both species. -/
noncomputable def divB (L : Fin 3 → ℝ) (k : K Ny Nx Nz) : St de di Ny Nx Nz →ₗ[ℝ] ℂ where
  toFun y := ∑ j, (xi L k j : ℂ) * y.2.2.2 j k
  map_add' y z := by simp [mul_add, sum_add_distrib]
  map_smul' c z := by
    simp only [Prod.smul_snd, Pi.smul_apply, real_smul, mul_sum, RingHom.id_apply]
    exact sum_congr rfl fun _ _ => by ring

theorem div_curl (x : Fin 3 → ℝ) (b : Fin 3 → ℂ) (c : ℂ) : ∑ j, (x j : ℂ) * (c * cross (fun i => (x i : ℂ)) b j) = 0 := by
  simp only [Fin.sum_univ_three, cross_apply]; ring

/-- C151: without a field sponge, `∇ · B` at every wave vector keeps its initial value in every run of either integrator, at step ends and
at saved times. -/
theorem divB_invariant (p : Setup de di Ny Nx Nz) (hs : p.spongeF = none) (me : TwoFluid.Method) (t : ℝ) (y : St de di Ny Nx Nz) (hh : List ℝ)
    (b : ℕ → ℝ) (th h : ℝ) (k : K Ny Nx Nz) :
    (let z := loop p.expStep t y hh
      ∑ j, (xi p.L k j : ℂ) * z.2.2.2.2 j k = ∑ j, (xi p.L k j : ℂ) * y.2.2.2 j k ∧
      ∑ j, (xi p.L k j : ℂ) * (p.savedExp z.1 h th z.2).2.2.2 j k = ∑ j, (xi p.L k j : ℂ) * y.2.2.2 j k) ∧
    (let z := loop (p.rkStep me) t y hh
      ∑ j, (xi p.L k j : ℂ) * z.2.2.2.2 j k = ∑ j, (xi p.L k j : ℂ) * y.2.2.2 j k ∧
      ∑ j, (xi p.L k j : ℂ) * (TwoFluid.rkStep me b p.explicit z.1 h z.2).2.2.2 j k = ∑ j, (xi p.L k j : ℂ) * y.2.2.2 j k) := by
  have S : ∀ s v, divB p.L k (p.exp s v) = divB (de := de) (di := di) p.L k v := fun s v =>
    (maxwell_div (xi p.L k) s (fun i => v.2.2.1 i k) (fun i => v.2.2.2 i k)).2
  have N : ∀ s v, divB (de := de) (di := di) p.L k (p.nonlinear s v) = 0 := fun s v => by
    show ∑ j, (xi p.L k j : ℂ) * (0 : ℂ) = 0
    simp
  have X : ∀ s v, divB (de := de) (di := di) p.L k (p.explicit s v) = 0 := fun s v => div_curl _ _ _
  have D : ∀ f h v, divB p.L k (p.damp f h v) = divB (de := de) (di := di) p.L k v := fun f h v => by
    show ∑ j, (xi p.L k j : ℂ) * spongeField p.spongeF h v.2.2.2 j k = _
    rw [hs]; rfl
  have l1 := lawson_linear_invariant (divB (de := de) (di := di) p.L k) p.exp p.nonlinear S N
  have l2 := fun b => rk_linear_invariant (divB (de := de) (di := di) p.L k) me b p.explicit X
  have r1 := loop_linear_invariant (divB (de := de) (di := di) p.L k) p.expStep (fun t h y => by unfold Setup.expStep; rw [D]; exact l1 t h y) hh t y
  have r2 := loop_linear_invariant (divB (de := de) (di := di) p.L k) (p.rkStep me) (fun t h y => by unfold Setup.rkStep; rw [D]; exact l2 _ t h y) hh t y
  refine ⟨⟨r1, ?_⟩, r2, (l2 b _ h _).trans r2⟩
  have : divB (de := de) (di := di) p.L k (p.savedExp (loop p.expStep t y hh).1 h th (loop p.expStep t y hh).2) = divB p.L k y := by
    unfold Setup.savedExp
    rw [map_add, map_smul, map_sub]
    rw [show divB (de := de) (di := di) p.L k (p.lawsonStep _ h _) = divB p.L k _ from l1 _ _ _, sub_self, smul_zero, add_zero]
    exact r1
  exact this

/-! ### C150: Gauss's law -/

/-- The charge density of a species at a wave vector. -/
noncomputable def charge (s : Species) (C : Tens d ℂ) : ℂ := ((s.q * s.alpha 0 * s.alpha 1 * s.alpha 2 : ℝ) : ℂ) * pad C 0 0 0

/-- It is the charge times the number of the distribution the coefficients stand for. -/
theorem charge_spec (s : Species) (C : Tens d ℂ) (M : Dist) (hM : Represents s.alpha s.u M C) :
    charge s C = (s.q : ℂ) * number M := by
  have h := represents_pad hM 0 0 0
  have b : ∀ a u, bz a u 0 = 1 := fun a u => by rw [show (0 : ℤ) = ((0 : ℕ) : ℤ) by rfl, bz_nat, basis_zero]
  rw [b, b, b] at h
  unfold charge number
  rw [h]; push_cast; ring

/-- The residual of Gauss's law. -/
noncomputable def gauss (p : Setup de di Ny Nx Nz) (y : St de di Ny Nx Nz) (k : K Ny Nx Nz) : ℂ :=
  I * ∑ j, (xi p.L k j : ℂ) * y.2.2.1 j k - (charge p.e (slice y.1 k) + charge p.i (slice y.2.1 k)) / p.omega

noncomputable def gaussL (p : Setup de di Ny Nx Nz) (k : K Ny Nx Nz) : St de di Ny Nx Nz →ₗ[ℝ] ℂ where
  toFun y := gauss p y k
  map_add' y z := by
    have e := (coefE 0 0 0 k).map_add y z
    have i := (coefI 0 0 0 k).map_add y z
    simp only [coefE, coefI, LinearMap.coe_mk, AddHom.coe_mk] at e i
    unfold gauss charge
    rw [e, i]
    simp only [Prod.snd_add, Prod.fst_add, Pi.add_apply, mul_add, sum_add_distrib]; ring
  map_smul' c z := by
    have e := (coefE 0 0 0 k).map_smul c z
    have i := (coefI 0 0 0 k).map_smul c z
    simp only [coefE, coefI, LinearMap.coe_mk, AddHom.coe_mk] at e i
    unfold gauss charge
    rw [e, i]
    simp only [Prod.smul_snd, Prod.smul_fst, Pi.smul_apply, real_smul, RingHom.id_apply, Fin.sum_univ_three]; ring

/-- Continuity: the density changes by minus the divergence of the flow of the same coefficients. -/
theorem advect_density (s : Species) (ha : ∀ i, s.alpha i ≠ 0) (x : Fin 3 → ℝ) (C : Tens d ℂ) :
    ((s.q * s.alpha 0 * s.alpha 1 * s.alpha 2 : ℝ) : ℂ) * pad (advect s x C) 0 0 0 = -(I * ∑ j, (x j : ℂ) * current s C j) := by
  have z : sm 0 = 0 := by simp [sm]
  have o : sp 0 = 1 := by simp [sp]
  rcases pad_cases C with ⟨a, b, c, ha', hb', hc', he⟩ | he
  · rw [he]
    have h0 := ofReal_ne_zero.mpr (ha 0)
    have h1 := ofReal_ne_zero.mpr (ha 1)
    have h2 := ofReal_ne_zero.mpr (ha 2)
    unfold advect current shift
    rw [ha', hb', hc', z, o, ← he C]
    simp only [Fin.sum_univ_three, Matrix.cons_val_zero, Matrix.cons_val_one, Matrix.cons_val, Nat.cast_zero, zero_add, add_zero]
    have r := r2_ne
    push_cast
    field_simp
    ring
  · rw [he]
    have hh : ¬ (0 < d.np ∧ 0 < d.nm ∧ 0 < d.nn) := by
      intro h
      have := he fun _ _ _ => 1
      unfold pad at this
      rw [dif_pos ⟨⟨le_refl _, by omega⟩, ⟨le_refl _, by omega⟩, le_refl _, by omega⟩] at this
      exact one_ne_zero this
    have e : ∀ p m n : ℤ, pad C p m n = 0 := fun p m n => by unfold pad; rw [dif_neg (by omega)]
    unfold current
    simp [Fin.sum_univ_three, e]

/-- C150 (explicit integrator): the residual of Gauss's law at every wave vector keeps its initial value, for every Runge-Kutta method, every
step sizes and every dense output; in particular Gauss's law holds at all times if it holds initially.  Diffusion, density noise, a driven
field and a field sponge must be off; collisions and sponges on the species may be on. -/
theorem rk_gauss (p : Setup de di Ny Nx Nz) (he : ∀ i, p.e.alpha i ≠ 0) (hi : ∀ i, p.i.alpha i ≠ 0) (hf : GoodFilter p.filter) (hD : p.D = 0)
    (hd : ∀ t j k, p.driver t j k = 0) (hE : p.noiseE = none) (hI : p.noiseI = none) (hs : p.spongeF = none) (me : TwoFluid.Method) (t : ℝ)
    (y : St de di Ny Nx Nz) (hh : List ℝ) (b : ℕ → ℝ) (h : ℝ) (k : K Ny Nx Nz) :
    let z := loop (p.rkStep me) t y hh
    gauss p z.2 k = gauss p y k ∧ gauss p (TwoFluid.rkStep me b p.explicit z.1 h z.2) k = gauss p y k := by
  intro z
  have q : ∀ {d : Dims} (s : Species) (ha : ∀ i, s.alpha i ≠ 0) (C : Tens d (K Ny Nx Nz → ℂ)) (E B : Fin 3 → K Ny Nx Nz → ℂ),
      charge s (slice (applyFilter p.filter (rhs s p.L p.omega p.nu p.D C E B)) k) = -(I * ∑ j, (xi p.L k j : ℂ) * current s (slice C k) j) := by
    intro d s ha C E B
    rw [← advect_density s ha, charge]
    congr 1
    rcases pad_cases (slice C k) with ⟨a, b, c, ha', hb', hc', he⟩ | he
    · rw [he, he]
      show applyFilter p.filter _ a b c k = _
      rw [filter_density hf _ _ _ _ ha' hb' hc', rhs_density _ _ _ _ _ _ _ _ _ _ _ _ ha' hb' hc', hD]; simp
    · rw [he, he]
  have X : ∀ s v, gaussL p k (p.explicit s v) = 0 := by
    intro s v
    show gauss p (p.explicit s v) k = 0
    have e1 := q p.e he v.1 v.2.2.1 v.2.2.2
    have e2 := q p.i hi v.2.1 v.2.2.1 v.2.2.2
    have c0 : charge p.i (slice (0 : Tens di (K Ny Nx Nz → ℂ)) k) = 0 := by
      unfold charge pad slice; split_ifs <;> simp
    unfold gauss Setup.explicit
    simp only [hE, hI, Option.map_none, addNoise, hd]
    rw [e1]
    have dc := div_curl (xi p.L k) (fun i => v.2.2.2 i k) I
    simp only [Fin.sum_univ_three] at dc ⊢
    by_cases hst : p.staticIons = true
    · simp only [hst, if_true, c0]
      unfold Setup.J
      simp only [hst, if_true]
      linear_combination I * dc
    · simp only [hst, if_false, Bool.false_eq_true]
      rw [e2]
      unfold Setup.J
      simp only [hst, if_false, Bool.false_eq_true, Fin.sum_univ_three]
      linear_combination I * dc
  have D : ∀ h v, gaussL p k (p.damp none h v) = gaussL p k v := by
    intro h v
    show gauss p (p.damp none h v) k = gauss p v k
    have e : ∀ {d : Dims} (s : Species) (sp : Option (ZMod Nx → ℝ)) (C : Tens d (K Ny Nx Nz → ℂ)), charge s (slice (spongeC sp h C) k) = charge s (slice C k) := by
      intro d s sp C
      unfold charge
      congr 1
      rcases pad_cases (slice C k) with ⟨a, b, c, ha', hb', hc', he⟩ | he
      · rw [he, he]; unfold slice; rw [sponge_density _ _ _ _ _ _ ha' hb' hc']
      · rw [he, he]
    unfold gauss Setup.damp
    simp only [applyFilter, e, hs, spongeField]
  have l2 := fun b => rk_linear_invariant (gaussL p k) me b p.explicit X
  have r2 := loop_linear_invariant (gaussL p k) (p.rkStep me) (fun t h y => by unfold Setup.rkStep; rw [D]; exact l2 _ t h y) hh t y
  exact ⟨r2, (l2 b _ h _).trans r2⟩

/-! ### Two Hermite modes in closed form -/

/-- The eigenvectors of the streaming matrix of two modes without drift. -/
noncomputable def eig2 : Eigh 2 where
  V := !![1 / Real.sqrt 2, 1 / Real.sqrt 2; 1 / Real.sqrt 2, -(1 / Real.sqrt 2)]
  lam := ![1 / Real.sqrt 2, -(1 / Real.sqrt 2)]

theorem half_add : 1 / Real.sqrt 2 * (1 / Real.sqrt 2) = 1 / 2 := by
  rw [div_mul_div_comm, Real.mul_self_sqrt (by norm_num)]; norm_num

theorem eig2_ok (a : ℝ) : IsEigh eig2 (streamMatrix 2 a 0) := by
  have h := half_add
  have hs : Real.sqrt (1 / 2) = 1 / Real.sqrt 2 := by rw [Real.sqrt_div (by norm_num), Real.sqrt_one]
  constructor
  · ext i j
    fin_cases i <;> fin_cases j <;> simp only [eig2, Matrix.mul_apply, Fin.sum_univ_two, Matrix.transpose_apply, Fin.zero_eta, Fin.mk_one, Matrix.of_apply,
      Matrix.cons_val_zero, Matrix.cons_val_one, Matrix.one_apply] <;> simp only [mul_neg, neg_mul, neg_neg, h] <;> norm_num
  · ext i j
    rw [Matrix.mul_apply]
    simp only [Matrix.mul_diagonal, Fin.sum_univ_two, Matrix.transpose_apply]
    fin_cases i <;> fin_cases j <;> simp only [eig2, streamMatrix, Fin.zero_eta, Fin.mk_one, Matrix.of_apply, Matrix.cons_val_zero, Matrix.cons_val_one] <;>
      simp only [mul_neg, neg_mul, neg_neg, h] <;> simp <;> linarith [h, hs]

/-- The propagator: a rotation. -/
theorem prop2 (a x s : ℝ) (th : ℝ) (ht : th = a * x * s / Real.sqrt 2) :
    prop eig2 a x s 0 0 = (Real.cos th : ℂ) ∧ prop eig2 a x s 0 1 = -I * (Real.sin th : ℂ) ∧ prop eig2 a x s 1 0 = -I * (Real.sin th : ℂ) ∧
      prop eig2 a x s 1 1 = (Real.cos th : ℂ) := by
  have h : ((1 / Real.sqrt 2 : ℝ) : ℂ) * ((1 / Real.sqrt 2 : ℝ) : ℂ) = 1 / 2 := by rw [← ofReal_mul, half_add]; norm_num
  have e1 : cexp (-I * a * s * ((1 / Real.sqrt 2 : ℝ) : ℂ) * x) = (Real.cos th : ℂ) - I * (Real.sin th : ℂ) := by
    rw [show -I * a * s * ((1 / Real.sqrt 2 : ℝ) : ℂ) * x = -((th : ℝ) : ℂ) * I by rw [ht]; push_cast; ring, Complex.exp_mul_I]
    rw [Complex.cos_neg, Complex.sin_neg]; push_cast; ring
  have e2 : cexp (-I * a * s * ((-(1 / Real.sqrt 2) : ℝ) : ℂ) * x) = (Real.cos th : ℂ) + I * (Real.sin th : ℂ) := by
    rw [show -I * a * s * ((-(1 / Real.sqrt 2) : ℝ) : ℂ) * x = ((th : ℝ) : ℂ) * I by rw [ht]; push_cast; ring, Complex.exp_mul_I]
    push_cast; ring
  have ent : ∀ (i j : Fin 2), prop eig2 a x s i j = (eig2.V i 0 : ℂ) * cexp (-I * a * s * eig2.lam 0 * x) * (eig2.V j 0 : ℂ) +
      (eig2.V i 1 : ℂ) * cexp (-I * a * s * eig2.lam 1 * x) * (eig2.V j 1 : ℂ) := by
    intro i j
    rw [prop, fc, Matrix.mul_apply, Fin.sum_univ_two, Matrix.mul_diagonal, Matrix.mul_diagonal]
    rfl
  have l0 : eig2.lam 0 = 1 / Real.sqrt 2 := rfl
  have l1 : eig2.lam 1 = -(1 / Real.sqrt 2) := rfl
  have v00 : eig2.V 0 0 = 1 / Real.sqrt 2 := rfl
  have v01 : eig2.V 0 1 = 1 / Real.sqrt 2 := rfl
  have v10 : eig2.V 1 0 = 1 / Real.sqrt 2 := rfl
  have v11 : eig2.V 1 1 = -(1 / Real.sqrt 2) := rfl
  refine ⟨?_, ?_, ?_, ?_⟩
  · rw [ent, l0, l1, e1, e2, v00, v01]
    linear_combination (2 * (Real.cos th : ℂ)) * h
  · rw [ent, l0, l1, e1, e2, v00, v01, v10, v11, ofReal_neg]
    linear_combination (-2 * I * (Real.sin th : ℂ)) * h
  · rw [ent, l0, l1, e1, e2, v00, v01, v10, v11, ofReal_neg]
    linear_combination (-2 * I * (Real.sin th : ℂ)) * h
  · rw [ent, l0, l1, e1, e2, v10, v11, ofReal_neg]
    linear_combination (2 * (Real.cos th : ℂ)) * h

end Verif.Spectrax

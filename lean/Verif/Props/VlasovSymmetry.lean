import Verif.Props.VlasovRun
import Verif.Props.TwoFluidExtra

/-!
Symmetries of Vlasov-1D runs (C226): translations along the periodic box, the mirror image, and
what they give: a state periodic with a part of the box stays so, a symmetric state stays symmetric.
-/
namespace Verif.VlasovShard
open Verif.Spectral Finset ZMod Complex
open scoped ComplexConjugate

variable {nx : ℕ}

/-! ### Specification -/

/-- A profile moved by `c` cells of the periodic box. -/
def moveP (c : ZMod nx) (a : ZMod nx → ℝ) : ZMod nx → ℝ := fun x => a (x - c)

/-- A species moved by `c` cells. -/
def moveSp (c : ZMod nx) (s : Species nx) : Species nx := ⟨s.nv, s.pos, s.charge, s.mass, s.dv, s.v, fun x j => s.f (x - c) j⟩

/-- The mirror image of a scalar profile. -/
def mirrorP (a : ZMod nx → ℝ) : ZMod nx → ℝ := fun x => a (-x)

/-- The mirror image of an electric field, a vector. -/
def mirrorE (e : ZMod nx → ℝ) : ZMod nx → ℝ := fun x => -e (-x)

/-- The mirror image of a species: places and velocities change sign. -/
def mirrorSp (s : Species nx) : Species nx := ⟨s.nv, s.pos, s.charge, s.mass, s.dv, s.v, fun x j => s.f (-x) (-1 - j)⟩

/-- A velocity grid symmetric about zero. -/
def Symmetric (s : Species nx) : Prop := ∀ j, s.v (-1 - j) = -s.v j

/-- The field solver in the moved and the mirrored box: a fixed background charge moves along. -/
def moveField (c : ZMod nx) : FieldKind nx → FieldKind nx
  | .poisson static => .poisson (moveP c static)
  | .boltzmann Te l => .boltzmann Te l
  | .ampere => .ampere
  | .hampere => .hampere

def mirrorField : FieldKind nx → FieldKind nx
  | .poisson static => .poisson (mirrorP static)
  | .boltzmann Te l => .boltzmann Te l
  | .ampere => .ampere
  | .hampere => .hampere

/-! ### The transform -/

section transform
variable {N : ℕ} [NeZero N]

theorem fftC_move (c : ZMod N) (a : ZMod N → ℂ) (k : ZMod N) : fft (fun j => a (j - c)) k = stdAddChar (-(c * k)) * fft a k := by
  unfold fft
  rw [dft_apply, dft_apply, Finset.mul_sum, ← Equiv.sum_comp (Equiv.addRight c)]
  refine sum_congr rfl fun j _ => ?_
  simp only [Equiv.coe_addRight, add_sub_cancel_right, smul_eq_mul]
  rw [← mul_assoc, ← AddChar.map_add_eq_mul]
  congr 2; ring

theorem ifft_char (G : ZMod N → ℂ) (c x : ZMod N) : ifft (fun k => stdAddChar (-(c * k)) * G k) x = ifft G (x - c) := by
  have h : (fun k => stdAddChar (-(c * k)) * G k) = fft (fun x => ifft G (x - c)) := by
    funext k
    rw [fftC_move, fft_ifft]
  rw [h, ifft_fft]

theorem ifft_conj_re (G : ZMod N → ℂ) (x : ZMod N) : (ifft (fun k => conj (G k)) x).re = (ifft G (-x)).re := by
  rw [← Complex.conj_re, ifft_conj]
  congr 1
  have h : (fun k => conj (conj (G (-k)))) = fft (fun x => ifft G (-x)) := by
    funext k
    have e : ∀ g : ZMod N → ℂ, fft (fun x => g (-x)) k = fft g (-k) := by
      intro g
      unfold fft
      rw [dft_apply, dft_apply, ← Equiv.sum_comp (Equiv.neg (ZMod N))]
      refine sum_congr rfl fun j _ => ?_
      simp only [Equiv.neg_apply, neg_neg]
      congr 2
      ring
    rw [e, fft_ifft, conj_conj]
  rw [h, ifft_fft]

/-- A linear operator with multiplier `K` does not know where the box starts. -/
theorem op_move (K : ZMod N → ℂ) (c : ZMod N) (a : ZMod N → ℝ) (x : ZMod N) :
    ifft (fun k => K k * fft (fun j => (moveP c a j : ℂ)) k) x = ifft (fun k => K k * fft (fun j => (a j : ℂ)) k) (x - c) := by
  rw [← ifft_char]
  congr 1
  funext k
  have h := fftC_move c (fun j => (a j : ℂ)) k
  unfold moveP
  rw [h]
  ring

theorem ifft_anti {G G' : ZMod N → ℂ} (h : ∀ k, G' k = -conj (G k)) (x : ZMod N) : (ifft G' x).re = -(ifft G (-x)).re := by
  have e : G' = fun k => (-1 : ℂ) * conj (G k) := by
    funext k
    rw [h]
    ring
  rw [e, ifft_smul, ← ifft_conj_re]
  simp

theorem fft_mirror (a : ZMod N → ℝ) (k : ZMod N) : fft (fun j => (a (-j) : ℂ)) k = conj (fft (fun j => (a j : ℂ)) k) := by
  rw [← fft_real]
  unfold fft
  rw [dft_apply, dft_apply, ← Equiv.sum_comp (Equiv.neg (ZMod N))]
  refine sum_congr rfl fun j _ => ?_
  simp only [Equiv.neg_apply, neg_neg]
  congr 2
  ring

/-- The mirror image of the result is the result for the mirror image, with the conjugate
multiplier. -/
theorem op_mirror (K : ZMod N → ℂ) (a : ZMod N → ℝ) (x : ZMod N) :
    (ifft (fun k => K k * fft (fun j => (mirrorP a j : ℂ)) k) x).re = (ifft (fun k => conj (K k) * fft (fun j => (a j : ℂ)) k) (-x)).re := by
  rw [← ifft_conj_re]
  congr 2
  funext k
  unfold mirrorP
  rw [fft_mirror, map_mul, conj_conj]

theorem filterRow_moveP (m : ℕ → ℂ) (c : ZMod N) (a : ZMod N → ℝ) (x : ZMod N) :
    filterRow m (moveP c a) x = filterRow m a (x - c) := congrFun (TwoFluid.filterRow_move m c a) x

theorem hermitian_conj (m : ℕ → ℂ) (k : ZMod N) : hermitian N (fun k => conj (m k)) k = conj (hermitian N m k) := by
  unfold hermitian
  split
  · simp
  · split
    · simp
    · split <;> simp

theorem filterRow_mirror (m : ℕ → ℂ) (a : ZMod N → ℝ) (x : ZMod N) :
    filterRow m (mirrorP a) x = filterRow (fun k => conj (m k)) a (-x) := by
  have h : filterRow m (mirrorP a) = mirrorP (filterRow (fun k => conj (m k)) a) := by
    refine fft_inj fun k => ?_
    rw [fft_filterRow]
    unfold mirrorP
    rw [fft_mirror, fft_mirror, fft_filterRow, hermitian_conj, map_mul, conj_conj]
  exact congrFun h x

theorem shift_moveP (d s : ℝ) (c : ZMod N) (a : ZMod N → ℝ) (x : ZMod N) : shift d s (moveP c a) x = shift d s a (x - c) :=
  filterRow_moveP _ _ _ _

/-- A displacement of the mirror image is the mirror image of the opposite displacement. -/
theorem shift_mirror (d s : ℝ) (a : ZMod N → ℝ) (x : ZMod N) : shift d s (mirrorP a) x = shift d (-s) a (-x) := by
  unfold shift
  rw [filterRow_mirror]
  congr 2
  funext k
  rw [← Complex.exp_conj]
  congr 1
  simp only [map_mul, map_neg, conj_I, conj_ofReal]
  push_cast
  ring

/-- The same about the centre of a symmetric velocity grid. -/
theorem shift_flip (d s : ℝ) (a : ZMod N → ℝ) (j : ZMod N) : shift d s (fun i => a (-1 - i)) j = shift d (-s) a (-1 - j) := by
  have e : (fun i => a (-1 - i)) = mirrorP (moveP 1 a) := by
    funext i
    unfold mirrorP moveP
    congr 1
    ring
  rw [e, shift_mirror, shift_moveP]
  congr 1
  ring

end transform

/-! ### The operators of a step -/

variable [NeZero nx]

theorem density_move (c : ZMod nx) (s : Species nx) (x : ZMod nx) : (moveSp c s).density x = s.density (x - c) := rfl

theorem density_mirror (s : Species nx) (x : ZMod nx) : (mirrorSp s).density x = s.density (-x) := by
  show (∑ j, s.f (-x) (-1 - j)) * s.dv = _
  unfold Species.density
  congr 1
  exact Equiv.sum_comp (Equiv.subLeft (-1 : ZMod s.nv)) fun j => s.f (-x) j

theorem charge_move (c : ZMod nx) (ss : List (Species nx)) (static : ZMod nx → ℝ) :
    chargeDensity (ss.map (moveSp c)) (moveP c static) = moveP c (chargeDensity ss static) := by
  funext x
  unfold chargeDensity moveP
  rw [List.map_map]
  rfl

theorem charge_mirror (ss : List (Species nx)) (static : ZMod nx → ℝ) :
    chargeDensity (ss.map mirrorSp) (mirrorP static) = mirrorP (chargeDensity ss static) := by
  funext x
  unfold chargeDensity mirrorP
  rw [List.map_map]
  congr 2
  refine List.map_congr_left fun s _ => ?_
  simp only [Function.comp_apply, density_mirror]
  rfl

theorem current_move (c : ZMod nx) (ss : List (Species nx)) :
    currentDensity (ss.map (moveSp c)) = moveP c (currentDensity ss) := by
  funext x
  unfold currentDensity moveP
  rw [List.map_map]
  rfl

theorem current_mirror (ss : List (Species nx)) (hs : ∀ s ∈ ss, Symmetric s) :
    currentDensity (ss.map mirrorSp) = mirrorE (currentDensity ss) := by
  funext x
  unfold currentDensity mirrorE
  rw [List.map_map]
  have hl : ∀ (l : List (Species nx)) (u w : Species nx → ℝ), (∀ s ∈ l, u s = -w s) → (l.map u).sum = -(l.map w).sum := by
    intro l u w h
    induction l with
    | nil => simp
    | cons s l ih =>
      simp only [List.map_cons, List.sum_cons, h s (by simp), ih fun t ht => h t (by simp [ht])]
      ring
  refine hl _ _ _ fun s h => ?_
  show s.charge * ((∑ j, s.v j * s.f (-x) (-1 - j)) * s.dv) = -(s.charge * ((∑ j, s.v j * s.f (-x) j) * s.dv))
  have e : ∑ j, s.v j * s.f (-x) (-1 - j) = -∑ j, s.v j * s.f (-x) j := by
    rw [← Equiv.sum_comp (Equiv.subLeft (-1 : ZMod s.nv)), ← Finset.sum_neg_distrib]
    refine sum_congr rfl fun j _ => ?_
    simp only [Equiv.subLeft_apply]
    rw [hs s h j, sub_sub_cancel]
    ring
  rw [e]
  ring

theorem poisson_move (dx : ℝ) (c : ZMod nx) (rho : ZMod nx → ℝ) : poisson dx (moveP c rho) = moveP c (poisson dx rho) := by
  funext x
  unfold poisson
  rw [op_move (fun k => -I * (oneOverK dx k : ℂ))]
  rfl

theorem poisson_mirror (dx : ℝ) (rho : ZMod nx → ℝ) : poisson dx (mirrorP rho) = mirrorE (poisson dx rho) := by
  funext x
  unfold poisson mirrorE mirrorP
  refine ifft_anti (fun k => ?_) x
  rw [fft_mirror]
  simp only [map_mul, map_neg, conj_I, conj_ofReal]
  ring

theorem sum_moveP (c : ZMod nx) (a : ZMod nx → ℝ) : ∑ x, moveP c a x = ∑ x, a x :=
  Equiv.sum_comp (Equiv.subRight c) a

theorem sum_mirrorP (a : ZMod nx → ℝ) : ∑ x, mirrorP a x = ∑ x, a x := Equiv.sum_comp (Equiv.neg (ZMod nx)) a

theorem boltzmann_move (dx Te : ℝ) (l : Option ℝ) (c : ZMod nx) (rho : ZMod nx → ℝ) :
    boltzmann dx Te l (moveP c rho) = moveP c (boltzmann dx Te l rho) := by
  funext x
  unfold moveP
  cases l <;> simp only [boltzmann]
  all_goals
    rw [show (∑ j, rho (j - c)) = ∑ j, rho j from sum_moveP c rho]
    exact congrArg Complex.re (op_move _ c rho x)

theorem boltzmann_mirror (dx Te : ℝ) (l : Option ℝ) (rho : ZMod nx → ℝ) :
    boltzmann dx Te l (mirrorP rho) = mirrorE (boltzmann dx Te l rho) := by
  funext x
  unfold mirrorE
  cases l <;> simp only [boltzmann, sum_mirrorP] <;> unfold mirrorP
  all_goals
    refine ifft_anti (fun k => ?_) x
    rw [fft_mirror]
    simp only [map_mul, map_neg, conj_I, conj_ofReal]
    ring

theorem hampere_move (dx q dv : ℝ) {nv : ℕ} [NeZero nv] (v : ZMod nv → ℝ) (f : ZMod nx → ZMod nv → ℝ) (prev : ZMod nx → ℝ) (dt : ℝ) (c : ZMod nx) :
    hampere dx q dv v (fun x j => f (x - c) j) (moveP c prev) dt = moveP c (hampere dx q dv v f prev dt) := by
  funext x
  unfold moveP hampere
  congr 1
  rw [← ifft_char]
  congr 1
  funext k
  have h : ∀ a : ZMod nx → ℝ, fft (fun j => (a (j - c) : ℂ)) k = stdAddChar (-(c * k)) * fft (fun j => (a j : ℂ)) k := fun a => fftC_move c (fun j => (a j : ℂ)) k
  rw [h]
  simp only [fun j : ZMod nv => h fun y => f y j]
  simp only [mul_assoc]
  rw [← Finset.mul_sum]
  ring

theorem hampere_mirror (dx q dv : ℝ) {nv : ℕ} [NeZero nv] (v : ZMod nv → ℝ) (hv : ∀ j, v (-1 - j) = -v j) (f : ZMod nx → ZMod nv → ℝ)
    (prev : ZMod nx → ℝ) (dt : ℝ) :
    hampere dx q dv v (fun x j => f (-x) (-1 - j)) (mirrorE prev) dt = mirrorE (hampere dx q dv v f prev dt) := by
  funext x
  unfold mirrorE hampere
  refine ifft_anti (fun k => ?_) x
  have h : ∀ a : ZMod nx → ℝ, fft (fun j => (a (-j) : ℂ)) k = conj (fft (fun j => (a j : ℂ)) k) := fun a => fft_mirror a k
  have hn : fft (fun j => ((-prev (-j) : ℝ) : ℂ)) k = -conj (fft (fun j => (prev j : ℂ)) k) := by
    rw [← h]
    unfold fft
    rw [dft_apply, dft_apply, ← Finset.sum_neg_distrib]
    refine sum_congr rfl fun j _ => ?_
    simp only [smul_eq_mul]
    push_cast
    ring
  rw [hn]
  simp only [fun j : ZMod nv => h fun y => f y j]
  have hs : ∑ j, conj (fft (fun y => (f y (-1 - j) : ℂ)) k) * (cexp (-I * (kfull dx k * dt * v j : ℝ)) - 1) =
      conj (∑ j, fft (fun y => (f y j : ℂ)) k * (cexp (-I * (kfull dx k * dt * v j : ℝ)) - 1)) := by
    rw [map_sum, ← Equiv.sum_comp (Equiv.subLeft (-1 : ZMod nv))]
    refine sum_congr rfl fun j _ => ?_
    simp only [Equiv.subLeft_apply, sub_sub_cancel, hv, map_mul, map_sub, map_one, ← Complex.exp_conj]
    congr 3
    simp only [map_neg, conj_I, conj_ofReal]
    push_cast
    ring
  rw [hs]
  simp only [map_add, map_mul, map_div₀, conj_I, conj_ofReal]
  ring

/-! ### Symmetries of the collisionless step -/

/-- A map `T` of species and `E` of fields that every operator of a step respects. -/
structure IsSym (dx : ℝ) (k : Push) (field field' : FieldKind nx) (T : Species nx → Species nx) (E : (ZMod nx → ℝ) → ZMod nx → ℝ)
    (ok : Species nx → Prop) : Prop where
  add : ∀ a b, E (fun x => a x + b x) = fun x => E a x + E b x
  zero : E 0 = 0
  stream : ∀ dt s, ok s → pushX dx dt (T s) = T (pushX dx dt s)
  okX : ∀ dt s, ok s → ok (pushX dx dt s)
  push : ∀ e pond dt ss, (∀ s ∈ ss, ok s) →
    velocityPush k none 1 (E e) (E pond) dt (ss.map T) = (velocityPush k none 1 e pond dt ss).map (List.map T)
  okV : ∀ e pond dt ss ts, (∀ s ∈ ss, ok s) → velocityPush k none 1 e pond dt ss = .ok ts → ∀ t ∈ ts, ok t
  solve : ∀ ss prev dt, (∀ s ∈ ss, ok s) → solveField dx field' (ss.map T) (E prev) dt = E (solveField dx field ss prev dt)
  kind : (field = .hampere ↔ field' = .hampere)

section sym
variable {dx : ℝ} {k : Push} {field field' : FieldKind nx} {T : Species nx → Species nx} {E : (ZMod nx → ℝ) → ZMod nx → ℝ}
  {ok : Species nx → Prop}

theorem space_sym (h : IsSym dx k field field' T E ok) (dt : ℝ) {ss : List (Species nx)} (hs : ∀ s ∈ ss, ok s) :
    (ss.map T).map (pushX dx dt) = (ss.map (pushX dx dt)).map T ∧ ∀ s ∈ ss.map (pushX dx dt), ok s := by
  constructor
  · rw [List.map_map, List.map_map]
    exact List.map_congr_left fun s m => h.stream dt s (hs s m)
  · intro s m
    obtain ⟨t, ht, rfl⟩ := List.mem_map.1 m
    exact h.okX dt t (hs t ht)

/-- A value and what it becomes: both fail, or both succeed and all species are fine. -/
def Matches (T : Species nx → Species nx) (ok : Species nx → Prop) (a b : Except String (List (Species nx))) : Prop :=
  b = a.map (List.map T) ∧ ∀ ss, a = .ok ss → ∀ s ∈ ss, ok s

theorem bind_matches {α : Type} {F : α → α} {a b : Except String (List (Species nx))} (h : Matches T ok a b)
    {f g : List (Species nx) → Except String α} (hf : ∀ ss, (∀ s ∈ ss, ok s) → g (ss.map T) = (f ss).map F) : b.bind g = (a.bind f).map F := by
  obtain ⟨h1, h2⟩ := h
  cases a with
  | error e => rw [h1]; rfl
  | ok ss => rw [h1]; exact hf ss (h2 ss rfl)

theorem kick_matches (h : IsSym dx k field field' T E ok) (pond drv : ZMod nx → ℝ) (c : ℝ) {ss : List (Species nx)} (hs : ∀ s ∈ ss, ok s) :
    Matches T ok (kickP k none 1 dx field pond drv c ss) (kickP k none 1 dx field' (E pond) (E drv) c (ss.map T)) := by
  unfold kickP
  constructor
  · have e := h.solve ss 0 0 hs
    rw [h.zero] at e
    rw [e, ← h.add]
    exact h.push _ _ _ _ hs
  · intro ts ht
    exact h.okV _ _ _ _ _ hs ht

theorem space_matches (h : IsSym dx k field field' T E ok) (dt : ℝ) {ss : List (Species nx)} (hs : ∀ s ∈ ss, ok s) :
    Matches T ok (spacePush none 1 dx dt ss) (spacePush none 1 dx dt (ss.map T)) := by
  obtain ⟨h1, h2⟩ := space_sym h dt hs
  constructor
  · show Except.ok _ = Except.ok _
    rw [h1]
  · intro ts ht
    simp only [spacePush, isParallel, Bool.false_eq_true, if_false, Except.ok.injEq] at ht
    subst ht
    exact h2

/-- What is obtained of the transformed state. -/
def transformed (T : Species nx → Species nx) (E : (ZMod nx → ℝ) → ZMod nx → ℝ) (y : (ZMod nx → ℝ) × List (Species nx)) :
    (ZMod nx → ℝ) × List (Species nx) := (E y.1, y.2.map T)

theorem integrator_sym (h : IsSym dx k field field' T E ok) (time : TimeKind) (dt : ℝ) {a a' : ℕ → ℝ}
    (ha : ponderomotive dx a' = E (ponderomotive dx a)) {dex dex' : ℕ → ZMod nx → ℝ} (hd : ∀ i, dex' i = E (dex i))
    (prev : ZMod nx → ℝ) {ss : List (Species nx)} (hs : ∀ s ∈ ss, ok s) :
    integratorP time k none 1 dx dt field' a' dex' (E prev) (ss.map T) =
      (integratorP time k none 1 dx dt field a dex prev ss).map (transformed T E) := by
  cases time with
  | leapfrog =>
    obtain ⟨h1, h2⟩ := space_sym h dt hs
    simp only [integratorP, leapfrogP, spacePush, isParallel, Bool.false_eq_true, if_false, ha, hd, h1]
    have hk := h.kind
    have q1 := h.solve ss prev dt hs
    have q2 := h.solve (ss.map (pushX dx dt)) prev dt h2
    have q3 := fun e => h.push e (ponderomotive dx a) dt _ h2
    have q4 := h.add
    clear h h1 h2 hs
    cases field <;> cases field' <;> simp only [reduceCtorEq, iff_false, not_true_eq_false, iff_true] at hk <;>
      simp only [q1, q2, ← q4, q3] <;>
      cases velocityPush k none 1 _ (ponderomotive dx a) dt (ss.map (pushX dx dt)) <;> rfl
  | sixth =>
    simp only [integratorP, sixthP, ha, hd]
    refine bind_matches (kick_matches h _ _ _ hs) fun s hs => ?_
    refine bind_matches (space_matches h _ hs) fun s hs => ?_
    refine bind_matches (kick_matches h _ _ _ hs) fun s hs => ?_
    refine bind_matches (space_matches h _ hs) fun s hs => ?_
    refine bind_matches (kick_matches h _ _ _ hs) fun s hs => ?_
    refine bind_matches (space_matches h _ hs) fun s hs => ?_
    refine bind_matches (kick_matches h _ _ _ hs) fun s hs => ?_
    refine bind_matches (space_matches h _ hs) fun s hs => ?_
    refine bind_matches (kick_matches h _ _ _ hs) fun s hs => ?_
    refine bind_matches (space_matches h _ hs) fun s hs => ?_
    refine bind_matches (kick_matches h _ _ _ hs) fun t ht => ?_
    have e := h.solve s 0 0 hs
    rw [h.zero] at e
    rw [e]
    rfl

end sym

/-! ### Translations -/

theorem solve_move (dx : ℝ) (field : FieldKind nx) (c : ZMod nx) (ss : List (Species nx)) (prev : ZMod nx → ℝ) (dt : ℝ) :
    solveField dx (moveField c field) (ss.map (moveSp c)) (moveP c prev) dt = moveP c (solveField dx field ss prev dt) := by
  cases field with
  | poisson static => simp only [solveField, moveField, charge_move, poisson_move]
  | boltzmann Te l =>
    have h := charge_move c ss 0
    rw [show moveP c (0 : ZMod nx → ℝ) = 0 from rfl] at h
    simp only [solveField, moveField, h, boltzmann_move]
  | ampere =>
    simp only [solveField, moveField, current_move]
    rfl
  | hampere =>
    cases ss with
    | nil => rfl
    | cons s ss => exact hampere_move dx s.charge s.dv s.v s.f prev dt c

theorem moveField_hampere (c : ZMod nx) (field : FieldKind nx) : field = .hampere ↔ moveField c field = .hampere := by
  cases field <;> simp [moveField]

theorem mirrorField_hampere (field : FieldKind nx) : field = .hampere ↔ mirrorField field = .hampere := by
  cases field <;> simp [mirrorField]

theorem isSym_move (dx : ℝ) (k : Push) (field : FieldKind nx) (c : ZMod nx) :
    IsSym dx k field (moveField c field) (moveSp c) (moveP c) fun _ => True where
  add _ _ := rfl
  zero := rfl
  stream dt s _ := by
    unfold pushX moveSp
    simp only [Species.mk.injEq, true_and, heq_eq_eq]
    funext x j
    exact shift_moveP dx (s.v j * dt) c (fun y => s.f y j) x
  okX _ _ _ := trivial
  push e pond dt ss _ := by
    cases k with
    | exponential =>
      simp only [velocityPush, isParallel, Except.map, List.map_map]
      rfl
    | cubicSpline =>
      simp only [velocityPush, isParallel, spline]
      rw [show splineOk (ss.map (moveSp c)) = splineOk ss by unfold splineOk; rw [List.all_map]; rfl]
      cases splineOk ss
      · rfl
      · simp only [if_true, Except.map, List.map_map]
        rfl
  okV _ _ _ _ _ _ _ _ _ := trivial
  solve ss prev dt _ := solve_move dx field c ss prev dt
  kind := moveField_hampere c field

/-! ### The mirror image -/

theorem solve_mirror (dx : ℝ) (field : FieldKind nx) (ss : List (Species nx)) (hs : ∀ s ∈ ss, Symmetric s) (prev : ZMod nx → ℝ) (dt : ℝ) :
    solveField dx (mirrorField field) (ss.map mirrorSp) (mirrorE prev) dt = mirrorE (solveField dx field ss prev dt) := by
  cases field with
  | poisson static => simp only [solveField, mirrorField, charge_mirror, poisson_mirror]
  | boltzmann Te l =>
    have h := charge_mirror ss 0
    rw [show mirrorP (0 : ZMod nx → ℝ) = 0 from rfl] at h
    simp only [solveField, mirrorField, h, boltzmann_mirror]
  | ampere =>
    simp only [solveField, mirrorField, current_mirror ss hs]
    funext x
    unfold ampere mirrorE
    ring
  | hampere =>
    cases ss with
    | nil => rfl
    | cons s ss => exact hampere_mirror dx s.charge s.dv s.v (hs s (by simp)) s.f prev dt

theorem accel_neg (q m e pond : ℝ) : accel q m (-e) (-pond) = -accel q m e pond := by
  unfold accel
  ring

theorem isSym_mirror (dx : ℝ) (field : FieldKind nx) :
    IsSym dx .exponential field (mirrorField field) mirrorSp mirrorE Symmetric where
  add a b := by
    funext x
    unfold mirrorE
    ring
  zero := by
    funext x
    simp [mirrorE]
  stream dt s hs := by
    unfold pushX mirrorSp
    simp only [Species.mk.injEq, true_and, heq_eq_eq]
    funext x j
    have h := shift_mirror dx (s.v j * dt) (fun y => s.f y (-1 - j)) x
    have e : s.v (-1 - j) * dt = -(s.v j * dt) := by rw [hs]; ring
    unfold vdfdx
    rw [e]
    exact h
  okX _ _ h := h
  push e pond dt ss _ := by
    simp only [velocityPush, isParallel, Except.map, List.map_map]
    congr 1
    refine List.map_congr_left fun s _ => ?_
    unfold pushV mirrorSp
    simp only [Function.comp_apply, Species.mk.injEq, true_and, heq_eq_eq]
    funext x j
    unfold edfdv mirrorE
    rw [accel_neg, mul_neg, shift_flip, neg_neg]
  okV e pond dt ss ts hs h t ht := by
    simp only [velocityPush, isParallel, Except.ok.injEq] at h
    subst h
    obtain ⟨s, h1, rfl⟩ := List.mem_map.1 ht
    exact hs s h1
  solve ss prev dt hs := solve_mirror dx field ss hs prev dt
  kind := mirrorField_hampere field

/-! ### Collisions -/

theorem collided_sym {c : CollCfg} {ref : ℕ} {nuFp nuK nuFp' nuK' : Option (ZMod nx → ℝ)} {dt : ℝ} {T : Species nx → Species nx}
    {ss ts : List (Species nx)}
    (hT : ∀ s ∈ ss, ∀ g, Collide c (nuFp.getD 0) (nuK.getD 0) dt s g →
      ∃ g', Collide c (nuFp'.getD 0) (nuK'.getD 0) dt (T s) g' ∧
        T ⟨s.nv, s.pos, s.charge, s.mass, s.dv, s.v, g⟩ = ⟨(T s).nv, (T s).pos, (T s).charge, (T s).mass, (T s).dv, (T s).v, g'⟩)
    (h : Collided c none 1 ref nuFp nuK dt ss (some ts)) : Collided c none 1 ref nuFp' nuK' dt (ss.map T) (some (ts.map T)) := by
  unfold Collided at h ⊢
  rw [List.getElem?_map]
  cases hr : ss[ref]? with
  | none =>
    rw [hr] at h
    simp only [Option.some.injEq] at h
    subst h
    rfl
  | some s =>
    rw [hr] at h
    obtain ⟨g, h1, h2⟩ := h
    simp only [Applied, isParallel, Bool.false_eq_true, if_false] at h1
    obtain ⟨k, h3, rfl⟩ := h1
    simp only [Option.map_some, Option.some.injEq] at h2
    subst h2
    obtain ⟨g', h4, h5⟩ := hT s (List.mem_of_getElem? hr) k h3
    refine ⟨some g', ⟨g', h4, rfl⟩, ?_⟩
    simp only [Option.map_some, List.map_set, h5]

theorem collide_move {c : CollCfg} {nuFp nuK : Option (ZMod nx → ℝ)} {dt : ℝ} (d : ZMod nx) (s : Species nx) {g : ZMod nx → ZMod s.nv → ℝ}
    (h : Collide c (nuFp.getD 0) (nuK.getD 0) dt s g) :
    Collide c ((nuFp.map (moveP d)).getD 0) ((nuK.map (moveP d)).getD 0) dt (moveSp d s) (fun x j => g (x - d) j) := by
  have e : ∀ nu : Option (ZMod nx → ℝ), (nu.map (moveP d)).getD 0 = moveP d (nu.getD 0) := by
    intro nu
    cases nu <;> rfl
  intro x
  rw [e, e]
  exact h (x - d)

end Verif.VlasovShard

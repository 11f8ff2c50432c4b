import Verif.Model.Vlasov2V
import Verif.Props.Integrator
import Verif.Props.TwoFluidLinear
import Verif.Props.FokkerPlanck
import Verif.Props.Krook

/-!
C139, C140, C142, C146, C147: the 1D limit of the Vlasov-1D2V solver, what each perpendicular slice conserves, the
accumulated diagnostics, and the options.
-/
namespace Verif.Vlasov2V
open Finset Verif.Spectral Verif.FP

/-! ### Linearity -/

theorem filterRow_sum {N : ℕ} [NeZero N] (m : ℕ → ℂ) (np : ℕ) (w : ℕ → ℝ) (g : ℕ → ZMod N → ℝ) (x : ZMod N) :
    filterRow m (fun j => ∑ p ∈ range np, g p j * w p) x = ∑ p ∈ range np, filterRow m (g p) x * w p := by
  induction np with
  | zero => simpa using congrFun (TwoFluid.filterRow_zero m) x
  | succ n ih =>
    simp only [sum_range_succ]
    rw [TwoFluid.filterRow_add, ih]
    congr 1
    have : (fun j => g n j * w n) = fun j => w n * g n j := by funext j; ring
    rw [this, TwoFluid.filterRow_smul]; ring

theorem push2V_marginal {nx : ℕ} (e pond : ZMod nx → ℝ) (dt : ℝ) (s : Sp2 nx) :
    (push2V e pond dt s).marginal = pushV e pond dt s.marginal := by
  have : ((push2V e pond dt s).marginal).f = (pushV e pond dt s.marginal).f := by
    funext x j
    exact (filterRow_sum _ s.np s.w (fun p i => s.f x i p) j).symm
  unfold pushV
  rw [show edfdv s.marginal.dv s.marginal.charge s.marginal.mass e pond dt s.marginal.f = ((push2V e pond dt s).marginal).f from this.symm]
  rfl

theorem push2X_marginal {nx : ℕ} [NeZero nx] (dx dt : ℝ) (s : Sp2 nx) : (push2X dx dt s).marginal = pushX dx dt s.marginal := by
  have : ((push2X dx dt s).marginal).f = (pushX dx dt s.marginal).f := by
    funext x j
    exact (filterRow_sum _ s.np s.w (fun p y => s.f y j p) x).symm
  unfold pushX
  rw [show vdfdx dx s.marginal.v dt s.marginal.f = ((push2X dx dt s).marginal).f from this.symm]
  rfl

theorem map_push2X {nx : ℕ} [NeZero nx] (dx dt : ℝ) (ss : List (Sp2 nx)) :
    (ss.map (push2X dx dt)).map Sp2.marginal = (ss.map Sp2.marginal).map (pushX dx dt) := by
  rw [List.map_map, List.map_map]
  exact List.map_congr_left fun s _ => push2X_marginal dx dt s

theorem map_push2V {nx : ℕ} (e pond : ZMod nx → ℝ) (dt : ℝ) (ss : List (Sp2 nx)) :
    (ss.map (push2V e pond dt)).map Sp2.marginal = (ss.map Sp2.marginal).map (pushV e pond dt) := by
  rw [List.map_map, List.map_map]
  exact List.map_congr_left fun s _ => push2V_marginal e pond dt s

theorem kick2_marginal {nx : ℕ} [NeZero nx] (dx : ℝ) (field : FieldKind nx) (pond drv : ZMod nx → ℝ) (c : ℝ) (ss : List (Sp2 nx)) :
    (kick2 dx field pond drv c ss).map Sp2.marginal = kick dx field pond drv c (ss.map Sp2.marginal) := map_push2V _ _ _ _

theorem vlasov2_marginal {nx : ℕ} [NeZero nx] (time : TimeKind) (dx dt : ℝ) (field : FieldKind nx) (a : ℕ → ℝ)
    (dex : ℕ → ZMod nx → ℝ) (e : ZMod nx → ℝ) (ss : List (Sp2 nx)) :
    (vlasov2 time dx dt field a dex e ss).1 = (vlasovStep time dx dt field a dex (e, ss.map Sp2.marginal)).1 ∧
    (vlasov2 time dx dt field a dex e ss).2.map Sp2.marginal = (vlasovStep time dx dt field a dex (e, ss.map Sp2.marginal)).2 := by
  cases time with
  | leapfrog =>
    have h1 : (leapfrog2 dx dt field a dex e ss).1 = (leapfrog dx dt field a dex e (ss.map Sp2.marginal)).1 := by
      unfold leapfrog2 leapfrog
      cases field <;> simp only [map_push2X]
    refine ⟨h1, ?_⟩
    have h2 : (leapfrog2 dx dt field a dex e ss).2 = (ss.map (push2X dx dt)).map
      (push2V (fun x => (leapfrog2 dx dt field a dex e ss).1 x + dex 0 x) (ponderomotive dx a) dt) := rfl
    show (leapfrog2 dx dt field a dex e ss).2.map Sp2.marginal = (leapfrog dx dt field a dex e (ss.map Sp2.marginal)).2
    rw [h2, map_push2V, map_push2X, h1]
    rfl
  | sixth =>
    constructor
    · simp only [vlasov2, vlasovStep, sixth2, sixth, kick2_marginal, map_push2X]
    · simp only [vlasov2, vlasovStep, sixth2, sixth, kick2_marginal, map_push2X]

/-- Names are not touched by the Vlasov part. -/
theorem vlasov2_names {nx : ℕ} [NeZero nx] (time : TimeKind) (dx dt : ℝ) (field : FieldKind nx) (a : ℕ → ℝ)
    (dex : ℕ → ZMod nx → ℝ) (e : ZMod nx → ℝ) (ss : List (Sp2 nx)) :
    (vlasov2 time dx dt field a dex e ss).2.map Sp2.name = ss.map Sp2.name := by
  have hx : ∀ c (l : List (Sp2 nx)), (l.map (push2X dx c)).map Sp2.name = l.map Sp2.name := fun c l => by
    rw [List.map_map]; rfl
  have hv : ∀ e p c (l : List (Sp2 nx)), (l.map (push2V e p c)).map Sp2.name = l.map Sp2.name := fun e p c l => by
    rw [List.map_map]; rfl
  have hk : ∀ p d c (l : List (Sp2 nx)), (kick2 dx field p d c l).map Sp2.name = l.map Sp2.name := fun p d c l => hv _ _ _ _
  cases time with
  | leapfrog => simp only [vlasov2, leapfrog2, hx, hv]
  | sixth => simp only [vlasov2, sixth2, hx, hk]

/-! ### Collisions along v_par -/

theorem mv_sum (n : ℕ) (op : Tri) (np : ℕ) (w : ℕ → ℝ) (g : ℕ → ℕ → ℝ) (i : ℕ) :
    op.mv n (fun i => ∑ p ∈ range np, g i p * w p) i = ∑ p ∈ range np, op.mv n (fun i => g i p) i * w p := by
  unfold Tri.mv
  split_ifs <;> simp only [mul_sum, ← sum_add_distrib, add_zero] <;> exact sum_congr rfl fun p _ => by ring

theorem lap_sum (n : ℕ) (dv D : ℝ) (np : ℕ) (w : ℕ → ℝ) (g : ℕ → ℕ → ℝ) (i : ℕ) :
    nodragLap n dv D (fun i => ∑ p ∈ range np, g i p * w p) i = ∑ p ∈ range np, nodragLap n dv D (fun i => g i p) i * w p := by
  unfold nodragLap
  dsimp only
  split_ifs <;> simp only [mul_sum, sum_div, ← sum_sub_distrib, ← sum_add_distrib] <;> exact sum_congr rfl fun p _ => by ring

theorem maxwellian_sum (n : ℕ) (v : ℕ → ℝ) (dv vbar beta : ℝ) (np : ℕ) (w : ℕ → ℝ) (f : ℕ → ℕ → ℝ) (i : ℕ) :
    nodragMaxwellian n v dv vbar beta (fun i => ∑ p ∈ range np, f i p * w p) i =
      ∑ p ∈ range np, nodragMaxwellian n v dv vbar beta (fun i => f i p) i * w p := by
  unfold nodragMaxwellian
  dsimp only
  rw [sum_comm]
  simp only [sum_mul, sum_div, mul_sum]
  refine sum_congr rfl fun p _ => sum_congr rfl fun j _ => by ring

theorem vpar_marginal (kind : VparKind) (n : ℕ) (v : ℕ → ℝ) (dv : ℝ) (np : ℕ) (w : ℕ → ℝ) (beta : (ℕ → ℝ) → ℝ → ℝ) (nu dt : ℝ)
    (f f' : ℕ → ℕ → ℝ) (h : Vpar2 kind n v dv np w beta nu dt f f') :
    Vpar1 kind n v dv beta nu dt (fun i => ∑ p ∈ range np, f i p * w p) fun i => ∑ p ∈ range np, f' i p * w p := by
  have key : ∀ op : Tri, (∀ p < np, SolveOneX n op (fun i => f i p) fun i => f' i p) →
      SolveOneX n op (fun i => ∑ p ∈ range np, f i p * w p) fun i => ∑ p ∈ range np, f' i p * w p := by
    intro op hs
    rw [solve_iff]
    intro i hi
    rw [mv_sum]
    exact sum_congr rfl fun p hp => by rw [((solve_iff _ _ _ _).1 (hs p (mem_range.1 hp))) i hi]
  cases kind with
  | lenardBernstein => exact key _ h
  | dougherty => exact key _ h
  | nodrag =>
    unfold Vpar2 at h
    dsimp only at h
    unfold Vpar1
    dsimp only
    obtain ⟨vb, hvb⟩ : ∃ q, q = vbarFor .nodrag n v (fun i => ∑ p ∈ range np, f i p * w p) := ⟨_, rfl⟩
    rw [← hvb] at h ⊢
    obtain ⟨b, hb⟩ : ∃ q, q = beta (fun i => ∑ p ∈ range np, f i p * w p) vb := ⟨_, rfl⟩
    rw [← hb] at h ⊢
    choose! g hg using h
    refine ⟨fun i => ∑ p ∈ range np, g p i * w p, ?_, ?_⟩
    · rw [solve_iff]
      intro i hi
      rw [mv_sum _ _ _ _ (fun i p => g p i)]
      exact sum_congr rfl fun p hp => by rw [((solve_iff _ _ _ _).1 (hg p (mem_range.1 hp)).1) i hi]
    · intro i hi
      have : (nodragMaxwellian n v dv vb b fun i => ∑ p ∈ range np, f i p * w p) =
          fun i => ∑ p ∈ range np, nodragMaxwellian n v dv vb b (fun i => f i p) i * w p := by
        funext i; exact maxwellian_sum ..
      rw [this, lap_sum n dv _ np w (fun i p => nodragMaxwellian n v dv vb b (fun i => f i p) i), mul_sum, ← sum_sub_distrib]
      refine sum_congr rfl fun p hp => ?_
      rw [(hg p (mem_range.1 hp)).2 i hi]; ring

theorem collide_marginal {nx : ℕ} (c : Cfg nx) (hc : ∀ as al r n, c.fp ≠ .cyl as al r n) (nu : ZMod nx → ℝ) (s s' : Sp2 nx)
    (h : Collide2 c nu s s') : Collide1 c nu (s.name, s.marginal) (s'.name, s'.marginal) := by
  unfold Collide2 at h
  unfold Collide1
  dsimp only
  by_cases he : s.name = "electron"
  · rw [if_pos he] at h ⊢
    rcases hfp : c.fp with _ | kind | ⟨as, al, r, n⟩
    · rw [hfp] at h; dsimp only at h ⊢; rw [h]
    · rw [hfp] at h; dsimp only at h ⊢
      obtain ⟨f', hs', hf⟩ := h
      refine ⟨fun x i => ∑ p ∈ range s.np, f' x i p * s.w p, by rw [hs']; rfl, fun x => ?_⟩
      exact vpar_marginal kind s.nv _ s.dv s.np s.w c.beta (nu x) c.dt _ _ (hf x)
    · exact absurd hfp (hc as al r n)
  · rw [if_neg he] at h ⊢; rw [h]

theorem charge_marginal {nx : ℕ} (ss : List (Sp2 nx)) (x : ZMod nx) :
    electronCharge1 (ss.map fun s => (s.name, s.marginal)) x = electronCharge2 ss x := by
  unfold electronCharge1 electronCharge2
  rw [List.find?_map]
  have e : (ss.find? ((fun s : String × Species nx => s.1 == "electron") ∘ fun s => (s.name, s.marginal))) =
      ss.find? fun s => s.name == "electron" := rfl
  rw [e]
  generalize (ss.find? fun s => s.name == "electron") = o
  rcases o with _ | s <;> rfl

theorem forall2_map {α β γ δ : Type} {R : α → β → Prop} {S : γ → δ → Prop} (f : α → γ) (g : β → δ) (h : ∀ a b, R a b → S (f a) (g b)) :
    ∀ {l : List α} {m : List β}, List.Forall₂ R l m → List.Forall₂ S (l.map f) (m.map g)
  | _, _, .nil => .nil
  | _, _, .cons hab ht => .cons (h _ _ hab) (forall2_map f g h ht)

/-- C139: one step of the 2V solver is, on the marginals, one step of the 1D solver: the same fields, light wave and
marginals, for every integrator, field solver and collision operator along `v_par`. -/
theorem step_one_d_limit {nx : ℕ} [NeZero nx] (c : Cfg nx) (hc : ∀ as al r n, c.fp ≠ .cyl as al r n) (d : Drive nx) (y y' : St2 nx)
    (h : Step2 c d y y') : Step1 c d y.marginal y'.marginal := by
  obtain ⟨he, hs, hde, ha⟩ := h
  have hm : (y.marginal.sp.map Prod.snd) = y.sp.map Sp2.marginal := by unfold St2.marginal; rw [List.map_map]; rfl
  have hn : (y.marginal.sp.map Prod.fst) = y.sp.map Sp2.name := by unfold St2.marginal; rw [List.map_map]; rfl
  have hv := vlasov2_marginal c.time c.dx c.dt c.field y.a d.dex y.e y.sp
  refine ⟨?_, ?_, hde, ?_⟩
  · rw [hm]; exact he.trans hv.1
  · rw [hm, hn]
    show List.Forall₂ (Collide1 c d.nu) ((y.sp.map Sp2.name).zip (vlasovStep c.time c.dx c.dt c.field y.a d.dex (y.e, y.sp.map Sp2.marginal)).2) _
    rw [← hv.2, ← vlasov2_names c.time c.dx c.dt c.field y.a d.dex y.e y.sp, List.zip_map', St2.marginal]
    exact forall2_map _ _ (fun a b hab => collide_marginal c hc d.nu a b hab) hs
  · show (y'.a, y'.prev) = _
    rw [ha]
    congr 1
    funext i
    show _ = -0.5 * (electronCharge1 (y.sp.map fun s => (s.name, s.marginal)) i + electronCharge1 (y'.sp.map fun s => (s.name, s.marginal)) i)
    rw [charge_marginal, charge_marginal]

/-- C139: the same for every run. -/
theorem run_one_d_limit {nx : ℕ} [NeZero nx] (c : Cfg nx) (hc : ∀ as al r n, c.fp ≠ .cyl as al r n) (ds : List (Drive nx)) (y y' : St2 nx)
    (h : Run (Step2 c) y ds y') : Run (Step1 c) y.marginal ds y'.marginal := by
  induction h with
  | nil y => exact .nil _
  | cons hs _ ih => exact .cons (step_one_d_limit c hc _ _ _ hs) ih

/-! ### Steps exist -/

/-- The operators along `v_par` have a result at every rate when the cell Peclet number of the drift is at most 2; the
drag-free one always has. -/
theorem vpar_exists (kind : VparKind) (n : ℕ) (v : ℕ → ℝ) (dv : ℝ) (np : ℕ) (w : ℕ → ℝ) (beta : (ℕ → ℝ) → ℝ → ℝ) (nu dt : ℝ)
    (f : ℕ → ℕ → ℝ) (hdv : 0 < dv) (hdt : 0 ≤ dt) (hnu : 0 ≤ nu) (hb : ∀ F u, 0 < beta F u)
    (hpe : kind ≠ .nodrag → ∀ F e, e + 1 < n → abs ((betaModel v (vbarFor kind n v F) (beta F (vbarFor kind n v F))).1 e) * dv ≤
      2 * (betaModel v (vbarFor kind n v F) (beta F (vbarFor kind n v F))).2) :
    ∃ f', Vpar2 kind n v dv np w beta nu dt f f' := by
  have key : ∀ C D, (∀ e, e + 1 < n → abs (C e) * dv ≤ 2 * D) →
      ∃ g : ℕ → ℕ → ℝ, ∀ p < np, SolveOneX n (central n dv C (fun _ => D) (fun _ => nu) dt) (fun i => f i p) fun i => g i p := by
    intro C D h
    choose g hg using fun p : ℕ => (central_unique_partial n dv C (fun _ => D) (fun _ => nu) dt hdv hdt (fun _ _ => hnu) h (fun i => f i p)).1
    exact ⟨fun i p => g p i, fun p _ => hg p⟩
  cases kind with
  | lenardBernstein => exact key _ _ (hpe (fun h => by cases h) _)
  | dougherty => exact key _ _ (hpe (fun h => by cases h) _)
  | nodrag =>
    unfold Vpar2
    dsimp only
    obtain ⟨vb, hvb⟩ : ∃ q, q = vbarFor .nodrag n v (fun i => ∑ p ∈ range np, f i p * w p) := ⟨_, rfl⟩
    rw [← hvb]
    obtain ⟨b, hb'⟩ : ∃ q, q = beta (fun i => ∑ p ∈ range np, f i p * w p) vb := ⟨_, rfl⟩
    rw [← hb']
    have hD : 0 < (betaModel v vb b).2 := by
      unfold betaModel
      dsimp only
      have := hb (fun i => ∑ p ∈ range np, f i p * w p) vb
      rw [← hb'] at this
      positivity
    obtain ⟨g, hg⟩ := key (fun _ => 0) (betaModel v vb b).2 (fun e _ => by simpa using hD.le)
    exact ⟨fun i p => g i p - dt * nu * nodragLap n dv (betaModel v vb b).2 (nodragMaxwellian n v dv vb b fun i => f i p) i,
      fun p hp => ⟨fun i => g i p, hg p hp, fun i _ => rfl⟩⟩

theorem forall2_exists {α β : Type} {R : α → β → Prop} : ∀ l : List α, (∀ a ∈ l, ∃ b, R a b) → ∃ m, List.Forall₂ R l m
  | [], _ => ⟨[], .nil⟩
  | a :: l, h => by
    obtain ⟨b, hb⟩ := h a (List.mem_cons_self ..)
    obtain ⟨m, hm⟩ := forall2_exists l fun x hx => h x (List.mem_cons_of_mem _ hx)
    exact ⟨b :: m, .cons hb hm⟩

/-- What a species keeps: its name, its parameters and its grids. -/
structure SameGrid {nx : ℕ} (s s' : Sp2 nx) : Prop where
  name : s'.name = s.name
  nv : s'.nv = s.nv
  charge : s'.charge = s.charge
  mass : s'.mass = s.mass
  dv : s'.dv = s.dv
  np : s'.np = s.np
  vperp : s'.vperp = s.vperp
  dvperp : s'.dvperp = s.dvperp

theorem SameGrid.refl {nx : ℕ} (s : Sp2 nx) : SameGrid s s := ⟨rfl, rfl, rfl, rfl, rfl, rfl, rfl, rfl⟩

theorem SameGrid.trans {nx : ℕ} {s s' s'' : Sp2 nx} (h : SameGrid s s') (h' : SameGrid s' s'') : SameGrid s s'' :=
  ⟨h'.name.trans h.name, h'.nv.trans h.nv, h'.charge.trans h.charge, h'.mass.trans h.mass, h'.dv.trans h.dv, h'.np.trans h.np,
    h'.vperp.trans h.vperp, h'.dvperp.trans h.dvperp⟩

/-- The particles of one perpendicular slice, up to the volume of a cell. -/
noncomputable def sliceNumber {nx : ℕ} [NeZero nx] (s : Sp2 nx) (p : ℕ) : ℝ := ∑ x, ∑ j, s.f x j p

/-- Same species, same number of particles in every perpendicular slice. -/
def SameSlices {nx : ℕ} [NeZero nx] (s s' : Sp2 nx) : Prop := SameGrid s s' ∧ ∀ p < s.np, sliceNumber s' p = sliceNumber s p

theorem SameSlices.trans {nx : ℕ} [NeZero nx] {s s' s'' : Sp2 nx} (h : SameSlices s s') (h' : SameSlices s' s'') : SameSlices s s'' :=
  ⟨h.1.trans h'.1, fun p hp => (h'.2 p (h.1.np ▸ hp)).trans (h.2 p hp)⟩

theorem forall2_trans {α : Type} {R S T : α → α → Prop} (h : ∀ a b c, R a b → S b c → T a c) :
    ∀ {k l m : List α}, List.Forall₂ R k l → List.Forall₂ S l m → List.Forall₂ T k m
  | _, _, _, .nil, .nil => .nil
  | _, _, _, .cons h1 t1, .cons h2 t2 => .cons (h _ _ _ h1 h2) (forall2_trans h t1 t2)

theorem forall2_self_map {α : Type} {R : α → α → Prop} {f : α → α} (h : ∀ a, R a (f a)) : ∀ l : List α, List.Forall₂ R l (l.map f)
  | [] => .nil
  | a :: l => .cons (h a) (forall2_self_map h l)

theorem push2V_slices {nx : ℕ} [NeZero nx] (e pond : ZMod nx → ℝ) (dt : ℝ) (s : Sp2 nx) : SameSlices s (push2V e pond dt s) :=
  ⟨⟨rfl, rfl, rfl, rfl, rfl, rfl, rfl, rfl⟩, fun p _ => sum_congr rfl fun x _ => shift_conserves _ _ fun i => s.f x i p⟩

theorem push2X_slices {nx : ℕ} [NeZero nx] (dx dt : ℝ) (s : Sp2 nx) : SameSlices s (push2X dx dt s) := by
  refine ⟨⟨rfl, rfl, rfl, rfl, rfl, rfl, rfl, rfl⟩, fun p _ => ?_⟩
  unfold sliceNumber
  rw [sum_comm, sum_comm (f := fun x j => s.f x j p)]
  exact sum_congr rfl fun j _ => shift_conserves _ _ fun y => s.f y j p

theorem kick2_slices {nx : ℕ} [NeZero nx] (dx : ℝ) (field : FieldKind nx) (pond drv : ZMod nx → ℝ) (c : ℝ) (ss : List (Sp2 nx)) :
    List.Forall₂ SameSlices ss (kick2 dx field pond drv c ss) := forall2_self_map (fun s => push2V_slices _ _ _ s) ss

theorem vlasov2_slices {nx : ℕ} [NeZero nx] (time : TimeKind) (dx dt : ℝ) (field : FieldKind nx) (a : ℕ → ℝ)
    (dex : ℕ → ZMod nx → ℝ) (e : ZMod nx → ℝ) (ss : List (Sp2 nx)) :
    List.Forall₂ SameSlices ss (vlasov2 time dx dt field a dex e ss).2 := by
  have T : ∀ {k l m : List (Sp2 nx)}, List.Forall₂ SameSlices k l → List.Forall₂ SameSlices l m → List.Forall₂ SameSlices k m :=
    forall2_trans fun _ _ _ h h' => h.trans h'
  have X : ∀ c (l : List (Sp2 nx)), List.Forall₂ SameSlices l (l.map (push2X dx c)) := fun c l => forall2_self_map (fun s => push2X_slices dx c s) l
  have K := @kick2_slices nx _ dx field
  cases time with
  | leapfrog => exact T (X dt ss) (forall2_self_map (fun s => push2V_slices _ _ _ s) _)
  | sixth =>
    unfold vlasov2 sixth2
    exact T (T (T (T (T (T (T (T (T (T (K _ _ _ _) (X _ _)) (K _ _ _ _)) (X _ _)) (K _ _ _ _)) (X _ _)) (K _ _ _ _)) (X _ _)) (K _ _ _ _)) (X _ _)) (K _ _ _ _)

theorem sum_zmod {n : ℕ} [NeZero n] (g : ZMod n → ℝ) : ∑ j, g j = ∑ i ∈ range n, g i := by
  obtain ⟨m, rfl⟩ := Nat.exists_eq_succ_of_ne_zero (NeZero.ne n)
  rw [← Fin.sum_univ_eq_sum_range (fun i => g (i : ZMod (m + 1))) (m + 1)]
  refine Fintype.sum_congr _ _ fun j => ?_
  congr 1
  exact (ZMod.natCast_zmod_val (n := m + 1) j).symm

theorem vpar_slices (kind : VparKind) (n : ℕ) (hn : 2 ≤ n) (v : ℕ → ℝ) (dv : ℝ) (np : ℕ) (w : ℕ → ℝ) (beta : (ℕ → ℝ) → ℝ → ℝ) (nu dt : ℝ)
    (f f' : ℕ → ℕ → ℝ) (h : Vpar2 kind n v dv np w beta nu dt f f') (p : ℕ) (hp : p < np) :
    ∑ i ∈ range n, f' i p = ∑ i ∈ range n, f i p := by
  cases kind with
  | lenardBernstein => exact collisions_conserve_density n dv _ _ nu dt (fun _ => 0) _ _ (Or.inl (h p hp))
  | dougherty => exact collisions_conserve_density n dv _ _ nu dt (fun _ => 0) _ _ (Or.inl (h p hp))
  | nodrag => exact nodrag_conserves_density n hn v dv _ _ nu dt (fun i => f i p) (fun i => f' i p) (h p hp)

theorem collide_slices {nx : ℕ} [NeZero nx] (c : Cfg nx) (hc : ∀ as al r n, c.fp ≠ .cyl as al r n) (nu : ZMod nx → ℝ) (s s' : Sp2 nx)
    (hn : 2 ≤ s.nv) (h : Collide2 c nu s s') : SameSlices s s' := by
  have R : SameSlices s s := ⟨SameGrid.refl s, fun _ _ => rfl⟩
  unfold Collide2 at h
  by_cases he : s.name = "electron"
  · rw [if_pos he] at h
    rcases hfp : c.fp with _ | kind | ⟨as, al, r, n⟩
    · rw [hfp] at h; dsimp only at h; rw [h]; exact R
    · rw [hfp] at h; dsimp only at h
      obtain ⟨f', hs', hf⟩ := h
      subst hs'
      refine ⟨⟨rfl, rfl, rfl, rfl, rfl, rfl, rfl, rfl⟩, fun p hp => sum_congr rfl fun x _ => ?_⟩
      show ∑ j, f' x j p = ∑ j, s.f x j p
      rw [sum_zmod, sum_zmod]
      exact vpar_slices kind s.nv hn _ s.dv s.np s.w c.beta (nu x) c.dt _ _ (hf x) p hp
    · exact absurd hfp (hc as al r n)
  · rw [if_neg he] at h; rw [h]; exact R

theorem forall2_mono {α : Type} {R S T : α → α → Prop} (P : α → Prop) (h : ∀ a b, P a → R a b → S a b) :
    ∀ {l m : List α}, (∀ a ∈ l, P a) → List.Forall₂ R l m → List.Forall₂ S l m
  | _, _, _, .nil => .nil
  | _, _, hp, .cons h1 t => .cons (h _ _ (hp _ (List.mem_cons_self ..)) h1) (forall2_mono (T := T) P h (fun a ha => hp a (List.mem_cons_of_mem _ ha)) t)

theorem forall2_mem {α : Type} {R : α → α → Prop} {P : α → Prop} (h : ∀ a b, R a b → P a → P b) :
    ∀ {l m : List α}, List.Forall₂ R l m → (∀ a ∈ l, P a) → ∀ b ∈ m, P b
  | _, _, .nil, _ => fun _ hb => absurd hb (List.not_mem_nil)
  | _, _, .cons h1 t, hp => fun b hb => by
    rcases List.mem_cons.1 hb with e | hb
    · rw [e]; exact h _ _ h1 (hp _ (List.mem_cons_self ..))
    · exact forall2_mem h t (fun a ha => hp a (List.mem_cons_of_mem _ ha)) b hb

/-- C140: a step keeps the number of particles of every species in every perpendicular slice. -/
theorem step_slices {nx : ℕ} [NeZero nx] (c : Cfg nx) (hc : ∀ as al r n, c.fp ≠ .cyl as al r n) (d : Drive nx) (y y' : St2 nx)
    (hn : ∀ s ∈ y.sp, 2 ≤ s.nv) (h : Step2 c d y y') : List.Forall₂ SameSlices y.sp y'.sp := by
  have h1 := vlasov2_slices c.time c.dx c.dt c.field y.a d.dex y.e y.sp
  have h2 := forall2_mem (P := fun s : Sp2 nx => 2 ≤ s.nv) (fun a b hab ha => by rw [hab.1.nv]; exact ha) h1 hn
  exact forall2_trans (fun _ _ _ h h' => h.trans h') h1
    (forall2_mono (T := SameSlices) (fun s : Sp2 nx => 2 ≤ s.nv) (fun a b ha hab => collide_slices c hc d.nu a b ha hab) h2 h.2.1)

/-- C140: so does every run. -/
theorem run_slices {nx : ℕ} [NeZero nx] (c : Cfg nx) (hc : ∀ as al r n, c.fp ≠ .cyl as al r n) (ds : List (Drive nx)) (y y' : St2 nx)
    (hn : ∀ s ∈ y.sp, 2 ≤ s.nv) (h : Run (Step2 c) y ds y') : List.Forall₂ SameSlices y.sp y'.sp := by
  induction h with
  | nil y =>
    have := forall2_self_map (R := SameSlices) (f := id) (fun s : Sp2 nx => ⟨SameGrid.refl s, fun _ _ => rfl⟩) y.sp
    rwa [List.map_id] at this
  | cons hs _ ih =>
    have h1 := step_slices c hc _ _ _ hn hs
    exact forall2_trans (fun _ _ _ h h' => h.trans h') h1
      (ih (forall2_mem (P := fun s : Sp2 nx => 2 ≤ s.nv) (fun a b hab ha => by rw [hab.1.nv]; exact ha) h1 hn))

theorem meanMoment_perp {nx : ℕ} [NeZero nx] (s : Sp2 nx) (g : ℕ → ℝ) :
    meanMoment s (fun _ p => g p) = (∑ p ∈ range s.np, sliceNumber s p * s.w p * g p) * s.dv / nx := by
  unfold meanMoment sliceNumber
  congr 1
  have : ∀ x, ∑ j, ∑ p ∈ range s.np, s.f x j p * s.w p * g p * s.dv = ∑ p ∈ range s.np, (∑ j, s.f x j p) * s.w p * g p * s.dv := by
    intro x
    rw [sum_comm]
    exact sum_congr rfl fun p _ => by simp only [sum_mul]
  simp only [this]
  rw [sum_comm, sum_mul]
  exact sum_congr rfl fun p _ => by simp only [sum_mul]

/-- C140: the saved scalars that weigh by the perpendicular velocity alone (`mean_n`, `mean_Pperp`) never change. -/
theorem run_perp_moments {nx : ℕ} [NeZero nx] (c : Cfg nx) (hc : ∀ as al r n, c.fp ≠ .cyl as al r n) (ds : List (Drive nx)) (y y' : St2 nx)
    (hn : ∀ s ∈ y.sp, 2 ≤ s.nv) (h : Run (Step2 c) y ds y') :
    List.Forall₂ (fun s s' : Sp2 nx => s'.name = s.name ∧ meanMoment s' (fun _ _ => 1) = meanMoment s (fun _ _ => 1) ∧
      meanMoment s' (fun _ p => s'.vperp p ^ 2) = meanMoment s fun _ p => s.vperp p ^ 2) y.sp y'.sp := by
  refine (run_slices c hc ds y y' hn h).imp fun {s s'} hs => ⟨hs.1.name, ?_⟩
  have hw : s'.w = s.w := by unfold Sp2.w; rw [hs.1.vperp, hs.1.dvperp]
  have key : ∀ g : ℕ → ℝ, meanMoment s' (fun _ p => g p) = meanMoment s fun _ p => g p := by
    intro g
    rw [meanMoment_perp, meanMoment_perp, hs.1.np, hs.1.dv, hw]
    congr 2
    exact sum_congr rfl fun p hp => by rw [hs.2 p (mem_range.1 hp)]
  exact ⟨key fun _ => 1, by rw [hs.1.vperp]; exact key fun p => s.vperp p ^ 2⟩

/-! ### Accumulated diagnostics -/

/-- C142: in every run the two accumulators add up to the change of the marginal of the reference species since the start. -/
theorem run_diagnostics {nx : ℕ} [NeZero nx] (c : Cfg nx) (ds : List (Drive nx)) (y : St2 nx) (s' : StD nx)
    (h : Run (StepD c) (.start y) ds s') (x : ZMod nx) (i : ℕ) :
    s'.vlasov x i + s'.fp x i = refMarginal s'.y.sp x i - refMarginal y.sp x i := by
  have key : ∀ (ds : List (Drive nx)) (s s' : StD nx), Run (StepD c) s ds s' →
      s'.vlasov x i + s'.fp x i - (s.vlasov x i + s.fp x i) = refMarginal s'.y.sp x i - refMarginal s.y.sp x i := by
    intro ds s s' hr
    induction hr with
    | nil => ring
    | cons hs _ ih =>
      obtain ⟨-, h1, h2⟩ := hs
      rw [h1, h2] at ih
      dsimp only at ih
      linarith
  have := key _ _ _ h
  unfold StD.start at this
  dsimp only at this
  linarith

/-- C142: the reference species is the one called `electron`, wherever it stands in the deck, else the first one. -/
theorem reference_species {nx : ℕ} (before after : List (Sp2 nx)) (s : Sp2 nx) (x : ZMod nx) (i : ℕ) :
    ((∀ r ∈ before, r.name ≠ "electron") → s.name = "electron" →
      refMarginal (before ++ s :: after) x i = ∑ p ∈ range s.np, s.f x i p * s.w p) ∧
    ((∀ r ∈ s :: after, r.name ≠ "electron") → refMarginal (s :: after) x i = ∑ p ∈ range s.np, s.f x i p * s.w p) := by
  constructor
  · intro hb hs
    have : ((before ++ s :: after).find? fun s => s.name == "electron") = some s := by
      rw [List.find?_append, List.find?_eq_none.2 (by simpa using hb)]
      simp [hs]
    unfold refMarginal
    rw [this]
    rfl
  · intro h
    have : ((s :: after).find? fun s => s.name == "electron") = none := List.find?_eq_none.2 (by simpa using h)
    unfold refMarginal
    rw [this]
    rfl

/-- C142: the difference of two saved values is the change between the two save points. -/
theorem interval_diagnostics {nx : ℕ} [NeZero nx] (c : Cfg nx) (ds ds' : List (Drive nx)) (y : St2 nx) (s s' : StD nx)
    (h : Run (StepD c) (.start y) ds s) (h' : Run (StepD c) s ds' s') (x : ZMod nx) (i : ℕ) :
    (s'.vlasov x i - s.vlasov x i) + (s'.fp x i - s.fp x i) = refMarginal s'.y.sp x i - refMarginal s.y.sp x i := by
  have app : ∀ {a b d : StD nx} {l m}, Run (StepD c) a l b → Run (StepD c) b m d → Run (StepD c) a (l ++ m) d := by
    intro a b d l m h1 h2
    induction h1 with
    | nil => exact h2
    | cons hs _ ih => exact .cons hs (ih h2)
  have h1 := run_diagnostics c ds y s h x i
  have h2 := run_diagnostics c (ds ++ ds') y s' (app h h') x i
  linarith

/-- C142: without collisions the collision accumulator stays zero and the other one is the whole change. -/
theorem collisionless_diagnostics {nx : ℕ} [NeZero nx] (c : Cfg nx) (hc : c.fp = .off) (ds : List (Drive nx)) (y : St2 nx) (s' : StD nx)
    (h : Run (StepD c) (.start y) ds s') (x : ZMod nx) (i : ℕ) :
    s'.fp x i = 0 ∧ s'.vlasov x i = refMarginal s'.y.sp x i - refMarginal y.sp x i := by
  have key : ∀ (ds : List (Drive nx)) (s s' : StD nx), Run (StepD c) s ds s' → s'.fp x i = s.fp x i := by
    intro ds s s' hr
    induction hr with
    | nil => rfl
    | cons hs _ ih =>
      obtain ⟨h0, -, h2⟩ := hs
      rw [ih, h2]
      have e : ∀ {l m : List (Sp2 nx)} {nu : ZMod nx → ℝ}, List.Forall₂ (Collide2 c nu) l m → m = l := by
        intro l m nu h
        induction h with
        | nil => rfl
        | cons h1 _ ih =>
          rw [ih]
          unfold Collide2 at h1
          rw [hc] at h1
          split_ifs at h1 <;> rw [h1]
      rw [e h0.2.1]
      dsimp only
      ring
  have hf := key _ _ _ h
  have := run_diagnostics c ds y s' h x i
  refine ⟨hf, ?_⟩
  have h0 : (StD.start y).fp x i = 0 := rfl
  linarith

/-! ### Non-vacuity -/

/-- A species of two spatial, two parallel and two perpendicular cells with an uneven distribution. -/
noncomputable def demoSpecies (name : String) : Sp2 2 where
  name := name
  nv := 2
  pos := ⟨by decide⟩
  charge := -1
  mass := 1
  dv := 1
  v j := j.val - 1 / 2
  np := 2
  vperp p := p + 1 / 2
  dvperp := 1
  f x j p := 1 + x.val + 2 * j.val + 3 * p

noncomputable def demoState : St2 2 := ⟨fun _ => 0, fun i => i, fun i => i, fun _ => 0, [demoSpecies "electron", demoSpecies "ion"]⟩

noncomputable def demoCfg (fp : Coll) : Cfg 2 := ⟨.leapfrog, 1, 1, .poisson fun _ => 0, ⟨1, 1, 1⟩, fp, fun _ _ => 1⟩

theorem step_exists {nx : ℕ} [NeZero nx] (c : Cfg nx) (d : Drive nx) (y : St2 nx)
    (h : ∀ s ∈ (vlasov2 c.time c.dx c.dt c.field y.a d.dex y.e y.sp).2, ∃ s', Collide2 c d.nu s s') : ∃ y', Step2 c d y y' := by
  obtain ⟨m, hm⟩ := forall2_exists _ h
  exact ⟨⟨(vlasov2 c.time c.dx c.dt c.field y.a d.dex y.e y.sp).1, (c.wave.step nx y.a y.prev d.djy fun i => -0.5 * (electronCharge2 y.sp i + electronCharge2 m i)).1,
    (c.wave.step nx y.a y.prev d.djy fun i => -0.5 * (electronCharge2 y.sp i + electronCharge2 m i)).2, d.dex (dexSave c.time), m⟩, rfl, hm, rfl, rfl⟩

theorem nodrag_collide_exists {nx : ℕ} (c : Cfg nx) (hc : c.fp = .vpar .nodrag) (nu : ZMod nx → ℝ) (s : Sp2 nx) (hdv : 0 < s.dv) (hdt : 0 ≤ c.dt)
    (hnu : ∀ x, 0 ≤ nu x) (hb : ∀ F u, 0 < c.beta F u) : ∃ s', Collide2 c nu s s' := by
  unfold Collide2
  rw [hc]
  by_cases he : s.name = "electron"
  · simp only [if_pos he]
    choose g hg using fun x => vpar_exists .nodrag s.nv (fun i => s.v i) s.dv s.np s.w c.beta (nu x) c.dt (fun i p => s.f x i p) hdv hdt (hnu x) hb
      (fun h => absurd rfl h)
    refine ⟨_, fun x j p => g x j.val p, rfl, fun x => ?_⟩
    have : ∀ F : ℕ → ℕ → ℝ, (∀ i < s.nv, ∀ p, F i p = g x i p) → Vpar2 .nodrag s.nv (fun i => s.v i) s.dv s.np s.w c.beta (nu x) c.dt (fun i p => s.f x i p) F := by
      intro F hF p hp
      obtain ⟨q, hq, hq'⟩ := hg x p hp
      exact ⟨q, hq, fun i hi => by rw [hF i hi]; exact hq' i hi⟩
    refine this _ fun i hi p => ?_
    have : ((i : ZMod s.nv)).val = i := by rw [ZMod.val_natCast]; exact Nat.mod_eq_of_lt hi
    dsimp only
    rw [this]
  · simp only [if_neg he]; exact ⟨s, rfl⟩

/-- Collisional steps from an uneven two-species state exist, so the theorems above speak about something. -/
example : ∃ d y', Step2 (demoCfg (.vpar .nodrag)) d demoState y' := by
  refine ⟨⟨fun _ _ => 1, fun _ => 1, fun _ => 1⟩, step_exists _ _ _ fun s hs => ?_⟩
  have hdv : s.dv = 1 := forall2_mem (P := fun s : Sp2 2 => s.dv = 1) (fun a b hab ha => by rw [hab.1.dv]; exact ha)
    (vlasov2_slices _ _ _ _ _ _ _ demoState.sp) (fun a ha => by
      rcases List.mem_cons.1 ha with e | ha
      · rw [e]; rfl
      · rw [List.mem_singleton.1 ha]; rfl) s hs
  exact nodrag_collide_exists _ rfl _ s (by rw [hdv]; exact one_pos) zero_le_one (fun _ => zero_le_one) fun _ _ => one_pos

example : ∀ as al r n, (demoCfg (.vpar .nodrag)).fp ≠ .cyl as al r n := fun _ _ _ _ h => by cases h

example : ∀ s ∈ demoState.sp, 2 ≤ s.nv := fun s hs => by
  rcases List.mem_cons.1 hs with e | hs
  · rw [e]; exact le_refl 2
  · rw [List.mem_singleton.1 hs]; exact le_refl 2

/-! ### Options -/

/-- C146: the solver is built exactly for the supported time integrators, velocity push and collision types, without the
Krook operator, and with a species called `electron`. -/
theorem build_iff (species : List String) (edfdv time fpType : String) (krookOn : Bool) :
    build species edfdv time fpType krookOn = .built ↔
      (time = "sixth" ∨ time = "leapfrog") ∧ edfdv = "exponential" ∧ "electron" ∈ species ∧
        fpType ∈ ["dougherty", "dougherty_nodrag", "lenard_bernstein", "cylindrical_landau"] ∧ krookOn = false := by
  unfold build
  by_cases h1 : time ≠ "sixth" ∧ time ≠ "leapfrog"
  · rw [if_pos h1]
    exact ⟨fun h => (by cases h), fun h => absurd h.1 (by rintro (e | e); exacts [h1.1 e, h1.2 e])⟩
  rw [if_neg h1]
  have h1' : time = "sixth" ∨ time = "leapfrog" := by by_contra hc; push Not at hc; exact h1 hc
  by_cases h2 : edfdv = "exponential"
  · by_cases h3 : "electron" ∈ species
    · by_cases h4 : fpType ∈ ["dougherty", "dougherty_nodrag", "lenard_bernstein", "cylindrical_landau"]
      · cases krookOn
        · simp only [h2, h3, not_true_eq_false, if_false, ne_eq, if_neg (not_not.2 h4)]
          exact ⟨fun _ => ⟨h1', trivial, trivial, h4, trivial⟩, fun _ => rfl⟩
        · simp only [h2, h3, not_true_eq_false, if_false, ne_eq, if_neg (not_not.2 h4)]
          exact ⟨fun h => (by cases h), fun h => (by cases h.2.2.2.2)⟩
      · simp only [h2, h3, not_true_eq_false, if_false, ne_eq, if_pos h4]
        exact ⟨fun h => (by cases h), fun h => absurd h.2.2.2.1 h4⟩
    · simp only [h2, h3, not_true_eq_false, if_false, ne_eq, not_false_eq_true, if_true]
      exact ⟨fun h => (by cases h), fun h => h.2.2.1.elim⟩
  · simp only [ne_eq, h2, not_false_eq_true, if_true]
    exact ⟨fun h => (by cases h), fun h => h.2.1.elim⟩

/-- C146: a deck whose options are all supported and whose collisions are off is still refused when no species is called
`electron`. -/
theorem electron_required (species : List String) (h : "electron" ∉ species) (fpType : String) (krookOn : Bool) :
    build species "exponential" "leapfrog" fpType krookOn = .keyError := by
  unfold build
  simp [h]

/-- C147: without a stochastic driver and without the Hou-Li filter the two solvers treat the deck alike. -/
theorem extras_partial {nx nv : ℕ} [NeZero nx] (d : Extras nx) (h1 : d.stochastic = none) (h2 : d.houLi = none) :
    (∀ ex t x, external2 d ex t x = external1 d ex t x) ∧ ∀ f : ZMod nx → ZMod nv → ℝ, after2 d f = after1 d f := by
  refine ⟨fun ex t x => ?_, fun f => ?_⟩
  · unfold external1 external2; rw [h1]; simp
  · unfold after1 after2; rw [h2]

/-- C147 fails in general: the 2V solver ignores a stochastic driver that is not identically zero. -/
theorem stochastic_ignored {nx : ℕ} (s : ℝ → ZMod nx → ℝ) (t : ℝ) (x : ZMod nx) (h : s t x ≠ 0) (hl : Option (ℝ × ℕ)) (ex : ℝ → ZMod nx → ℝ) :
    external2 ⟨some s, hl⟩ ex t x ≠ external1 ⟨some s, hl⟩ ex t x := by
  unfold external1 external2
  intro e
  exact h (by dsimp only at e; linarith)

/-- C147 fails in general: the 2V solver ignores the Hou-Li filter, which damps the shortest wave of the 1D solver. -/
theorem filter_ignored (alpha : ℝ) (ha : 0 < alpha) (order : ℕ) (s : Option (ℝ → ZMod 2 → ℝ)) :
    ∃ f : ZMod 2 → ZMod 1 → ℝ, after2 ⟨s, some (alpha, order)⟩ f ≠ after1 ⟨s, some (alpha, order)⟩ f := by
  obtain ⟨g, hg⟩ : ∃ g : ZMod 2 → ℝ, g = fun x => if x = 0 then 1 else -1 := ⟨_, rfl⟩
  have h0 : fft (fun j => (g j : ℂ)) 0 = 0 := by
    rw [fft_zero]
    have : ∑ j, g j = g 0 + g 1 := Fin.sum_univ_two g
    have hs : ∑ j, g j = 0 := by rw [this, hg]; simp
    rw [← Complex.ofReal_sum, hs, Complex.ofReal_zero]
  have h1 : fft (fun j => (g j : ℂ)) 1 ≠ 0 := by
    intro h
    have : g = fun _ => 0 := by
      refine fft_inj fun k => ?_
      have hz : fft (fun _ : ZMod 2 => ((0 : ℝ) : ℂ)) k = 0 := by
        have : (fun _ : ZMod 2 => ((0 : ℝ) : ℂ)) = 0 := by funext _; simp
        unfold fft
        rw [this, _root_.map_zero]; rfl
      rw [hz]
      have hk : k = 0 ∨ k = 1 := by clear hz; revert k; decide
      rcases hk with hk | hk <;> rw [hk]
      · exact h0
      · exact h
    have e := congrFun this 0
    rw [hg] at e
    simp at e
  refine ⟨fun x _ => g x, fun h => ?_⟩
  have e : g = filterRow (fun k => (houLi 2 alpha order k : ℂ)) g := by
    funext x; exact congrFun (congrFun h x) 0
  have e1 := fft_filterRow (fun k => (houLi 2 alpha order k : ℂ)) g 1
  rw [← e] at e1
  have hm : hermitian 2 (fun k => (houLi 2 alpha order k : ℂ)) 1 = ((Real.exp (-alpha) : ℝ) : ℂ) := by
    unfold hermitian
    rw [if_neg (by decide), if_pos (by decide)]
    have hv : (1 : ZMod 2).val = 1 := by decide
    dsimp only
    rw [hv, Complex.ofReal_re]
    unfold houLi
    norm_num
  rw [hm] at e1
  have e2 : ((1 : ℂ) - ((Real.exp (-alpha) : ℝ) : ℂ)) * fft (fun j => (g j : ℂ)) 1 = 0 := by
    rw [sub_mul, one_mul, ← e1, sub_self]
  rcases mul_eq_zero.1 e2 with h2 | h2
  · have : Real.exp (-alpha) = 1 := by
      have := sub_eq_zero.1 h2
      exact_mod_cast this.symm
    have hlt : Real.exp (-alpha) < 1 := by rw [Real.exp_lt_one_iff]; linarith
    linarith
  · exact h1 h2

end Verif.Vlasov2V

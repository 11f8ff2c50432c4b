import Verif.Model.VlasovShard
import Mathlib.Tactic.Ring

/-!
Vlasov-1D on several devices (C224): a run with `grid.parallel` is the serial run whenever the
lengths of the divided axes are multiples of the number of devices, and an error otherwise.
-/
namespace Verif.VlasovShard
open Verif.Spectral

variable {nx : ℕ}

/-! ### Dividing and joining -/

theorem fits_iff {devices n : ℕ} : fits devices n = true ↔ devices ∣ n := by
  simp [fits, Nat.dvd_iff_mod_eq_zero]

theorem block_size_pos [NeZero nx] {devices : ℕ} (h : devices ∣ nx) : 0 < nx / devices := by
  obtain ⟨M, hM⟩ := h
  have hn : nx ≠ 0 := NeZero.ne nx
  have hd : 0 < devices := by
    rcases Nat.eq_zero_or_pos devices with h0 | h0
    · exact absurd (by rw [hM, h0, zero_mul]) hn
    · exact h0
  rw [hM, Nat.mul_div_cancel_left _ hd]
  rcases Nat.eq_zero_or_pos M with h0 | h0
  · exact absurd (by rw [hM, h0, mul_zero]) hn
  · exact h0

/-- Every row of an array is on one device, at the place where `gather` looks for it. -/
theorem block_at {α : Type} [NeZero nx] {M : ℕ} (hM : 0 < M) (a : ZMod nx → α) (x : ZMod nx) :
    block M (x.val / M) a ((x.val % M : ℕ) : ZMod M) = a x := by
  have : NeZero M := ⟨hM.ne'⟩
  unfold block
  rw [ZMod.val_natCast, Nat.mod_mod, Nat.div_add_mod' x.val M, ZMod.natCast_zmod_val]

/-- The device that owns row `x` exists. -/
theorem device_lt [NeZero nx] {devices : ℕ} (h : devices ∣ nx) (x : ZMod nx) : x.val / (nx / devices) < devices := by
  have hM := block_size_pos h
  rw [Nat.div_lt_iff_lt_mul hM, Nat.mul_div_cancel' h]
  exact ZMod.val_lt x

/-! ### The divided operators are the undivided ones -/

theorem exponentialX_eq [NeZero nx] {devices : ℕ} (h : devices ∣ nx) (e pond : ZMod nx → ℝ) (dt : ℝ) (ss : List (Species nx)) :
    exponentialX devices e pond dt ss = .ok (ss.map (pushV e pond dt)) := by
  have hM := block_size_pos h
  unfold exponentialX
  rw [if_pos (fits_iff.2 h)]
  dsimp only
  congr 1
  refine List.map_congr_left fun s _ => ?_
  unfold pushV
  congr 1
  funext x
  show edfdv s.dv s.charge s.mass _ _ dt (block _ _ s.f) _ = _
  unfold edfdv
  rw [block_at hM, block_at hM, block_at hM]

theorem splineX_eq [NeZero nx] {devices : ℕ} (h : devices ∣ nx) (e pond : ZMod nx → ℝ) (dt : ℝ) (ss : List (Species nx)) :
    splineX devices e pond dt ss = spline e pond dt ss := by
  have hM := block_size_pos h
  unfold splineX spline
  rw [fits_iff.2 h, Bool.true_and]
  split
  · dsimp only
    congr 1
    refine List.map_congr_left fun s _ => ?_
    congr 1
    funext x j
    have h1 := block_at hM s.f x
    have h2 := block_at hM e x
    have h3 := block_at hM pond x
    simp only [gather, splineRows, speciesBlock, h1, h2, h3]
    rfl
  · rfl

theorem streamV_eq [NeZero nx] {devices : ℕ} (dx dt : ℝ) (ss : List (Species nx)) (h : ∀ s ∈ ss, devices ∣ s.nv) :
    streamV devices dx dt ss = .ok (ss.map (pushX dx dt)) := by
  induction ss with
  | nil => rfl
  | cons s ss ih =>
    have hs := h s (by simp)
    have hM := block_size_pos hs
    unfold streamV
    rw [if_pos (fits_iff.2 hs), ih fun t ht => h t (by simp [ht])]
    dsimp only [List.map_cons]
    congr 2
    unfold pushX
    congr 1
    funext x j
    show vdfdx dx (block _ _ s.v) dt (fun y => block _ _ (s.f y)) x _ = _
    unfold vdfdx
    rw [block_at hM]
    congr 1
    funext y
    exact congrFun (congrArg _ rfl) _ |>.trans (block_at hM (s.f y) j)

/-- Without a common divisor `shard_map` refuses. -/
theorem streamV_error [NeZero nx] {devices : ℕ} (dx dt : ℝ) (ss : List (Species nx)) (h : ¬ ∀ s ∈ ss, devices ∣ s.nv) :
    streamV devices dx dt ss = .error "ValueError" := by
  induction ss with
  | nil => simp at h
  | cons s ss ih =>
    unfold streamV
    by_cases hs : devices ∣ s.nv
    · rw [if_pos (fits_iff.2 hs), ih fun hh => h fun t ht => by
        rcases List.mem_cons.1 ht with rfl | ht
        · exact hs
        · exact hh t ht]
    · rw [if_neg (by rw [fits_iff]; exact hs)]

/-! ### The requirement of the documentation -/

/-- "`nx` must be divisible by the device count for x, and every species' `nv` for v." -/
def Divisible (p : Parallel) (devices nx : ℕ) (nvs : List ℕ) : Prop :=
  (isParallel p "x" = true → devices ∣ nx) ∧ (isParallel p "v" = true → ∀ n ∈ nvs, devices ∣ n)

/-- Numbers of velocity cells of the species. -/
def sizes (ss : List (Species nx)) : List ℕ := ss.map (·.nv)

theorem velocityPush_eq [NeZero nx] (k : Push) {p : Parallel} {devices : ℕ} (h : isParallel p "x" = true → devices ∣ nx)
    (e pond : ZMod nx → ℝ) (dt : ℝ) (ss : List (Species nx)) :
    velocityPush k p devices e pond dt ss = velocityPush k none 1 e pond dt ss := by
  unfold velocityPush
  cases hp : isParallel p "x" with
  | false => cases k <;> rfl
  | true =>
    cases k
    · exact exponentialX_eq (h hp) e pond dt ss
    · exact splineX_eq (h hp) e pond dt ss

theorem spacePush_eq [NeZero nx] {p : Parallel} {devices : ℕ} (dx dt : ℝ) (ss : List (Species nx))
    (h : isParallel p "v" = true → ∀ n ∈ sizes ss, devices ∣ n) :
    spacePush p devices dx dt ss = .ok (ss.map (pushX dx dt)) := by
  unfold spacePush
  split
  · rename_i hp
    exact streamV_eq dx dt ss fun s hs => h hp _ (List.mem_map_of_mem hs)
  · rfl

theorem sizes_space [NeZero nx] (dx dt : ℝ) (ss : List (Species nx)) : sizes (ss.map (pushX dx dt)) = sizes ss := by
  simp [sizes, pushX]

theorem sizes_velocity [NeZero nx] {k : Push} {e pond : ZMod nx → ℝ} {dt : ℝ} {ss ts : List (Species nx)}
    (h : velocityPush k none 1 e pond dt ss = .ok ts) : sizes ts = sizes ss := by
  cases k
  · simp only [velocityPush, isParallel, Except.ok.injEq] at h
    subst h
    simp [sizes, pushV]
  · simp only [velocityPush, isParallel, spline] at h
    split at h
    · simp only [Except.ok.injEq] at h
      subst h
      simp [sizes]
    · exact absurd h (by simp)

/-- The pushers of a sequence of substeps keep the sizes, so one check at the start is enough. -/
theorem bind_same {α : Type} [NeZero nx] {l : List ℕ} {u v : Except String (List (Species nx))}
    {F G : List (Species nx) → Except String α} (huv : u = v) (hv : ∀ ts, v = .ok ts → sizes ts = l)
    (hF : ∀ ts, sizes ts = l → F ts = G ts) : u.bind F = v.bind G := by
  subst huv
  cases u with
  | error e => rfl
  | ok ts => exact hF ts (hv ts rfl)

theorem space_same [NeZero nx] {p : Parallel} {devices : ℕ} {l : List ℕ} (h : isParallel p "v" = true → ∀ n ∈ l, devices ∣ n)
    (dx dt : ℝ) {ss : List (Species nx)} (hs : sizes ss = l) :
    spacePush p devices dx dt ss = spacePush none 1 dx dt ss ∧ ∀ ts, spacePush none 1 dx dt ss = .ok ts → sizes ts = l := by
  have h1 : spacePush none 1 dx dt ss = .ok (ss.map (pushX dx dt)) := spacePush_eq dx dt ss (by simp [isParallel])
  refine ⟨by rw [spacePush_eq dx dt ss (by rw [hs]; exact h), h1], fun ts ht => ?_⟩
  rw [h1] at ht
  simp only [Except.ok.injEq] at ht
  rw [← ht, sizes_space, hs]

theorem kick_same [NeZero nx] (k : Push) {p : Parallel} {devices : ℕ} {l : List ℕ} (h : isParallel p "x" = true → devices ∣ nx)
    (dx : ℝ) (field : FieldKind nx) (pond drv : ZMod nx → ℝ) (c : ℝ) {ss : List (Species nx)} (hs : sizes ss = l) :
    kickP k p devices dx field pond drv c ss = kickP k none 1 dx field pond drv c ss ∧
      ∀ ts, kickP k none 1 dx field pond drv c ss = .ok ts → sizes ts = l :=
  ⟨velocityPush_eq k h _ _ _ _, fun _ ht => (sizes_velocity ht).trans hs⟩

/-- The time step of either integrator does not depend on the division. -/
theorem integrator_parallel [NeZero nx] (time : TimeKind) (k : Push) {p : Parallel} {devices : ℕ} (dx dt : ℝ) (field : FieldKind nx)
    (a : ℕ → ℝ) (dex : ℕ → ZMod nx → ℝ) (prev : ZMod nx → ℝ) (ss : List (Species nx)) (h : Divisible p devices nx (sizes ss)) :
    integratorP time k p devices dx dt field a dex prev ss = integratorP time k none 1 dx dt field a dex prev ss := by
  obtain ⟨hx, hv⟩ := h
  cases time with
  | leapfrog =>
    simp only [integratorP, leapfrogP, (space_same hv dx dt rfl).1]
    cases spacePush none 1 dx dt ss with
    | error e => rfl
    | ok fv => simp only [velocityPush_eq k hx]
  | sixth =>
    simp only [integratorP, sixthP]
    refine bind_same (kick_same k hx _ _ _ _ _ rfl).1 (kick_same k hx _ _ _ _ _ rfl).2 fun s hs => ?_
    refine bind_same (space_same hv _ _ hs).1 (space_same hv _ _ hs).2 fun s hs => ?_
    refine bind_same (kick_same k hx _ _ _ _ _ hs).1 (kick_same k hx _ _ _ _ _ hs).2 fun s hs => ?_
    refine bind_same (space_same hv _ _ hs).1 (space_same hv _ _ hs).2 fun s hs => ?_
    refine bind_same (kick_same k hx _ _ _ _ _ hs).1 (kick_same k hx _ _ _ _ _ hs).2 fun s hs => ?_
    refine bind_same (space_same hv _ _ hs).1 (space_same hv _ _ hs).2 fun s hs => ?_
    refine bind_same (kick_same k hx _ _ _ _ _ hs).1 (kick_same k hx _ _ _ _ _ hs).2 fun s hs => ?_
    refine bind_same (space_same hv _ _ hs).1 (space_same hv _ _ hs).2 fun s hs => ?_
    refine bind_same (kick_same k hx _ _ _ _ _ hs).1 (kick_same k hx _ _ _ _ _ hs).2 fun s hs => ?_
    refine bind_same (space_same hv _ _ hs).1 (space_same hv _ _ hs).2 fun s hs => ?_
    refine bind_same (kick_same k hx _ _ _ _ _ hs).1 (kick_same k hx _ _ _ _ _ hs).2 fun s hs => rfl

/-- Serially, with the exponential push, this is the step of the other theorems on Vlasov-1D. -/
theorem integrator_serial [NeZero nx] (time : TimeKind) (dx dt : ℝ) (field : FieldKind nx)
    (a : ℕ → ℝ) (dex : ℕ → ZMod nx → ℝ) (prev : ZMod nx → ℝ) (ss : List (Species nx)) :
    integratorP time .exponential none 1 dx dt field a dex prev ss = .ok (vlasovStep time dx dt field a dex (prev, ss)) := by
  cases time <;> rfl

theorem sizes_integrator [NeZero nx] {time : TimeKind} {k : Push} {dx dt : ℝ} {field : FieldKind nx}
    {a : ℕ → ℝ} {dex : ℕ → ZMod nx → ℝ} {prev : ZMod nx → ℝ} {ss : List (Species nx)} {out : (ZMod nx → ℝ) × List (Species nx)}
    (h : integratorP time k none 1 dx dt field a dex prev ss = .ok out) : sizes out.2 = sizes ss := by
  have hv : isParallel none "v" = true → ∀ n ∈ sizes ss, 1 ∣ n := by simp [isParallel]
  have hx : isParallel none "x" = true → 1 ∣ nx := by simp [isParallel]
  have step : ∀ {u : Except String (List (Species nx))} {F : List (Species nx) → Except String ((ZMod nx → ℝ) × List (Species nx))},
      u.bind F = .ok out → (∀ ts, u = .ok ts → sizes ts = sizes ss) → ∃ ts, sizes ts = sizes ss ∧ u = .ok ts ∧ F ts = .ok out := by
    intro u F hu hs
    cases u with
    | error e => exact absurd hu (by simp [Except.bind])
    | ok ts => exact ⟨ts, hs ts rfl, rfl, hu⟩
  cases time with
  | leapfrog =>
    simp only [integratorP, leapfrogP] at h
    rw [spacePush_eq dx dt ss (by simp [isParallel])] at h
    simp only at h
    split at h
    · exact absurd h (by simp)
    · rename_i o ho
      simp only [Except.ok.injEq] at h
      subst h
      simp only [sizes_velocity ho, sizes_space]
  | sixth =>
    simp only [integratorP, sixthP] at h
    obtain ⟨s, hs, -, h⟩ := step h (kick_same k hx _ _ _ _ _ rfl).2
    obtain ⟨s, hs, -, h⟩ := step h (space_same hv _ _ hs).2
    obtain ⟨s, hs, -, h⟩ := step h (kick_same k hx _ _ _ _ _ hs).2
    obtain ⟨s, hs, -, h⟩ := step h (space_same hv _ _ hs).2
    obtain ⟨s, hs, -, h⟩ := step h (kick_same k hx _ _ _ _ _ hs).2
    obtain ⟨s, hs, -, h⟩ := step h (space_same hv _ _ hs).2
    obtain ⟨s, hs, -, h⟩ := step h (kick_same k hx _ _ _ _ _ hs).2
    obtain ⟨s, hs, -, h⟩ := step h (space_same hv _ _ hs).2
    obtain ⟨s, hs, -, h⟩ := step h (kick_same k hx _ _ _ _ _ hs).2
    obtain ⟨s, hs, -, h⟩ := step h (space_same hv _ _ hs).2
    obtain ⟨t, ht, -, h⟩ := step h (kick_same k hx _ _ _ _ _ hs).2
    simp only [Except.ok.injEq] at h
    subst h
    exact ht

/-! ### Collisions -/

/-- The collision operator divided over the devices has exactly the results of the undivided one. -/
theorem applied_parallel [NeZero nx] (c : CollCfg) {p : Parallel} {devices : ℕ} (h : isParallel p "x" = true → devices ∣ nx)
    (nuFp nuK : Option (ZMod nx → ℝ)) (dt : ℝ) (s : Species nx) (g : Option (ZMod nx → ZMod s.nv → ℝ)) :
    Applied c p devices nuFp nuK dt s g ↔ Applied c none 1 nuFp nuK dt s g := by
  have hser : Applied c none 1 nuFp nuK dt s g ↔ ∃ h, Collide c (nuFp.getD 0) (nuK.getD 0) dt s h ∧ g = some h := by
    simp [Applied, isParallel]
  rw [hser]
  unfold Applied
  cases hp : isParallel p "x" with
  | false => simp
  | true =>
    have hd := h hp
    have hM := block_size_pos hd
    have : NeZero (nx / devices) := ⟨hM.ne'⟩
    simp only [if_true, fits_iff.2 hd]
    constructor
    · rintro ⟨parts, hparts, rfl⟩
      refine ⟨_, fun x => ?_, rfl⟩
      have hx := hparts (x.val / (nx / devices)) (device_lt hd x) ((x.val % (nx / devices) : ℕ) : ZMod (nx / devices))
      rw [block_at hM, block_at hM] at hx
      have hf : (speciesBlock (nx / devices) (x.val / (nx / devices)) s).f ((x.val % (nx / devices) : ℕ) : ZMod (nx / devices)) =
          s.f x := block_at hM s.f x
      rw [hf] at hx
      exact hx
    · rintro ⟨g', hg', rfl⟩
      refine ⟨fun r => block (nx / devices) r g', fun r hr i => ?_, ?_⟩
      · exact hg' _
      · congr 1
        funext x
        exact (block_at hM g' x).symm

theorem collided_parallel [NeZero nx] (c : CollCfg) {p : Parallel} {devices : ℕ} (h : isParallel p "x" = true → devices ∣ nx)
    (ref : ℕ) (nuFp nuK : Option (ZMod nx → ℝ)) (dt : ℝ) (ss : List (Species nx)) (out : Option (List (Species nx))) :
    Collided c p devices ref nuFp nuK dt ss out ↔ Collided c none 1 ref nuFp nuK dt ss out := by
  unfold Collided
  cases ss[ref]? with
  | none => rfl
  | some s => simp only [applied_parallel c h]

theorem sizes_collided {c : CollCfg} {p : Parallel} {devices ref : ℕ} {nuFp nuK : Option (ZMod nx → ℝ)} {dt : ℝ}
    {ss : List (Species nx)} {out : Option (List (Species nx))} (h : Collided c p devices ref nuFp nuK dt ss out) :
    ∀ ts ∈ out, sizes ts = sizes ss := by
  intro ts hts
  unfold Collided at h
  cases hr : ss[ref]? with
  | none =>
    rw [hr] at h
    simp only at h
    subst h
    simp only [Option.mem_some_iff] at hts
    rw [hts]
  | some s =>
    rw [hr] at h
    obtain ⟨g, -, rfl⟩ := h
    cases g with
    | none => simp at hts
    | some g =>
      simp only [Option.map_some, Option.mem_some_iff] at hts
      subst hts
      apply List.ext_getElem?
      intro i
      simp only [sizes, List.getElem?_map, List.getElem?_set]
      split
      · rename_i hi
        subst hi
        split
        · simp [hr]
        · rename_i hl
          rw [List.getElem?_eq_none (by omega)]
      · rfl

theorem sizes_filtered [NeZero nx] (h : Option (ℝ × ℕ)) (ss : List (Species nx)) : sizes (filtered h ss) = sizes ss := by
  cases h <;> simp [filtered, sizes]

/-! ### Whole runs -/

theorem step_parallel [NeZero nx] (c : Cfg nx) {devices : ℕ} (d : Drive nx) (y : (ZMod nx → ℝ) × List (Species nx))
    (h : Divisible c.parallel devices nx (sizes y.2)) (out : Option ((ZMod nx → ℝ) × List (Species nx))) :
    Step c devices d y out ↔ Step { c with parallel := none } 1 d y out := by
  unfold Step
  simp only [integrator_parallel c.time c.push c.dx c.dt c.field d.a d.dex y.1 y.2 h]
  split
  · rfl
  · simp only [collided_parallel c.coll h.1]

theorem step_sizes [NeZero nx] {c : Cfg nx} {d : Drive nx} {y z : (ZMod nx → ℝ) × List (Species nx)}
    (h : Step { c with parallel := none } 1 d y (some z)) : sizes z.2 = sizes y.2 := by
  unfold Step at h
  split at h
  · exact absurd h (by simp)
  · rename_i e ss hs
    obtain ⟨cs, hcs, hz⟩ := h
    cases cs with
    | none => exact absurd hz (by simp)
    | some ts =>
      simp only [Option.map_some, Option.some.injEq] at hz
      subst hz
      rw [sizes_filtered, sizes_collided hcs ts rfl]
      exact sizes_integrator hs

/-- **C224.** A run with any choice of parallel axes, on any number of devices that divides the
lengths of the divided axes, has exactly the results of the serial run: any number of steps, any
species, fields, drivers, collisions and filter. -/
theorem run_parallel [NeZero nx] (c : Cfg nx) {devices : ℕ} (ds : List (Drive nx)) (y : (ZMod nx → ℝ) × List (Species nx))
    (h : Divisible c.parallel devices nx (sizes y.2)) (out : Option ((ZMod nx → ℝ) × List (Species nx))) :
    Run c devices ds y out ↔ Run { c with parallel := none } 1 ds y out := by
  induction ds generalizing y with
  | nil => rfl
  | cons d ds ih =>
    simp only [Run]
    constructor
    · rintro ⟨mid, hmid, hout⟩
      have hs := (step_parallel c d y h mid).1 hmid
      refine ⟨mid, hs, ?_⟩
      cases mid with
      | none => exact hout
      | some z => exact (ih z (by rw [step_sizes hs]; exact h)).1 hout
    · rintro ⟨mid, hs, hout⟩
      refine ⟨mid, (step_parallel c d y h mid).2 hs, ?_⟩
      cases mid with
      | none => exact hout
      | some z => exact (ih z (by rw [step_sizes hs]; exact h)).2 hout

/-- **C224.** The number of devices does not matter. -/
theorem run_devices [NeZero nx] (c : Cfg nx) {devices devices' : ℕ} (ds : List (Drive nx)) (y : (ZMod nx → ℝ) × List (Species nx))
    (h : Divisible c.parallel devices nx (sizes y.2)) (h' : Divisible c.parallel devices' nx (sizes y.2))
    (out : Option ((ZMod nx → ℝ) × List (Species nx))) :
    Run c devices ds y out ↔ Run c devices' ds y out := by
  rw [run_parallel c ds y h, run_parallel c ds y h']

theorem velocityPush_error [NeZero nx] (k : Push) {p : Parallel} {devices : ℕ} (hp : isParallel p "x" = true) (h : ¬ devices ∣ nx)
    (e pond : ZMod nx → ℝ) (dt : ℝ) (ss : List (Species nx)) :
    velocityPush k p devices e pond dt ss = .error "ValueError" := by
  have hf : fits devices nx = false := by
    rw [← Bool.not_eq_true, fits_iff]
    exact h
  unfold velocityPush
  rw [hp]
  cases k
  · simp [exponentialX, hf]
  · simp [splineX, hf]

/-- An integrator step with a length that cannot be divided is an error. -/
theorem integrator_refused [NeZero nx] (time : TimeKind) (k : Push) {p : Parallel} {devices : ℕ} (dx dt : ℝ) (field : FieldKind nx)
    (a : ℕ → ℝ) (dex : ℕ → ZMod nx → ℝ) (prev : ZMod nx → ℝ) (ss : List (Species nx)) (h : ¬ Divisible p devices nx (sizes ss)) :
    ∃ err, integratorP time k p devices dx dt field a dex prev ss = .error err := by
  by_cases hx : isParallel p "x" = true → devices ∣ nx
  · have hv : ¬ (isParallel p "v" = true → ∀ n ∈ sizes ss, devices ∣ n) := fun hv => h ⟨hx, hv⟩
    rw [Classical.not_imp] at hv
    obtain ⟨hp, hv⟩ := hv
    have key : ∀ (dt' : ℝ) (ts : List (Species nx)), sizes ts = sizes ss → spacePush p devices dx dt' ts = .error "ValueError" := by
      intro dt' ts hts
      unfold spacePush
      rw [if_pos hp]
      refine streamV_error dx dt' ts fun hall => hv ?_
      rw [← hts]
      intro n hn
      obtain ⟨s, hs, rfl⟩ := List.mem_map.1 hn
      exact hall s hs
    cases time with
    | leapfrog => exact ⟨_, by simp only [integratorP, leapfrogP, key dt ss rfl]; rfl⟩
    | sixth =>
      simp only [integratorP, sixthP]
      cases hk : kickP k p devices dx field (ponderomotive dx a) (dex 0) (D1 dt * dt) ss with
      | error err => exact ⟨err, rfl⟩
      | ok ts =>
        rw [(kick_same k hx dx field _ _ _ rfl).1] at hk
        refine ⟨"ValueError", ?_⟩
        simp only [Except.bind, key (a1 * dt) ts (sizes_velocity hk)]
  · rw [Classical.not_imp] at hx
    have key := fun e pond c ts => velocityPush_error k hx.1 hx.2 e pond c (ts : List (Species nx))
    cases time with
    | leapfrog =>
      simp only [integratorP, leapfrogP]
      cases spacePush p devices dx dt ss with
      | error err => exact ⟨err, rfl⟩
      | ok fv => exact ⟨"ValueError", by simp only [key]⟩
    | sixth => exact ⟨"ValueError", by simp only [integratorP, sixthP, kickP, key, Except.bind]⟩

/-- **C224.** Otherwise the run is refused in its first step: no result, never a wrong one. -/
theorem run_refused [NeZero nx] (c : Cfg nx) {devices : ℕ} (d : Drive nx) (ds : List (Drive nx)) (y : (ZMod nx → ℝ) × List (Species nx))
    (h : ¬ Divisible c.parallel devices nx (sizes y.2)) (out : Option ((ZMod nx → ℝ) × List (Species nx))) :
    Run c devices (d :: ds) y out ↔ out = none := by
  obtain ⟨err, herr⟩ := integrator_refused c.time c.push c.dx c.dt c.field d.a d.dex y.1 y.2 h
  simp only [Run, Step, herr]
  simp

/-- With the collisions off the collision operator returns what it got. -/
theorem collided_off {c : CollCfg} (h1 : c.fpOn = false) (h2 : c.krookOn = false) (ref : ℕ) (nuFp nuK : Option (ZMod nx → ℝ)) (dt : ℝ)
    (ss : List (Species nx)) : Collided c none 1 ref nuFp nuK dt ss (some ss) := by
  unfold Collided
  cases hr : ss[ref]? with
  | none => rfl
  | some s =>
    refine ⟨some s.f, ?_, ?_⟩
    · simp only [Applied, isParallel, Bool.false_eq_true, if_false]
      refine ⟨s.f, fun x => ⟨row (s.f x), ?_, fun i _ => ?_⟩, rfl⟩
      · simp [h1]
      · simp [h2]
    · simp only [Option.map_some, Option.some.injEq]
      apply List.ext_getElem?
      intro i
      rw [List.getElem?_set]
      split
      · rename_i hi
        subst hi
        have hl : ref < ss.length := by
          by_contra hl
          rw [List.getElem?_eq_none (by omega)] at hr
          exact absurd hr (by simp)
        rw [if_pos hl, hr]
      · rfl

/-- A collisionless run with the exponential push, divided in any way, is the run of the other
theorems on Vlasov-1D. -/
theorem run_collisionless [NeZero nx] (c : Cfg nx) {devices : ℕ} {y : (ZMod nx → ℝ) × List (Species nx)}
    (h : Divisible c.parallel devices nx (sizes y.2)) (hk : c.push = .exponential) (h1 : c.coll.fpOn = false)
    (h2 : c.coll.krookOn = false) (h3 : c.houLi = none) (ds : List (Drive nx)) :
    Run c devices ds y (some (vlasovRun c.time c.dx c.dt c.field y (ds.map fun d => (d.a, d.dex)))) := by
  rw [run_parallel c ds y h]
  clear h
  induction ds generalizing y with
  | nil => rfl
  | cons d ds ih =>
    refine ⟨some (vlasovStep c.time c.dx c.dt c.field d.a d.dex y), ?_, ?_⟩
    · unfold Step
      simp only [hk, integrator_serial]
      exact ⟨some _, collided_off h1 h2 _ _ _ _ _, by simp [filtered, h3]⟩
    · exact ih

/-- Without axes nothing is divided and no number of devices is refused. -/
theorem divisible_serial (devices nx : ℕ) (nvs : List ℕ) : Divisible none devices nx nvs ∧ Divisible (some []) devices nx nvs := by
  simp [Divisible, isParallel]

/-! ### Non-vacuity -/

/-- Four cells and six velocities on two devices, both axes divided. -/
example : Divisible (some ["x", "v"]) 2 4 [6] := by
  refine ⟨fun _ => ⟨2, rfl⟩, fun _ n hn => ?_⟩
  simp only [List.mem_singleton] at hn
  subst hn
  exact ⟨3, rfl⟩

/-- On four devices the six velocities cannot be divided. -/
example : ¬ Divisible (some ["x", "v"]) 4 4 [6] := by
  intro h
  have := h.2 (by decide) 6 (by simp)
  omega

/-- The third device of four holds rows 4 and 5 of eight. -/
example (a : ZMod 8 → ℝ) : block 2 2 a 0 = a 4 ∧ block 2 2 a 1 = a 5 := by
  constructor <;> rfl

/-- Dividing an axis is not harmless in general: the mean over the rows, computed on each device,
is not the mean. -/
example : ∃ a : ZMod 4 → ℚ, (gather 2 fun r _ => (block 2 r a 0 + block 2 r a 1) / 2 : ZMod 4 → ℚ) ≠
    fun _ => (a 0 + a 1 + a 2 + a 3) / 4 := by
  refine ⟨fun x => if x.val = 0 then 4 else 0, fun h => ?_⟩
  have := congrFun h 3
  revert this
  decide +kernel

/-- A run that exists: leapfrog, exponential push, two devices. -/
noncomputable example (s : Species 4) (hs : s.nv = 6) (d : Drive 4) :
    ∃ out, Run ⟨.leapfrog, .exponential, some ["x", "v"], 1, 1, .ampere, ⟨false, false, .doughertyCC, 2, 0, 1⟩, 0, none⟩ 2 [d, d]
      (0, [s]) (some out) := by
  refine ⟨_, run_collisionless (y := (0, [s])) _ ?_ rfl rfl rfl rfl [d, d]⟩
  refine ⟨fun _ => ⟨2, rfl⟩, fun _ n hn => ?_⟩
  simp only [sizes, List.map_cons, List.map_nil, List.mem_singleton] at hn
  rw [hn, hs]
  exact ⟨3, rfl⟩

end Verif.VlasovShard

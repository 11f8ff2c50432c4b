import Verif.Props.VlasovShard
import Verif.Props.Integrator
import Verif.Props.Krook

/-!
Complete Vlasov-1D runs (C225): integrator, collisions of every type, Krook operator, filter and
division over devices together keep the particles of every species, Gauss's law and, for the
Chang-Cooper operators, the sign of the distribution.
-/
namespace Verif.VlasovShard
open Verif.Spectral Finset

variable {nx : ℕ}

theorem sum_row {n : ℕ} [NeZero n] (f : ZMod n → ℝ) : ∑ i ∈ range n, row f i = ∑ j, f j := by
  obtain ⟨m, rfl⟩ : ∃ m, n = m + 1 := ⟨n - 1, by have := NeZero.pos n; omega⟩
  rw [Finset.sum_range]
  refine Finset.sum_congr rfl fun j _ => ?_
  unfold row
  exact congrArg f (Fin.cast_val_eq_self j)

/-! ### One collision step -/

/-- Every configured collision operator keeps the number of particles of a cell. -/
theorem fp_density {c : CollCfg} {n : ℕ} (hn : 2 ≤ n) {v : ℕ → ℝ} {dv nu dt : ℝ} {f f' : ℕ → ℝ} (h : FpRow c n v dv nu dt f f') :
    ∑ i ∈ range n, f' i = ∑ i ∈ range n, f i := by
  obtain ⟨beta, -, h⟩ := h
  dsimp only at h
  cases hk : c.kind <;> rw [hk] at h <;> dsimp only at h
  · exact FP.collisions_conserve_density _ _ _ _ _ _ f _ _ (Or.inl h)
  · exact FP.collisions_conserve_density _ _ _ _ _ _ f _ _ (Or.inr (Or.inl h))
  · exact FP.collisions_conserve_density _ _ _ _ _ _ f _ _ (Or.inr (Or.inl h))
  · exact FP.collisions_conserve_density _ _ _ _ _ _ f _ _ (Or.inl h)
  · exact FP.collisions_conserve_density _ _ _ _ _ _ f _ _ (Or.inr (Or.inl h))
  · exact FP.nodrag_conserves_density n hn _ _ _ _ _ _ _ _ h

theorem row_density {c : CollCfg} {n : ℕ} (hn : 2 ≤ n) {v : ℕ → ℝ} {dv mass nuFp nuK dt : ℝ} (hdv : 0 < dv) {f f' : ℕ → ℝ}
    (h : CollideRow c n v dv mass nuFp nuK dt f f') : ∑ i ∈ range n, f' i = ∑ i ∈ range n, f i := by
  obtain ⟨g, h1, h2⟩ := h
  have hg : ∑ i ∈ range n, g i = ∑ i ∈ range n, f i := by
    split at h1
    · exact fp_density hn h1
    · exact Finset.sum_congr rfl fun i hi => h1 i (mem_range.1 hi)
  rw [Finset.sum_congr rfl fun i hi => h2 i (mem_range.1 hi), ← hg]
  cases c.krookOn
  · simp
  · simp only [if_true]
    have hk := (FP.krook_step n (by omega) v dv c.T0 mass hdv nuK dt g).1
    exact mul_right_cancel₀ hdv.ne' hk

/-- The collision operator keeps the density profile of the species it acts on. -/
theorem collide_density {c : CollCfg} {nuFp nuK : ZMod nx → ℝ} {dt : ℝ} {s : Species nx} (hn : 2 ≤ s.nv) (hdv : 0 < s.dv)
    {g : ZMod nx → ZMod s.nv → ℝ} (h : Collide c nuFp nuK dt s g) (x : ZMod nx) : ∑ j, g x j = ∑ j, s.f x j := by
  rw [← sum_row, ← sum_row]
  exact row_density hn hdv (h x)

/-- The types whose differencing is that of Chang and Cooper. -/
def isChangCooper : FP.Kind → Bool
  | .lenardBernsteinCC | .doughertyCC | .superGaussian => true
  | _ => false

/-- Chang-Cooper collisions and the Krook operator keep `f ≥ 0`. -/
theorem collide_positive {c : CollCfg} {nuFp nuK : ZMod nx → ℝ} {dt : ℝ} (hdt : 0 ≤ dt) (h1 : ∀ x, 0 ≤ nuFp x) (h2 : ∀ x, 0 ≤ nuK x)
    (hc : c.fpOn = true → isChangCooper c.kind = true) {s : Species nx} (hdv : 0 < s.dv) (hf : ∀ x j, 0 ≤ s.f x j)
    {g : ZMod nx → ZMod s.nv → ℝ} (h : Collide c nuFp nuK dt s g) (x : ZMod nx) (j : ZMod s.nv) : 0 ≤ g x j := by
  obtain ⟨k, hk1, hk2⟩ := h x
  have hkpos : ∀ i < s.nv, 0 ≤ k i := by
    cases hfp : c.fpOn with
    | false =>
      rw [hfp] at hk1
      intro i hi
      rw [hk1 i hi]
      exact hf x _
    | true =>
      rw [hfp] at hk1
      simp only [if_true] at hk1
      obtain ⟨beta, -, hb⟩ := hk1
      dsimp only at hb
      have hcc := hc hfp
      cases hkind : c.kind <;> rw [hkind] at hb hcc <;> simp only [isChangCooper, Bool.false_eq_true] at hcc <;> dsimp only at hb <;>
        exact FP.chang_cooper_positive _ _ _ _ _ _ _ _ hdv hdt (fun _ _ => h1 x) (fun i _ => hf x _) hb
  have hj : row (g x) j.val = g x j := by
    unfold row
    rw [ZMod.natCast_zmod_val]
  rw [← hj, hk2 j.val (ZMod.val_lt j)]
  split
  · have hkr := (FP.krook_step s.nv (NeZero.pos _) (row s.v) s.dv c.T0 s.mass hdv (nuK x) dt k).2.2.1
    exact hkr (mul_nonneg hdt (h2 x)) hkpos _ (ZMod.val_lt j)
  · exact hkpos _ (ZMod.val_lt j)

/-- A collision step with a Chang-Cooper operator always has a result, so that nothing here is
about an empty set of runs. -/
theorem collide_exists (c : CollCfg) (nuFp nuK : ZMod nx → ℝ) {dt : ℝ} (hdt : 0 ≤ dt) (h1 : ∀ x, 0 ≤ nuFp x)
    (hc : c.fpOn = true → isChangCooper c.kind = true) (s : Species nx) (hdv : 0 < s.dv) : ∃ g, Collide c nuFp nuK dt s g := by
  have beta : ∀ (v f : ℕ → ℝ), ∃ b, BetaOf c s.nv v s.dv f b := by
    intro v f
    unfold BetaOf
    cases c.kind <;> simp only [Beta.Find, Beta.ComputeBeta] <;> split <;>
      first
      | exact ⟨_, rfl⟩
      | exact ⟨_, 1, le_refl 1, by omega, rfl⟩
  have fp : ∀ x, ∃ k, (if c.fpOn then FpRow c s.nv (row s.v) s.dv (nuFp x) dt (row (s.f x)) k else ∀ i < s.nv, k i = row (s.f x) i) := by
    intro x
    cases hfp : c.fpOn with
    | false => exact ⟨_, fun _ _ => rfl⟩
    | true =>
      obtain ⟨b, hb⟩ := beta (row s.v) (row (s.f x))
      have hcc := hc hfp
      simp only [if_true, FpRow]
      have ex : ∀ C D : ℕ → ℝ, ∃ k, FP.SolveOneX s.nv (FP.changCooper s.nv s.dv C D (fun _ => nuFp x) dt) (row (s.f x)) k := fun C D =>
        (FP.chang_cooper_unique s.nv s.dv C D (fun _ => nuFp x) dt hdv hdt (fun _ _ => h1 x) (row (s.f x))).1
      cases hkind : c.kind <;> rw [hkind] at hcc <;> simp only [isChangCooper, Bool.false_eq_true] at hcc
      · obtain ⟨k, hk⟩ := ex (FP.betaModel (row s.v) ((vbar .lenardBernsteinCC s.nv (row s.v) (row (s.f x))).getD 0) b).1
          (fun _ => (FP.betaModel (row s.v) ((vbar .lenardBernsteinCC s.nv (row s.v) (row (s.f x))).getD 0) b).2)
        exact ⟨k, b, hb, hk⟩
      · obtain ⟨k, hk⟩ := ex (FP.betaModel (row s.v) ((vbar .doughertyCC s.nv (row s.v) (row (s.f x))).getD 0) b).1
          (fun _ => (FP.betaModel (row s.v) ((vbar .doughertyCC s.nv (row s.v) (row (s.f x))).getD 0) b).2)
        exact ⟨k, b, hb, hk⟩
      · obtain ⟨k, hk⟩ := ex (FP.superGaussianModel (row s.v) s.dv ((vbar .superGaussian s.nv (row s.v) (row (s.f x))).getD 0) b c.m
          (Beta.diffusion c.m b)) (fun _ => Beta.diffusion c.m b)
        exact ⟨k, b, hb, hk⟩
  choose k hk using fp
  refine ⟨fun x j => if c.krookOn then FP.krook s.nv s.dv (FP.krookMaxwellian s.nv (row s.v) s.dv c.T0 s.mass) (nuK x) (k x) dt j.val
    else k x j.val, fun x => ⟨k x, hk x, fun i hi => ?_⟩⟩
  simp only [row, ZMod.val_cast_of_lt hi]

/-! ### Whole runs -/

/-- What is asked of every species: two velocity cells and a positive spacing. -/
def Good (ss : List (Species nx)) : Prop := ∀ s ∈ ss, 2 ≤ s.nv ∧ 0 < s.dv

theorem good_of_parameters {ss ts : List (Species nx)} (h : ts.map parameters = ss.map parameters) (hs : Good ss) : Good ts := by
  intro t ht
  have : parameters t ∈ ss.map parameters := h ▸ List.mem_map_of_mem ht
  obtain ⟨s, hs', he⟩ := List.mem_map.1 this
  have h1 := congrArg (fun p => p.2.2.1) he
  have h2 := congrArg (fun p => p.2.2.2.1) he
  simp only [parameters] at h1 h2
  have := hs s hs'
  rw [h1, h2] at this
  exact this

/-- Density profiles of all species and their order. -/
noncomputable def profiles (ss : List (Species nx)) : List (ZMod nx → ℝ) := ss.map Species.density

theorem set_same {α β : Type} (f : α → β) (l : List α) (i : ℕ) (a b : α) (h : l[i]? = some a) (he : f b = f a) :
    (l.set i b).map f = l.map f := by
  apply List.ext_getElem?
  intro k
  simp only [List.getElem?_map, List.getElem?_set]
  split
  · rename_i hk
    subst hk
    rw [h]
    split
    · simp [he]
    · rename_i hl
      have := List.getElem?_eq_none (l := l) (i := i) (by omega)
      rw [h] at this
      exact absurd this (by simp)
  · rfl

/-- Collisions keep all density profiles and the parameters of the species. -/
theorem collided_profiles {c : CollCfg} {ref : ℕ} {nuFp nuK : Option (ZMod nx → ℝ)} {dt : ℝ} {ss ts : List (Species nx)} (hg : Good ss)
    (h : Collided c none 1 ref nuFp nuK dt ss (some ts)) :
    profiles ts = profiles ss ∧ ts.map parameters = ss.map parameters ∧ ∀ static, chargeDensity ts static = chargeDensity ss static := by
  unfold Collided at h
  cases hr : ss[ref]? with
  | none =>
    rw [hr] at h
    simp only [Option.some.injEq] at h
    subst h
    exact ⟨rfl, rfl, fun _ => rfl⟩
  | some s =>
    rw [hr] at h
    obtain ⟨g, hg', ho⟩ := h
    cases g with
    | none => exact absurd ho (by simp)
    | some g =>
      simp only [Option.map_some, Option.some.injEq] at ho
      subst ho
      simp only [Applied, isParallel, Bool.false_eq_true, if_false] at hg'
      obtain ⟨g', hc, he⟩ := hg'
      simp only [Option.some.injEq] at he
      subst he
      have hs : s ∈ ss := List.mem_of_getElem? hr
      have hd : Species.density ⟨s.nv, s.pos, s.charge, s.mass, s.dv, s.v, g⟩ = s.density := by
        funext x
        unfold Species.density
        simp only
        rw [collide_density (hg s hs).1 (hg s hs).2 hc x]
      refine ⟨set_same _ ss ref s _ hr hd, set_same _ ss ref s _ hr rfl, fun static => ?_⟩
      funext x
      unfold chargeDensity
      congr 2
      exact set_same _ ss ref s _ hr (by simp only [hd])

theorem number_profiles {ss ts : List (Species nx)} [NeZero nx] (h : profiles ts = profiles ss) : ts.map number = ss.map number := by
  have e : ∀ l : List (Species nx), l.map number = (profiles l).map fun n => ∑ x, n x := by
    intro l
    unfold profiles
    rw [List.map_map]
    refine List.map_congr_left fun s _ => ?_
    unfold number Species.density
    simp only [Function.comp_apply, Finset.sum_mul]
  rw [e, e, h]

theorem filtered_parameters [NeZero nx] (h : Option (ℝ × ℕ)) (ss : List (Species nx)) : (filtered h ss).map parameters = ss.map parameters := by
  cases h with
  | none => rfl
  | some h =>
    unfold filtered
    rw [List.map_map]
    exact List.map_congr_left fun s _ => rfl

theorem filtered_number [NeZero nx] {h : Option (ℝ × ℕ)} (hh : ∀ p ∈ h, 0 ≤ p.1 ∧ 0 < p.2) (ss : List (Species nx)) :
    (filtered h ss).map number = ss.map number := by
  cases h with
  | none => rfl
  | some h =>
    unfold filtered
    rw [List.map_map]
    refine List.map_congr_left fun s _ => ?_
    unfold number
    simp only [Function.comp_apply]
    rw [Finset.sum_comm, Finset.sum_comm (f := fun x j => s.f x j * s.dv)]
    refine Finset.sum_congr rfl fun j _ => ?_
    rw [← Finset.sum_mul, ← Finset.sum_mul, (houLi_filter h.1 (hh h rfl).1 h.2 (hh h rfl).2 s.f j).1]

/-- One complete serial step with the exponential push. -/
theorem step_all [NeZero nx] {c : Cfg nx} (hk : c.push = .exponential) {d : Drive nx} {y z : (ZMod nx → ℝ) × List (Species nx)}
    (hg : Good y.2) (h : Step { c with parallel := none } 1 d y (some z)) :
    ∃ ts, z.2 = filtered c.houLi ts ∧ z.1 = (vlasovStep c.time c.dx c.dt c.field d.a d.dex y).1 ∧
      profiles ts = profiles (vlasovStep c.time c.dx c.dt c.field d.a d.dex y).2 ∧ ts.map parameters = y.2.map parameters ∧
      ∀ static, chargeDensity ts static = chargeDensity (vlasovStep c.time c.dx c.dt c.field d.a d.dex y).2 static := by
  unfold Step at h
  simp only [hk, integrator_serial] at h
  obtain ⟨cs, hcs, hz⟩ := h
  cases cs with
  | none => exact absurd hz (by simp)
  | some ts =>
    simp only [Option.map_some, Option.some.injEq] at hz
    subst hz
    have hp : (vlasovStep c.time c.dx c.dt c.field d.a d.dex y).2.map parameters = y.2.map parameters :=
      run_parameters c.time c.dx c.dt c.field y [(d.a, d.dex)]
    have := collided_profiles (good_of_parameters hp hg) hcs
    exact ⟨ts, rfl, rfl, this.1, this.2.1.trans hp, this.2.2⟩

/-- Runs are serial runs or refused. -/
theorem run_serial [NeZero nx] {c : Cfg nx} {devices : ℕ} {ds : List (Drive nx)} {y z : (ZMod nx → ℝ) × List (Species nx)}
    (h : Run c devices ds y (some z)) : Run { c with parallel := none } 1 ds y (some z) := by
  by_cases hd : Divisible c.parallel devices nx (sizes y.2)
  · exact (run_parallel c ds y hd _).1 h
  · cases ds with
    | nil => exact h
    | cons d ds =>
      rw [run_refused c d ds y hd] at h
      exact absurd h (by simp)

/-- **C225.** A run of any length with the exponential push keeps the number of particles of every
species and the species themselves: either integrator, any field solver, drivers, laser, any
collision type with or without the Krook operator, any filter of positive order, any division over
devices. -/
theorem run_particles [NeZero nx] {c : Cfg nx} (hk : c.push = .exponential) (hh : ∀ p ∈ c.houLi, 0 ≤ p.1 ∧ 0 < p.2) {devices : ℕ}
    {ds : List (Drive nx)} {y z : (ZMod nx → ℝ) × List (Species nx)} (hg : Good y.2) (h : Run c devices ds y (some z)) :
    z.2.map number = y.2.map number ∧ z.2.map parameters = y.2.map parameters := by
  replace h := run_serial h
  induction ds generalizing y with
  | nil =>
    simp only [Run, Option.some.injEq] at h
    subst h
    exact ⟨rfl, rfl⟩
  | cons d ds ih =>
    obtain ⟨mid, h1, h2⟩ := h
    cases mid with
    | none => exact absurd h2 (by simp)
    | some m =>
      obtain ⟨ts, hm, -, hp, hpar, -⟩ := step_all hk hg h1
      have e1 : m.2.map parameters = y.2.map parameters := by rw [hm, filtered_parameters, hpar]
      have e2 : m.2.map number = y.2.map number := by
        rw [hm, filtered_number hh, number_profiles hp]
        exact step_number ..
      obtain ⟨r1, r2⟩ := ih (good_of_parameters e1 hg) h2
      exact ⟨r1.trans e2, r2.trans e1⟩

/-- A run of several steps is a run up to the last step and one more step. -/
theorem run_last [NeZero nx] {c : Cfg nx} {devices : ℕ} {ds : List (Drive nx)} {d : Drive nx} {y z : (ZMod nx → ℝ) × List (Species nx)}
    (h : Run c devices (ds ++ [d]) y (some z)) : ∃ m, Run c devices ds y (some m) ∧ Step c devices d m (some z) := by
  induction ds generalizing y with
  | nil =>
    obtain ⟨mid, h1, h2⟩ := h
    cases mid with
    | none => exact absurd h2 (by simp)
    | some m =>
      simp only [Run, Option.some.injEq] at h2
      subst h2
      exact ⟨y, rfl, h1⟩
  | cons e ds ih =>
    obtain ⟨mid, h1, h2⟩ := h
    cases mid with
    | none => exact absurd h2 (by simp)
    | some m =>
      obtain ⟨k, hk1, hk2⟩ := ih h2
      exact ⟨k, ⟨some m, h1, hk1⟩, hk2⟩

/-- **C225.** With the Poisson solver and no filter, the saved field obeys Gauss's law with the
saved distributions after every step, collisions included. -/
theorem run_gauss [NeZero nx] {c : Cfg nx} (hk : c.push = .exponential) (hh : c.houLi = none) {static : ZMod nx → ℝ}
    (hf : c.field = .poisson static) (hdx : c.dx ≠ 0) {devices : ℕ} {ds : List (Drive nx)} (hds : ds ≠ [])
    {y z : (ZMod nx → ℝ) × List (Species nx)} (hg : Good y.2) (h : Run c devices ds y (some z))
    (p : ℤ) (hp : Resolved nx p) (h0 : p ≠ 0) :
    gaussError c.dx z.1 (chargeDensity z.2 static) p = 0 := by
  have h := run_serial h
  obtain ⟨ds', d, rfl⟩ : ∃ ds' d, ds = ds' ++ [d] := ⟨_, _, (List.dropLast_append_getLast hds).symm⟩
  obtain ⟨m, h1, h2⟩ := run_last h
  have hm := (run_particles (c := { c with parallel := none }) hk (by simp [hh]) hg h1).2
  obtain ⟨ts, e1, e2, -, -, e3⟩ := step_all hk (good_of_parameters hm hg) h2
  rw [hh] at e1
  simp only [filtered] at e1
  rw [e1, e2, e3, hf]
  exact poisson_step_gauss c.time c.dx c.dt hdx static d.a d.dex m p hp h0

/-- **C225.** Runs with Chang-Cooper collisions exist: whatever the state, the drivers and the
non-negative collision frequencies, a deck that can be divided is run to its end. -/
theorem run_exists [NeZero nx] (c : Cfg nx) (hk : c.push = .exponential) (hdt : 0 ≤ c.dt)
    (hc : c.coll.fpOn = true → isChangCooper c.coll.kind = true) {devices : ℕ} (ds : List (Drive nx))
    (hnu : ∀ d ∈ ds, ∀ x, 0 ≤ (d.nuFp.getD 0) x) (y : (ZMod nx → ℝ) × List (Species nx)) (hg : Good y.2)
    (hd : Divisible c.parallel devices nx (sizes y.2)) : ∃ z, Run c devices ds y (some z) := by
  simp only [run_parallel c ds y hd]
  clear hd
  induction ds generalizing y with
  | nil => exact ⟨y, rfl⟩
  | cons d ds ih =>
    have hp : (vlasovStep c.time c.dx c.dt c.field d.a d.dex y).2.map parameters = y.2.map parameters :=
      run_parameters c.time c.dx c.dt c.field y [(d.a, d.dex)]
    have hcol : ∃ ts, Collided c.coll none 1 c.ref d.nuFp d.nuK c.dt (vlasovStep c.time c.dx c.dt c.field d.a d.dex y).2 (some ts) := by
      unfold Collided
      cases hr : (vlasovStep c.time c.dx c.dt c.field d.a d.dex y).2[c.ref]? with
      | none => exact ⟨_, rfl⟩
      | some s =>
        obtain ⟨g, hgc⟩ := collide_exists c.coll (d.nuFp.getD 0) (d.nuK.getD 0) hdt (hnu d (by simp)) hc s
          (good_of_parameters hp hg s (List.mem_of_getElem? hr)).2
        refine ⟨_, some g, ?_, rfl⟩
        simp only [Applied, isParallel, Bool.false_eq_true, if_false]
        exact ⟨g, hgc, rfl⟩
    obtain ⟨ts, hts⟩ := hcol
    have hstep : Step { c with parallel := none } 1 d y
        (some ((vlasovStep c.time c.dx c.dt c.field d.a d.dex y).1, filtered c.houLi ts)) := by
      unfold Step
      simp only [hk, integrator_serial]
      exact ⟨some ts, hts, rfl⟩
    obtain ⟨us, e1, -, -, e2, -⟩ := step_all hk hg hstep
    obtain ⟨z, hz⟩ := ih (fun d' hd' => hnu d' (by simp [hd'])) _
      (good_of_parameters (by rw [e1, filtered_parameters, e2]) hg)
    exact ⟨z, some _, hstep, hz⟩

/-! ### Non-vacuity: a collisional run on two devices -/

noncomputable example (s : Species 4) (hs : s.nv = 6) (hdv : 0 < s.dv) (d : Drive 4) (hnu : ∀ x, 0 ≤ (d.nuFp.getD 0) x) :
    ∃ z, Run ⟨.leapfrog, .exponential, some ["x"], 1, 1, .poisson 0, ⟨true, true, .doughertyCC, 2, 3, 1⟩, 0, some (36, 36)⟩ 2 [d, d]
      (0, [s]) (some z) ∧ z.2.map number = [number s] := by
  have hgood : Good [s] := by
    intro t ht
    simp only [List.mem_singleton] at ht
    subst ht
    exact ⟨by omega, hdv⟩
  obtain ⟨z, hz⟩ := run_exists (nx := 4)
    ⟨.leapfrog, .exponential, some ["x"], 1, 1, .poisson 0, ⟨true, true, .doughertyCC, 2, 3, 1⟩, 0, some (36, 36)⟩
    rfl zero_le_one (fun _ => rfl) (devices := 2) [d, d] (by simpa using hnu) (0, [s]) hgood
    ⟨fun _ => ⟨2, rfl⟩, fun h => absurd h (by decide)⟩
  refine ⟨z, hz, (run_particles rfl ?_ hgood hz).1⟩
  simp only [Option.mem_some_iff, forall_eq']
  norm_num

end Verif.VlasovShard

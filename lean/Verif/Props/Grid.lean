import Verif.Model.Grid
import Mathlib.Data.Rat.Floor
import Mathlib.Algebra.Order.Field.Rat
import Mathlib.Tactic.FieldSimp
import Mathlib.Tactic.NormNum
import Mathlib.Tactic.Linarith
import Mathlib.Tactic.Positivity
import Mathlib.Tactic.Ring

/-! C22 (Vlasov-1D and PIC-1D grid) and C54 (time grids of the other solvers). -/
namespace Verif.Grid
variable {K : Type} [Field K] [LinearOrder K] [IsStrictOrderedRing K] [FloorRing K]

/-- The run ends after the requested time, by at most one step; at least one step. -/
structure EndsJustAfter (req : K) (dt : K) (nt : Int) (tmax : K) : Prop where
  steps : tmax = dt * nt
  pos : 1 ≤ nt
  reached : req < tmax
  tight : tmax ≤ req + dt

theorem ends_floor {req dt : K} (hdt : 0 < dt) (hreq : 0 ≤ req) :
    EndsJustAfter req dt (⌊req / dt⌋ + 1) (dt * ((⌊req / dt⌋ + 1 : Int) : K)) := by
  have h0 : 0 ≤ req / dt := div_nonneg hreq hdt.le
  have h1 := Int.floor_le (req / dt)
  have h2 := Int.lt_floor_add_one (req / dt)
  have h3 : 0 ≤ ⌊req / dt⌋ := Int.floor_nonneg.2 h0
  have e : dt * (req / dt) = req := by field_simp
  refine ⟨rfl, by omega, ?_, ?_⟩
  · push_cast
    calc req = dt * (req / dt) := e.symm
      _ < dt * (⌊req / dt⌋ + 1) := mul_lt_mul_of_pos_left h2 hdt
  · push_cast
    calc dt * (⌊req / dt⌋ + 1) = dt * ⌊req / dt⌋ + dt := by ring
      _ ≤ dt * (req / dt) + dt := by gcongr
      _ = req + dt := by rw [e]

theorem pyInt_add_one {x : K} (hx : 0 ≤ x) : pyInt (x + 1) = ⌊x⌋ + 1 := by
  unfold pyInt
  rw [if_pos (by linarith), Int.floor_add_one]

theorem pyInt_nonneg {x : K} (hx : 0 ≤ x) : pyInt x = ⌊x⌋ := by
  unfold pyInt
  rw [if_pos hx]

theorem ends_int1 {req dt : K} (hdt : 0 < dt) (hreq : 0 ≤ req) :
    EndsJustAfter req dt (pyInt (req / dt + 1)) (dt * (pyInt (req / dt + 1) : K)) := by
  rw [pyInt_add_one (div_nonneg hreq hdt.le)]; exact ends_floor hdt hreq

theorem ends_int2 {req dt : K} (hdt : 0 < dt) (hreq : 0 ≤ req) :
    EndsJustAfter req dt (pyInt (req / dt) + 1) (dt * ((pyInt (req / dt) + 1 : Int) : K)) := by
  rw [pyInt_nonneg (div_nonneg hreq hdt.le)]; exact ends_floor hdt hreq

/-! ### Vlasov-1D, PIC-1D -/

/-- The time step is the requested one, lowered (only with transverse waves) to 95 %
of the light crossing time of a cell. -/
theorem time_step_cfl (twoPi xmin xmax : K) (nx : Nat) (req dtReq beta : K) (em : Bool) (hb : 0 < beta) (hd : 0 < dtReq)
    (hbox : xmin < xmax) (hnx : 0 < nx) :
    let g := vlasov1d twoPi xmin xmax nx req dtReq em beta
    let c := 1 / beta
    0 < g.dt ∧ g.dt ≤ dtReq ∧ (em = false → g.dt = dtReq) ∧
      (em = true → g.dt * c ≤ (95 / 100) * g.dx ∧ (dtReq * c ≤ (95 / 100) * g.dx → g.dt = dtReq)) := by
  intro g c
  have hn : (0 : K) < nx := by exact_mod_cast hnx
  have hdx : 0 < g.dx := div_pos (sub_pos.2 hbox) hn
  have hc : 0 < c := by positivity
  have hcfl : 0 < (95 / 100) * g.dx / c := by positivity
  cases em with
  | false => exact ⟨hd, le_refl _, fun _ => rfl, fun h => by cases h⟩
  | true =>
    have e : g.dt = min dtReq ((95 / 100) * g.dx / c) := rfl
    refine ⟨?_, ?_, (by intro h; cases h), fun _ => ⟨?_, fun h => ?_⟩⟩
    · rw [e]; exact lt_min hd hcfl
    · rw [e]; exact min_le_left _ _
    · rw [e, ← le_div_iff₀ hc]; exact min_le_right _ _
    · rw [e]; exact min_eq_left ((le_div_iff₀ hc).2 h)

/-- The run covers the requested time and overshoots by at most one step. -/
theorem time_covered (twoPi xmin xmax : K) (nx : Nat) (req dtReq beta : K) (em : Bool) (hb : 0 < beta) (hd : 0 < dtReq)
    (hbox : xmin < xmax) (hnx : 0 < nx) (hreq : 0 ≤ req) :
    let g := vlasov1d twoPi xmin xmax nx req dtReq em beta
    EndsJustAfter req g.dt g.nt g.tmax ∧ g.maxSteps ≤ 100000000 ∧ (g.nt + 4 ≤ 100000000 → g.maxSteps = g.nt + 4) := by
  intro g
  have h := (time_step_cfl twoPi xmin xmax nx req dtReq beta em hb hd hbox hnx).1
  exact ⟨ends_int1 h hreq, min_le_right _ _, fun h => min_eq_left h⟩

theorem linspace_get (a b : K) (n i : Nat) (h : i < n) : (linspace a b n)[i]? = some (linspaceAt a b n i) := by
  simp [linspace, h]

theorem linspace_length (a b : K) (n : Nat) : (linspace a b n).length = n := by simp [linspace]

/-- Cell centres: `nx` of them, evenly spaced by `dx`, half a cell away from each wall. -/
theorem cell_centres (twoPi xmin xmax : K) (nx : Nat) (req dtReq beta : K) (em : Bool) (hnx : 0 < nx) :
    let g := vlasov1d twoPi xmin xmax nx req dtReq em beta
    g.x.length = nx ∧ g.dx * nx = xmax - xmin ∧
      ∀ i < nx, g.x[i]? = some (xmin + ((i : K) + 1 / 2) * g.dx) := by
  intro g
  have hn : (0 : K) < nx := by exact_mod_cast hnx
  have e : g.dx * nx = xmax - xmin := by show (xmax - xmin) / nx * nx = _; field_simp
  refine ⟨linspace_length _ _ _, e, fun i hi => ?_⟩
  rw [show g.x = linspace (xmin + g.dx / 2) (xmax - g.dx / 2) nx from rfl, linspace_get _ _ _ _ hi]
  unfold linspaceAt
  split
  · rename_i h1
    have : i = 0 := by omega
    subst this; simp; ring
  · rename_i h1
    have h2 : (nx : K) - 1 ≠ 0 := by
      have : (1 : K) < nx := by exact_mod_cast (by omega : 1 < nx)
      exact (sub_pos.2 this).ne'
    congr 1
    have : xmax = xmin + g.dx * nx := by rw [e]; ring
    rw [this]
    field_simp
    ring

/-- All centres are strictly inside the box. -/
theorem cells_in_box (twoPi xmin xmax : K) (nx : Nat) (req dtReq beta : K) (em : Bool) (hnx : 0 < nx) (hbox : xmin < xmax) :
    ∀ y ∈ (vlasov1d twoPi xmin xmax nx req dtReq em beta).x, xmin < y ∧ y < xmax := by
  intro y hy
  have hn : (0 : K) < nx := by exact_mod_cast hnx
  obtain ⟨h1, h2, h3⟩ := cell_centres twoPi xmin xmax nx req dtReq beta em hnx
  have hdx : 0 < (vlasov1d twoPi xmin xmax nx req dtReq em beta).dx := div_pos (sub_pos.2 hbox) hn
  obtain ⟨i, hi⟩ := List.getElem?_of_mem hy
  have hlt : i < nx := by
    rw [← h1]; exact (List.getElem?_eq_some_iff.1 hi).1
  rw [h3 i hlt] at hi
  obtain rfl := Option.some.inj hi
  have hi1 : (i : K) + 1 ≤ nx := by exact_mod_cast hlt
  have hi0 : (0 : K) ≤ i := Nat.cast_nonneg i
  constructor
  · have : 0 < ((i : K) + 1 / 2) * (vlasov1d twoPi xmin xmax nx req dtReq em beta).dx := by positivity
    linarith
  · have : ((i : K) + 1 / 2) * (vlasov1d twoPi xmin xmax nx req dtReq em beta).dx
        < nx * (vlasov1d twoPi xmin xmax nx req dtReq em beta).dx := mul_lt_mul_of_pos_right (by linarith) hdx
    linarith [mul_comm (vlasov1d twoPi xmin xmax nx req dtReq em beta).dx (nx : K)]

/-- The padded axis continues the cells by one on each side. -/
theorem padded_axis (twoPi xmin xmax : K) (nx : Nat) (req dtReq beta : K) (em : Bool) (hnx : 0 < nx) :
    let g := vlasov1d twoPi xmin xmax nx req dtReq em beta
    g.xa.length = nx + 2 ∧ ∀ i < nx + 2, g.xa[i]? = some (xmin + ((i : K) - 1 / 2) * g.dx) := by
  intro g
  obtain ⟨h1, h2, h3⟩ := cell_centres twoPi xmin xmax nx req dtReq beta em hnx
  have hx : g.x.length = nx := h1
  have hh : g.x.headD 0 = xmin + ((0 : Nat) + 1 / 2 : K) * g.dx := by
    have h := h3 0 hnx
    rw [← List.head?_eq_getElem?] at h
    rw [List.headD_eq_head?_getD, show g.x.head? = _ from h]
    rfl
  have hl : g.x.getLastD 0 = xmin + (((nx - 1 : Nat) : K) + 1 / 2) * g.dx := by
    have h := h3 (nx - 1) (by omega)
    have h' : g.x.getLast? = some (xmin + (((nx - 1 : Nat) : K) + 1 / 2) * g.dx) := by
      rw [List.getLast?_eq_getElem?, hx]; exact h
    rw [List.getLastD_eq_getLast?, h']
    rfl
  have hxa : g.xa = [g.x.headD 0 - g.dx] ++ g.x ++ [g.x.getLastD 0 + g.dx] := rfl
  refine ⟨by rw [hxa]; simp [hx], fun i hi => ?_⟩
  rw [hxa, List.append_assoc]
  rcases Nat.eq_zero_or_pos i with rfl | hpos
  · simp only [List.singleton_append, List.getElem?_cons_zero, hh]
    congr 1; push_cast; ring
  · obtain ⟨j, rfl⟩ : ∃ j, i = j + 1 := ⟨i - 1, by omega⟩
    simp only [List.singleton_append, List.getElem?_cons_succ]
    by_cases hj : j < nx
    · rw [List.getElem?_append_left (by rw [hx]; exact hj)]
      rw [show g.x[j]? = _ from h3 j hj]
      congr 1; push_cast; ring
    · have : j = nx := by omega
      subst this
      rw [List.getElem?_append_right (by rw [hx])]
      simp only [hx, Nat.sub_self, List.getElem?_cons_zero, hl]
      congr 1
      rw [Nat.cast_sub (by omega)]; push_cast; ring

/-- Wavenumbers: mode `j` and mode `nx - j` are opposite, the real transform's modes
agree with the full one's below Nyquist, and the stored reciprocals are exact for every
mode but the mean, for which it is zero. -/
theorem wavenumbers (twoPi xmin xmax : K) (nx : Nat) (req dtReq beta : K) (em : Bool) (hnx : 0 < nx)
    (hbox : xmin < xmax) (hpi : 0 < twoPi) :
    let g := vlasov1d twoPi xmin xmax nx req dtReq em beta
    (∀ j, 2 * j < nx → g.kx[j]? = some ((j : K) * (twoPi / (xmax - xmin))) ∧ g.kxr[j]? = g.kx[j]?) ∧
    (∀ j, 0 < j → 2 * j < nx → g.kx[nx - j]? = some (-((j : K) * (twoPi / (xmax - xmin))))) ∧
    (∀ j k r, g.kx[j]? = some k → g.oneOverKx[j]? = some r → if j = 0 then r = 0 else k * r = 1) ∧
    (∀ j k r, g.kxr[j]? = some k → g.oneOverKxr[j]? = some r → if j = 0 then r = 0 else k * r = 1) := by
  intro g
  have hn : (0 : K) < nx := by exact_mod_cast hnx
  have hL : 0 < xmax - xmin := sub_pos.2 hbox
  have hdx : g.dx = (xmax - xmin) / nx := rfl
  have hdx0 : 0 < g.dx := by rw [hdx]; positivity
  have hkx : ∀ j < nx, g.kx[j]? = some (fftfreqAt nx g.dx j * twoPi) := by
    intro j hj; simp only [g, vlasov1d]; simp [hj]
  have hkxr : ∀ j < nx / 2 + 1, g.kxr[j]? = some (rfftfreqAt nx g.dx j * twoPi) := by
    intro j hj; simp only [g, vlasov1d]; simp [hj]
  have l1 : g.kx.length = nx := by simp [g, vlasov1d]
  have l2 : g.kxr.length = nx / 2 + 1 := by simp [g, vlasov1d]
  refine ⟨?_, ?_, ?_, ?_⟩
  · intro j hj
    rw [hkx j (by omega), hkxr j (by omega)]
    have : fftfreqAt nx g.dx j * twoPi = (j : K) * (twoPi / (xmax - xmin)) := by
      unfold fftfreqAt; rw [if_pos (by omega), hdx]; field_simp
    refine ⟨by rw [this], ?_⟩
    unfold fftfreqAt rfftfreqAt; rw [if_pos (by omega)]
  · intro j h0 hj
    rw [hkx _ (by omega)]
    unfold fftfreqAt
    rw [if_neg (by omega), hdx, Nat.cast_sub (by omega)]
    congr 1
    field_simp
    ring
  · intro j k r h1 h2
    have hj : j < nx := by rw [← l1]; exact (List.getElem?_eq_some_iff.1 h1).1
    have h3 : g.oneOverKx[j]? = (g.kx[j]?).map fun x => if j = 0 then 0 else 1 / x := by
      show (oneOver g.kx)[j]? = _
      unfold oneOver; rw [List.getElem?_mapIdx]
    rw [h1] at h3
    rw [h2] at h3
    simp only [Option.map_some, Option.some.injEq] at h3
    split
    · rename_i hj0; rw [h3, if_pos hj0]
    · rename_i hj0
      rw [h3, if_neg hj0]
      rw [hkx j hj] at h1
      obtain rfl := Option.some.inj h1
      apply mul_one_div_cancel
      unfold fftfreqAt
      have hjn : (j : K) - nx ≠ 0 := by
        have : (j : K) < nx := by exact_mod_cast hj
        exact (sub_neg.2 this).ne
      have hj' : (j : K) ≠ 0 := by exact_mod_cast hj0
      split <;> positivity
  · intro j k r h1 h2
    have hj : j < nx / 2 + 1 := by rw [← l2]; exact (List.getElem?_eq_some_iff.1 h1).1
    have h3 : g.oneOverKxr[j]? = (g.kxr[j]?).map fun x => if j = 0 then 0 else 1 / x := by
      show (oneOver g.kxr)[j]? = _
      unfold oneOver; rw [List.getElem?_mapIdx]
    rw [h1] at h3
    rw [h2] at h3
    simp only [Option.map_some, Option.some.injEq] at h3
    split
    · rename_i hj0; rw [h3, if_pos hj0]
    · rename_i hj0
      rw [h3, if_neg hj0]
      rw [hkxr j hj] at h1
      obtain rfl := Option.some.inj h1
      apply mul_one_div_cancel
      unfold rfftfreqAt
      have hj' : (j : K) ≠ 0 := by exact_mod_cast hj0
      positivity

/-- The stored time axis starts at 0 and ends at the end of the run, but its spacing is
never the time step: it has `nt` points on `nt` steps. -/
theorem time_axis_spacing (twoPi xmin xmax : K) (nx : Nat) (req dtReq beta : K) (em : Bool) (hb : 0 < beta) (hd : 0 < dtReq)
    (hbox : xmin < xmax) (hnx : 0 < nx) (hreq : 0 ≤ req) :
    let g := vlasov1d twoPi xmin xmax nx req dtReq em beta
    2 ≤ g.nt → g.t[0]? = some 0 ∧ g.t.getLast? = some g.tmax ∧
      ∀ i a b, g.t[i]? = some a → g.t[i + 1]? = some b → b - a = g.tmax / ((g.nt : K) - 1) ∧ g.dt < b - a := by
  intro g h2
  obtain ⟨m, hm⟩ : ∃ m : Nat, g.nt = m := ⟨g.nt.toNat, by omega⟩
  have hm2 : 2 ≤ m := by omega
  have hmK : (2 : K) ≤ m := by exact_mod_cast hm2
  have ht : g.t = linspace 0 g.tmax m := by
    show linspace 0 g.tmax g.nt.toNat = _
    rw [hm]; rfl
  have hdt := (time_step_cfl twoPi xmin xmax nx req dtReq beta em hb hd hbox hnx).1
  have htm : g.tmax = g.dt * m := by
    show g.dt * (g.nt : K) = _
    rw [hm]; simp
  have hm1 : (0 : K) < (m : K) - 1 := by linarith
  have at_ : ∀ i, linspaceAt 0 g.tmax m i = i * (g.tmax / ((m : K) - 1)) := by
    intro i; unfold linspaceAt; rw [if_neg (by omega)]; ring
  refine ⟨?_, ?_, ?_⟩
  · rw [ht, linspace_get _ _ _ _ (by omega), at_]; simp
  · rw [ht, List.getLast?_eq_getElem?, linspace_length, linspace_get _ _ _ _ (by omega), at_, Nat.cast_sub (by omega)]
    congr 1; push_cast; field_simp
  · intro i a b h3 h4
    rw [ht] at h3 h4
    have hi : i + 1 < m := by
      have := (List.getElem?_eq_some_iff.1 h4).1
      rwa [linspace_length] at this
    rw [linspace_get _ _ _ _ (by omega), at_] at h3
    rw [linspace_get _ _ _ _ hi, at_] at h4
    obtain rfl := Option.some.inj h3
    obtain rfl := Option.some.inj h4
    have e : ((i + 1 : Nat) : K) * (g.tmax / ((m : K) - 1)) - i * (g.tmax / ((m : K) - 1)) = g.tmax / ((m : K) - 1) := by
      push_cast; ring
    rw [e, hm]
    refine ⟨by simp, ?_⟩
    rw [lt_div_iff₀ hm1, htm]
    have : 0 < g.dt := hdt
    nlinarith

/-! ### The other solvers -/

theorem time_covered_vlasov2d (dx dy req dtReq beta : K) (em : Bool) (hb : 0 < beta) (hd : 0 < dtReq) (hx : 0 < dx)
    (hy : 0 < dy) (hreq : 0 ≤ req) :
    let g := vlasov2d dx dy req dtReq em beta
    EndsJustAfter req g.dt g.nt g.tmax ∧ 0 < g.dt ∧ g.dt ≤ dtReq ∧ (em = false → g.dt = dtReq) ∧
      (em = true → g.dt * (1 / beta) ≤ dx / 2 ∧ g.dt * (1 / beta) ≤ dy / 2) := by
  intro g
  have hpos : 0 < g.dt := by
    cases em with
    | false => exact hd
    | true =>
      show 0 < min dtReq ((1 / 2) * min dx dy / (1 / beta))
      have : 0 < min dx dy := lt_min hx hy
      exact lt_min hd (by positivity)
  refine ⟨ends_int1 hpos hreq, hpos, ?_, ?_, ?_⟩
  · cases em with
    | false => exact le_refl _
    | true => exact min_le_left _ _
  · rintro rfl; rfl
  · rintro rfl
    have h1 : g.dt ≤ (1 / 2) * min dx dy / (1 / beta) := min_le_right _ _
    rw [le_div_iff₀ (by positivity)] at h1
    have h2 := min_le_left dx dy
    have h3 := min_le_right dx dy
    constructor <;> linarith

theorem time_covered_vfp1d (req dt : K) (hd : 0 < dt) (hreq : 0 ≤ req) :
    let g := vfp1d req dt
    EndsJustAfter req dt g.nt g.tmax ∧ g.dt = dt := ⟨ends_int2 hd hreq, rfl⟩

/-- VFP-2D is the only solver that starts the count at `tmin` and that does not add a
step when the requested time is a whole number of steps. -/
theorem time_covered_vfp2d (tmin req dt : K) (hd : 0 < dt) :
    let g := vfp2d tmin req dt
    g.tmax = tmin + g.nt * dt ∧ req ≤ g.tmax ∧ g.tmax < req + dt ∧ (∀ n : Int, req = tmin + n * dt → g.tmax = req) := by
  intro g
  have h1 := Int.le_ceil ((req - tmin) / dt)
  have h2 := Int.ceil_lt_add_one ((req - tmin) / dt)
  have e : (req - tmin) / dt * dt = req - tmin := by field_simp
  have ht : g.tmax = tmin + (⌈(req - tmin) / dt⌉ : K) * dt := rfl
  have h3 := mul_le_mul_of_nonneg_right h1 hd.le
  have h4 := mul_lt_mul_of_pos_right h2 hd
  rw [add_mul, e] at h4
  rw [e] at h3
  refine ⟨rfl, by rw [ht]; linarith, by rw [ht]; linarith, ?_⟩
  intro n hn
  rw [ht]
  have : (req - tmin) / dt = n := by rw [hn]; field_simp; ring
  rw [this, Int.ceil_intCast, hn]

theorem time_covered_tf1d (xmax req : K) (nx : Nat) (hx : 0 < xmax) (hnx : 0 < nx) (hreq : 0 ≤ req) :
    let g := tf1d xmax nx req
    EndsJustAfter req g.dt g.nt g.tmax ∧ g.dt * 20 = xmax / nx := by
  intro g
  have hn : (0 : K) < nx := by exact_mod_cast hnx
  have hdt : g.dt = (5 / 100) * (xmax / nx) := rfl
  have hpos : 0 < g.dt := by rw [hdt]; positivity
  exact ⟨ends_int1 hpos hreq, by rw [hdt]; ring⟩

/-- Hermite-Poisson: a positive given time step is used as it is; the light-crossing
limit applies only when none is given. -/
theorem time_covered_hermite_poisson (Lx c req : K) (nx : Nat) (d? : Option K) (hL : 0 < Lx) (hnx : 0 < nx) (hreq : 0 ≤ req)
    (g : TimeGrid K) (hg : hermitePoisson Lx nx c req d? = some g) :
    EndsJustAfter req g.dt g.nt g.tmax ∧ (∀ d, d? = some d → 0 < d → g.dt = d) ∧
      (d? = none → g.dt * c = (9 / 10) * (Lx / nx)) := by
  have hn : (0 : K) < nx := by exact_mod_cast hnx
  unfold hermitePoisson at hg
  simp only [Option.map_eq_some_iff] at hg
  obtain ⟨dt, h1, rfl⟩ := hg
  have cfl : ∀ d, (if 0 < c then some ((9 / 10) * (Lx / nx) / c) else none) = some d → 0 < d ∧ d * c = (9 / 10) * (Lx / nx) := by
    intro d h
    split at h
    · rename_i hc
      obtain rfl := Option.some.inj h
      exact ⟨by positivity, by field_simp⟩
    · cases h
  cases d? with
  | none =>
    obtain ⟨p1, p2⟩ := cfl dt h1
    exact ⟨ends_int2 p1 hreq, (by intro d h; cases h), fun _ => p2⟩
  | some d =>
    simp only at h1
    split at h1
    · rename_i hd
      obtain rfl := Option.some.inj h1
      exact ⟨ends_int2 hd hreq, (by rintro d' ⟨⟩ _; rfl), (by intro h; cases h)⟩
    · rename_i hd
      obtain ⟨p1, p2⟩ := cfl dt h1
      exact ⟨ends_int2 p1 hreq, (by rintro d' ⟨⟩ h; exact absurd h hd), (by intro h; cases h)⟩

theorem pyRound_close (x : K) : |(pyRound x : K) - x| ≤ 1 / 2 := by
  have h1 := Int.floor_le x
  have h2 := Int.lt_floor_add_one x
  unfold pyRound
  simp only
  rw [abs_le]
  split
  · constructor <;> linarith
  · split
    · push_cast; constructor <;> linarith
    · split
      · constructor <;> linarith
      · push_cast; constructor <;> linarith

/-- Hermite-Legendre: the end is the multiple of the step nearest to the request... -/
theorem time_rounded_hermite_legendre_partial (req dt : K) (hd : 0 < dt) :
    let g := hermiteLegendre req dt
    g.tmax = dt * g.nt ∧ |g.tmax - req| ≤ dt / 2 := by
  intro g
  refine ⟨rfl, ?_⟩
  have h := pyRound_close (req / dt)
  have e : g.tmax - req = dt * ((pyRound (req / dt) : K) - req / dt) := by
    show dt * (pyRound (req / dt) : K) - req = _
    rw [mul_sub]; congr 1; field_simp
  rw [e, abs_mul, abs_of_pos hd]
  calc dt * |(pyRound (req / dt) : K) - req / dt| ≤ dt * (1 / 2) := by gcongr
    _ = dt / 2 := by ring

/-- ... so a run can stop before the requested time. -/
theorem hermite_legendre_stops_early : (hermiteLegendre (12 / 10 : ℚ) 1).tmax < 12 / 10 := by
  decide +kernel

theorem time_covered_lpse2d (req dt : K) (hd : 0 < dt) (hreq : 0 ≤ req) :
    let g := lpse2d req dt
    EndsJustAfter req dt g.nt g.tmax ∧ g.dt = dt ∧ g.maxSteps = g.nt + 2048 := ⟨ends_int1 hd hreq, rfl, rfl⟩

/-- Spectrax: with `dt` as above; with a number of steps instead, the run ends exactly
at the requested time. -/
theorem time_covered_spectrax (req : K) (hreq : 0 ≤ req) :
    (∀ dt n?, 0 < dt → EndsJustAfter req dt (spectrax req (some dt) n?).2.1 (spectrax req (some dt) n?).2.2) ∧
    (∀ n? : Option Nat, n? ≠ some 0 → (spectrax req none n?).2.2 = req) := by
  refine ⟨fun dt n? hd => ends_int2 hd hreq, fun n? hn => ?_⟩
  have : ((n?.getD 501 : Nat) : K) ≠ 0 := by
    cases n? with
    | none => norm_num
    | some n => simp only [Option.getD_some]; exact_mod_cast fun h => hn (by rw [h])
  show req / ((n?.getD 501 : Nat) : K) * ((n?.getD 501 : Nat) : K) = req
  field_simp

/-- The hypotheses are those of an ordinary run: box of 32 cells, EM waves, end at 10. -/
example : (vlasov1d (7 : ℚ) 0 20 32 10 (1/10) true (1/10)).dt = 19/320 ∧
    (vlasov1d (7 : ℚ) 0 20 32 10 (1/10) true (1/10)).nt = 169 ∧
    (vlasov1d (7 : ℚ) 0 20 32 10 (1/10) false (1/10)).nt = 101 := by decide +kernel

example : (hermitePoisson (10 : ℚ) 10 3 5 none).isSome = true ∧ (vfp2d (1 : ℚ) 5 (3/10)).nt = 14 := by decide +kernel

end Verif.Grid

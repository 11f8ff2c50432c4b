import Verif.Model.PicLoad
import Mathlib.Data.List.GetD
import Mathlib.Tactic.Linarith
import Mathlib.Tactic.FieldSimp
import Mathlib.Tactic.Positivity
import Mathlib.Tactic.Ring
import Mathlib.Algebra.Order.Field.Rat

/-! C66: the particle loader. -/
namespace Verif.PicLoad

variable {K : Type} [Field K] [LinearOrder K] [IsStrictOrderedRing K] [FloorRing K]

omit [FloorRing K] in
/-- Interpolated values stay within the range of the data. -/
theorem interp_range (lo hi x : K) (l : List (K × K)) (hl : l ≠ []) (h : ∀ p ∈ l, lo ≤ p.2 ∧ p.2 ≤ hi) :
    lo ≤ interp x l ∧ interp x l ≤ hi := by
  induction l with
  | nil => exact absurd rfl hl
  | cons p l ih =>
    cases l with
    | nil => exact h p (by simp)
    | cons q l =>
      have hp := h p (by simp)
      have hq := h q (by simp)
      unfold interp
      split
      · exact hp
      case isFalse h1 =>
        split
        case isTrue h2 =>
          have hd : 0 < q.1 - p.1 := by linarith [not_le.1 h1]
          have e : p.2 + (x - p.1) * ((q.2 - p.2) / (q.1 - p.1)) =
              ((q.1 - x) / (q.1 - p.1)) * p.2 + ((x - p.1) / (q.1 - p.1)) * q.2 := by field_simp; ring
          rw [e]
          have a1 : 0 ≤ (q.1 - x) / (q.1 - p.1) := div_nonneg (by linarith) hd.le
          have a2 : 0 ≤ (x - p.1) / (q.1 - p.1) := div_nonneg (by linarith [not_le.1 h1]) hd.le
          have a3 : (q.1 - x) / (q.1 - p.1) + (x - p.1) / (q.1 - p.1) = 1 := by field_simp; ring
          generalize (q.1 - x) / (q.1 - p.1) = s at *
          generalize (x - p.1) / (q.1 - p.1) = t at *
          have hs : s = 1 - t := by linarith
          subst hs
          constructor <;> nlinarith
        · exact ih (by simp) fun r hr => h r (by simp [hr])

omit [FloorRing K] in
theorem interp_flat (c x : K) (l : List (K × K)) (hl : l ≠ []) (h : ∀ p ∈ l, p.2 = c) : interp x l = c := by
  have := interp_range c c x l hl fun p hp => by rw [h p hp]; exact ⟨le_rfl, le_rfl⟩
  exact le_antisymm this.2 this.1

omit [FloorRing K] in
/-- Linear data are reproduced between the first and the last point. -/
theorem interp_linear (α β x : K) (p : K × K) (l : List (K × K)) (h : ∀ q ∈ p :: l, q.2 = α + β * q.1)
    (h0 : p.1 ≤ x) (h1 : x ≤ ((p :: l).getLast (by simp)).1) : interp x (p :: l) = α + β * x := by
  induction l generalizing p with
  | nil =>
    simp only [List.getLast_singleton] at h1
    have : x = p.1 := le_antisymm h1 h0
    unfold interp
    rw [this]; exact h p (by simp)
  | cons q l ih =>
    unfold interp
    split
    case isTrue h2 => rw [le_antisymm h2 h0]; exact h p (by simp)
    case isFalse h2 =>
      split
      case isTrue h3 =>
        rw [h p (by simp), h q (by simp)]
        have hd : q.1 - p.1 ≠ 0 := by linarith [not_le.1 h2]
        field_simp
        ring
      case isFalse h3 =>
        exact ih q (fun r hr => h r (List.mem_cons_of_mem _ hr)) (not_lt.1 h3) (by simpa using h1)

theorem roundEven_near (x : K) : x - 1 / 2 ≤ roundEven x ∧ (roundEven x : K) ≤ x + 1 / 2 := by
  have h0 := Int.fract_nonneg x
  have h1 := Int.fract_lt_one x
  have h2 := Int.self_sub_floor x
  unfold roundEven
  split
  · constructor <;> linarith
  · split
    · push_cast; constructor <;> linarith
    · split
      · constructor <;> linarith
      · push_cast; constructor <;> linarith

/-! ### Particle numbers -/

theorem rawCounts_ne {n : ℕ} {l : List K} (h : l ≠ []) : rawCounts n l ≠ [] := by
  unfold rawCounts; simpa using h

/-- A species is loaded exactly when its density has a positive integral. -/
theorem counts_ok_iff (n : ℕ) (l : List K) : (∃ cs, counts n l = .ok cs) ↔ 0 < l.sum := by
  unfold counts
  split
  case isTrue h => simp [h]
  case isFalse h => simpa using h

/-- C66: the populations of a species share exactly the configured number of particles, one count
per population. -/
theorem counts_total (n : ℕ) (l : List K) (cs : List ℤ) (h : counts n l = .ok cs) : cs.sum = n ∧ cs.length = l.length := by
  unfold counts at h
  split at h
  · exact absurd h (by simp)
  case isFalse hs =>
    have hne : l ≠ [] := by rintro rfl; simp at hs
    have hr := rawCounts_ne (n := n) hne
    simp only [Except.ok.injEq] at h
    subst h
    have e := List.dropLast_append_getLast hr
    constructor
    · rw [List.sum_append, List.sum_singleton, List.getLastD_eq_getLast?, List.getLast?_eq_some_getLast hr]
      have : (rawCounts n l).sum = (rawCounts n l).dropLast.sum + (rawCounts n l).getLast hr := by
        conv_lhs => rw [← e]
        simp
      simp only [Option.getD_some]
      omega
    · have h1 : (rawCounts n l).length = l.length := by simp [rawCounts]
      have : l.length ≠ 0 := by simpa using hne
      simp only [List.length_append, List.length_dropLast, h1, List.length_singleton]
      omega

/-- C66: every population but the last gets at least one particle, and its share to within half a
particle when that is at least one half. -/
theorem counts_share (n : ℕ) (l : List K) (cs : List ℤ) (h : counts n l = .ok cs) (i : ℕ) (hi : i + 1 < l.length) :
    1 ≤ cs.getD i 0 ∧ ((l.getD i 0) / l.sum * n - 1 / 2 ≤ (cs.getD i 0 : K)) ∧
    (1 / 2 ≤ (l.getD i 0) / l.sum * n → (cs.getD i 0 : K) ≤ (l.getD i 0) / l.sum * n + 1 / 2) := by
  unfold counts at h
  split at h
  · exact absurd h (by simp)
  case isFalse hs =>
    simp only [Except.ok.injEq] at h
    subst h
    have h1 : (rawCounts n l).length = l.length := by simp [rawCounts]
    have hg : ((rawCounts n l).dropLast ++ [(rawCounts n l).getLastD 0 + (n - (rawCounts n l).sum)]).getD i 0 =
        max (roundEven ((l.getD i 0) / l.sum * n)) 1 := by
      rw [List.getD_append _ _ _ _ (by simp [h1]; omega)]
      rw [List.getD_eq_getElem _ _ (by simp [h1]; omega), List.getElem_dropLast]
      unfold rawCounts
      rw [List.getElem_map, List.getD_eq_getElem _ _ (by omega)]
    rw [hg]
    have hn := roundEven_near ((l.getD i 0) / l.sum * n)
    refine ⟨le_max_right _ _, ?_, fun hh => ?_⟩
    · refine hn.1.trans ?_
      exact_mod_cast le_max_left _ _
    · rw [Int.cast_max]
      refine max_le hn.2 ?_
      push_cast
      linarith

/-- C66: the last population takes what is left.  It is represented whenever its share is at least
as large as the number of populations. -/
theorem counts_last (n : ℕ) (l : List K) (hpos : ∀ i ∈ l, 0 ≤ i) (cs : List ℤ) (h : counts n l = .ok cs) :
    (l.getLastD 0) / l.sum * n - (l.length - 1 : K) ≤ (cs.getLastD 0 : K) := by
  have htot := counts_total n l cs h
  unfold counts at h
  split at h
  · exact absurd h (by simp)
  case isFalse hs =>
    have hsum : 0 < l.sum := not_le.1 hs
    have hne : l ≠ [] := by rintro rfl; simp at hs
    simp only [Except.ok.injEq] at h
    obtain ⟨l', x, rfl⟩ : ∃ l' x, l = l' ++ [x] := ⟨l.dropLast, l.getLast hne, (List.dropLast_append_getLast hne).symm⟩
    set S := (l' ++ [x]).sum with hS
    have hraw : (rawCounts n (l' ++ [x])).dropLast = l'.map fun i => max (roundEven (i / S * n)) 1 := by
      unfold rawCounts
      rw [List.map_append, List.map_singleton, List.dropLast_concat]
    have hcs : cs = (l'.map fun i => max (roundEven (i / S * n)) 1) ++ [cs.getLastD 0] := by
      rw [← h, hraw]
      simp
    have hlast : (cs.getLastD 0 : ℤ) = n - (l'.map fun i => max (roundEven (i / S * n)) 1).sum := by
      have := htot.1
      rw [hcs, List.sum_append, List.sum_singleton] at this
      have e : (cs.getLastD 0 : ℤ) = n - (l'.map fun i => max (roundEven (i / S * n)) 1).sum := by linarith
      exact e
    have hbound : ((l'.map fun i => max (roundEven (i / S * n)) 1).sum : K) ≤ l'.sum / S * n + l'.length := by
      have hl' : ∀ i ∈ l', 0 ≤ i := fun i hi => hpos i (by simp [hi])
      clear hcs hlast hraw htot h hne hpos
      clear_value S
      clear hS
      induction l' with
      | nil => simp
      | cons i l' ih =>
        have hi := ih (fun j hj => hl' j (by simp [hj]))
        have h0 : 0 ≤ i / S * n := mul_nonneg (div_nonneg (hl' i (by simp)) hsum.le) (Nat.cast_nonneg n)
        have hr := (roundEven_near (i / S * (n : K))).2
        have hm : ((max (roundEven (i / S * (n : K))) 1 : ℤ) : K) ≤ i / S * n + 1 := by
          rw [Int.cast_max]
          refine max_le (by linarith) (by push_cast; linarith)
        simp only [List.map_cons, List.sum_cons, List.length_cons]
        push_cast at hm ⊢
        rw [add_div, add_mul]
        push_cast at hi
        linarith
    have hx : (l' ++ [x]).getLastD 0 = x := by simp
    rw [hx, hlast]
    push_cast at hbound ⊢
    have hSx : S = l'.sum + x := by rw [hS]; simp
    have : x / S * n = n - l'.sum / S * n := by
      rw [hSx] at hsum ⊢
      field_simp
      ring
    rw [this]
    simp only [List.length_append, List.length_singleton]
    push_cast
    linarith

/-- C66, full statement: every population of a species is represented.  False: five equal
populations sharing four particles leave none for the last, six leave a negative count. -/
theorem counts_last_fails :
    counts (K := ℚ) 4 [1, 1, 1, 1, 1] = .ok [1, 1, 1, 1, 0] ∧ counts (K := ℚ) 4 [1, 1, 1, 1, 1, 1] = .ok [1, 1, 1, 1, 1, -1] := by
  constructor <;> decide +kernel

/-- C66: even with particles to spare the rounding of the others can use up the share of the last
one. -/
theorem counts_last_starved : counts (K := ℚ) 5 [3, 3, 3, 1] = .ok [2, 2, 2, -1] := by decide +kernel

/-! ### Quiet loading -/

/-- C66: quietly loaded particles lie inside the box, in increasing order and evenly spaced. -/
theorem quiet_positions (xmin L : K) (hL : 0 < L) (grid prof : List K) (m : ℤ) (l : List (K × K)) (h : quiet xmin L grid prof m = .ok l) :
    l.length = m.toNat ∧ ∀ k : ℕ, k < m.toNat → (l.getD k (0, 0)).1 = xmin + ((k : K) + 1 / 2) * (L / m) ∧
      xmin < (l.getD k (0, 0)).1 ∧ (l.getD k (0, 0)).1 < xmin + L := by
  unfold quiet at h
  split at h
  · exact absurd h (by simp)
  case isFalse hm =>
    simp only [Except.ok.injEq] at h
    subst h
    refine ⟨by simp, fun k hk => ?_⟩
    have hmpos : 0 < m := by omega
    have hmK : (0 : K) < m := by exact_mod_cast hmpos
    rw [List.getD_eq_getElem _ _ (by simpa using hk)]
    simp only [List.getElem_map, List.getElem_range]
    refine ⟨trivial, ?_, ?_⟩
    · have : 0 < ((k : K) + 1 / 2) * (L / m) := by positivity
      linarith
    · have hk' : (k : K) + 1 ≤ m := by
        have : (k : ℤ) + 1 ≤ m := by omega
        exact_mod_cast this
      have : ((k : K) + 1 / 2) * (L / m) < m * (L / m) := by
        apply mul_lt_mul_of_pos_right _ (by positivity)
        linarith
      have e : (m : K) * (L / m) = L := by field_simp
      linarith

omit [FloorRing K] in
/-- C66: a flat profile is loaded with equal weights that add up to its integral exactly. -/
theorem quiet_flat_weight (xmin L : K) (grid prof : List K) (n0 : K) (hg : grid.zip prof ≠ []) (hp : ∀ d ∈ prof, d = n0) (m : ℤ) (hm : 0 < m)
    (l : List (K × K)) (h : quiet xmin L grid prof m = .ok l) : (l.map Prod.snd).sum = n0 * L ∧ ∀ p ∈ l, p.2 = n0 * (L / m) := by
  unfold quiet at h
  rw [if_neg (by omega)] at h
  simp only [Except.ok.injEq] at h
  subst h
  have hflat : ∀ x, interp x (grid.zip prof) = n0 := fun x => interp_flat n0 x _ hg fun p hp' => hp p.2 (List.of_mem_zip hp').2
  simp only [hflat]
  have hmK : (m : K) ≠ 0 := by exact_mod_cast hm.ne'
  constructor
  · rw [List.map_map]
    have : ((List.range m.toNat).map (Prod.snd ∘ fun k : ℕ => (xmin + ((k : K) + 1 / 2) * (L / m), n0 * (L / m)))) =
        List.replicate m.toNat (n0 * (L / m)) := by
      rw [List.eq_replicate_iff]
      exact ⟨by simp, fun b hb => by simp at hb; exact hb.2.symm⟩
    rw [this, List.sum_replicate, nsmul_eq_mul]
    have : ((m.toNat : ℕ) : K) = m := by
      have : ((m.toNat : ℤ)) = m := Int.toNat_of_nonneg hm.le
      exact_mod_cast congrArg (Int.cast (R := K)) this
    rw [this]
    field_simp
  · intro p hp'
    obtain ⟨k, _, rfl⟩ := List.mem_map.1 hp'
    rfl

/-- C66: the weights of a non-negative profile are never negative. -/
theorem quiet_weight_nonneg (xmin L : K) (hL : 0 ≤ L) (grid prof : List K) (hg : grid.zip prof ≠ []) (hp : ∀ d ∈ prof, 0 ≤ d) (m : ℤ)
    (l : List (K × K)) (h : quiet xmin L grid prof m = .ok l) : ∀ p ∈ l, 0 ≤ p.2 := by
  unfold quiet at h
  split at h
  · exact absurd h (by simp)
  case isFalse hm =>
    simp only [Except.ok.injEq] at h
    subst h
    intro p hp'
    obtain ⟨k, hk, rfl⟩ := List.mem_map.1 hp'
    have hk' := List.mem_range.1 hk
    have hm' : (0 : K) ≤ m := by exact_mod_cast (by omega : (0 : ℤ) ≤ m)
    have hb : ∃ hi : K, ∀ q ∈ grid.zip prof, 0 ≤ q.2 ∧ q.2 ≤ hi := by
      refine ⟨(prof.foldr max 0), fun q hq => ?_⟩
      have hq' := (List.of_mem_zip hq).2
      refine ⟨hp _ hq', ?_⟩
      have : ∀ (l : List K) (x : K), x ∈ l → x ≤ l.foldr max 0 := by
        intro l
        induction l with
        | nil => simp
        | cons y l ih =>
          intro x hx
          simp only [List.foldr_cons]
          rcases List.mem_cons.1 hx with rfl | hx
          · exact le_max_left _ _
          · exact (ih x hx).trans (le_max_right _ _)
      exact this prof q.2 hq'
    obtain ⟨hi, hb⟩ := hb
    have := (interp_range 0 hi (xmin + ((k : K) + 1 / 2) * (L / m)) _ hg hb).1
    exact mul_nonneg this (div_nonneg hL hm')

omit [LinearOrder K] [IsStrictOrderedRing K] [FloorRing K] in
theorem resize_length (n : ℕ) (l : List (K × K)) : (resize n l).length = n := by
  unfold resize
  split
  · assumption
  · simp

omit [LinearOrder K] [IsStrictOrderedRing K] [FloorRing K] in
/-- C66: filling up repeats the particles from the start, cutting keeps the first. -/
theorem resize_entry (n : ℕ) (l : List (K × K)) (k : ℕ) (hk : k < n) : (resize n l).getD k (0, 0) = l.getD (k % l.length) (0, 0) := by
  unfold resize
  split
  case isTrue h => rw [Nat.mod_eq_of_lt (h ▸ hk)]
  case isFalse h => simp [List.getD_eq_getElem?_getD, hk]

/-- C66: a loaded species has exactly the configured number of particles. -/
theorem load_number (xmin L dx : K) (grid : List K) (n : ℕ) (profs : List (List K)) (l : List (K × K))
    (h : loadQuiet xmin L dx grid n profs = .ok l) : l.length = n := by
  unfold loadQuiet at h
  simp only [bind, Except.bind, pure, Except.pure] at h
  split at h
  · exact absurd h (by simp)
  · split at h
    · exact absurd h (by simp)
    · simp only [Except.ok.injEq] at h
      rw [← h]; exact resize_length n _

/-- C66: one population with a flat profile: the whole species carries the density times the
length of the box. -/
theorem load_flat (xmin L dx : K) (hdx : 0 < dx) (grid prof : List K) (n : ℕ) (hn : 0 < n) (n0 : K) (hn0 : 0 < n0)
    (hg : grid.zip prof ≠ []) (hp : ∀ d ∈ prof, d = n0) (l : List (K × K)) (h : loadQuiet xmin L dx grid n [prof] = .ok l) :
    (l.map Prod.snd).sum = n0 * L := by
  have hprof : prof ≠ [] := by rintro rfl; simp at hg
  have hsum : 0 < prof.sum := by
    have hall : ∀ d ∈ prof, 0 < d := fun d hd => by rw [hp d hd]; exact hn0
    exact List.sum_pos prof hall hprof
  have hc : counts n [prof.sum * dx] = .ok [(n : ℤ)] := by
    have hpos : 0 < prof.sum * dx := mul_pos hsum hdx
    unfold counts rawCounts
    rw [if_neg (by simp only [List.sum_singleton]; linarith)]
    have e : prof.sum * dx / [prof.sum * dx].sum * (n : K) = n := by
      rw [List.sum_singleton, div_self hpos.ne', one_mul]
    simp only [List.map_cons, List.map_nil, e]
    simp
  unfold loadQuiet at h
  simp only [bind, Except.bind, pure, Except.pure, List.map_cons, List.map_nil, hc, List.zip_cons_cons, List.zip_nil_left,
    List.mapM_cons, List.mapM_nil] at h
  cases hq : quiet xmin L grid prof n with
  | error e => rw [hq] at h; simp at h
  | ok q =>
    rw [hq] at h
    simp only [Except.ok.injEq, List.flatten_cons, List.flatten_nil, List.append_nil] at h
    have hlen : q.length = n := by
      unfold quiet at hq
      rw [if_neg (by omega)] at hq
      simp only [Except.ok.injEq] at hq
      rw [← hq]; simp
    unfold resize at h
    rw [if_pos hlen] at h
    rw [← h]
    exact (quiet_flat_weight xmin L grid prof n0 hg hp n (by exact_mod_cast hn) q hq).1

/-- C66: the truncation of a species whose last population got a negative count silently loses
particles: six equal flat populations of density 1 on a box of length 4 with 4 particles carry
less than their total of 24. -/
theorem load_truncated :
    ∃ l, loadQuiet (K := ℚ) 0 4 1 [1/2, 3/2, 5/2, 7/2] 4 (List.replicate 6 [1, 1, 1, 1]) = .ok l ∧ (l.map Prod.snd).sum = 16 := by
  refine ⟨[(2, 4), (2, 4), (2, 4), (2, 4)], ?_, ?_⟩ <;> decide +kernel

/-! ### Random loading -/

omit [FloorRing K] in
/-- C66: randomly loaded particles carry exactly the integral of their profile, and lie between the
centres of the first and the last cell. -/
theorem random_load (grid cdf : List K) (integrated : K) (u : List K) (m : ℤ) (hm : 0 < m) (hu : u.length = m.toNat)
    (lo hi : K) (hg : ∀ x ∈ grid, lo ≤ x ∧ x ≤ hi) (hne : cdf.zip grid ≠ []) (l : List (K × K)) (h : random grid cdf integrated u m = .ok l) :
    (l.map Prod.snd).sum = integrated ∧ l.length = m.toNat ∧ ∀ p ∈ l, lo ≤ p.1 ∧ p.1 ≤ hi := by
  unfold random at h
  rw [if_neg (by omega)] at h
  simp only [Except.ok.injEq] at h
  subst h
  refine ⟨?_, by simpa using hu, fun p hp => ?_⟩
  · rw [List.map_map]
    have : u.map (Prod.snd ∘ fun r => (interp r (cdf.zip grid), integrated / m)) = List.replicate m.toNat (integrated / m) := by
      rw [List.eq_replicate_iff]
      exact ⟨by simpa using hu, fun b hb => by obtain ⟨r, _, rfl⟩ := List.mem_map.1 hb; rfl⟩
    rw [this, List.sum_replicate, nsmul_eq_mul]
    have hc : ((m.toNat : ℕ) : K) = m := by
      have : ((m.toNat : ℤ)) = m := Int.toNat_of_nonneg hm.le
      exact_mod_cast congrArg (Int.cast (R := K)) this
    have hmK : (m : K) ≠ 0 := by exact_mod_cast hm.ne'
    rw [hc]; field_simp
  · obtain ⟨r, _, rfl⟩ := List.mem_map.1 hp
    exact interp_range lo hi r _ hne fun q hq => hg q.2 (List.of_mem_zip hq).2

/-! ### Background -/

omit [LinearOrder K] [IsStrictOrderedRing K] [FloorRing K] in
theorem ionCharge_get (nx : ℕ) (species : List (K × List K)) (hl : ∀ s ∈ species, s.2.length = nx) (j : ℕ) (hj : j < nx) :
    (ionCharge true nx species).getD j 0 = -(species.map fun s => s.1 * s.2.getD j 0).sum := by
  have key : ∀ (sp : List (K × List K)) (acc : List K), acc.length = nx → (∀ s ∈ sp, s.2.length = nx) →
      (sp.foldl (fun acc s => List.zipWith (fun a d => a - s.1 * d) acc s.2) acc).getD j 0 = acc.getD j 0 - (sp.map fun s => s.1 * s.2.getD j 0).sum := by
    intro sp
    induction sp with
    | nil => intro acc _ _; simp
    | cons s sp ih =>
      intro acc ha hs
      have h1 := hs s (by simp)
      simp only [List.foldl_cons, List.map_cons, List.sum_cons]
      rw [ih _ (by simp [ha, h1]) fun t ht => hs t (by simp [ht])]
      rw [List.getD_eq_getElem _ _ (by simp [ha, h1, hj]), List.getElem_zipWith, List.getD_eq_getElem _ _ (by omega), List.getD_eq_getElem _ _ (by omega)]
      ring
  unfold ionCharge
  simp only [if_true]
  rw [key species _ (by simp) hl, List.getD_eq_getElem _ _ (by simpa using hj)]
  simp

omit [LinearOrder K] [IsStrictOrderedRing K] [FloorRing K] in
/-- C66: with quasineutrality the background cancels the charge of the density profiles in every
cell, for any mix of species; without it there is none. -/
theorem background_neutral (nx : ℕ) (species : List (K × List K)) (hl : ∀ s ∈ species, s.2.length = nx) (j : ℕ) (hj : j < nx) :
    (ionCharge true nx species).getD j 0 + (species.map fun s => s.1 * s.2.getD j 0).sum = 0 ∧ (ionCharge false nx species).getD j 0 = 0 := by
  constructor
  · rw [ionCharge_get nx species hl j hj]; ring
  · unfold ionCharge
    simp only [Bool.false_eq_true, if_false]
    rw [List.getD_eq_getElem _ _ (by simpa using hj)]; simp

example : loadQuiet (K := ℚ) 0 4 1 [1/2, 3/2, 5/2, 7/2] 8 [[2, 2, 2, 2]] =
    .ok [(1/4, 1), (3/4, 1), (5/4, 1), (7/4, 1), (9/4, 1), (11/4, 1), (13/4, 1), (15/4, 1)] := by decide +kernel
example : counts (K := ℚ) 100 [1, 1, 2] = .ok [25, 25, 50] := by decide +kernel

end Verif.PicLoad

import Verif.Model.Fft
import Mathlib.Data.Nat.Prime.Basic
import Mathlib.Tactic.IntervalCases
import Mathlib.Tactic.Linarith
import Mathlib.Tactic.NormNum.Prime

/-! C55: the FFT size search. -/
namespace Verif.Fft

/-- No prime factor above `b`. -/
def Smooth (b m : Nat) : Prop := 0 < m ∧ ∀ q, q.Prime → q ∣ m → q ≤ b

/-- The bound on the prime factors that `max_prime` stands for. -/
def bound (maxPrime : Nat) : Nat := if 7 ≤ maxPrime then 7 else 5

theorem mem_primes {mp p : Nat} : p ∈ primesFor mp ↔ p.Prime ∧ p ≤ bound mp := by
  unfold primesFor bound
  split
  · constructor
    · intro h; simp at h; rcases h with rfl | rfl | rfl | rfl <;> norm_num
    · rintro ⟨h1, h2⟩; interval_cases p <;> simp_all (config := { decide := true })
  · constructor
    · intro h; simp at h; rcases h with rfl | rfl | rfl <;> norm_num
    · rintro ⟨h1, h2⟩; interval_cases p <;> simp_all (config := { decide := true })

theorem smooth_one (b : Nat) : Smooth b 1 := ⟨one_pos, fun q hq h => absurd h (by
  intro h; exact hq.one_lt.ne' (Nat.dvd_one.1 h))⟩

theorem smooth_mul {b m p : Nat} (hm : Smooth b m) (hp : p.Prime) (hb : p ≤ b) : Smooth b (m * p) := by
  refine ⟨Nat.mul_pos hm.1 hp.pos, fun q hq h => ?_⟩
  rcases (Nat.Prime.dvd_mul hq).1 h with h | h
  · exact hm.2 q hq h
  · rwa [(Nat.prime_dvd_prime_iff_eq hq hp).1 h]

theorem smooth_split {b m : Nat} (hm : Smooth b m) (h1 : m ≠ 1) : ∃ p k, p.Prime ∧ p ≤ b ∧ Smooth b k ∧ m = k * p := by
  refine ⟨m.minFac, m / m.minFac, Nat.minFac_prime h1, hm.2 _ (Nat.minFac_prime h1) m.minFac_dvd, ⟨?_, ?_⟩,
    (Nat.div_mul_cancel m.minFac_dvd).symm⟩
  · exact Nat.div_pos (Nat.minFac_le hm.1) (Nat.minFac_pos m)
  · intro q hq h
    exact hm.2 q hq (h.trans (Nat.div_dvd_of_dvd m.minFac_dvd))

/-- The loop invariant: the list holds exactly the smooth numbers up to its last
element, in order, and index `i` counts those whose product with prime `i` is in it. -/
structure LInv (b : Nat) (primes : List Nat) (s : St) : Prop where
  ne : s.smooth ≠ []
  sorted : s.smooth.Pairwise (· < ·)
  mem : ∀ m, m ∈ s.smooth ↔ Smooth b m ∧ m ≤ s.smooth.getLastD 0
  len : s.idx.length = primes.length
  idx : ∀ (i p k : Nat), primes[i]? = some p → s.idx[i]? = some k →
    k < s.smooth.length ∧ ∀ (j x : Nat), s.smooth[j]? = some x → (x * p ≤ s.smooth.getLastD 0 ↔ j < k)

theorem foldl_min_le (l : List Nat) (a : Nat) : l.foldl min a ≤ a ∧ ∀ x ∈ l, l.foldl min a ≤ x := by
  induction l generalizing a with
  | nil => simp
  | cons y l ih =>
    obtain ⟨h1, h2⟩ := ih (min a y)
    refine ⟨h1.trans (min_le_left _ _), ?_⟩
    intro x hx
    rcases List.mem_cons.1 hx with rfl | hx
    · exact h1.trans (min_le_right _ _)
    · exact h2 x hx

theorem foldl_min_mem (l : List Nat) (a : Nat) : l.foldl min a = a ∨ l.foldl min a ∈ l := by
  induction l generalizing a with
  | nil => simp
  | cons y l ih =>
    simp only [List.foldl_cons]
    rcases ih (min a y) with h | h
    · rw [h]
      rcases min_choice a y with h' | h' <;> simp [h']
    · right; exact List.mem_cons_of_mem _ h

theorem min_spec {l : List Nat} (hl : l ≠ []) : l.foldl min (l.headD 0) ∈ l ∧ ∀ x ∈ l, l.foldl min (l.headD 0) ≤ x := by
  cases l with
  | nil => exact absurd rfl hl
  | cons y l =>
    refine ⟨?_, (foldl_min_le _ _).2⟩
    rcases foldl_min_mem (y :: l) y with h | h
    · rw [List.headD_cons, h]; simp
    · exact h

theorem lastD_mem {l : List Nat} (h : l ≠ []) : l.getLastD 0 ∈ l := by
  rw [List.getLastD_eq_getLast?, List.getLast?_eq_some_getLast h]; simp

theorem getLastD_append (l : List Nat) (x : Nat) : (l ++ [x]).getLastD 0 = x := by simp

theorem getElem?_last {l : List Nat} (h : l ≠ []) : l[l.length - 1]? = some (l.getLastD 0) := by
  rw [← List.getLast?_eq_getElem?, List.getLastD_eq_getLast?, List.getLast?_eq_some_getLast h]; simp

theorem sorted_get {l : List Nat} (h : l.Pairwise (· < ·)) {i j x y : Nat} (hi : l[i]? = some x) (hj : l[j]? = some y) :
    i < j ↔ x < y := by
  obtain ⟨hi1, rfl⟩ := List.getElem?_eq_some_iff.1 hi
  obtain ⟨hj1, rfl⟩ := List.getElem?_eq_some_iff.1 hj
  have key := List.pairwise_iff_getElem.1 h
  constructor
  · intro hlt; exact key i j hi1 hj1 hlt
  · intro hlt
    by_contra hge
    rcases Nat.lt_or_ge j i with h2 | h2
    · have := key j i hj1 hi1 h2; omega
    · have : i = j := by omega
      subst this; omega

theorem candidates_get {primes : List Nat} {s : St} {i : Nat} :
    (candidates primes s)[i]? = (s.idx[i]?).bind fun k => (primes[i]?).map fun p => s.smooth.getD k 0 * p := by
  unfold candidates
  rw [List.getElem?_zipWith]
  cases s.idx[i]? <;> cases primes[i]? <;> rfl

theorem step_inv {b : Nat} {primes : List Nat} {s : St} (hp : ∀ p, p ∈ primes ↔ p.Prime ∧ p ≤ b) (hne : primes ≠ [])
    (h : LInv b primes s) : LInv b primes (step primes s) ∧ s.smooth.getLastD 0 < (step primes s).smooth.getLastD 0 := by
  obtain ⟨ne, sorted, mem, len, idx⟩ := h
  have cne : candidates primes s ≠ [] := by
    intro h0
    have : (candidates primes s).length = 0 := by rw [h0]; rfl
    simp only [candidates, List.length_zipWith, len, Nat.min_self] at this
    exact hne (List.length_eq_zero_iff.1 this)
  obtain ⟨m1, m2⟩ := min_spec cne
  generalize hn : (candidates primes s).foldl min ((candidates primes s).headD 0) = nxt at m1 m2
  have cand : ∀ (i p k : Nat), primes[i]? = some p → s.idx[i]? = some k → ∃ x, s.smooth[k]? = some x ∧
      (candidates primes s)[i]? = some (x * p) ∧ s.smooth.getLastD 0 < x * p ∧ Smooth b (x * p) := by
    intro i p k h1 h2
    obtain ⟨k1, k2⟩ := idx i p k h1 h2
    refine ⟨s.smooth[k], List.getElem?_eq_getElem k1, ?_, ?_, ?_⟩
    · rw [candidates_get, h2, h1]
      simp [List.getD_eq_getElem?_getD, List.getElem?_eq_getElem k1]
    · by_contra hle
      exact absurd ((k2 k _ (List.getElem?_eq_getElem k1)).1 (by omega)) (lt_irrefl _)
    · obtain ⟨p1, p2⟩ := (hp p).1 (List.mem_of_getElem? h1)
      exact smooth_mul ((mem _).1 (List.getElem_mem k1)).1 p1 p2
  have idx_of : ∀ (i p : Nat), primes[i]? = some p → ∃ k, s.idx[i]? = some k := by
    intro i p h1
    have : i < s.idx.length := by rw [len]; exact (List.getElem?_eq_some_iff.1 h1).1
    exact ⟨_, List.getElem?_eq_getElem this⟩
  -- the next number is smooth and beyond the last one
  obtain ⟨i0, hi0⟩ := List.getElem?_of_mem m1
  have hnxt : s.smooth.getLastD 0 < nxt ∧ Smooth b nxt := by
    have hlen : i0 < primes.length := by
      have := (List.getElem?_eq_some_iff.1 hi0).1
      simp only [candidates, List.length_zipWith] at this
      omega
    have hp0 := List.getElem?_eq_getElem hlen
    obtain ⟨k, hk⟩ := idx_of i0 _ hp0
    obtain ⟨x, _, c2, c3, c4⟩ := cand i0 _ k hp0 hk
    rw [hi0] at c2
    rw [Option.some.inj c2]
    exact ⟨c3, c4⟩
  -- and it is the least such
  have least : ∀ m, Smooth b m → s.smooth.getLastD 0 < m → nxt ≤ m := by
    intro m
    induction m using Nat.strong_induction_on with
    | _ m ih =>
      intro hm hlt
      by_contra hcon
      have hm1 : m ≠ 1 := by
        rintro rfl
        have := ((mem _).1 (lastD_mem ne)).1.1
        omega
      obtain ⟨p, k, p1, p2, hk, rfl⟩ := smooth_split hm hm1
      have hkm : k < k * p := by
        have := hk.1; have := p1.two_le; nlinarith
      have hkl : k ≤ s.smooth.getLastD 0 := by
        by_contra hgt
        have := ih k hkm hk (by omega)
        omega
      have hkmem : k ∈ s.smooth := (mem k).2 ⟨hk, hkl⟩
      obtain ⟨j, hj⟩ := List.getElem?_of_mem hkmem
      obtain ⟨i, hi⟩ := List.getElem?_of_mem ((hp p).2 ⟨p1, p2⟩)
      obtain ⟨ix, hix⟩ := idx_of i p hi
      obtain ⟨x, c1, c2, c3, _⟩ := cand i p ix hi hix
      have hge : ¬ j < ix := by
        rw [← ((idx i p ix hi hix).2 j k hj)]; omega
      have hxk : x ≤ k := by
        by_contra hgt
        exact hge ((sorted_get sorted hj c1).2 (by omega))
      have := m2 _ (List.mem_of_getElem? c2)
      have : x * p ≤ k * p := Nat.mul_le_mul_right _ hxk
      omega
  have hs : (step primes s).smooth = s.smooth ++ [nxt] := by
    show s.smooth ++ [(candidates primes s).foldl min ((candidates primes s).headD 0)] = _
    rw [hn]
  have hlast : (step primes s).smooth.getLastD 0 = nxt := by rw [hs, getLastD_append]
  have hle : ∀ x ∈ s.smooth, x ≤ s.smooth.getLastD 0 := fun x hx => ((mem x).1 hx).2
  refine ⟨⟨by rw [hs]; simp, ?_, ?_, ?_, ?_⟩, by rw [hlast]; exact hnxt.1⟩
  · rw [hs, List.pairwise_append]
    refine ⟨sorted, List.pairwise_singleton _ _, ?_⟩
    intro x hx y hy
    rw [List.mem_singleton] at hy; subst hy
    have := hle x hx; omega
  · intro m
    rw [hlast, hs, List.mem_append, List.mem_singleton]
    constructor
    · rintro (hm | rfl)
      · have := (mem m).1 hm
        exact ⟨this.1, by omega⟩
      · exact ⟨hnxt.2, le_refl _⟩
    · rintro ⟨h1, h2⟩
      by_cases hm : m ≤ s.smooth.getLastD 0
      · exact Or.inl ((mem m).2 ⟨h1, hm⟩)
      · have := least m h1 (by omega)
        exact Or.inr (by omega)
  · show (List.zipWith _ s.idx (candidates primes s)).length = _
    simp [candidates, len]
  · intro i p k h1 h2
    obtain ⟨k0, hk0⟩ := idx_of i p h1
    obtain ⟨x, c1, c2, c3, _⟩ := cand i p k0 h1 hk0
    have hk : k = if x * p = nxt then k0 + 1 else k0 := by
      have : (step primes s).idx[i]? = some (if x * p = nxt then k0 + 1 else k0) := by
        show (List.zipWith (fun i x => if x = (candidates primes s).foldl min ((candidates primes s).headD 0) then i + 1
          else i) s.idx (candidates primes s))[i]? = _
        rw [List.getElem?_zipWith, hk0, c2, hn]
      rw [this] at h2
      exact (Option.some.inj h2).symm
    obtain ⟨q1, q2⟩ := idx i p k0 h1 hk0
    have hpos : 0 < p := ((hp p).1 (List.mem_of_getElem? h1)).1.pos
    have hp2 : 2 ≤ p := ((hp p).1 (List.mem_of_getElem? h1)).1.two_le
    have hxn : nxt ≤ x * p := m2 _ (List.mem_of_getElem? c2)
    refine ⟨?_, ?_⟩
    · rw [hs, List.length_append, List.length_singleton, hk]; split <;> omega
    · intro j y hj
      rw [hlast]
      rw [hs] at hj
      by_cases hjl : j < s.smooth.length
      · rw [List.getElem?_append_left hjl] at hj
        have hyk := q2 j y hj
        rw [hk]
        by_cases hjk : j < k0
        · have : y * p ≤ s.smooth.getLastD 0 := hyk.2 hjk
          constructor
          · intro _; split <;> omega
          · intro _; omega
        · have hxy : x ≤ y := by
            by_contra hgt
            exact hjk ((sorted_get sorted hj c1).2 (by omega))
          have hxyp : x * p ≤ y * p := Nat.mul_le_mul_right _ hxy
          by_cases hj0 : j = k0
          · subst hj0
            rw [c1] at hj
            obtain rfl := Option.some.inj hj
            split <;> omega
          · have hlt : x < y := (sorted_get sorted c1 hj).1 (by omega)
            have hxyp' : x * p < y * p := Nat.mul_lt_mul_of_pos_right hlt hpos
            split <;> omega
      · have : j = s.smooth.length := by
          have := (List.getElem?_eq_some_iff.1 hj).1
          rw [List.length_append, List.length_singleton] at this
          omega
        subst this
        rw [List.getElem?_append_right (le_refl _)] at hj
        simp only [Nat.sub_self, List.getElem?_cons_zero, Option.some.injEq] at hj
        subst hj
        have : nxt < nxt * p := by
          have := hnxt.2.1; nlinarith
        rw [hk]
        constructor
        · intro h; omega
        · intro h
          exfalso
          split at h
          · omega
          · omega

theorem loop_inv {b : Nat} {primes : List Nat} (hp : ∀ p, p ∈ primes ↔ p.Prime ∧ p ≤ b) (hne : primes ≠ []) (limit : Nat) :
    ∀ (fuel : Nat) (s : St), LInv b primes s → limit ≤ fuel + s.smooth.getLastD 0 →
      LInv b primes (loop primes limit fuel s) ∧ limit ≤ (loop primes limit fuel s).smooth.getLastD 0 := by
  intro fuel
  induction fuel with
  | zero => intro s h hl; exact ⟨h, by unfold loop; omega⟩
  | succ f ih =>
    intro s h hl
    unfold loop
    split
    · obtain ⟨h1, h2⟩ := step_inv hp hne h
      exact ih _ h1 (by omega)
    · rename_i hm
      simp only [more, decide_eq_true_eq] at hm
      exact ⟨h, by omega⟩

theorem init_inv {b : Nat} {primes : List Nat} (hp : ∀ p, p ∈ primes ↔ p.Prime ∧ p ≤ b) :
    LInv b primes ⟨[1], primes.map fun _ => 0⟩ := by
  refine ⟨by simp, by simp, ?_, by simp, ?_⟩
  · intro m
    simp only [List.mem_singleton]
    constructor
    · rintro rfl; exact ⟨smooth_one b, by simp⟩
    · rintro ⟨h1, h2⟩
      have := h1.1
      simp at h2
      omega
  · intro i p k h1 h2
    simp only [List.getElem?_map, Option.map_eq_some_iff] at h2
    obtain ⟨_, _, rfl⟩ := h2
    refine ⟨by simp, ?_⟩
    intro j x hj
    have h2 := ((hp p).1 (List.mem_of_getElem? h1)).1.two_le
    cases j with
    | zero => simp at hj; subst hj; simp; omega
    | succ j => simp at hj

theorem primes_ne (mp : Nat) : primesFor mp ≠ [] := by
  unfold primesFor; split <;> simp

theorem final_inv (n mp : Nat) : LInv (bound mp) (primesFor mp) (final n mp) ∧ n * 2 ≤ (final n mp).smooth.getLastD 0 :=
  loop_inv (fun _ => mem_primes) (primes_ne mp) _ _ _ (init_inv fun _ => mem_primes) (by omega)

/-- The `while` loop ends by its own condition: the fuel of the model is never the reason. -/
theorem fft_size_terminates (n mp : Nat) : more (n * 2) (final n mp) = false := by
  have := (final_inv n mp).2
  simp only [more, decide_eq_false_iff_not]
  omega

/-- The size returned is the least one that is at least `n` and has only the allowed
prime factors. -/
theorem fft_size_spec (n mp : Nat) :
    Smooth (bound mp) (nextSmooth n mp) ∧ n ≤ nextSmooth n mp ∧ ∀ m, Smooth (bound mp) m → n ≤ m → nextSmooth n mp ≤ m := by
  unfold nextSmooth
  split
  · rename_i h
    exact ⟨smooth_one _, h, fun m hm _ => hm.1⟩
  · rename_i h
    obtain ⟨⟨ne, sorted, mem, _, _⟩, hl⟩ := final_inv n mp
    simp only
    generalize final n mp = s at *
    have hex : ∃ x ∈ s.smooth, decide (n ≤ x) = true := ⟨_, lastD_mem ne, decide_eq_true (by omega)⟩
    have hlt : s.smooth.findIdx (fun x => decide (n ≤ x)) < s.smooth.length := List.findIdx_lt_length_of_exists hex
    have e : s.smooth.getD (searchsorted s.smooth n) 0 = s.smooth[s.smooth.findIdx (fun x => decide (n ≤ x))] := by
      simp [searchsorted, List.getD_eq_getElem?_getD, List.getElem?_eq_getElem hlt]
    rw [e]
    have h1 := List.findIdx_getElem (w := hlt)
    simp only [decide_eq_true_eq] at h1
    refine ⟨((mem _).1 (List.getElem_mem hlt)).1, h1, ?_⟩
    intro m hm hnm
    by_cases hml : m ≤ s.smooth.getLastD 0
    · obtain ⟨j, hj⟩ := List.getElem?_of_mem ((mem m).2 ⟨hm, hml⟩)
      by_contra hgt
      have hj' := (sorted_get sorted hj (List.getElem?_eq_getElem hlt)).2 (by omega)
      have := List.not_of_lt_findIdx hj'
      obtain ⟨hj1, hj2⟩ := List.getElem?_eq_some_iff.1 hj
      rw [hj2] at this
      simp at this
      omega
    · have := ((mem _).1 (List.getElem_mem hlt)).2
      omega

/-- 97 cells become 100, and 98 with the prime 7. -/
example : nextSmooth 97 5 = 100 ∧ nextSmooth 97 7 = 98 ∧ nextSmooth 1025 5 = 1080 := by decide +kernel

end Verif.Fft

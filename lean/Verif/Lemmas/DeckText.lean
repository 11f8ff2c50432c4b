import Verif.Model.Deck

/-! Helper lemmas about the Python string primitives and the deck tokens. -/
namespace Verif
open Deck

/-! ### strip -/

theorem dropWhile_cons_neg {p : Char → Bool} {c : Char} {s : Str} (h : p c = false) :
    (c :: s).dropWhile p = c :: s := by simp [List.dropWhile, h]

theorem dropWhile_cons_pos {p : Char → Bool} {c : Char} {s : Str} (h : p c = true) :
    (c :: s).dropWhile p = s.dropWhile p := by simp [List.dropWhile, h]

/-- First and last character (if any) are not whitespace. -/
def Tight (s : Str) : Prop :=
  (∀ c, s.head? = some c → pySpace c = false) ∧ (∀ c, s.getLast? = some c → pySpace c = false)

theorem lstrip_of_head {s : Str} (h : ∀ c, s.head? = some c → pySpace c = false) : lstrip s = s := by
  cases s with
  | nil => rfl
  | cons c cs => exact dropWhile_cons_neg (h c rfl)

theorem rstrip_of_last {s : Str} (h : ∀ c, s.getLast? = some c → pySpace c = false) :
    (s.reverse.dropWhile pySpace).reverse = s := by
  have : s.reverse.dropWhile pySpace = s.reverse := by
    cases hs : s.reverse with
    | nil => rfl
    | cons c cs =>
      apply dropWhile_cons_neg
      apply h
      have := congrArg List.head? hs
      simpa using this
  rw [this, List.reverse_reverse]

theorem strip_of_tight {s : Str} (h : Tight s) : strip s = s := by
  unfold strip
  rw [lstrip_of_head h.1, rstrip_of_last h.2]

theorem strip_space_cons (s : Str) : strip (' ' :: s) = strip s := by
  have : lstrip (' ' :: s) = lstrip s := dropWhile_cons_pos (by decide)
  unfold strip; rw [this]

theorem lstrip_append_of {s t : Str} (hs : s ≠ []) (h : ∀ c, s.head? = some c → pySpace c = false) :
    lstrip (s ++ t) = s ++ t := by
  apply lstrip_of_head
  intro c hc
  cases s with
  | nil => exact absurd rfl hs
  | cons a as => exact h c (by simpa using hc)

/-- stripping trailing whitespace characters -/
theorem strip_append_space {s : Str} {c : Char} (hs : Tight s) (hne : s ≠ []) (hc : pySpace c = true) :
    strip (s ++ [c]) = s := by
  unfold strip
  rw [lstrip_append_of hne hs.1]
  rw [List.reverse_append, List.reverse_singleton, List.singleton_append, dropWhile_cons_pos hc]
  exact rstrip_of_last hs.2

theorem strip_strip (s : Str) : strip (strip s) = strip s := by
  apply strip_of_tight
  have key : ∀ (p : Char → Bool) (l : Str) (c : Char), (l.dropWhile p).head? = some c → p c = false := by
    intro p l
    induction l with
    | nil => intro c h; simp at h
    | cons a as ih =>
      intro c h
      cases hp : p a with
      | false => rw [dropWhile_cons_neg hp] at h; simp at h; rw [← h]; exact hp
      | true => rw [dropWhile_cons_pos hp] at h; exact ih c h
  constructor
  · intro c hc
    unfold strip at hc
    rw [List.head?_reverse] at hc
    -- last of dropWhile of reverse = last of reverse = head of lstrip
    have h2 : ∀ (l : Str) (c : Char), (l.dropWhile pySpace).getLast? = some c → l.getLast? = some c := by
      intro l
      induction l with
      | nil => intro c h; simp at h
      | cons a as ih =>
        intro c h
        cases hp : pySpace a with
        | false => rw [dropWhile_cons_neg hp] at h; exact h
        | true =>
          rw [dropWhile_cons_pos hp] at h
          have := ih c h
          rw [List.getLast?_cons, this]; rfl
    have := h2 _ _ hc
    rw [List.getLast?_reverse] at this
    exact key pySpace s c this
  · intro c hc
    unfold strip at hc
    rw [List.getLast?_reverse] at hc
    exact key _ _ _ hc

/-! ### decimal digits -/

theorem natDigitsAux_acc (f n : Nat) (acc : Str) :
    natDigitsAux f n acc = natDigitsAux f n [] ++ acc := by
  induction f generalizing n acc with
  | zero => simp [natDigitsAux]
  | succ f ih =>
    unfold natDigitsAux
    split
    · simp
    · rw [ih (n / 10) (_ :: acc), ih (n / 10) [_]]; simp

theorem natDigitsAux_fuel (f g n : Nat) (hf : n < f) (hg : n < g) :
    natDigitsAux f n [] = natDigitsAux g n [] := by
  induction f generalizing g n with
  | zero => omega
  | succ f ih =>
    cases g with
    | zero => omega
    | succ g =>
      unfold natDigitsAux
      split
      · rfl
      · rw [natDigitsAux_acc f, natDigitsAux_acc g, ih g (n / 10) (by omega) (by omega)]

theorem natDigits_lt {n : Nat} (h : n < 10) : natDigits n = [Char.ofNat (48 + n)] := by
  simp [natDigits, natDigitsAux, h]

theorem natDigits_ge {n : Nat} (h : ¬ n < 10) :
    natDigits n = natDigits (n / 10) ++ [Char.ofNat (48 + n % 10)] := by
  unfold natDigits
  conv => lhs; unfold natDigitsAux
  rw [if_neg h, natDigitsAux_acc, natDigitsAux_fuel n (n / 10 + 1) (n / 10) (by omega) (by omega)]

theorem digit_toNat {n : Nat} (h : n < 10) : (Char.ofNat (48 + n)).toNat = 48 + n := by
  have : n = 0 ∨ n = 1 ∨ n = 2 ∨ n = 3 ∨ n = 4 ∨ n = 5 ∨ n = 6 ∨ n = 7 ∨ n = 8 ∨ n = 9 := by omega
  rcases this with h|h|h|h|h|h|h|h|h|h <;> subst h <;> decide

theorem natDigits_spec (n : Nat) :
    natDigits n ≠ [] ∧ (∀ c ∈ natDigits n, isDigit c = true) ∧
      ∀ acc, digitsVal acc (natDigits n) = acc * 10 ^ (natDigits n).length + n := by
  induction n using Nat.strongRecOn with
  | ind n ih =>
    by_cases h : n < 10
    · rw [natDigits_lt h]
      have := digit_toNat h
      refine ⟨by simp, ?_, ?_⟩
      · intro c hc
        simp at hc; subst hc
        simp [isDigit, this]; omega
      · intro acc
        show 10 * acc + ((Char.ofNat (48 + n)).toNat - 48) = acc * 10 ^ 1 + n
        rw [this, Nat.pow_one, Nat.add_sub_cancel_left, Nat.mul_comm]
    · rw [natDigits_ge h]
      obtain ⟨h1, h2, h3⟩ := ih (n / 10) (by omega)
      have hd : n % 10 < 10 := Nat.mod_lt _ (by decide)
      have := digit_toNat hd
      refine ⟨by simp, ?_, ?_⟩
      · intro c hc
        rcases List.mem_append.1 hc with hc | hc
        · exact h2 c hc
        · simp at hc; subst hc; simp [isDigit, this]; omega
      · intro acc
        have app : ∀ (l : Str) (a : Nat) (c : Char), digitsVal a (l ++ [c]) = 10 * digitsVal a l + (c.toNat - 48) := by
          intro l
          induction l with
          | nil => intro a c; rfl
          | cons x xs ih => intro a c; exact ih _ c
        rw [app, h3, this]
        rw [List.length_append, List.length_singleton, Nat.pow_succ]
        have : 10 * (acc * 10 ^ (natDigits (n / 10)).length + n / 10) + (48 + n % 10 - 48)
            = acc * (10 ^ (natDigits (n / 10)).length * 10) + (10 * (n / 10) + n % 10) := by
          rw [Nat.mul_add, ← Nat.mul_assoc 10, Nat.mul_comm 10 acc, Nat.mul_assoc acc 10,
            Nat.mul_comm 10 (10 ^ _)]
          omega
        rw [this]; omega

/-! ### `int(str(i)) = i` -/

theorem isDigit_ne {c d : Char} (h : isDigit c = true) (hd : isDigit d = false) : c ≠ d := by
  rintro rfl; rw [h] at hd; cases hd

theorem dropSign_digit {c : Char} {s : Str} (h : isDigit c = true) : dropSign (c :: s) = c :: s := by
  unfold dropSign
  split
  · next heq => cases heq; exact absurd h (by decide)
  · next heq => cases heq; exact absurd h (by decide)
  · rfl

theorem pyInt_digit {c : Char} {s : Str} (h : isDigit c = true) :
    pyInt (c :: s) = digitsVal 0 (c :: s) := by
  unfold pyInt
  split
  · next heq => cases heq; exact absurd h (by decide)
  · next heq => cases heq; exact absurd h (by decide)
  · rfl

theorem intStr_re (i : Int) : intRe (intStr i) = true := by
  obtain ⟨h1, h2, _⟩ := natDigits_spec i.natAbs
  have hall : allDigits1 (natDigits i.natAbs) = true := by
    unfold allDigits1
    cases hn : natDigits i.natAbs with
    | nil => exact absurd hn h1
    | cons c cs => rw [hn] at h2; simp only [List.isEmpty_cons, Bool.not_false, Bool.true_and]; exact List.all_eq_true.2 h2
  unfold intRe intStr
  split
  · exact hall
  · cases hn : natDigits i.natAbs with
    | nil => exact absurd hn h1
    | cons c cs =>
      rw [dropSign_digit (h2 c (by rw [hn]; simp)), ← hn]; exact hall

theorem pyInt_intStr (i : Int) : pyInt (intStr i) = i := by
  obtain ⟨h1, h2, h3⟩ := natDigits_spec i.natAbs
  unfold intStr
  split
  · show - (digitsVal 0 (natDigits i.natAbs) : Int) = i
    rw [h3]; omega
  · cases hn : natDigits i.natAbs with
    | nil => exact absurd hn h1
    | cons c cs =>
      rw [pyInt_digit (h2 c (by rw [hn]; simp)), ← hn, h3]; omega

end Verif

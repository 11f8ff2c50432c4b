import Verif.Model.Py

/-!
Model of `next_smooth_fft_size` (adept/_lpse2d/helpers.py:22-68).  The `while` loop has
a fuel argument; `fft_size_terminates` shows that the fuel given is enough.
-/
namespace Verif.Fft

/-- Loop state (helpers.py:52-53): the list generated so far and one index per prime. -/
structure St where
  smooth : List Nat
  idx : List Nat

/-- `candidates` (helpers.py:57). -/
def candidates (primes : List Nat) (s : St) : List Nat :=
  List.zipWith (fun i p => s.smooth.getD i 0 * p) s.idx primes

/-- One iteration (helpers.py:55-64). -/
def step (primes : List Nat) (s : St) : St :=
  let c := candidates primes s
  let nxt := c.foldl min (c.headD 0)
  ⟨s.smooth ++ [nxt], List.zipWith (fun i x => if x = nxt then i + 1 else i) s.idx c⟩

/-- `smooth[-1] < limit` (helpers.py:55). -/
def more (limit : Nat) (s : St) : Bool := decide (s.smooth.getLastD 0 < limit)

/-- The loop (helpers.py:55-64). -/
def loop (primes : List Nat) (limit : Nat) : Nat → St → St
  | 0, s => s
  | fuel + 1, s => if more limit s then loop primes limit fuel (step primes s) else s

/-- `np.searchsorted(smooth, n)` (helpers.py:67) on a sorted list. -/
def searchsorted (l : List Nat) (n : Nat) : Nat := l.findIdx fun x => decide (n ≤ x)

/-- `primes` (helpers.py:47-49). -/
def primesFor (maxPrime : Nat) : List Nat := if 7 ≤ maxPrime then [2, 3, 5, 7] else [2, 3, 5]

/-- The state when the loop has ended. -/
def final (n maxPrime : Nat) : St :=
  let primes := primesFor maxPrime
  loop primes (n * 2) (n * 2) ⟨[1], primes.map fun _ => 0⟩

/-- `next_smooth_fft_size` (helpers.py:22-68). -/
def nextSmooth (n maxPrime : Nat) : Nat :=
  if n ≤ 1 then 1 else
    let s := final n maxPrime
    s.smooth.getD (searchsorted s.smooth n) 0

end Verif.Fft

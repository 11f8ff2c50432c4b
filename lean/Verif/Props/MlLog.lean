import Verif.Model.MlLog

/-! C51, C52: run ids inside JIT-compiled code, and logging modules. -/
namespace Verif.MlLog

/-- C51: every run id survives the trip through an `int8` array, and the array has
one entry per byte. -/
theorem run_id_roundtrip (bytes : List Nat) (h : ∀ b ∈ bytes, b < 256) :
    decodeId (encodeId bytes) = bytes ∧ (encodeId bytes).length = bytes.length ∧
    ∀ x ∈ encodeId bytes, -128 ≤ x ∧ x ≤ 127 := by
  refine ⟨?_, by simp [encodeId], ?_⟩
  · unfold decodeId encodeId
    rw [List.map_map]
    have : bytes.map (ofInt8 ∘ toInt8) = bytes.map id := by
      apply List.map_congr_left
      intro b hb
      have := h b hb
      simp only [Function.comp, ofInt8, toInt8, id]
      split <;> omega
    rw [this, List.map_id]
  · intro x hx
    obtain ⟨b, hb, rfl⟩ := List.mem_map.1 hx
    have := h b hb
    unfold toInt8
    split <;> omega

/-- C51: distinct run ids stay distinct. -/
theorem run_id_injective (a b : List Nat) (ha : ∀ x ∈ a, x < 256) (hb : ∀ x ∈ b, x < 256)
    (h : encodeId a = encodeId b) : a = b := by
  rw [← (run_id_roundtrip a ha).1, h, (run_id_roundtrip b hb).1]

example : encodeId [48, 255, 128] = [48, -1, -128] ∧ decodeId [48, -1, -128] = [48, 255, 128] := by decide

variable {A S R : Type}

/-- C52: with logging on, one run is created and everything happens under it in the
order setup, pre-logging, computation, post-logging, each once, with the same setup
result. -/
theorem logged_order (m : LogMod A S R) (fresh b : Nat) (a : A) (h : m.withMlflow = true) :
    let s := m.setup a (some fresh)
    let r := m.call a s (some fresh)
    callMod m fresh (some b) true a =
      ([.createRun b, .setup a (some fresh), .pre a s fresh, .call a s (some fresh), .post r a s fresh], .ok r) := by
  simp [callMod, h, callback]

/-- C52: with logging off no run is created and no logging hook runs; the
computation sees no run id. -/
theorem unlogged (m : LogMod A S R) (fresh : Nat) (b : Option Nat) (p : Bool) (a : A) (h : m.withMlflow = false) :
    let s := m.setup a none
    callMod m fresh b p a = ([.setup a none, .call a s none], .ok (m.call a s none)) := by
  simp [callMod, h, callback]

/-- C52: logging does not change the result of a module whose `setup` and `call` do
not look at the run id. -/
theorem logging_transparent (m m' : LogMod A S R) (hs : m.setup = m'.setup) (hc : m.call = m'.call)
    (h1 : m.withMlflow = true) (h2 : m'.withMlflow = false)
    (hi : ∀ a r r', m.setup a r = m.setup a r') (hj : ∀ a s r r', m.call a s r = m.call a s r')
    (fresh b : Nat) (a : A) :
    (callMod m fresh (some b) true a).2 = (callMod m' fresh (some b) true a).2 := by
  simp only [callMod, h1, h2, ← hs, ← hc, if_true, Bool.false_eq_true, if_false]
  rw [hi a (some fresh) none, hj a _ (some fresh) none]

/-- C52: a missing batch number or an ill-typed parent run raises before any effect. -/
theorem bad_call_no_effect (m : LogMod A S R) (fresh : Nat) (b : Option Nat) (p : Bool) (a : A) (e : Err)
    (h : (callMod m fresh b p a).2 = .error e) :
    (callMod m fresh b p a).1 = [] ∧ m.withMlflow = true ∧ (b = none ∨ p = false) := by
  simp only [callMod] at h ⊢
  cases hm : m.withMlflow <;> simp [hm] at h ⊢
  cases b with
  | none => simp
  | some b => cases p <;> simp at h ⊢

example : callMod (⟨true, fun a _ => a + 1, fun a s _ => a * s⟩ : LogMod Nat Nat Nat) 7 (some 0) true 3 =
    ([.createRun 0, .setup 3 (some 7), .pre 3 4 7, .call 3 4 (some 7), .post 12 3 4 7], .ok 12) := by rfl

end Verif.MlLog

import Verif.Model.Deck

/-!
Specification vocabulary for the OSIRIS deck properties (C01-C06).

`ParsedShape` describes what every successfully parsed deck looks like;
`Printable` is the extra condition under which rendering is faithful.
-/
namespace Verif.Deck

/-- `s` is an identifier `[A-Za-z_][A-Za-z0-9_]*`. -/
def IsIdent (s : Str) : Prop :=
  ∃ c cs, s = c :: cs ∧ isIdentStart c = true ∧ ∀ d ∈ cs, isIdentChar d = true

/-- `s` is a deck key: an identifier, optionally followed by `( ... )`. -/
def IsKey (s : Str) : Prop :=
  ∃ i p, s = i ++ p ∧ IsIdent i ∧ (p = [] ∨ ∃ m, p = '(' :: m ++ [')'] ∧ ')' ∉ m)

/-- The only line break character occurring in `s` is `\n`. -/
def OnlyNL (s : Str) : Prop := ∀ c ∈ s, lineBreak c = true → c = '\n'

/-- What the model assumes of Python floats: the `repr` of a "finite" float is a
decimal float literal which reads back as the same float. -/
structure FloatLaw (io : FloatIO) (fin : io.F → Prop) : Prop where
  rt : ∀ x, fin x →
    floatRe (io.repr x) = true ∧ intRe (io.repr x) = false ∧ io.ofLit (dToE (io.repr x)) = x

/-- The scalars of a value. -/
def Value.atoms {F : Type} : Value F → List (Atom F)
  | .atom a => [a]
  | .list l => l

/-- The characters of the strings in a value. -/
def Value.strChars {F : Type} (v : Value F) : Str :=
  v.atoms.flatMap fun a => match a with
    | .str s => s
    | _ => []

/-- Shape of every parsed section. -/
structure SectionShape {F : Type} (sec : Str × Params F) : Prop where
  name : IsIdent sec.1
  keys : ∀ kv ∈ sec.2, IsKey kv.1 ∧ OnlyNL kv.1
  distinct : (dictKeys sec.2).Nodup
  lists : ∀ kv ∈ sec.2, ∀ l, kv.2 = .list l → 2 ≤ l.length
  strings : ∀ kv ∈ sec.2, OnlyNL kv.2.strChars

/-- Shape of every parsed deck. -/
def ParsedShape {F : Type} (D : Sections F) : Prop := ∀ sec ∈ D, SectionShape sec

/-- A value that survives being written between quotes and read back. -/
structure PrintableValue {F : Type} (fin : F → Prop) (v : Value F) : Prop where
  floats : ∀ x, Atom.flt x ∈ v.atoms → fin x
  noDquote : '"' ∉ v.strChars
  noBangAfterNL : '\n' ∉ v.strChars ∨ '!' ∉ v.strChars

/-- The value is not a list whose last entry is `None`. -/
def NoTrailingNone {F : Type} (v : Value F) : Prop :=
  ∀ l, v = .list l → l.getLast? ≠ some .none

/-- A section that survives rendering: no exotic characters in slice
specifications, printable values, and only the last key may hold a list that
ends with an empty slot. -/
structure PrintableSection {F : Type} (fin : F → Prop) (sec : Str × Params F) : Prop where
  keys : ∀ kv ∈ sec.2, '!' ∉ kv.1 ∧ ∀ c ∈ kv.1, isQuote c = false
  values : ∀ kv ∈ sec.2, PrintableValue fin kv.2
  trailing : ∀ kv ∈ sec.2.dropLast, NoTrailingNone kv.2

/-- A deck that survives rendering. -/
def Printable {F : Type} (fin : F → Prop) (D : Sections F) : Prop :=
  ∀ sec ∈ D, PrintableSection fin sec

/-- A text in which every quote is closed: a sequence of ordinary characters and
complete quoted spans (C02: "outside a quoted string"). -/
inductive Balanced : Str → Prop
  | nil : Balanced []
  | plain {s : Str} {c : Char} : Balanced s → isQuote c = false → Balanced (s ++ [c])
  | span {s m : Str} {q : Char} : Balanced s → isQuote q = true → q ∉ m →
      Balanced (s ++ q :: m ++ [q])

end Verif.Deck

import Verif.Model.Runner

/-! Specification vocabulary for C15-C18 and the OSIRIS runner. -/
namespace Verif.Runner

/-- `t` occurs somewhere in `s`. -/
def Occurs (t s : Str) : Prop := ∃ a b, s = a ++ t ++ b

/-- A line of stderr that reports an error: once stripped and lowercased it is
non-empty, has no `(*warning*)` tag and no known noise, and mentions `error` or
`aborting`. -/
def ErrLine (l : Str) : Prop :=
  let low := lower (strip l)
  low ≠ [] ∧ ¬ Occurs tokWarning low ∧ (∀ n ∈ noise, ¬ Occurs n low) ∧
    (Occurs tokError low ∨ Occurs tokAborting low)

/-- The last `n` elements of a list. -/
def lastN {α : Type} (n : Nat) (l : List α) : List α := l.drop (l.length - n)

/-- The process ended badly, judging from the given stdout and stderr lines. -/
def Bad (rc : Int) (out err : List Str) : Prop :=
  rc ≠ 0 ∨ (∃ l ∈ err, ErrLine l) ∨ ∃ l ∈ out, Occurs tokStarError l

/-- Some file of the tree is a raw dump, a NetCDF file or a history file. -/
def HasOutput {C : Type} (t : Tree C) : Prop :=
  ∃ p c, (p, c) ∈ t ∧
    ((∃ mid f, p = dMS :: (mid ++ [f]) ∧ ∃ b, f = b ++ extH5) ∨
     (∃ mid f, p = dBinary :: (mid ++ [f]) ∧ ∃ b, f = b ++ extNc) ∨
     (∃ mid f, p = dHist :: (mid ++ [f])))

/-- The content of file `p`, if it exists. -/
def fileAt {C : Type} (t : Tree C) (p : Path) : Option C := dictGet t p

end Verif.Runner

import Verif.Model.Io

/-! Specification vocabulary for C19, C20, C47-C50. -/
namespace Verif.Io

/-- The file name `<base>-<digits>.h5`. -/
def dumpName (base ds : Str) : Str := base ++ '-' :: (ds ++ ['.', 'h', '5'])

/-- The `*.h5` files of a directory that belong to series `b`. -/
def members (files : List Str) (b : Str) : List Str :=
  files.filter fun f => isH5 f && decide (dumpBase f = b)

/-- The directory holds dumps of at least two different series. -/
def Several (files : List Str) : Prop :=
  ∃ f g, f ∈ files ∧ g ∈ files ∧ isH5 f = true ∧ isH5 g = true ∧ dumpBase f ≠ dumpBase g

/-- No report series shares its synthetic path `<dir>/<base>` with a real directory. -/
def NoClash (t : Tree) : Prop :=
  ∀ d files, (d, files) ∈ t → Several files → ∀ f ∈ files, isH5 f = true → d ++ [dumpBase f] ∉ dictKeys t

/-- Python's `l[i]`: `0 ≤ i < n`, or `-n ≤ i < 0` counting from the end. -/
def PyIndex (n : Nat) (i : Int) (j : Nat) : Prop :=
  (0 ≤ i ∧ i < n ∧ (j : Int) = i) ∨ (-n ≤ i ∧ i < 0 ∧ (j : Int) = n + i)

/-- The index lists have the same length and correspond one to one. -/
inductive PyIndices (n : Nat) : List Int → List Nat → Prop
  | nil : PyIndices n [] []
  | cons {i j is js} : PyIndex n i j → PyIndices n is js → PyIndices n (i :: is) (j :: js)

end Verif.Io

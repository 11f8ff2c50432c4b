/-
Python string and dictionary primitives used by the modelled code.

These model CPython built-ins (not code in /repo): `str.strip`, `str.splitlines`,
`"\n".join`, `dict.__setitem__`, `dict.get`.
-/
namespace Verif

/-- A Python `str`, as its list of code points. -/
abbrev Str := List Char

/-- Whitespace removed by Python's `str.strip()` (the code points with
`str.isspace()`), used by adept/osiris/deck.py:85,89,97,196. -/
def pySpace (c : Char) : Bool :=
  let n := c.toNat
  (9 ≤ n && n ≤ 13) || (28 ≤ n && n ≤ 32) || n == 0x85 || n == 0xa0 || n == 0x1680 ||
  (0x2000 ≤ n && n ≤ 0x200a) || n == 0x2028 || n == 0x2029 || n == 0x202f || n == 0x205f ||
  n == 0x3000

/-- Line boundaries of Python's `str.splitlines()`, used by adept/osiris/deck.py:125. -/
def lineBreak (c : Char) : Bool :=
  let n := c.toNat
  (10 ≤ n && n ≤ 13) || (28 ≤ n && n ≤ 30) || n == 0x85 || n == 0x2028 || n == 0x2029

/-- `s.lstrip()`. -/
def lstrip (s : Str) : Str := s.dropWhile pySpace

/-- `s.strip()`, used by adept/osiris/deck.py:85,89,97,196. -/
def strip (s : Str) : Str := ((lstrip s).reverse.dropWhile pySpace).reverse

/-- Worker of `str.splitlines()`; `cur` is the current line, reversed. -/
def splitlinesAux (cur : Str) : Str → List Str
  | [] => if cur.isEmpty then [] else [cur.reverse]
  | '\r' :: '\n' :: cs => cur.reverse :: splitlinesAux [] cs
  | c :: cs =>
    if lineBreak c then cur.reverse :: splitlinesAux [] cs
    else splitlinesAux (c :: cur) cs

/-- Python `str.splitlines()` (no keepends), used by adept/osiris/deck.py:125. -/
def splitlines (s : Str) : List Str := splitlinesAux [] s

/-- `"\n".join(lines)`, used by adept/osiris/deck.py:125,240. -/
def joinLines : List Str → Str
  | [] => []
  | [l] => l
  | l :: ls => l ++ '\n' :: joinLines ls

/-- An insertion-ordered Python `dict`, as an association list. -/
abbrev Dict (κ ν : Type) := List (κ × ν)

/-- `d[k] = v`: overwrite in place, or append at the end (Python dict order). -/
def dictSet {κ ν : Type} [DecidableEq κ] : Dict κ ν → κ → ν → Dict κ ν
  | [], k, v => [(k, v)]
  | (k', v') :: d, k, v => if k' = k then (k, v) :: d else (k', v') :: dictSet d k v

/-- `d.get(k)`. -/
def dictGet {κ ν : Type} [DecidableEq κ] : Dict κ ν → κ → Option ν
  | [], _ => none
  | (k', v') :: d, k => if k' = k then some v' else dictGet d k

/-- `list(d.keys())`. -/
def dictKeys {κ ν : Type} (d : Dict κ ν) : List κ := d.map Prod.fst

end Verif

import Verif.Model.Py

/-
Model of adept/osiris/deck.py (OSIRIS namelist parser / renderer / overrides).

Text is a list of code points.  Simplifications, all stated here once:
* `\d` in the two numeric regexes is read as ASCII `0-9` (Python also accepts
  other Unicode decimal digits).
* CPython's limit of 4300 digits in `int(...)` is not modelled.
* Error messages are reduced to the kind of error.
* A Python `float` is an abstract type with `float(...)` and `repr(...)` as
  parameters (structure `FloatIO`).
-/
namespace Verif.Deck

/-- Python floats as used by the deck code: `float(str)` (deck.py:110) and
`repr(float)` (deck.py:216). -/
structure FloatIO where
  F : Type
  /-- `float(s)` on a literal accepted by `_FLOAT_RE` after `d`→`e`. -/
  ofLit : Str → F
  /-- `repr(x)`. -/
  repr : F → Str

/-- A scalar deck value (deck.py:95-111): `None`, `bool`, `int`, `float`, `str`. -/
inductive Atom (F : Type) where
  | none
  | bool (b : Bool)
  | int (i : Int)
  | flt (x : F)
  | str (s : Str)
deriving DecidableEq

/-- A deck value (deck.py:114-120): a scalar or a list of scalars. -/
inductive Value (F : Type) where
  | atom (a : Atom F)
  | list (l : List (Atom F))
deriving DecidableEq

/-- The parameters of a section: an ordered dict (deck.py:19-22). -/
abbrev Params (F : Type) := Dict Str (Value F)

/-- Ordered list of `(section_name, params)` pairs (deck.py:35-36). -/
abbrev Sections (F : Type) := List (Str × Params F)

/-- `ch in _QUOTE_CHARS` (deck.py:44). -/
def isQuote (c : Char) : Bool := c == '"' || c == '\''

/-- `_strip_comment` (deck.py:52-68); `q` is the open quote, if any. -/
def stripComment (q : Option Char) : Str → Str
  | [] => []
  | c :: cs =>
    match q with
    | some x => c :: stripComment (if c = x then none else some x) cs
    | none =>
      if isQuote c then c :: stripComment (some c) cs
      else if c = '!' then []
      else c :: stripComment none cs

/-- Loop of `_split_top_commas` (deck.py:73-88): the raw pieces (before
`.strip()`), the last one being the final content of `buf`. -/
def splitCommasRaw (q : Option Char) (buf : Str) : Str → List Str
  | [] => [buf.reverse]
  | c :: cs =>
    match q with
    | some x => splitCommasRaw (if c = x then none else some x) (c :: buf) cs
    | none =>
      if isQuote c then splitCommasRaw (some c) (c :: buf) cs
      else if c = ',' then buf.reverse :: splitCommasRaw none [] cs
      else splitCommasRaw none (c :: buf) cs

/-- Drop the last piece if it is empty (deck.py:89-91). -/
def dropEmptyLast : List Str → List Str
  | [] => []
  | [l] => if l.isEmpty then [] else [l]
  | l :: ls => l :: dropEmptyLast ls

/-- `_split_top_commas` (deck.py:71-92). -/
def splitTopCommas (s : Str) : List Str :=
  dropEmptyLast ((splitCommasRaw none [] s).map strip)

/-- `[0-9]`. -/
def isDigit (c : Char) : Bool := 48 ≤ c.toNat && c.toNat ≤ 57

/-- `[A-Za-z_]`. -/
def isIdentStart (c : Char) : Bool :=
  (65 ≤ c.toNat && c.toNat ≤ 90) || (97 ≤ c.toNat && c.toNat ≤ 122) || c == '_'

/-- `[A-Za-z0-9_]`. -/
def isIdentChar (c : Char) : Bool := isIdentStart c || isDigit c

/-- Drop one optional sign `[+-]?`. -/
def dropSign : Str → Str
  | '+' :: s => s
  | '-' :: s => s
  | s => s

/-- `\d+` matching the whole string. -/
def allDigits1 (s : Str) : Bool := !s.isEmpty && s.all isDigit

/-- `_INT_RE` (deck.py:48): `^[+-]?\d+$`. -/
def intRe (s : Str) : Bool := allDigits1 (dropSign s)

/-- `(?:[eEdD][+-]?\d+)?$`. -/
def expRe : Str → Bool
  | [] => true
  | c :: s => (c == 'e' || c == 'E' || c == 'd' || c == 'D') && allDigits1 (dropSign s)

/-- `_FLOAT_RE` (deck.py:49):
`^[+-]?(?:\d+\.\d*|\.\d+|\d+)(?:[eEdD][+-]?\d+)?$`.  Digits are matched greedily,
which is exact because a digit can start neither `.` nor an exponent. -/
def floatRe (s : Str) : Bool :=
  let t := dropSign s
  let ip := t.takeWhile isDigit
  match t.dropWhile isDigit with
  | '.' :: r =>
    let fp := r.takeWhile isDigit
    (!ip.isEmpty || !fp.isEmpty) && expRe (r.dropWhile isDigit)
  | r => !ip.isEmpty && expRe r

/-- Value of a digit string, most significant first. -/
def digitsVal (acc : Nat) : Str → Nat
  | [] => acc
  | c :: cs => digitsVal (10 * acc + (c.toNat - 48)) cs

/-- `int(t)` on a string matched by `_INT_RE` (deck.py:108). -/
def pyInt : Str → Int
  | '-' :: s => - (digitsVal 0 s : Int)
  | '+' :: s => digitsVal 0 s
  | s => digitsVal 0 s

/-- ASCII `str.lower` (deck.py:102); only compared with ASCII tokens, and no
non-ASCII character lower-cases to a letter of those tokens. -/
def asciiLower (c : Char) : Char :=
  if 65 ≤ c.toNat && c.toNat ≤ 90 then Char.ofNat (c.toNat + 32) else c

/-- `t.replace("d","e").replace("D","e")` (deck.py:110). -/
def dToE (s : Str) : Str := s.map fun c => if c = 'd' then 'e' else if c = 'D' then 'e' else c

/-- The test `len(t) >= 2 and t[0] in _QUOTE_CHARS and t[-1] == t[0]`
(deck.py:100), returning `t[1:-1]`. -/
def unquote : Str → Option Str
  | c :: d :: cs =>
    if isQuote c && (d :: cs).getLast? == some c then some (d :: cs).dropLast else none
  | _ => none

/-- `_parse_atom` (deck.py:95-111). -/
def parseAtom (io : FloatIO) (tok : Str) : Atom io.F :=
  let t := strip tok
  if t.isEmpty then .none
  else match unquote t with
    | some s => .str s
    | none =>
      let low := t.map asciiLower
      if low = ['.', 't', 'r', 'u', 'e', '.'] ∨ low = ['.', 't', '.'] then .bool true
      else if low = ['.', 'f', 'a', 'l', 's', 'e', '.'] ∨ low = ['.', 'f', '.'] then .bool false
      else if intRe t then .int (pyInt t)
      else if floatRe t then .flt (io.ofLit (dToE t))
      else .str t

/-- `_parse_value` (deck.py:114-120). -/
def parseValue (io : FloatIO) (rhs : Str) : Value io.F :=
  match splitTopCommas rhs with
  | [] => .atom .none
  | [p] => .atom (parseAtom io p)
  | ps => .list (ps.map (parseAtom io))

/-- `src[j] in " \t\n\r"` (deck.py:130,184,189). -/
def deckWs (c : Char) : Bool := c == ' ' || c == '\t' || c == '\n' || c == '\r'

/-- `skip_ws` (deck.py:129-132), on the rest of the text. -/
def skipWs (s : Str) : Str := s.dropWhile deckWs

/-- `_IDENT_RE.match` (deck.py:46) at the start of `s`: (match, rest). -/
def matchIdent : Str → Option (Str × Str)
  | [] => none
  | c :: cs =>
    if isIdentStart c then some (c :: cs.takeWhile isIdentChar, cs.dropWhile isIdentChar)
    else none

/-- `(?:\([^)]*\))?` after an identifier: taken if a `)` follows, else empty. -/
def matchParen (s : Str) : Str × Str :=
  match s with
  | '(' :: cs =>
    match cs.dropWhile (· != ')') with
    | ')' :: r => ('(' :: cs.takeWhile (· != ')') ++ [')'], r)
    | _ => ([], s)
  | _ => ([], s)

/-- `_KEY_RE.match` (deck.py:47) at the start of `s`: (match, rest). -/
def matchKey (s : Str) : Option (Str × Str) :=
  match matchIdent s with
  | none => none
  | some (i, r) => let (p, r') := matchParen r; some (i ++ p, r')

/-- The look-ahead after a comma (deck.py:183-192): is the next token a key
followed by `=`? -/
def peekKeyEq (s : Str) : Bool :=
  match matchKey (skipWs s) with
  | none => false
  | some (_, r) => match skipWs r with
    | '=' :: _ => true
    | _ => false

/-- The value scan (deck.py:166-195): (value text, rest starting at the
terminator). -/
def scanValue (q : Option Char) : Str → Str × Str
  | [] => ([], [])
  | c :: cs =>
    match q with
    | some x =>
      let r := scanValue (if c = x then none else some x) cs
      (c :: r.1, r.2)
    | none =>
      if isQuote c then
        let r := scanValue (some c) cs
        (c :: r.1, r.2)
      else if c = '}' then ([], c :: cs)
      else if c = ',' then
        if peekKeyEq cs then ([], c :: cs)
        else
          let r := scanValue none cs
          (c :: r.1, r.2)
      else
        let r := scanValue none cs
        (c :: r.1, r.2)

/-- Ways `parse_deck` fails: the five `ValueError`s (deck.py:141,146,152,158,163),
and `fuel`, the model's marker for "still looping" (proved unreachable). -/
inductive Err where
  | sectionName | openBrace | unterminated | key | equals | fuel
deriving DecidableEq

/-- `if i < n and src[i] == ",": i += 1` (deck.py:197-198). -/
def eatComma : Str → Str
  | ',' :: s => s
  | s => s

/-- The key/value loop of one section (deck.py:149-199). -/
def parseParams (io : FloatIO) : Nat → Str → Params io.F → Except Err (Params io.F × Str)
  | 0, _, _ => .error .fuel
  | n + 1, s, ps =>
    match skipWs s with
    | [] => .error .unterminated
    | c :: cs =>
      if c = '}' then .ok (ps, cs)
      else match matchKey (c :: cs) with
        | none => .error .key
        | some (k, r) =>
          match skipWs r with
          | '=' :: r' =>
            let v := scanValue none r'
            parseParams io n (eatComma v.2) (dictSet ps k (parseValue io (strip v.1)))
          | _ => .error .equals

/-- The section loop (deck.py:135-200). -/
def parseSections (io : FloatIO) : Nat → Str → Except Err (Sections io.F)
  | 0, _ => .error .fuel
  | n + 1, s =>
    match skipWs s with
    | [] => .ok []
    | c :: cs =>
      match matchIdent (c :: cs) with
      | none => .error .sectionName
      | some (name, r) =>
        match skipWs r with
        | '{' :: r' =>
          match parseParams io (r'.length + 1) r' [] with
          | .error e => .error e
          | .ok (ps, rest) =>
            match parseSections io n rest with
            | .error e => .error e
            | .ok ss => .ok ((name, ps) :: ss)
        | _ => .error .openBrace

/-- `src = "\n".join(_strip_comment(ln) for ln in text.splitlines())` (deck.py:125). -/
def preprocess (text : Str) : Str := joinLines ((splitlines text).map (stripComment none))

/-- `parse_deck` (deck.py:123-201). -/
def parseDeck (io : FloatIO) (text : Str) : Except Err (Sections io.F) :=
  let src := preprocess text
  parseSections io (src.length + 1) src

/-- Worker of `str(int)` (deck.py:214): decimal digits, most significant first;
the first argument is fuel (`n + 1` always suffices). -/
def natDigitsAux : Nat → Nat → Str → Str
  | 0, _, acc => acc
  | f + 1, n, acc =>
    if n < 10 then Char.ofNat (48 + n) :: acc
    else natDigitsAux f (n / 10) (Char.ofNat (48 + n % 10) :: acc)

/-- `str(n)` for a non-negative int (deck.py:214, 328, 336). -/
def natDigits (n : Nat) : Str := natDigitsAux (n + 1) n []

/-- `str(i)` for an int (deck.py:214). -/
def intStr (i : Int) : Str :=
  if i < 0 then '-' :: natDigits i.natAbs else natDigits i.natAbs

/-- `_render_value` on a scalar (deck.py:208-220). -/
def renderAtom (io : FloatIO) : Atom io.F → Str
  | .none => []
  | .bool true => ['.', 't', 'r', 'u', 'e', '.']
  | .bool false => ['.', 'f', 'a', 'l', 's', 'e', '.']
  | .int i => intStr i
  | .flt x => io.repr x
  | .str s => '"' :: s ++ ['"']

/-- `", ".join(pieces)` (deck.py:218). -/
def joinCommaSp : List Str → Str
  | [] => []
  | [p] => p
  | p :: ps => p ++ ',' :: ' ' :: joinCommaSp ps

/-- `_render_value` (deck.py:208-221).  Nested lists, which `parse_deck` never
produces, are not modelled. -/
def renderValue (io : FloatIO) : Value io.F → Str
  | .atom a => renderAtom io a
  | .list l => joinCommaSp (l.map (renderAtom io))

/-- `f"{k:<{kw}}"`: left-justify in a field of width `kw` (deck.py:237). -/
def padTo (kw : Nat) (k : Str) : Str := k ++ List.replicate (kw - k.length) ' '

/-- `kw = max(len(k) for k in params)` (deck.py:235). -/
def keyWidth {F : Type} (ps : Params F) : Nat := ps.foldr (fun kv m => max kv.1.length m) 0

/-- One parameter line (deck.py:237). -/
def renderLine (io : FloatIO) (kw : Nat) (kv : Str × Value io.F) : Str :=
  ' ' :: ' ' :: padTo kw kv.1 ++ [' ', '=', ' '] ++ renderValue io kv.2 ++ [',']

/-- The output lines of one section (deck.py:228-239). -/
def renderSectionLines (io : FloatIO) (sec : Str × Params io.F) : List Str :=
  sec.1 :: ['{'] :: (sec.2.map (renderLine io (keyWidth sec.2)) ++ [['}'], []])

/-- `render_deck` (deck.py:224-240). -/
def renderDeck (io : FloatIO) (ss : Sections io.F) : Str :=
  joinLines (ss.flatMap (renderSectionLines io))

/-- `k.split("(", 1)[0]` (deck.py:253). -/
def baseName (k : Str) : Str := k.takeWhile (· != '(')

/-- `_find_param_key` (deck.py:243-258); `none` is the `ValueError`. -/
def findParamKey {V : Type} (ps : Dict Str V) (req : Str) : Option Str :=
  if req ∈ dictKeys ps then some req
  else match (dictKeys ps).filter (fun k => baseName k == req) with
    | [k] => some k
    | [] => some req
    | _ => none

/-- Errors of `merge_overrides`: `ValueError` (258), `KeyError` (285),
`IndexError` (290). -/
inductive MergeErr where
  | ambiguous | unknownSection | indexRange
deriving DecidableEq

/-- `_merge_params` (deck.py:261-264). -/
def mergeParams {V : Type} (ps : Dict Str V) : List (Str × V) → Except MergeErr (Dict Str V)
  | [] => .ok ps
  | (k, v) :: over =>
    match findParamKey ps k with
    | none => .error .ambiguous
    | some t => mergeParams (dictSet ps t v) over

/-- The override of one section name: indexed by occurrence, or for all
occurrences (deck.py:270-275, 287). -/
inductive SecOver (V : Type) where
  | indexed (l : List (Int × List (Str × V)))
  | blanket (l : List (Str × V))

/-- `by_name[name]`: positions of the sections called `name` (deck.py:279-281). -/
def occurrences {V : Type} (ss : List (Str × Dict Str V)) (name : Str) : List Nat :=
  (List.range ss.length).filter fun i => (ss[i]?.map Prod.fst) == some name

/-- `_merge_params(sections[i][1], over)` in place. -/
def mergeAt {V : Type} (ss : List (Str × Dict Str V)) (i : Nat) (over : List (Str × V)) :
    Except MergeErr (List (Str × Dict Str V)) :=
  match ss[i]? with
  | none => .ok ss
  | some (nm, ps) =>
    match mergeParams ps over with
    | .error e => .error e
    | .ok ps' => .ok (ss.set i (nm, ps'))

/-- Apply one override to several positions in order (deck.py:295-296). -/
def mergeAll {V : Type} (ss : List (Str × Dict Str V)) (over : List (Str × V)) :
    List Nat → Except MergeErr (List (Str × Dict Str V))
  | [] => .ok ss
  | i :: is =>
    match mergeAt ss i over with
    | .error e => .error e
    | .ok ss' => mergeAll ss' over is

/-- The indexed branch (deck.py:288-293). -/
def mergeIndexed {V : Type} (occ : List Nat) (ss : List (Str × Dict Str V)) :
    List (Int × List (Str × V)) → Except MergeErr (List (Str × Dict Str V))
  | [] => .ok ss
  | (idx, over) :: rest =>
    if idx < 0 ∨ idx ≥ occ.length then .error .indexRange
    else match mergeAt ss (occ.getD idx.toNat 0) over with
      | .error e => .error e
      | .ok ss' => mergeIndexed occ ss' rest

/-- `merge_overrides` (deck.py:267-296).  `by_name` is computed from the
sections on entry; names never change, so it is recomputed here.  An empty
`sec_over` dict takes the `else` branch and does nothing. -/
def mergeOverrides {V : Type} (ss : List (Str × Dict Str V)) :
    List (Str × SecOver V) → Except MergeErr (List (Str × Dict Str V))
  | [] => .ok ss
  | (name, so) :: rest =>
    let occ := occurrences ss name
    if occ = [] then .error .unknownSection
    else
      match (match so with
        | .indexed l => mergeIndexed occ ss l
        | .blanket l => mergeAll ss l occ) with
      | .error e => .error e
      | .ok ss' => mergeOverrides ss' rest

/-- Characters kept by `_KEY_SANITIZE_RE` (deck.py:299): `[A-Za-z0-9_./:\- ]`. -/
def mlflowSafe (c : Char) : Bool :=
  isIdentChar c || c == '.' || c == '/' || c == ':' || c == '-' || c == ' '

/-- `_KEY_SANITIZE_RE.sub("_", k)` (deck.py:299,307): each maximal run of unsafe
characters becomes one `_`.  `run` = the previous character was unsafe. -/
def subUnsafe (run : Bool) : Str → Str
  | [] => []
  | c :: cs =>
    if mlflowSafe c then c :: subUnsafe false cs
    else if run then subUnsafe true cs
    else '_' :: subUnsafe true cs

/-- `while "__" in out: out = out.replace("__","_")` (deck.py:308-309), whose
fixed point collapses every run of underscores to one. -/
def collapseUnderscores : Str → Str
  | [] => []
  | c :: cs =>
    if c = '_' ∧ cs.head? = some '_' then collapseUnderscores cs
    else c :: collapseUnderscores cs

/-- `out.strip("_")` (deck.py:310). -/
def stripUnderscore (s : Str) : Str :=
  ((s.dropWhile (· == '_')).reverse.dropWhile (· == '_')).reverse

/-- `_sanitize_key` (deck.py:302-310). -/
def sanitizeKey (k : Str) : Str :=
  let s := stripUnderscore (collapseUnderscores (subUnsafe false k))
  if s.isEmpty then ['_'] else s

/-- The prefix of each section (deck.py:320-331): `seen` are the names of the
sections before it, `all` all names. -/
def sectionPrefix (all seen : List Str) (name : Str) : Str :=
  if all.count name > 1 then
    sanitizeKey (name ++ '[' :: natDigits (seen.count name) ++ [']'])
  else sanitizeKey name

/-- Logged (name, value) assignments of one parameter, in order (deck.py:332-338). -/
def flatParam {F : Type} (pre : Str) (kv : Str × Value F) : List (Str × Atom F) :=
  let base := pre ++ '.' :: sanitizeKey kv.1
  match kv.2 with
  | .list l => l.zipIdx.map fun xj => (base ++ '.' :: natDigits xj.2, xj.1)
  | .atom a => [(base, a)]

/-- All assignments made by `deck_to_flat_dict`, in order. -/
def flatAssigns {F : Type} (all seen : List Str) : Sections F → List (Str × Atom F)
  | [] => []
  | (name, ps) :: ss =>
    ps.flatMap (flatParam (sectionPrefix all seen name)) ++
      flatAssigns all (seen ++ [name]) ss

/-- `deck_to_flat_dict` (deck.py:313-339). -/
def deckToFlatDict {F : Type} (ss : Sections F) : Dict Str (Atom F) :=
  (flatAssigns (ss.map Prod.fst) [] ss).foldl (fun d kv => dictSet d kv.1 kv.2) []

end Verif.Deck

import Verif.Model.Utils

/-! Specification vocabulary for C23, C24, C26, C30. -/
namespace Verif.Utils

/-- `Leaf d p v`: following the keys `p` from dictionary `d` leads to the leaf `v`. -/
inductive Leaf {V : Type} : Entries V → List Str → V → Prop
  | here {k v r} : Leaf (.cons k (.leaf v) r) [k] v
  | down {k e r p v} : Leaf e p v → Leaf (.cons k (.dict e) r) (k :: p) v
  | next {k x r p v} : Leaf r p v → Leaf (.cons k x r) p v

/-- Keys joined by the delimiter: `a`, `b`, `c` to `a.b.c`. -/
def dotted (delim : Str) : List Str → Str
  | [] => []
  | [k] => k
  | k :: ks => k ++ delim ++ dotted delim ks

/-- The keys of a dictionary. -/
def Entries.keys {V : Type} : Entries V → List Str
  | .nil => []
  | .cons k _ r => k :: r.keys

/-- A Python dictionary: distinct keys at every level. -/
inductive WF {V : Type} : Entries V → Prop
  | nil : WF .nil
  | leaf {k v r} : k ∉ r.keys → WF r → WF (.cons k (.leaf v) r)
  | dict {k e r} : k ∉ r.keys → WF e → WF r → WF (.cons k (.dict e) r)

/-- Every key at every level satisfies `P`. -/
inductive AllKeys {V : Type} (P : Str → Prop) : Entries V → Prop
  | nil : AllKeys P .nil
  | leaf {k v r} : P k → AllKeys P r → AllKeys P (.cons k (.leaf v) r)
  | dict {k e r} : P k → AllKeys P e → AllKeys P r → AllKeys P (.cons k (.dict e) r)

/-- No nested dictionary, at any depth, is empty. -/
inductive NoEmpty {V : Type} : Entries V → Prop
  | nil : NoEmpty .nil
  | leaf {k v r} : NoEmpty r → NoEmpty (.cons k (.leaf v) r)
  | dict {k k' v' r' r} : NoEmpty (.cons k' v' r') → NoEmpty r → NoEmpty (.cons k (.dict (.cons k' v' r')) r)

end Verif.Utils

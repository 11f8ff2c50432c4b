import Mathlib.Algebra.Order.Field.Basic
import Mathlib.Order.Lattice

/-!
Model of `all_reduce_gradients` (adept/utils.py:103-203).

Simplifications: all gradient pytrees have the same structure and leaf shapes, so
`jax.tree.map` acts position by position (a position is a leaf together with an
index into it).  A float is a number of a linearly ordered field or NaN; infinities
and rounding are not modelled.
-/
namespace Verif.Grad

/-- A float: a number, or NaN. -/
inductive Fl (K : Type) | num (x : K) | nan

/-- A pytree of gradients: at each position `None` or a float. -/
abbrev Tree (ι K : Type) := ι → Option (Fl K)

variable {ι K : Type} [Field K] [LinearOrder K]

/-- `jnp.where(isnan(a1), a2, jnp.where(isnan(a2), a1, a1 + a2))` (utils.py:174). -/
def addF : Fl K → Fl K → Fl K
  | .nan, b => b
  | .num a, .nan => .num a
  | .num a, .num b => .num (a + b)

/-- `_safe_add` (utils.py:168-174). -/
def safeAdd : Option (Fl K) → Option (Fl K) → Option (Fl K)
  | none, b => b
  | some a, none => some a
  | some a, some b => some (addF a b)

/-- `_safe_divide` (utils.py:179-183). -/
def safeDivide (num : Nat) : Option (Fl K) → Option (Fl K)
  | none => none
  | some .nan => some .nan
  | some (.num a) => some (.num (a / num))

/-- `_clip_gradient` (utils.py:185-189), `jnp.clip(g, -1e3, 1e3)`. -/
def clip : Option (Fl K) → Option (Fl K)
  | none => none
  | some .nan => some .nan
  | some (.num a) => some (.num (min (max a (-1000)) 1000))

/-- Exceptions. -/
inductive Err | unbound | index
deriving DecidableEq

/-- `all_reduce_gradients(gradients, num)` (utils.py:103-203).  With `num ≤ 1` the
variable `average_gradient` is never assigned. -/
def allReduce (gs : List (Tree ι K)) (num : Nat) : Except Err (Tree ι K) :=
  if num > 1 then
    match gs.take num with
    | g0 :: g1 :: rest =>
      if gs.length < num then .error .index
      else
        let s := rest.foldl (fun acc g i => safeAdd (acc i) (g i)) (fun i => safeAdd (g0 i) (g1 i))
        .ok fun i => clip (safeDivide num (s i))
    | _ => .error .index
  else .error .unbound

end Verif.Grad

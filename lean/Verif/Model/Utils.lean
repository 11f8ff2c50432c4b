import Verif.Model.Py

/-!
Model of adept/utils.py (parameter flattening and logging, artifact retry, scalar
filter).

Simplifications, stated once:
* Dictionary keys are strings (a Python key of another type would be formatted by
  the f-string of `flatten_dict`).
* MLflow calls are recorded, not modelled: `log_params` returns the list of
  batches it hands to `mlflow.log_params`; an exception raised by MLflow is not
  modelled there.
* `str(v)` for a `Quantity` is the parameter `fmt`.
-/
namespace Verif.Utils

mutual
/-- A configuration value: a leaf, or a nested dictionary. -/
inductive Val (V : Type)
  | leaf (v : V)
  | dict (e : Entries V)
/-- The items of a dictionary, in insertion order. -/
inductive Entries (V : Type)
  | nil
  | cons (k : Str) (v : Val V) (r : Entries V)
end

/-- `d.update(other)`. -/
def update {V : Type} (d other : Dict Str V) : Dict Str V :=
  other.foldl (fun o e => dictSet o e.1 e.2) d

/-- `f"{_prefix}{delimiter}{k}" if _prefix else k` (utils.py:27). -/
def joinKey (delim pre k : Str) : Str := if pre.isEmpty then k else pre ++ delim ++ k

/-- The loop of `flatten_dict` (utils.py:24-32), with `items` threaded through. -/
def flattenLoop {V : Type} (delim pre : Str) (items : Dict Str V) : Entries V → Dict Str V
  | .nil => items
  | .cons k (.leaf v) r => flattenLoop delim pre (dictSet items (joinKey delim pre k) v) r
  | .cons k (.dict e) r =>
    flattenLoop delim pre (update items (flattenLoop delim (joinKey delim pre k) [] e)) r

/-- `flatten_dict(d, delimiter)` (utils.py:24-32). -/
def flattenDict {V : Type} (delim : Str) (e : Entries V) : Dict Str V := flattenLoop delim [] [] e

/-- `fl_list[i * 100 : end_ind]` with `end_ind = min((i + 1) * 100, num_entries)`
(utils.py:44-46). -/
def batch {α : Type} (l : List α) (i : Nat) : List α :=
  (l.take (min ((i + 1) * 100) l.length)).drop (i * 100)

/-- `log_params` on the flattened dictionary (utils.py:35-49): the arguments of the
successive `mlflow.log_params` calls. -/
def logBatches {α : Type} (l : List α) : List (List α) :=
  if l.length > 100 then (List.range (l.length % 100)).map (batch l) else [l]

/-- `log_params(cfg)` (utils.py:35-49). -/
def logParams {V : Type} (fmt : V → V) (cfg : Entries V) : List (List (Str × V)) :=
  logBatches ((flattenDict ['.'] cfg).map fun e => (e.1, fmt e.2))

/-- What `robust_log_artifacts` does, in order. -/
inductive Ev | attempt | sleep | gaveUp
deriving DecidableEq

/-- `robust_log_artifacts` (utils.py:206-218): `fails` says of each attempt, in
order, whether `mlflow.log_artifacts` raises (its length is `retries`).  The
function has no other exit, so the result is the list of its effects. -/
def robustLog : List Bool → List Ev
  | [] => [.gaveUp]
  | true :: rest => .attempt :: .sleep :: robustLog rest
  | false :: _ => [.attempt]

/-- The kinds of Python values `is_scalar` tells apart (utils.py:221-233). -/
inductive Kind | int | float | bool | str | none | ndarray (ndim : Nat) | npScalar | other
deriving DecidableEq

/-- `is_scalar` (utils.py:221-233).  `ndarray n` is a numpy or jax array with `n`
dimensions, `npScalar` any other object with `ndim == 0`. -/
def isScalar : Kind → Bool
  | .int | .float | .bool | .str | .none => true
  | .ndarray _ => false
  | .npScalar => true
  | .other => false

/-- `filter_scalars` (utils.py:236-249).  The keys of a Python dict are distinct,
so `result[k] = ...` appends. -/
def filterScalars {V : Type} (sc : V → Bool) : Entries V → Entries V
  | .nil => .nil
  | .cons k (.dict e) r =>
    match filterScalars sc e with
    | .nil => filterScalars sc r
    | .cons k' v' r' => .cons k (.dict (.cons k' v' r')) (filterScalars sc r)
  | .cons k (.leaf v) r => if sc v then .cons k (.leaf v) (filterScalars sc r) else filterScalars sc r

end Verif.Utils

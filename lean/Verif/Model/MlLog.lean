import Verif.Model.Py

/-!
Model of adept/mlflow_logging.py: run ids as byte arrays, and the lifecycle of an
`MlflowLoggingModule`.

Simplifications: `jax.debug.callback` runs the callback at the point of the call
(JAX may delay it); UTF-8 encoding of a run id is Lean's own byte encoding, as
lists of bytes.  `vmap` is not modelled.
-/
namespace Verif.MlLog

/-- `np.int8` view of a byte (mlflow_logging.py:21). -/
def toInt8 (b : Nat) : Int := if b < 128 then b else (b : Int) - 256

/-- The byte of an `int8`, as read back through the buffer protocol
(mlflow_logging.py:24). -/
def ofInt8 (x : Int) : Nat := (x % 256).toNat

/-- `MLRunId(id)` on the encoded id (mlflow_logging.py:20-21). -/
def encodeId (bytes : List Nat) : List Int := bytes.map toInt8

/-- `str(run_id)` before decoding (mlflow_logging.py:23-24). -/
def decodeId (a : List Int) : List Nat := a.map ofInt8

/-- The user-defined parts of a module: `setup`, `call`, and what is passed to the
logging hooks.  `R` are results, `S` setup results, `A` arguments. -/
structure LogMod (A S R : Type) where
  withMlflow : Bool
  setup : A → Option Nat → S
  call : A → S → Option Nat → R

/-- Effects of one call, in order. -/
inductive Ev (A S R : Type)
  | createRun (batch : Nat)
  | setup (a : A) (run : Option Nat)
  | pre (a : A) (s : S) (run : Nat)
  | call (a : A) (s : S) (run : Option Nat)
  | post (r : R) (a : A) (s : S) (run : Nat)
deriving DecidableEq

/-- Exceptions (mlflow_logging.py:57-58, 144-145). -/
inductive Err | batchNum | parentType
deriving DecidableEq

/-- `mlflow_callback(f)` (mlflow_logging.py:99-113): skipped without a run. -/
def callback {A S R : Type} (run : Option Nat) (e : Nat → Ev A S R) : List (Ev A S R) :=
  match run with
  | none => []
  | some r => [e r]

/-- `MlflowLoggingModule.__call__` (mlflow_logging.py:127-159) with
`create_mlflow_run` (32-80); `fresh` is the id MLflow assigns, `parentOk` is false
if a `parent_run_id` of the wrong type was passed. -/
def callMod {A S R : Type} (m : LogMod A S R) (fresh : Nat) (batch : Option Nat) (parentOk : Bool) (a : A) :
    List (Ev A S R) × Except Err R :=
  let go (pre : List (Ev A S R)) (run : Option Nat) : List (Ev A S R) × Except Err R :=
    let s := m.setup a run
    let r := m.call a s run
    (pre ++ [.setup a run] ++ callback run (.pre a s) ++ [.call a s run] ++ callback run (.post r a s), .ok r)
  if m.withMlflow then
    match batch with
    | none => ([], .error .batchNum)
    | some b => if parentOk then go [.createRun b] (some fresh) else ([], .error .parentType)
  else go [] none

end Verif.MlLog

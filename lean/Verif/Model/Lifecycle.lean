import Verif.Model.Py

/-!
Model of `ergoExo` (adept/_base_.py:166-478): setup, run, value-and-gradient and
the solver dispatch.

Simplifications, stated once:
* A configuration is an object on a heap (list of values indexed by reference).  A
  module is given by what its hooks do to its configuration object in place; a hook
  may raise.  A module keeps the object it was given (`self.cfg = cfg`).
* MLflow is a counter for fresh run ids and a list of what is recorded under which
  run.  MLflow and file writes do not fail; `log_params` is recorded with the whole
  configuration (its batching is `Verif.Utils.logParams`).
* Timing metrics and the contents of units.yaml are not modelled.
-/
namespace Verif.Lifecycle

/-- The methods of an `ADEPTModule` called by `setup` (`_base_.py:350-395`). -/
inductive Hook | ctor | writeUnits | derived | solver | initState | initDiffeq | initModules
deriving DecidableEq

/-- Files written to the temporary directory by `_setup_`. -/
inductive File | config | units | derivedConfig | arrayConfig
deriving DecidableEq

/-- Behaviour of a user module: the effect of every hook on its configuration
object, `none` if it raises. -/
structure Mod (C : Type) where
  hook : Hook → C → Option C

/-- The attribute `adept_module` of an `ergoExo`: the configuration object, the
behaviour and the hooks that have returned, in order. -/
structure Inst (C : Type) where
  ref : Nat
  mod : Mod C
  done : List Hook

/-- What MLflow has recorded. -/
inductive Rec (C : Type)
  | started (run : Nat)
  | params (run : Nat) (c : C)
  | artifact (run : Nat) (f : File) (c : C)
  | ran (run : Nat) (hooks : List Hook) (c : C)
  | metrics (run : Nat)

/-- The heap, MLflow, and the attributes of one `ergoExo` object. -/
structure St (C : Type) where
  heap : List C
  nextRun : Nat
  log : List (Rec C)
  runId : Option Nat
  ranSetup : Bool
  inst : Option (Inst C)
  cfg : Option Nat

/-- `ergoExo.__init__` (_base_.py:206-226) in a program whose heap already holds
`heap`, with `mlflow_run_id` or a fresh run. -/
def init {C : Type} (heap : List C) (runId : Option Nat) (nextRun : Nat) : St C :=
  ⟨heap, nextRun, [], runId, false, none, none⟩

/-- One statement of `_setup_`. -/
inductive Step | call (h : Hook) | dump (f : File) | logParams
deriving DecidableEq

/-- The statements of `_setup_` (_base_.py:350-395), in order. -/
def setupSteps : List Step :=
  [.call .ctor, .dump .config, .call .writeUnits, .dump .units, .call .derived, .logParams, .dump .derivedConfig,
   .call .solver, .dump .arrayConfig, .call .initState, .call .initDiffeq, .call .initModules]

/-- Progress of `_setup_`: heap, records, temporary files and the instance. -/
structure Prog (C : Type) where
  heap : List C
  log : List (Rec C)
  files : List (File × C)
  inst : Option (Inst C)

/-- The value of the configuration object `ref`, which is always allocated. -/
def deref {C : Type} (heap : List C) (ref : Nat) (dflt : C) : C := heap.getD ref dflt

/-- One statement of `_setup_` (_base_.py:350-395) in run `run`; `orig` is
`original_cfg`, `ref` the object `cfg`.  The flag is false if it raised. -/
def step {C : Type} (run ref : Nat) (orig : C) (m : Mod C) (p : Prog C) : Step → Prog C × Bool
  | .call h =>
    match m.hook h (deref p.heap ref orig) with
    | none => (p, false)
    | some c' =>
      let inst := match h, p.inst with
        | .ctor, _ => some ⟨ref, m, [.ctor]⟩
        | _, some i => some { i with done := i.done ++ [h] }
        | _, none => none
      ({ p with heap := p.heap.set ref c', inst := inst }, true)
  | .dump .config => ({ p with files := p.files ++ [(.config, orig)] }, true)
  | .dump f => ({ p with files := p.files ++ [(f, deref p.heap ref orig)] }, true)
  | .logParams => ({ p with log := p.log ++ [.params run (deref p.heap ref orig)] }, true)

/-- Statements in sequence, stopping at the first exception. -/
def steps {C : Type} (run ref : Nat) (orig : C) (m : Mod C) (p : Prog C) : List Step → Prog C × Bool
  | [] => (p, true)
  | s :: ss =>
    match step run ref orig m p s with
    | (p', true) => steps run ref orig m p' ss
    | (p', false) => (p', false)

/-- `ergoExo.setup(cfg, adept_module)` (_base_.py:228-285); `c` is the caller's
configuration object.  The flag is false if it raised. -/
def setup {C : Type} (s : St C) (m : Mod C) (c : Nat) : St C × Bool :=
  match s.heap[c]? with
  | none => (s, false)
  | some v =>
    let ref := s.heap.length
    let heap := s.heap ++ [v]
    let run := s.runId.getD s.nextRun
    let nextRun := if s.runId.isNone then s.nextRun + 1 else s.nextRun
    let start := if s.runId.isNone then [Rec.started run] else []
    match steps run ref v m ⟨heap, s.log ++ start, [], s.inst⟩ setupSteps with
    | (p, false) => ({ s with heap := p.heap, nextRun := nextRun, log := p.log, inst := p.inst }, false)
    | (p, true) =>
      ({ heap := p.heap, nextRun := nextRun,
         log := p.log ++ p.files.map fun f => .artifact run f.1 f.2,
         runId := some run, ranSetup := true, inst := p.inst, cfg := some ref }, true)

/-- `ergoExo.__call__` and `ergoExo.val_and_grad` (_base_.py:397-478): `ok` says
whether the module's run returns.  Result: the new state and the returned run id
(`none`: an exception). -/
def run {C : Type} (s : St C) (ok : Bool) (dflt : C) : St C × Option Nat :=
  if s.ranSetup then
    match s.inst, s.runId with
    | some i, some r =>
      if ok then
        ({ s with log := s.log ++ [.ran r i.done (deref s.heap i.ref dflt), .metrics r] }, some r)
      else ({ s with log := s.log ++ [.ran r i.done (deref s.heap i.ref dflt)] }, none)
    | _, _ => (s, none)
  else (s, none)

/-- A user's call on the `ergoExo` object. -/
inductive Op (C : Type)
  | setup (m : Mod C) (c : Nat)
  | run (ok : Bool)

/-- One call (exceptions are caught by the user, who may go on). -/
def exec1 {C : Type} (dflt : C) (s : St C) : Op C → St C
  | .setup m c => (setup s m c).1
  | .run ok => (run s ok dflt).1

/-- A history of calls. -/
def exec {C : Type} (dflt : C) (s : St C) (ops : List (Op C)) : St C := ops.foldl (exec1 dflt) s

/-- Outcome of `_get_adept_module_`: a module class, or an exception. -/
inductive Err | runtimeX64 | validation | notImplemented
deriving DecidableEq

/-- The module classes (_base_.py:302-346). -/
inductive Cls
  | twoFluid1D | vlasov1D | vlasov1D2V | iawTurbulence1D | vlasov2D | lpse2D | vfp1D | vfp2D | spectrax1D | epw1D
  | maxwell1D | pic1D | osiris | hermiteLegendre1D
deriving DecidableEq

/-- `_get_adept_module_` (_base_.py:287-348) up to the construction; `valid` is
whether the pydantic model accepts the config (only tf-1d checks it here). -/
def dispatch (x64 valid : Bool) (solver : String) : Except Err Cls :=
  if solver ≠ "envelope-2d" ∧ x64 = false then .error .runtimeX64
  else if solver = "tf-1d" then (if valid then .ok .twoFluid1D else .error .validation)
  else if solver = "vlasov-1d" then .ok .vlasov1D
  else if solver = "vlasov-1d2v" then .ok .vlasov1D2V
  else if solver = "vlasov-1d-iaw" then .ok .iawTurbulence1D
  else if solver = "vlasov-2d" then .ok .vlasov2D
  else if solver = "envelope-2d" then .ok .lpse2D
  else if solver = "vfp-1d" then .ok .vfp1D
  else if solver = "vfp-2d" then .ok .vfp2D
  else if solver = "spectrax-1d" then .ok .spectrax1D
  else if solver = "hermite-epw-1d" then .ok .epw1D
  else if solver = "hermite-maxwell-1d" then .ok .maxwell1D
  else if solver = "pic-1d" then .ok .pic1D
  else if solver = "osiris" then .ok .osiris
  else if solver = "hermite-legendre-1d" then .ok .hermiteLegendre1D
  else .error .notImplemented

end Verif.Lifecycle

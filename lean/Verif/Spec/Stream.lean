import Verif.Model.Stream

/-! Specification vocabulary for the streaming converter. -/
namespace Verif.Stream

/-- What the NetCDF time series of a diagnostic should hold: the readable dumps
with their iteration numbers, in the order OSIRIS wrote them. -/
def readables {P : Type} (ds : List (Dump P)) : List (Int × P) :=
  ds.filterMap fun d => d.body.map fun p => (d.it, p)

/-- Everything consumed so far: slots on disk, then the pending batch. -/
def pending {P : Type} (st : St P) : List (Int × P) :=
  match st.writer with
  | some w => w.pending
  | none => []

/-- All slots, on disk or buffered. -/
def slots {P : Type} (st : St P) : List (Int × P) := disk st ++ pending st

/-- Events of an undisturbed run: OSIRIS, scans (with or without spilling), the
watcher's own steps (with any pattern of failing file operations), `finalize`. -/
def Ev.undisturbed {P : Type} : Ev P → Bool
  | .produce _ | .osirisExit | .scan _ | .final | .tick _ => true
  | _ => false

/-- Undisturbed, or an exception inside a drain whose `close` landed the pending
batch. -/
def Ev.mild {P : Type} : Ev P → Bool
  | .raised true => true
  | e => e.undisturbed

/-- The number of failed reads of one file recorded in the trace. -/
def readsOf {P : Type} (st : St P) (l : Loc) (it : Int) : Nat :=
  (st.log.filter fun t => decide (t.loc = l ∧ t.it = it ∧ t.op = .read)).length

/-- The rows a history of writer calls accepts: those of the right shape. -/
def accepted {P : Type} (shape : List Nat) : List (WOp P) → List (Int × P)
  | [] => []
  | .append sh s :: os => if sh = shape then s :: accepted shape os else accepted shape os
  | _ :: os => accepted shape os

/-- The writer protocol: append only while open, reopen only after close. -/
def WellUsed {P : Type} : Bool → List (WOp P) → Prop
  | _, [] => True
  | o, .append _ _ :: os => o = true ∧ WellUsed o os
  | o, .flush :: os => WellUsed o os
  | _, .close :: os => WellUsed false os
  | o, .reopen :: os => o = false ∧ WellUsed true os

end Verif.Stream

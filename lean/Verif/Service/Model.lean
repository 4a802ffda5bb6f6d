import Verif.Conc.Lock

/-!
# Model of /repo/types.go: service status and `AbstractService`

The three methods hold the service's mutex; each is a `Prog` of the framework in `Verif/Conc/Lock.lean`: one step checks
and advances the status, another calls the underlying function.  The functions' results are inputs of the model: a call
carries what its function will return.  A nil function is read as one that returns nil.
-/

namespace Verif.Service
open Verif Verif.Conc

/-- `ServiceStatus`, /repo/consts.go:86-92. -/
inductive Status where
  | created | initialized | started | stopped
  deriving DecidableEq, Repr

/-- The three life-cycle steps. -/
inductive Kind where
  | init | start | close
  deriving DecidableEq, Repr

/-- /repo/types.go:93-102 `CheckInit`. -/
def checkInit (s : Status) : Option Status :=
  match s with
  | .initialized => none
  | .started => none
  | _ => some .initialized

/-- /repo/types.go:104-110 `CheckStart`. -/
def checkStart (s : Status) : Option Status := if s ≠ .initialized then none else some .started

/-- /repo/types.go:112-121 `CheckStop`. -/
def checkStop (s : Status) : Option Status :=
  match s with
  | .created => none
  | .initialized => none
  | .stopped => none
  | .started => some .stopped

/-- The check of a step. -/
def check : Kind → Status → Option Status
  | .init => checkInit
  | .start => checkStart
  | .close => checkStop

/-- What is shared: the status, and the underlying functions called so far with what they returned (true for nil). -/
structure Svc where
  status : Status
  calls : List (Kind × Bool)
  deriving DecidableEq, Repr

/-- A call of a method: which one, and what the underlying function returns if it is called. -/
structure Call where
  kind : Kind
  fn : Bool
  deriving DecidableEq, Repr

/-- What a method returns. -/
inductive Ret where
  | refused   -- the error of the status check
  | failed    -- the error of the underlying function
  | ok
  deriving DecidableEq, Repr

/-- /repo/types.go:157-200 `Init`, `Start`, `Close`. -/
def body (c : Call) : Prog Svc Ret :=
  .step (fun s => match check c.kind s.status with | none => s | some st => { s with status := st })
    (fun s => match check c.kind s.status with
      | none => .ret .refused
      | some _ => .step (fun s => { s with calls := s.calls ++ [(c.kind, c.fn)] })
          (fun _ => .ret (if c.fn then .ok else .failed)))

/-- A new service. -/
def fresh : Svc := ⟨.created, []⟩

end Verif.Service

import Verif.Trie.Store
import Verif.Merkle.Model

/-!
# The revertable trie (`/repo/trie/revertable.go:25-325`)

Simplifications: `Origin` is never nil (a `RevertableTrie` without origin answers nothing and fails every change); the two
tries share their adapters, so there is one storage; the lock is omitted, every call is one step; `HashValue` of a trie
does not fail.
-/

namespace Verif.Trie.Store
open Verif Verif.Merkle Verif.Trie

variable {V : Type}

/-- `RevertableTrie` (`/repo/trie/revertable.go:25-30`) with the storage of its tries. -/
structure Rev (V : Type) where
  origin : BTrie V
  live : Option (BTrie V)
  chkpts : List Bytes
  D : Disk

/-- `checkLiveLocked` (`/repo/trie/revertable.go:87-96`). -/
def Rev.checkLive (E : Env V) (F : Faults) (L : Limits) (r : Rev V) : Rev V × BTrie V :=
  match r.live with
  | some t => (r, t)
  | none =>
    let c := r.origin.clone E F L r.D
    ({ r with origin := c.2.2, live := some c.1, D := c.2.1 }, c.1)

/-- `Get` (`/repo/trie/revertable.go:115-123`). -/
def Rev.get (E : Env V) (r : Rev V) (k : Bytes) : Rev V × Option V :=
  let x := r.origin.get E r.D k
  ({ r with origin := x.1 }, x.2)

/-- `GetLive` (`/repo/trie/revertable.go:125-137`). -/
def Rev.getLive (E : Env V) (r : Rev V) (k : Bytes) : Rev V × Option V :=
  match r.live with
  | some t => let x := t.get E r.D k; ({ r with live := some x.1 }, x.2)
  | none => r.get E k

/-- `Put` (`/repo/trie/revertable.go:139-150`). -/
def Rev.put (E : Env V) (F : Faults) (L : Limits) (r : Rev V) (k : Bytes) (x : V) : Rev V × Bool :=
  let c := r.checkLive E F L
  let y := c.2.put E c.1.D k x
  ({ c.1 with live := some y.1 }, y.2)

/-- `Delete` (`/repo/trie/revertable.go:162-170`); `none` is a panic. -/
def Rev.del (E : Env V) (F : Faults) (L : Limits) (r : Rev V) (k : Bytes) : Option (Rev V × Bool × Option V) :=
  let c := r.checkLive E F L
  (c.2.del E c.1.D k).map fun y => ({ c.1 with live := some y.1 }, y.2)

/-- `HashValue` (`/repo/trie/revertable.go:98-106`). -/
def Rev.hash (E : Env V) (r : Rev V) : Rev V × Bytes :=
  let x := r.origin.hash E
  ({ r with origin := x.1 }, x.2)

/-- `PreHashValue` (`/repo/trie/revertable.go:244-252`). -/
def Rev.preHash (E : Env V) (r : Rev V) : Rev V × Bytes :=
  match r.live with
  | some t => let x := t.hash E; ({ r with live := some x.1 }, x.2)
  | none => r.hash E

/-- `_prepareCommit` (`/repo/trie/revertable.go:186-192`). -/
def Rev.prepare (r : Rev V) : Rev V :=
  match r.live with
  | some t => { r with origin := t, live := none, chkpts := [] }
  | none => { r with chkpts := [] }

/-- `Commit` (`/repo/trie/revertable.go:194-199`). -/
def Rev.commit (E : Env V) (F : Faults) (L : Limits) (r : Rev V) : Rev V × Bool :=
  let p := r.prepare
  let x := p.origin.commit E F L p.D
  ({ p with origin := x.1, D := x.2.1 }, x.2.2)

/-- `CommitAndHash` (`/repo/trie/revertable.go:108-113`); `none` is an error. -/
def Rev.commitHash (E : Env V) (F : Faults) (L : Limits) (r : Rev V) : Rev V × Option Bytes :=
  let c := r.commit E F L
  if c.2 then let x := c.1.hash E; (x.1, some x.2) else (c.1, none)

/-- `preCommitLocked` (`/repo/trie/revertable.go:254-265`); `none` is an error. -/
def Rev.preCommit (E : Env V) (F : Faults) (L : Limits) (r : Rev V) : Rev V × Option Bytes :=
  match r.live with
  | none => let x := r.hash E; (x.1, some x.2)
  | some t =>
    let c := t.commit E F L r.D
    if c.2.2 then
      let x := c.1.hash E
      ({ r with live := some x.1, D := c.2.1 }, some x.2)
    else ({ r with live := some c.1, D := c.2.1 }, none)

/-- `Rollback` (`/repo/trie/revertable.go:274-282`). -/
def Rev.rollback (r : Rev V) : Rev V := { r with live := none, chkpts := [] }

/-- `CheckPoint` (`/repo/trie/revertable.go:288-299`); `none` is an error. -/
def Rev.check (E : Env V) (F : Faults) (L : Limits) (r : Rev V) : Rev V × Option (Nat × Bytes) :=
  let c := r.preCommit E F L
  match c.2 with
  | none => (c.1, none)
  | some root => ({ c.1 with chkpts := c.1.chkpts ++ [toHash root] }, some (c.1.chkpts.length, root))

/-- `RevertTo` (`/repo/trie/revertable.go:304-325`) for a number that is not negative; the answer says whether it
succeeds. -/
def Rev.revertTo (r : Rev V) (i : Nat) (root : Bytes) : Rev V × Bool :=
  if root.length = 0 then (r, false)
  else
    match r.chkpts[i]? with
    | none => (r, false)
    | some h =>
      if toHash root ≠ h then (r, false)
      else if i = 0 then ({ r with live := none, chkpts := [] }, true)
      else ({ r with live := r.live.map fun _ => inherit root, chkpts := r.chkpts.take i }, true)

end Verif.Trie.Store

import Verif.Base

/-!
# The routine pool (`/repo/routinepool.go`)

A transition system.  Any number of pools exist; all share the global map of key counts.  Any number of goroutines post events and
call `Start` and `Stop`; every worker goroutine is a program counter `Pc`.  A step is one atomic action of one goroutine, any
interleaving is an execution.

Simplifications.  A `chan interface{}` is its buffer and the queue of blocked senders (Go: `runtime/chan.go`, `recv` takes the head of
the buffer and moves the first blocked sender's value to its end).  A receiver that is blocked is a worker at `select`: handing over a
value directly to it is posting it and taking it.  A panic of any goroutine ends the program (`panicked`): neither the workers nor
the pool recover.  `workFunc` and `keyGetter` terminate without panicking, they may do anything else that is a step here (post
events, for instance).  Callers that wait for `p.lock` and goroutines that wait for `routinePoolKeyCountLock` have no state of their
own: they act when the lock is free.  `routineSize` and `queueSize` are not negative.  Event counts do not overflow an `int`.
-/

namespace Verif.Pool

/-- A channel of capacity `cap`: its buffer and the values of blocked senders, both first in, first out. -/
structure Chan (V : Type) where
  buf : List V := []
  sendq : List V := []

/-- `ch <- v`: into the buffer if there is room, otherwise the sender waits. routinepool.go 192-198 (the `PostLower` and
`PostHigher` of a value that sits in `sendq` have not returned). -/
def Chan.send {V : Type} (cap : Nat) (c : Chan V) (v : V) : Chan V :=
  if c.sendq.isEmpty && c.buf.length < cap then { c with buf := c.buf ++ [v] } else { c with sendq := c.sendq ++ [v] }

/-- `<-ch`: `none` when it would block. The first blocked sender moves up. -/
def Chan.recv {V : Type} (c : Chan V) : Option (V × Chan V) :=
  match c.buf, c.sendq with
  | v :: b, s :: q => some (v, ⟨b ++ [s], q⟩)
  | v :: b, [] => some (v, ⟨b, []⟩)
  | [], s :: q => some (s, ⟨[], q⟩)
  | [], [] => none

/-- What `NewRoutinePool` is given, routinepool.go 96. `work = false`: `workFunc` is nil; a nil `keyGetter` is the constant empty
key. -/
structure Conf (V : Type) where
  n : Nat
  cap : Nat
  key : V → Bytes
  work : Bool

/-- Where a worker is. `h`: the event came from the queue of high priority (for the statements only). A nil event is `none`.
* `sel1`, `sel2`: at the outer and at the inner `select`, routinepool.go 53, 61;
* `got`: at the start of `event`, 35;
* `inc1`, `inc2`, `inc3`: at the lock, at the read and at the write of `incKeyCount`, 163-171;
* `run`: inside `workFunc`, 43;
* `dec1`, `dec2`, `dec3`: likewise in `decKeyCount`, 175-186;
* `ret`: about to run the deferred `wg.Done()`, 51;
* `dead`: returned. -/
inductive Pc (V : Type)
  | sel1
  | sel2
  | got (h : Bool) (v : Option V)
  | inc1 (h : Bool) (v : V)
  | inc2 (h : Bool) (v : V)
  | inc3 (h : Bool) (v : V) (c : Option Nat)
  | run (h : Bool) (v : V)
  | dec1 (h : Bool) (v : V)
  | dec2 (h : Bool) (v : V)
  | dec3 (h : Bool) (v : V) (c : Option Nat)
  | ret
  | dead

/-- A worker goroutine: of which pool, which of its workers. -/
structure G (V : Type) where
  pool : Nat
  worker : Nat
  pc : Pc V

/-- What the holder of `p.lock` is doing: `Start` about to spawn worker `i` (routinepool.go 136), `Stop` in `wg.Wait()` (149). -/
inductive Op
  | starting (i : Nat)
  | stopping

/-- A pool. The fields from `postedH` on record what happened, the code does not have them: events posted to either queue, events
taken (with the queue), events whose `event` call has returned, calls of `workFunc` (worker, event), effective `Start`s and `Stop`s,
`Stop`s that have returned, and events of low priority taken since the queue of high priority was last empty. -/
structure PState (V : Type) where
  higher : Chan (Option V) := {}
  lower : Chan (Option V) := {}
  started : Bool := false
  quit : Bool := false
  wg : Int
  op : Option Op := none
  postedH : List (Option V) := []
  postedL : List (Option V) := []
  taken : List (Bool × Option V) := []
  handled : List (Bool × Option V) := []
  calls : List (Nat × V) := []
  starts : Nat := 0
  stops : Nat := 0
  stopped : Nat := 0
  lowSince : Nat := 0

/-- The program. `lock`: `routinePoolKeyCountLock` is held; `keys`: `routinePoolKeyCountMap`, routinepool.go 74-77. -/
structure Sys (V : Type) where
  pools : Nat → PState V
  gs : List (G V) := []
  lock : Bool := false
  keys : Bytes → Option Nat := fun _ => none
  panicked : Bool := false

/-- `NewRoutinePool`, routinepool.go 96-120: nothing queued, not started, `wg` counts the workers. -/
def newPool {V : Type} (c : Conf V) : PState V := { wg := c.n }

/-- The program before the first step. -/
def initial {V : Type} (cf : Nat → Conf V) : Sys V := { pools := fun p => newPool (cf p) }

/-- Point update. -/
def upd {A B : Type} [DecidableEq A] (f : A → B) (a : A) (b : B) : A → B := fun x => if x = a then b else f x

/-- `incKeyCount` after the lookup gave `c`, routinepool.go 166-171. -/
def incWrite (keys : Bytes → Option Nat) (k : Bytes) : Option Nat → Bytes → Option Nat
  | none => upd keys k (some 1)
  | some c => upd keys k (some (c + 1))

/-- `decKeyCount` after the lookup gave `c`, routinepool.go 178-185. -/
def decWrite (keys : Bytes → Option Nat) (k : Bytes) : Option Nat → Bytes → Option Nat
  | none => keys
  | some c => if c ≤ 1 then upd keys k none else upd keys k (some (c - 1))

/-- Record an event of high priority as taken. -/
def PState.tookH {V : Type} (s : PState V) (v : Option V) (c : Chan (Option V)) : PState V :=
  { s with higher := c, taken := s.taken ++ [(true, v)], lowSince := if c.recv.isSome then s.lowSince else 0 }

/-- Record an event of low priority as taken. -/
def PState.tookL {V : Type} (s : PState V) (v : Option V) (c : Chan (Option V)) : PState V :=
  { s with lower := c, taken := s.taken ++ [(false, v)], lowSince := if s.higher.recv.isSome then s.lowSince + 1 else 0 }

/-- Record the end of `event`. -/
def PState.finish {V : Type} (s : PState V) (h : Bool) (v : Option V) : PState V := { s with handled := s.handled ++ [(h, v)] }

/-- Record a call of `workFunc`. -/
def PState.call {V : Type} (s : PState V) (w : Nat) (v : V) : PState V := { s with calls := s.calls ++ [(w, v)] }

/-- What a worker of a pool sees: its pool, the lock and the map of key counts. -/
structure View (V : Type) where
  pool : PState V
  lock : Bool
  keys : Bytes → Option Nat

/-- One step of worker `w`: `work` (routinepool.go 50-72), `event` (34-48), `incKeyCount` (162-172), `decKeyCount` (174-187).  The
last argument tells whether the step panics. -/
inductive Work {V : Type} (c : Conf V) (w : Nat) : View V → Pc V → View V → Pc V → Bool → Prop
  /-- 54, 62: `quit` is closed. -/
  | quit1 {s} (h : s.pool.quit = true) : Work c w s .sel1 s .ret false
  | quit2 {s} (h : s.pool.quit = true) : Work c w s .sel2 s .ret false
  /-- 56: an event of high priority. -/
  | high1 {s l k v ch} (h : s.higher.recv = some (v, ch)) : Work c w ⟨s, l, k⟩ .sel1 ⟨s.tookH v ch, l, k⟩ (.got true v) false
  /-- 59: neither is ready. -/
  | default {s l k} (hq : s.quit = false) (h : s.higher.recv = none) : Work c w ⟨s, l, k⟩ .sel1 ⟨s, l, k⟩ .sel2 false
  /-- 64, 67: whichever is ready. -/
  | high2 {s l k v ch} (h : s.higher.recv = some (v, ch)) : Work c w ⟨s, l, k⟩ .sel2 ⟨s.tookH v ch, l, k⟩ (.got true v) false
  | low2 {s l k v ch} (h : s.lower.recv = some (v, ch)) : Work c w ⟨s, l, k⟩ .sel2 ⟨s.tookL v ch, l, k⟩ (.got false v) false
  /-- 35: nothing to do for a nil event or without `workFunc`. -/
  | skip {s l k h v} (hv : v = none ∨ c.work = false) : Work c w ⟨s, l, k⟩ (.got h v) ⟨s.finish h v, l, k⟩ .sel1 false
  /-- 36-43: without a key `workFunc` is called at once. -/
  | plain {s l k h v} (hw : c.work = true) (hk : c.key v = []) :
      Work c w ⟨s, l, k⟩ (.got h (some v)) ⟨s.call w v, l, k⟩ (.run h v) false
  /-- 40: with a key, `incKeyCount` first. -/
  | keyed {s h v} (hw : c.work = true) (hk : c.key v ≠ []) : Work c w s (.got h (some v)) s (.inc1 h v) false
  | incLock {s k h v} : Work c w ⟨s, false, k⟩ (.inc1 h v) ⟨s, true, k⟩ (.inc2 h v) false
  | incRead {s l k h v} : Work c w ⟨s, l, k⟩ (.inc2 h v) ⟨s, l, k⟩ (.inc3 h v (k (c.key v))) false
  | incWrite {s l k h v o} :
      Work c w ⟨s, l, k⟩ (.inc3 h v o) ⟨s.call w v, false, incWrite k (c.key v) o⟩ (.run h v) false
  /-- 44: `workFunc` returns. -/
  | doneKeyed {s h v} (hk : c.key v ≠ []) : Work c w s (.run h v) s (.dec1 h v) false
  | donePlain {s l k h v} (hk : c.key v = []) : Work c w ⟨s, l, k⟩ (.run h v) ⟨s.finish h (some v), l, k⟩ .sel1 false
  | decLock {s k h v} : Work c w ⟨s, false, k⟩ (.dec1 h v) ⟨s, true, k⟩ (.dec2 h v) false
  | decRead {s l k h v} : Work c w ⟨s, l, k⟩ (.dec2 h v) ⟨s, l, k⟩ (.dec3 h v (k (c.key v))) false
  | decWrite {s l k h v o} :
      Work c w ⟨s, l, k⟩ (.dec3 h v o) ⟨s.finish h (some v), false, decWrite k (c.key v) o⟩ .sel1 false
  /-- 51: the deferred `wg.Done()`; a negative counter panics (`sync.WaitGroup.Add`). -/
  | wgDone {s l k} : Work c w ⟨s, l, k⟩ .ret ⟨{ s with wg := s.wg - 1 }, l, k⟩ .dead (decide (s.wg - 1 < 0))

/-- One step of a goroutine outside of the pool, on one pool: the pool after it, the workers it spawns, whether it panics. -/
inductive Client {V : Type} (c : Conf V) : PState V → PState V → List Nat → Bool → Prop
  /-- `PostHigher`, 196. -/
  | postH {s} (v : Option V) : Client c s { s with higher := s.higher.send c.cap v, postedH := s.postedH ++ [v] } [] false
  /-- `PostLower`, 192. -/
  | postL {s} (v : Option V) : Client c s { s with lower := s.lower.send c.cap v, postedL := s.postedL ++ [v] } [] false
  /-- `Start` of a started pool, 132. -/
  | startNop {s} (ho : s.op.isNone) (h : s.started = true) : Client c s s [] false
  /-- `Start`, 135. -/
  | start {s} (ho : s.op.isNone) (h : s.started = false) :
      Client c s { s with started := true, op := some (.starting 0), starts := s.starts + 1 } [] false
  /-- `go p.workers[i].work()`, 136-138. -/
  | spawn {s i} (ho : s.op = some (.starting i)) (h : i < c.n) : Client c s { s with op := some (.starting (i + 1)) } [i] false
  | startEnd {s i} (ho : s.op = some (.starting i)) (h : ¬ i < c.n) : Client c s { s with op := none } [] false
  /-- `Stop` of a stopped pool, 144. -/
  | stopNop {s} (ho : s.op.isNone) (h : s.started = false) : Client c s s [] false
  /-- `close(p.quit)` (147; of a closed channel: panics), `p.started = false` (148). -/
  | stop {s} (ho : s.op.isNone) (h : s.started = true) :
      Client c s { s with quit := true, started := false, op := some .stopping, stops := s.stops + 1 } [] s.quit
  /-- `p.wg.Wait()` returns, 149. -/
  | stopEnd {s} (ho : s.op = some .stopping) (h : s.wg = 0) : Client c s { s with op := none, stopped := s.stopped + 1 } [] false

/-- One step of the program. -/
inductive Step {V : Type} (cf : Nat → Conf V) : Sys V → Sys V → Prop
  | client {ps gs lk ks} (p : Nat) {s' : PState V} {ws : List Nat} {b : Bool} (h : Client (cf p) (ps p) s' ws b) :
      Step cf ⟨ps, gs, lk, ks, false⟩ ⟨upd ps p s', gs ++ ws.map (fun i => ⟨p, i, .sel1⟩), lk, ks, b⟩
  | work {ps lk ks} (p w : Nat) (l r : List (G V)) {pc pc' : Pc V} {v' : View V} {b : Bool}
      (h : Work (cf p) w ⟨ps p, lk, ks⟩ pc v' pc' b) :
      Step cf ⟨ps, l ++ ⟨p, w, pc⟩ :: r, lk, ks, false⟩ ⟨upd ps p v'.pool, l ++ ⟨p, w, pc'⟩ :: r, v'.lock, v'.keys, b⟩

/-- Every finite execution. -/
inductive Steps {V : Type} (cf : Nat → Conf V) : Sys V → Sys V → Prop
  | refl (s) : Steps cf s s
  | tail {a b c} : Steps cf a b → Step cf b c → Steps cf a c

/-- The states that occur. -/
def Reachable {V : Type} (cf : Nat → Conf V) (s : Sys V) : Prop := Steps cf (initial cf) s

/-! ## What the statements speak about -/

/-- The event a worker has taken and not finished. -/
def inProg {V : Type} : Pc V → Option (Bool × Option V)
  | .got h v => some (h, v)
  | .inc1 h v | .inc2 h v | .inc3 h v _ | .run h v | .dec1 h v | .dec2 h v | .dec3 h v _ => some (h, some v)
  | .sel1 | .sel2 | .ret | .dead => none

/-- Events the workers of pool `p` are at. -/
def inProgs {V : Type} (p : Nat) (gs : List (G V)) : List (Bool × Option V) :=
  gs.filterMap fun g => if g.pool = p then inProg g.pc else none

/-- Waiting in a channel: buffered or with a blocked sender. -/
def Chan.all {V : Type} (c : Chan V) : List V := c.buf ++ c.sendq

/-- The goroutine runs a worker of pool `p`. -/
def G.alive {V : Type} (p : Nat) (g : G V) : Prop := g.pool = p ∧ (match g.pc with | .dead => False | _ => True)

/-- The event the worker is calling `workFunc` with. -/
def running {V : Type} : Pc V → Option V
  | .run _ v => some v
  | _ => none

end Verif.Pool

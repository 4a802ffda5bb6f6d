import Verif.Num.Printing

/-!
# Logging: C161

`/repo/log/log.go`, `/repo/log/hooks.go`, `/repo/log/cashcheck.go`: where messages go, and with which fields.

Trusted and simplified: a `logrus.Logger` gives an entry whose level is enabled to its hooks (errors of hooks are only reported) and
writes it to `Out`; an `Entry` carries its fields, and `WithFields` lets the new ones win.  Messages are taken as formatted; the
rotating of files by date is left out, so the file of a logger is one list of entries.  Each call is one step: the package functions hold
`_logLocker`, and `SetFields` and `InitLog` hold it for writing.
-/

namespace Verif.Logging
open Verif Verif.Hex

/-- `logrus.Level`. -/
inductive Level where
  | panic | fatal | error | warn | info | debug | trace
  deriving DecidableEq, Repr

/-- `DebugLevel` is the level of all loggers here. -/
def Level.enabled : Level → Bool
  | .trace => false
  | _ => true

/-- A value given to the log; `key`: its text, if it is a `string`. -/
structure Val where
  key : Option Bytes
  num : Nat
  deriving DecidableEq, Repr

/-- `logrus.Fields`. -/
abbrev Fields := Bytes → Option Val

def noFields : Fields := fun _ => none

/-- `WithFields` of an entry: the new ones win. -/
def merge (old new : Fields) : Fields := fun k => match new k with | some v => some v | none => old k

structure Entry where
  level : Level
  fields : Fields
  msg : Bytes

/-- A logger: the `logrus.Logger` it belongs to, by number, and its fields. -/
structure Logger where
  root : Nat
  fields : Fields

/-! ### The hook -/

/-- `FileAndConsoleHook` (`/repo/log/hooks.go:23-30`); a writer is absent, or says of each entry whether it can be written. -/
structure Hook where
  file : Option (Entry → Bool)
  console : Option (Entry → Bool)
  levels : List Level
  enabled : Bool

/-- `NewFileAndConsoleHook` (`/repo/log/hooks.go:32-53`). -/
def newHook (file console : Option (Entry → Bool)) (levels : List Level) : Hook :=
  if file.isNone ∧ console.isNone then ⟨none, none, [], false⟩ else ⟨file, console, levels, true⟩

/-- What a call of `Fire` writes, and whether it returns an error. -/
structure Fired where
  toFile : Bool := false
  toConsole : Bool := false
  failed : Bool := false
  deriving DecidableEq

/-- The second half of `Fire` (`/repo/log/hooks.go:75-83`); `f`: the entry is in the file. -/
def Hook.fireConsole (h : Hook) (e : Entry) (f : Bool) : Fired :=
  match h.console with
  | none => { toFile := f }
  | some w =>
    if e.level ∈ h.levels then
      if !w e then { toFile := f, failed := true } else { toFile := f, toConsole := true }
    else { toFile := f }

/-- `Fire` (`/repo/log/hooks.go:55-86`); `format`: whether the formatter can format the entry. -/
def Hook.fire (h : Hook) (format : Entry → Bool) (e : Entry) : Fired :=
  if !h.enabled then {}
  else if !format e then { failed := true }
  else
    match h.file with
    | some w =>
      if !w e then { failed := true }
      else h.fireConsole e true
    | none => h.fireConsole e false

/-! ### The package -/

/-- The variables `rootLog` and `wrapped`, and what has been written: the file of each logger, and the console. -/
structure State where
  /-- the number of the current `rootLog`; 0 is the one made by `init` -/
  root : Nat := 0
  wrapped : Fields := noFields
  files : Nat → List Entry := fun _ => []
  console : List Entry := []

/-- `InitLog` (`/repo/log/log.go:70-80`): the suffix of the file name. -/
def suffix (nid : Bytes) : Bytes :=
  if nid.length = 0 then [95] else if nid.length > 5 then hexEncode (nid.take 5) else hexEncode nid

/-- `InitLogWithSuffix` (`/repo/log/log.go:41-68`): a new logger. -/
def State.init (s : State) : State := { s with root := s.root + 1, wrapped := noFields }

/-- The hook of the loggers made by `InitLogWithSuffix` (`/repo/log/log.go:64-66`). -/
def stdHook : Hook := newHook (some fun _ => true) (some fun _ => true) [.info, .warn, .error]

/-- A logger writes an entry: the logger of `init` to the console (`/repo/log/log.go:82-95`), the others through their hook. -/
def State.write (s : State) (root : Nat) (e : Entry) : State :=
  if !e.level.enabled then s
  else if root = 0 then { s with console := s.console ++ [e] }
  else
    let r := stdHook.fire (fun _ => true) e
    let s := if r.toFile then { s with files := fun i => if i = root then s.files i ++ [e] else s.files i } else s
    if r.toConsole then { s with console := s.console ++ [e] } else s

/-- `Debug`, …, `Errorf` (`/repo/log/log.go:101-155`). -/
def State.log (s : State) (l : Level) (msg : Bytes) : State := s.write s.root ⟨l, s.wrapped, msg⟩

/-- `SetFields` (`/repo/log/log.go:209-215`). -/
def State.setFields (s : State) (f : Fields) : State := { s with wrapped := merge s.wrapped f }

/-- `WithFields` (`/repo/log/log.go:189-191`): of `rootLog`. -/
def State.withFields (s : State) (f : Fields) : Logger := ⟨s.root, merge noFields f⟩

/-- The loop of `WithField` (`/repo/log/log.go:199-205`). -/
def fieldLoop (vs : List Val) (i : Nat) (f : Fields) : Nat → Fields
  | 0 => f
  | n + 1 =>
    if i < vs.length / 2 then
      let f := match vs[i]?, vs[i + 1]? with
        | some k, some v => (match k.key with | some k => (fun x => if x = k then some v else f x) | none => f)
        | _, _ => f
      fieldLoop vs (i + 2) f n
    else f

/-- `WithField` (`/repo/log/log.go:193-207`). -/
def State.withField (s : State) (vs : List Val) : Logger :=
  if vs.length ≤ 1 then ⟨s.root, noFields⟩ else s.withFields (fieldLoop vs 0 noFields vs.length)

/-- `MustDebugf`, …, `MustErrorf` (`/repo/log/log.go:157-187`), and a call of a logger. -/
def State.must (s : State) (lg : Option Logger) (l : Level) (msg : Bytes) : State :=
  match lg with
  | none => s.log l msg
  | some g => s.write g.root ⟨l, g.fields, msg⟩

/-- A call of the package. -/
inductive Call where
  | init
  | setFields (f : Fields)
  | log (l : Level) (msg : Bytes)
  | must (lg : Option Logger) (l : Level) (msg : Bytes)

def State.call (s : State) : Call → State
  | .init => s.init
  | .setFields f => s.setFields f
  | .log l m => s.log l m
  | .must lg l m => s.must lg l m

def State.run (s : State) (cs : List Call) : State := cs.foldl State.call s

/-! ### The specification -/

/-- The fields of the package functions after some calls: those set since the last `InitLog`, the last of each name. -/
def lastSet : List Call → Bytes → Option Val
  | [], _ => none
  | .init :: _, _ => none
  | .setFields f :: older, k => (f k).or (lastSet older k)
  | _ :: older, k => lastSet older k

/-- How often the log was initialised. -/
def inits : List Call → Nat
  | [] => 0
  | .init :: cs => inits cs + 1
  | _ :: cs => inits cs

/-- The entry a call makes, with the number of its logger; `older` are the calls before it, the last one first. -/
def entryOf (older : List Call) : Call → Option (Nat × Entry)
  | .log l m => if l = .trace then none else some (inits older, ⟨l, lastSet older, m⟩)
  | .must none l m => if l = .trace then none else some (inits older, ⟨l, lastSet older, m⟩)
  | .must (some g) l m => if l = .trace then none else some (g.root, ⟨l, g.fields, m⟩)
  | _ => none

/-- The entries of all calls in order; the calls are given the last one first. -/
def entries : List Call → List (Nat × Entry)
  | [] => []
  | c :: older => entries older ++ (entryOf older c).toList

/-- What is to be seen at the console: everything of the logger of `init`, and of the others what is neither below `info` nor above
`error`. -/
def shown (x : Nat × Entry) : Bool := x.1 == 0 || x.2.level == .info || x.2.level == .warn || x.2.level == .error

/-! ### Proofs -/

theorem stdHook_fire (e : Entry) : stdHook.fire (fun _ => true) e =
    { toFile := true, toConsole := e.level == .info || e.level == .warn || e.level == .error } := by
  obtain ⟨l, f, m⟩ := e
  cases l <;> rfl

theorem write_files (s : State) (r : Nat) (e : Entry) (i : Nat) (hi : i ≠ 0) :
    (s.write r e).files i = s.files i ++ (if e.level.enabled = true ∧ r = i then [e] else []) := by
  unfold State.write
  rw [stdHook_fire]
  cases he : e.level.enabled with
  | false => simp
  | true =>
    by_cases hr : r = 0
    · have : ¬ r = i := by omega
      simp [hr]
      intro h
      omega
    · simp only [Bool.not_true, Bool.false_eq_true, if_false, hr, if_true]
      by_cases h : i = r
      · subst h
        split <;> simp
      · have h' : ¬ r = i := fun e => h e.symm
        split <;> simp [h, h']

theorem write_console (s : State) (r : Nat) (e : Entry) :
    (s.write r e).console = s.console ++ (if e.level.enabled = true ∧ shown (r, e) = true then [e] else []) := by
  unfold State.write
  rw [stdHook_fire]
  cases he : e.level.enabled with
  | false => simp
  | true =>
    by_cases hr : r = 0
    · simp [hr, shown]
    · have h0 : (r == 0) = false := by simp [hr]
      simp only [Bool.not_true, Bool.false_eq_true, if_false, hr, if_true, shown, h0, Bool.false_or, true_and]
      split <;> simp

theorem write_vars (s : State) (r : Nat) (e : Entry) : (s.write r e).root = s.root ∧ (s.write r e).wrapped = s.wrapped := by
  unfold State.write
  split
  · exact ⟨rfl, rfl⟩
  · split
    · exact ⟨rfl, rfl⟩
    · simp only
      split <;> split <;> exact ⟨rfl, rfl⟩

theorem run_snoc (s : State) (cs : List Call) (c : Call) : s.run (cs ++ [c]) = (s.run cs).call c := by
  simp [State.run]

/-- The variables after some calls. -/
theorem run_vars (cs : List Call) : (({} : State).run cs).root = inits cs.reverse ∧ (({} : State).run cs).wrapped = lastSet cs.reverse := by
  induction cs using List.reverseRecOn with
  | nil => exact ⟨rfl, rfl⟩
  | append_singleton cs c ih =>
    rw [run_snoc, List.reverse_append]
    cases c with
    | init => exact ⟨congrArg (· + 1) ih.1, rfl⟩
    | setFields f =>
      refine ⟨ih.1, ?_⟩
      show merge (({} : State).run cs).wrapped f = _
      rw [ih.2]
      funext k
      simp only [merge, List.reverse_singleton, List.singleton_append, lastSet]
      cases f k <;> rfl
    | log l m =>
      obtain ⟨h1, h2⟩ := write_vars (({} : State).run cs) (({} : State).run cs).root ⟨l, (({} : State).run cs).wrapped, m⟩
      exact ⟨h1.trans ih.1, h2.trans ih.2⟩
    | must lg l m =>
      cases lg with
      | none =>
        obtain ⟨h1, h2⟩ := write_vars (({} : State).run cs) (({} : State).run cs).root ⟨l, (({} : State).run cs).wrapped, m⟩
        exact ⟨h1.trans ih.1, h2.trans ih.2⟩
      | some g =>
        obtain ⟨h1, h2⟩ := write_vars (({} : State).run cs) g.root ⟨l, g.fields, m⟩
        exact ⟨h1.trans ih.1, h2.trans ih.2⟩

theorem enabled_iff (l : Level) : l.enabled = true ↔ l ≠ .trace := by cases l <;> simp [Level.enabled]

/-! ### C161 -/

/-- **C161.** For every sequence of calls, the file of each logger has exactly the entries made by it, in order, each with the fields of
the logger it was given to, or for the package functions with the fields set since the last `InitLog`; the console has, in order, all
entries of the first logger and those of the others from `info` to `error`. -/
theorem C161_delivery (cs : List Call) :
    (∀ i, i ≠ 0 → (({} : State).run cs).files i = ((entries cs.reverse).filter (·.1 == i)).map Prod.snd) ∧
      (({} : State).run cs).console = ((entries cs.reverse).filter shown).map Prod.snd := by
  induction cs using List.reverseRecOn with
  | nil => exact ⟨fun _ _ => rfl, rfl⟩
  | append_singleton cs c ih =>
    obtain ⟨v1, v2⟩ := run_vars cs
    have key : ∀ (r : Nat) (e : Entry), entryOf cs.reverse c = (if e.level = .trace then none else some (r, e)) →
        (({} : State).run cs).call c = (({} : State).run cs).write r e →
        (∀ i, i ≠ 0 → ((({} : State).run cs).call c).files i = ((entries (c :: cs.reverse)).filter (·.1 == i)).map Prod.snd) ∧
          ((({} : State).run cs).call c).console = ((entries (c :: cs.reverse)).filter shown).map Prod.snd := by
      intro r e h1 h2
      rw [h2, entries, h1]
      refine ⟨fun i hi => ?_, ?_⟩
      · rw [write_files _ _ _ _ hi, ih.1 i hi, List.filter_append, List.map_append]
        congr 1
        by_cases ht : e.level = .trace
        · simp [ht, Level.enabled]
        · by_cases hr : r = i <;> simp [ht, (enabled_iff _).mpr ht, hr]
      · rw [write_console, ih.2, List.filter_append, List.map_append]
        congr 1
        by_cases ht : e.level = .trace
        · simp [ht, Level.enabled]
        · cases hs : shown (r, e) <;> simp [ht, (enabled_iff _).mpr ht, hs]
    rw [run_snoc, List.reverse_append, List.reverse_singleton, List.singleton_append]
    cases c with
    | init => simpa [State.call, State.init, entries, entryOf] using ih
    | setFields f => simpa [State.call, State.setFields, entries, entryOf] using ih
    | log l m => exact key (inits cs.reverse) ⟨l, lastSet cs.reverse, m⟩ rfl (by rw [State.call, State.log, v1, v2])
    | must lg l m =>
      cases lg with
      | none => exact key (inits cs.reverse) ⟨l, lastSet cs.reverse, m⟩ rfl (by rw [State.call, State.must, State.log, v1, v2])
      | some g => exact key g.root ⟨l, g.fields, m⟩ rfl rfl

/-- **C161.** For all writers and formatters: an entry is at the console only if its level is one of those for the console, only if it is in
the file (if there is one), and an error is returned exactly if a writer or the formatter that was used failed. -/
theorem C161_hook (file console : Option (Entry → Bool)) (levels : List Level) (format : Entry → Bool) (e : Entry) :
    let r := (newHook file console levels).fire format e
    (r.toFile = true ↔ format e = true ∧ ∃ w, file = some w ∧ w e = true) ∧
      (r.toConsole = true ↔ format e = true ∧ (∀ w, file = some w → w e = true) ∧ e.level ∈ levels ∧ ∃ w, console = some w ∧ w e = true) ∧
      (r.failed = false ↔ (file = none ∧ console = none) ∨
        (format e = true ∧ (∀ w, file = some w → w e = true) ∧ (e.level ∈ levels → ∀ w, console = some w → w e = true))) := by
  cases file with
  | none =>
    cases console with
    | none => simp [newHook, Hook.fire]
    | some w =>
      cases hf : format e <;> by_cases hl : e.level ∈ levels <;> cases hw : w e <;>
        simp [newHook, Hook.fire, Hook.fireConsole, hf, hl, hw]
  | some v =>
    cases console with
    | none =>
      cases hf : format e <;> cases hv : v e <;> simp [newHook, Hook.fire, Hook.fireConsole, hf, hv]
    | some w =>
      cases hf : format e <;> cases hv : v e <;> by_cases hl : e.level ∈ levels <;> cases hw : w e <;>
        simp [newHook, Hook.fire, Hook.fireConsole, hf, hv, hl, hw]

theorem hexEncode_head {b : Bytes} (h : hexEncode b = [95]) : False := by
  cases b with
  | nil => cases h
  | cons x b => simp [hexEncode] at h

/-- **C161.** Two nodes log to files of the same name exactly if the first five bytes of their ids are the same. -/
theorem C161_suffix (a b : Bytes) : suffix a = suffix b ↔ a.take 5 = b.take 5 := by
  have h : ∀ x : Bytes, suffix x = if x = [] then [95] else hexEncode (x.take 5) := by
    intro x
    unfold suffix
    cases x with
    | nil => rfl
    | cons y x =>
      simp only [List.length_cons, Nat.add_one_ne_zero, if_false, reduceCtorEq]
      split
      · rfl
      · rw [List.take_of_length_le (by rw [List.length_cons]; omega)]
  rw [h, h]
  constructor
  · intro e
    split at e <;> split at e
    · rename_i h1 h2; rw [h1, h2]
    · exact (hexEncode_head e.symm).elim
    · exact (hexEncode_head e).elim
    · exact Printing.hexEncode_inj e
  · intro e
    have hn : ∀ x : Bytes, x = [] ↔ x.take 5 = [] := by intro x; cases x <;> simp
    have : (a = []) = (b = []) := by rw [eq_iff_iff, hn a, hn b, e]
    simp only [this, e]

/-! ### `WithField` -/

/-- The pairs of names and values in a list of arguments. -/
def pairs : List Val → List (Val × Val)
  | k :: v :: vs => (k, v) :: pairs vs
  | _ => []

/-- The fields of some pairs: the last one of each name, values without a name left out. -/
def fieldsOf : List (Val × Val) → Fields → Fields
  | [], f => f
  | (k, v) :: l, f => fieldsOf l (match k.key with | some k => (fun x => if x = k then some v else f x) | none => f)

theorem pairs_drop : ∀ (vs : List Val) (j : Nat), pairs (vs.drop (2 * j)) = (pairs vs).drop j
  | vs, 0 => by simp
  | [], j + 1 => by simp [pairs]
  | [_], j + 1 => by
    rw [List.drop_eq_nil_of_le (by simp; omega)]
    simp [pairs]
  | k :: v :: vs, j + 1 => by
    rw [show 2 * (j + 1) = 2 * j + 2 by omega, List.drop_succ_cons, List.drop_succ_cons, pairs_drop vs j, pairs, List.drop_succ_cons]

theorem fieldLoop_eq (vs : List Val) : ∀ (n j : Nat) (f : Fields), vs.length / 2 ≤ 2 * j + n →
    fieldLoop vs (2 * j) f n = fieldsOf (((pairs vs).drop j).take ((vs.length / 2 + 1) / 2 - j)) f := by
  intro n
  induction n with
  | zero =>
    intro j f h
    rw [show (vs.length / 2 + 1) / 2 - j = 0 by omega, List.take_zero]
    rfl
  | succ n ih =>
    intro j f h
    rw [fieldLoop]
    split
    · rename_i hi
      have h1 : 2 * j < vs.length := by omega
      have h2 : 2 * j + 1 < vs.length := by omega
      have hd : (pairs vs).drop j = (vs[2 * j], vs[2 * j + 1]) :: (pairs vs).drop (j + 1) := by
        rw [← pairs_drop, ← pairs_drop, List.drop_eq_getElem_cons h1, List.drop_eq_getElem_cons h2, pairs]
        rfl
      rw [show (vs.length / 2 + 1) / 2 - j = ((vs.length / 2 + 1) / 2 - (j + 1)) + 1 by omega, hd, List.take_succ_cons, fieldsOf,
        List.getElem?_eq_getElem h1, List.getElem?_eq_getElem h2]
      exact ih (j + 1) _ (by omega)
    · rw [show (vs.length / 2 + 1) / 2 - j = 0 by omega, List.take_zero]
      rfl

/-- **C161.** `WithField` gives a logger of the current root with the fields of the first half of the pairs (rounded up), so with all of
them only if there is one pair. -/
theorem C161_withField_partial (s : State) (vs : List Val) :
    s.withField vs = ⟨s.root, fieldsOf ((pairs vs).take ((vs.length / 2 + 1) / 2)) noFields⟩ := by
  unfold State.withField
  split
  · rename_i h
    cases vs with
    | nil => rfl
    | cons v vs =>
      cases vs with
      | nil => simp [pairs, fieldsOf]
      | cons w vs => simp at h
  · rw [State.withFields, show (0 : Nat) = 2 * 0 from rfl, fieldLoop_eq vs vs.length 0 noFields (by omega)]
    simp only [List.drop_zero, Nat.sub_zero]
    congr 1
    funext k
    unfold merge
    split
    · rename_i v h; exact h.symm
    · rename_i h; rw [h]; rfl

/-! ### The log of `cashcheck.go` -/

/-- `createCCOnce` and `ccLog` (`/repo/log/cashcheck.go:12-16`). -/
structure CC where
  once : Bool := false
  log : Bool := false
  entries : List Entry := []

/-- The answer to a call. -/
inductive CCAns where
  | ok
  | panicked
  deriving DecidableEq, Repr

/-- `InitCheckLog` (`/repo/log/cashcheck.go:18-41`); `opens`: whether the file can be made.  A `sync.Once` is done even if its function
panics. -/
def CC.init (c : CC) (nid : Bytes) (opens : Bool) : CC × CCAns :=
  if c.once then (c, .ok)
  else if nid.length < 5 then ({ c with once := true }, .panicked)
  else if !opens then ({ c with once := true }, .ok)
  else ({ c with once := true, log := true }, .ok)

/-- `CCDebug`, …, `CCErrorf` (`/repo/log/cashcheck.go:43-89`): a method of a nil `*logrus.Logger` panics. -/
def CC.write (c : CC) (e : Entry) : CC × CCAns :=
  if !c.log then (c, .panicked)
  else if e.level.enabled then ({ c with entries := c.entries ++ [e] }, .ok) else (c, .ok)

/-- A call. -/
inductive CCCall where
  | init (nid : Bytes) (opens : Bool)
  | write (e : Entry)

def CC.call (c : CC) : CCCall → CC × CCAns
  | .init n o => c.init n o
  | .write e => c.write e

def CC.run (c : CC) (l : List CCCall) : CC := l.foldl (fun c x => (c.call x).1) c

/-- The first call of `InitCheckLog` has an id of five bytes or more and a file that can be made. -/
def goodStart : List CCCall → Bool
  | [] => false
  | .init n o :: _ => decide (5 ≤ n.length) && o
  | .write _ :: l => goodStart l

theorem cc_run_done (l : List CCCall) (c : CC) (h : c.once = true) : (c.run l).once = true ∧ (c.run l).log = c.log := by
  induction l generalizing c with
  | nil => exact ⟨h, rfl⟩
  | cons x l ih =>
    have hx : (c.call x).1.once = true ∧ (c.call x).1.log = c.log := by
      cases x with
      | init n o => simp [CC.call, CC.init, h]
      | write e =>
        simp only [CC.call, CC.write]
        split
        · exact ⟨h, rfl⟩
        · split <;> exact ⟨h, rfl⟩
    obtain ⟨h1, h2⟩ := ih (c.call x).1 hx.1
    exact ⟨h1, h2.trans hx.2⟩

theorem cc_run_log (l : List CCCall) : ∀ (c : CC), c.once = false → c.log = false → (c.run l).log = goodStart l := by
  induction l with
  | nil => intro c _ h; exact h
  | cons x l ih =>
    intro c h1 h2
    cases x with
    | init n o =>
      show ((c.init n o).1.run l).log = _
      rw [CC.init, h1]
      simp only [Bool.false_eq_true, if_false, goodStart]
      by_cases hn : n.length < 5
      · rw [if_pos hn, (cc_run_done l _ rfl).2, h2]
        simp; omega
      · rw [if_neg hn]
        have hn' : 5 ≤ n.length := by omega
        cases o with
        | false =>
          simp only [Bool.not_false, if_true, Bool.and_false]
          rw [(cc_run_done l _ rfl).2, h2]
        | true =>
          simp only [Bool.not_true, Bool.false_eq_true, if_false, Bool.and_true, hn', decide_true]
          rw [(cc_run_done l _ rfl).2]
    | write e =>
      have : (c.write e).1 = c := by simp [CC.write, h2]
      show ((c.write e).1.run l).log = _
      rw [this]
      exact ih c h1 h2

/-- **C161.** A message to the log of checks is accepted exactly if `InitCheckLog` was called before, with an id of five bytes or more and
a file that could be made the first time; what later calls give does not matter. -/
theorem C161_check (l : List CCCall) (e : Entry) : ((({} : CC).run l).write e).2 = .ok ↔ goodStart l = true := by
  rw [← cc_run_log l {} rfl rfl, CC.write]
  cases (({} : CC).run l).log with
  | false => simp
  | true => cases e.level.enabled <;> simp

/-- The messages sent after the first `InitCheckLog`. -/
def afterStart : List CCCall → List Entry
  | [] => []
  | .init _ _ :: l => l.filterMap fun | .write e => some e | .init _ _ => none
  | .write _ :: l => afterStart l

theorem cc_run_entries (l : List CCCall) : ∀ (c : CC), c.once = true → c.log = true →
    (c.run l).entries = c.entries ++ (l.filterMap fun | .write e => some e | .init _ _ => none).filter (·.level.enabled) := by
  induction l with
  | nil => intro c _ _; simp [CC.run]
  | cons x l ih =>
    intro c h1 h2
    cases x with
    | init n o =>
      show ((c.init n o).1.run l).entries = _
      rw [show (c.init n o).1 = c by simp [CC.init, h1], ih c h1 h2]; rfl
    | write e =>
      show ((c.write e).1.run l).entries = _
      simp only [CC.write, h2, Bool.not_true, Bool.false_eq_true, if_false, List.filterMap_cons, List.filter_cons]
      split
      · refine (ih ⟨c.once, true, c.entries ++ [e]⟩ h1 rfl).trans ?_; simp
      · exact ih c h1 h2

theorem cc_run_silent (l : List CCCall) : ∀ (c : CC), c.once = true → c.log = false → (c.run l).entries = c.entries := by
  induction l with
  | nil => intro c _ _; rfl
  | cons x l ih =>
    intro c h1 h2
    cases x with
    | init n o =>
      show ((c.init n o).1.run l).entries = _
      rw [show (c.init n o).1 = c by simp [CC.init, h1], ih c h1 h2]
    | write e =>
      show ((c.write e).1.run l).entries = _
      rw [show (c.write e).1 = c by simp [CC.write, h2], ih c h1 h2]

/-- **C161.** The log of checks has the messages that are not below the level, in the order in which they were sent after a good
`InitCheckLog`; without one it stays empty. -/
theorem C161_checkLog (l : List CCCall) :
    (({} : CC).run l).entries = if goodStart l then (afterStart l).filter (·.level.enabled) else [] := by
  induction l with
  | nil => rfl
  | cons x l ih =>
    cases x with
    | write e => exact ih
    | init n o =>
      show ((({} : CC).init n o).1.run l).entries = _
      by_cases hn : n.length < 5
      · have hg : goodStart (.init n o :: l) = false := by simp [goodStart]; omega
        rw [hg, show (({} : CC).init n o).1 = ⟨true, false, []⟩ by simp [CC.init, hn]]
        exact cc_run_silent l _ rfl rfl
      · cases o with
        | false =>
          have hg : goodStart (.init n false :: l) = false := by simp [goodStart]
          rw [hg, show (({} : CC).init n false).1 = ⟨true, false, []⟩ by simp [CC.init, hn]]
          exact cc_run_silent l _ rfl rfl
        | true =>
          have hg : goodStart (.init n true :: l) = true := by simp [goodStart]; omega
          rw [hg, show (({} : CC).init n true).1 = ⟨true, true, []⟩ by simp [CC.init, hn]]
          exact (cc_run_entries l _ rfl rfl).trans (by rw [if_pos rfl]; rfl)

example : (({} : CC).run [.write ⟨.debug, noFields, [1]⟩, .init [1, 2, 3, 4, 5] true, .write ⟨.info, noFields, [2]⟩, .init [1] false,
    .write ⟨.trace, noFields, [3]⟩, .write ⟨.error, noFields, [4]⟩]).entries.map (·.msg) = [[2], [4]] := by decide +kernel

/-! ### Witnesses -/

def name (n : Nat) : Val := ⟨some [97 + n.toUInt8], n⟩

/-- A log that is initialised, given fields, used at two levels, initialised again and used through an old logger. -/
example : let s := ({} : State).run [.log .debug [1], .init, .setFields (fun k => if k = [97] then some (name 0) else none), .log .debug [2],
      .log .warn [3], .init, .log .info [4], .must (some ⟨1, noFields⟩) .error [5]]
    s.console.map (·.msg) = [[1], [3], [4], [5]] ∧ (s.files 1).map (fun e => (e.msg, e.fields [97])) =
      [([2], some (name 0)), ([3], some (name 0)), ([5], none)] ∧ (s.files 2).map (fun e => (e.msg, e.fields [97])) = [([4], none)] := by
  decide +kernel

example : suffix [1, 2, 3, 4, 5, 6] = suffix [1, 2, 3, 4, 5, 7] ∧ suffix [1, 2] = [48, 49, 48, 50] ∧ suffix [] = [95] := by decide +kernel

/-- **C161, where it ends.** Of two pairs given to `WithField` only the first becomes a field: the index goes up by two but ends at half the
number of arguments. -/
theorem C161_withField_refuted : ((({} : State).withField [name 0, name 5, name 1, name 6]).fields [97],
    (({} : State).withField [name 0, name 5, name 1, name 6]).fields [98]) = (some (name 5), none) := by decide +kernel

/-- **C161, where it ends.** After a call of `InitCheckLog` with a short id the log of checks cannot be made any more, and every message
panics. -/
theorem C161_check_refuted (e : Entry) : (({} : CC).init [1, 2] true).2 = .panicked ∧
    ((({} : CC).run [.init [1, 2] true, .init [1, 2, 3, 4, 5] true]).write e).2 = .panicked := by
  constructor <;> rfl

end Verif.Logging

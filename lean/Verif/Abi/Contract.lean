import Verif.Abi.NewType
import Verif.Abi.Unpack
import Verif.ByteOps.Model

/-!
# Contracts

The description of a contract - functions, events, errors, the constructor, `fallback` and `receive` - becomes tables of methods,
events and errors; calls are packed by name and recognised by the first four bytes.

Simplifications: the description is a list of JSON objects with their members already taken apart (`encoding/json` is not modelled);
the texts made for printing (`str`) are left out.  Go maps are lists of pairs with different keys; where the code walks through a map,
the order is a parameter.  The hash is a parameter `H`.
-/

namespace Verif.Abi
open Verif
open Selector (AM)

/-! ### The code -/

/-- `Argument` (`/repo/abi/argument.go:29-33`); `kind` is the text of `Type.String()`. -/
structure Param where
  name : Bytes
  ty : Ty
  kind : Bytes
  indexed : Bool

/-- `Argument.UnmarshalJSON` (`/repo/abi/argument.go:46-60`); the flag is the member `indexed`. -/
def readArg (U : Bytes → Bool) (a : AM × Bool) : Res Param :=
  match a.1 with
  | .mk name _ _ => Res.bind (newType U a.1) fun i => .ok ⟨name, i.ty, i.kind, a.2⟩

def readArgs (U : Bytes → Bool) : List (AM × Bool) → Res (List Param)
  | [] => .ok []
  | a :: l => Res.bind (readArg U a) fun p => Res.bind (readArgs U l) fun ps => .ok (p :: ps)

/-- A slice in the description may be missing, which gives nil. -/
def readOpt (U : Bytes → Bool) : Option (List (AM × Bool)) → Res (Option (List Param))
  | none => .ok none
  | some l => Res.bind (readArgs U l) fun ps => .ok (some ps)

/-- An object of the description (`/repo/abi/abi.go:154-171`); `α` is what inputs and outputs consist of. -/
structure Field (α : Type) where
  kind : Bytes
  name : Bytes
  inputs : Option (List α)
  outputs : Option (List α)
  mutability : Bytes
  constant : Bool
  payable : Bool
  anonymous : Bool

/-- `json.Unmarshal` of the objects (`/repo/abi/abi.go:172-174`). -/
def readFields (U : Bytes → Bool) : List (Field (AM × Bool)) → Res (List (Field Param))
  | [] => .ok []
  | f :: l => Res.bind (readOpt U f.inputs) fun i => Res.bind (readOpt U f.outputs) fun o => Res.bind (readFields U l) fun r =>
      .ok (⟨f.kind, f.name, i, o, f.mutability, f.constant, f.payable, f.anonymous⟩ :: r)

/-- `FunctionType` (`/repo/abi/method.go:27-42`). -/
inductive FunTy where
  | constructor | fallback | receive | function
  deriving DecidableEq

/-- `Method` (`/repo/abi/method.go:52-88`). -/
structure Method where
  name : Bytes
  rawName : Bytes
  typ : FunTy
  mutability : Bytes
  constant : Bool
  payable : Bool
  inputs : Option (List Param)
  outputs : Option (List Param)
  sig : Bytes
  id : Bytes

/-- `fmt.Sprintf("%v(%v)", rawName, strings.Join(types, ","))`. -/
def signature (rawName : Bytes) (inputs : Option (List Param)) : Bytes :=
  rawName ++ 40 :: joinComma ((inputs.getD []).map (·.kind)) ++ [41]

/-- `NewMethod` (`/repo/abi/method.go:94-152`). -/
def newMethod (H : Bytes → Bytes) (name rawName : Bytes) (typ : FunTy) (mutability : Bytes) (constant payable : Bool)
    (inputs outputs : Option (List Param)) : Method :=
  ⟨name, rawName, typ, mutability, constant, payable, inputs, outputs,
    if typ = .function then signature rawName inputs else [],
    if typ = .function then (H (signature rawName inputs)).take 4 else []⟩

/-- `Event` (`/repo/abi/event.go:29-55`). -/
structure Event where
  name : Bytes
  rawName : Bytes
  anonymous : Bool
  inputs : Option (List Param)
  sig : Bytes
  id : Bytes

/-- `Error` (`/repo/abi/error.go:28-40`). -/
structure ErrorDef where
  name : Bytes
  inputs : Option (List Param)
  sig : Bytes
  id : Bytes

/-- `fmt.Sprintf("arg%d", i)`. -/
def argName (i : Nat) : Bytes := txt "arg" ++ dec i

/-- The loop that names the unnamed arguments (`/repo/abi/event.go:66-84`, `/repo/abi/error.go:48-66`). -/
def sanitize : Nat → List Param → List Param
  | _, [] => []
  | i, p :: l => (if p.name = [] then { p with name := argName i } else p) :: sanitize (i + 1) l

/-- `NewEvent` (`/repo/abi/event.go:61-98`). -/
def newEvent (H : Bytes → Bytes) (name rawName : Bytes) (anonymous : Bool) (inputs : Option (List Param)) : Event :=
  ⟨name, rawName, anonymous, inputs.map (sanitize 0), signature rawName inputs, ByteOps.bytesTo 32 (H (signature rawName inputs))⟩

/-- `NewError` (`/repo/abi/error.go:43-78`). -/
def newError (H : Bytes → Bytes) (name : Bytes) (inputs : Option (List Param)) : ErrorDef :=
  ⟨name, inputs.map (sanitize 0), signature name inputs, ByteOps.bytesTo 32 (H (signature name inputs))⟩

/-- Reading and writing a map. -/
def look {α : Type} (m : List (Bytes × α)) (k : Bytes) : Option α := (m.find? fun p => p.1 == k).map (·.2)

def put {α : Type} : List (Bytes × α) → Bytes → α → List (Bytes × α)
  | [], k, v => [(k, v)]
  | p :: m, k, v => if p.1 == k then (k, v) :: m else p :: put m k v

/-- `ABI` (`/repo/abi/abi.go:33-44`). -/
structure Contract where
  constructor : Method
  methods : List (Bytes × Method)
  events : List (Bytes × Event)
  errors : List (Bytes × ErrorDef)
  fallback : Method
  receive : Method

/-- The zero value of `Method`. -/
def noMethod : Method := ⟨[], [], .constructor, [], false, false, none, none, [], []⟩

def emptyContract : Contract := ⟨noMethod, [], [], [], noMethod, noMethod⟩

/-- One round of the loop (`/repo/abi/abi.go:175-211`). -/
def addField (H : Bytes → Bytes) (c : Contract) (f : Field Param) : Res Contract :=
  if f.kind = txt "constructor" then
    .ok { c with constructor := newMethod H [] [] .constructor f.mutability f.constant f.payable f.inputs none }
  else if f.kind = txt "function" then
    match resolveName (c.methods.length + 1) f.name fun s => (look c.methods s).isSome with
    | none => .panic
    | some name =>
      let m := newMethod H name f.name .function f.mutability f.constant f.payable f.inputs f.outputs
      .ok { c with methods := put c.methods name m }
  else if f.kind = txt "fallback" then
    if c.fallback.typ = .fallback then .err
    else .ok { c with fallback := newMethod H [] [] .fallback f.mutability f.constant f.payable none none }
  else if f.kind = txt "receive" then
    if c.receive.typ = .receive then .err
    else if f.mutability = txt "payable" then
      .ok { c with receive := newMethod H [] [] .receive f.mutability f.constant f.payable none none }
    else .err
  else if f.kind = txt "event" then
    match resolveName (c.events.length + 1) f.name fun s => (look c.events s).isSome with
    | none => .panic
    | some name => .ok { c with events := put c.events name (newEvent H name f.name f.anonymous f.inputs) }
  else if f.kind = txt "error" then
    .ok { c with errors := put c.errors f.name (newError H f.name f.inputs) }
  else .err

def addFields (H : Bytes → Bytes) : Contract → List (Field Param) → Res Contract
  | c, [] => .ok c
  | c, f :: l => Res.bind (addField H c f) fun c => addFields H c l

/-- `ABI.UnmarshalJSON` (`/repo/abi/abi.go:152-213`) into the contract `c`. -/
def unmarshalInto (U : Bytes → Bool) (H : Bytes → Bytes) (c : Contract) (fields : List (Field (AM × Bool))) : Res Contract :=
  Res.bind (readFields U fields) fun fs => addFields H { c with methods := [], events := [], errors := [] } fs

/-- `JSON` (`/repo/abi/abi.go:47-55`). -/
def readContract (U : Bytes → Bool) (H : Bytes → Bytes) (fields : List (Field (AM × Bool))) : Res Contract :=
  unmarshalInto U H emptyContract fields

/-- The types in `Arguments.Pack` (`/repo/abi/argument.go:233-239`). -/
def allTys (ps : Option (List Param)) : List Ty := (ps.getD []).map (·.ty)

/-- `Arguments.NonIndexed` (`/repo/abi/argument.go:64-72`). -/
def dataParams (ps : Option (List Param)) : List Param := (ps.getD []).filter fun p => !p.indexed

/-- `Arguments.Unpack` (`/repo/abi/argument.go:80-88`). -/
def unpackParams (ps : Option (List Param)) (data : Bytes) : Res (List Val) := unpackArgs ((dataParams ps).map (·.ty)) data

/-- `ABI.Pack` (`/repo/abi/abi.go:62-82`). -/
def packCall (c : Contract) (name : Bytes) (args : List Val) : Res Bytes :=
  if name = [] then packArgs (allTys c.constructor.inputs) args
  else
    match look c.methods name with
    | none => .err
    | some m => Res.bind (packArgs (allTys m.inputs) args) fun b => .ok (m.id ++ b)

/-- `ABI.MethodById` (`/repo/abi/abi.go:217-227`) for an order of the map. -/
def methodById (order : List (Bytes × Method)) (data : Bytes) : Res Method :=
  if data.length < 4 then .err
  else
    match order.find? fun p => p.2.id == data.take 4 with
    | none => .err
    | some p => .ok p.2

/-- `ABI.EventByID` (`/repo/abi/abi.go:231-238`) for an order of the map. -/
def eventById (order : List (Bytes × Event)) (topic : Bytes) : Res Event :=
  match order.find? fun p => p.2.id == topic with
  | none => .err
  | some p => .ok p.2

/-- `ABI.getArguments` (`/repo/abi/abi.go:99-116`). -/
def getArguments (c : Contract) (name data : Bytes) : Res (Option (List Param)) :=
  let outputs (m : Method) : Res (Option (List Param)) := if data.length % 32 ≠ 0 then .err else .ok m.outputs
  Res.bind (match look c.methods name with | some m => outputs m | none => .ok none) fun args =>
    let args := match look c.events name with | some e => e.inputs | none => args
    if args.isNone then .err else .ok args

/-- `ABI.Unpack` (`/repo/abi/abi.go:119-125`). -/
def unpackNamed (c : Contract) (name data : Bytes) : Res (List Val) :=
  Res.bind (getArguments c name data) fun args => unpackParams args data

/-- `ABI.PackReturns` (`/repo/abi/abi.go:306-321`). -/
def packReturns (c : Contract) (name : Bytes) (vs : List Val) : Res Bytes :=
  if name = [] then .ok []
  else
    match look c.methods name with
    | none => .err
    | some m => packArgs (allTys m.outputs) vs

/-- The loop of `UnpackIntoMap` (`/repo/abi/argument.go:106-108`). -/
def putAll (v : List (Bytes × Val)) : List Param → List Val → List (Bytes × Val)
  | p :: ps, x :: xs => putAll (put v p.name x) ps xs
  | _, _ => v

/-- `Arguments.UnpackIntoMap` (`/repo/abi/argument.go:91-110`), the map not nil. -/
def unpackIntoMap (ps : Option (List Param)) (v : List (Bytes × Val)) (data : Bytes) : Res (List (Bytes × Val)) :=
  if data.length = 0 then (if (dataParams ps).length ≠ 0 then .err else .ok v)
  else Res.bind (unpackValues ((dataParams ps).map (·.ty)) data) fun xs => .ok (putAll v (dataParams ps) xs)

/-- `Error.Unpack` (`/repo/abi/error.go:84-92`). -/
def unpackError (e : ErrorDef) (data : Bytes) : Res (List Val) :=
  if data.length < 4 then .err
  else if data.take 4 ≠ e.id.take 4 then .err
  else unpackParams e.inputs (data.drop 4)

/-- `UnpackRevert` (`/repo/abi/abi.go:257-270`). -/
def unpackRevert (H : Bytes → Bytes) (data : Bytes) : Res Bytes :=
  if data.length < 4 then .err
  else if data.take 4 ≠ (H (txt "Error(string)")).take 4 then .err
  else Res.bind (unpackArgs [.string] (data.drop 4)) fun vs =>
    match vs with
    | .bytes b :: _ => .ok b
    | _ => .panic

/-! ### The declarations of a contract -/

/-- What stands in a contract.  Parameters are names, possibly empty, and types; those of events may be indexed. -/
inductive Item where
  | constructor (inputs : List (Bytes × Sol)) (mutability : Bytes)
  | function (name : Bytes) (inputs outputs : List (Bytes × Sol)) (mutability : Bytes)
  | fallback (mutability : Bytes)
  | receive (mutability : Bytes)
  | event (name : Bytes) (inputs : List (Bytes × Sol × Bool)) (anonymous : Bool)
  | error (name : Bytes) (inputs : List (Bytes × Sol))

def jArgs (l : List (Bytes × Sol)) : Option (List (AM × Bool)) := some (l.map fun p => (p.2.arg p.1, false))

/-- Its description. -/
def Item.field : Item → Field (AM × Bool)
  | .constructor i m => ⟨txt "constructor", [], jArgs i, none, m, false, false, false⟩
  | .function n i o m => ⟨txt "function", n, jArgs i, jArgs o, m, false, false, false⟩
  | .fallback m => ⟨txt "fallback", [], none, none, m, false, false, false⟩
  | .receive m => ⟨txt "receive", [], none, none, m, false, false, false⟩
  | .event n i a => ⟨txt "event", n, some (i.map fun p => (p.2.1.arg p.1, p.2.2)), none, [], false, false, a⟩
  | .error n i => ⟨txt "error", n, jArgs i, none, [], false, false, false⟩

/-- All types are types of Solidity. -/
def Item.Valid : Item → Prop
  | .constructor i _ => ∀ p ∈ i, p.2.Valid
  | .function _ i o _ => (∀ p ∈ i, p.2.Valid) ∧ ∀ p ∈ o, p.2.Valid
  | .event _ i _ => ∀ p ∈ i, p.2.1.Valid
  | .error _ i => ∀ p ∈ i, p.2.Valid
  | _ => True

/-- The canonical signature. -/
def sigOf (name : Bytes) (l : List Sol) : Bytes := name ++ txt "(" ++ sigs l ++ txt ")"

/-- The functions of a contract: name, inputs, outputs. -/
def functions : List Item → List (Bytes × List (Bytes × Sol) × List (Bytes × Sol))
  | [] => []
  | .function n i o _ :: l => (n, i, o) :: functions l
  | _ :: l => functions l

def events : List Item → List (Bytes × List (Bytes × Sol × Bool) × Bool)
  | [] => []
  | .event n i a :: l => (n, i, a) :: events l
  | _ :: l => events l

/-- The last error of the name. -/
def lastError (n : Bytes) : List Item → Option (List (Bytes × Sol))
  | [] => none
  | .error n' i :: l => (lastError n l).or (if n' = n then some i else none)
  | _ :: l => lastError n l

def fallbacks : List Item → Nat
  | [] => 0
  | .fallback _ :: l => fallbacks l + 1
  | _ :: l => fallbacks l

def receives : List Item → List Bytes
  | [] => []
  | .receive m :: l => m :: receives l
  | _ :: l => receives l

/-- Parameters as they are read. -/
def params (l : List (Bytes × Sol)) : List Param := l.map fun p => ⟨p.1, p.2.ty, p.2.sig, false⟩
def eventParams (l : List (Bytes × Sol × Bool)) : List Param := l.map fun p => ⟨p.1, p.2.1.ty, p.2.1.sig, p.2.2⟩

/-! ### Reading the description -/

theorem readArgs_ok (U : Bytes → Bool) (l : List (Bytes × Sol × Bool)) (h : ∀ p ∈ l, p.2.1.Valid) :
    readArgs U (l.map fun p => (p.2.1.arg p.1, p.2.2)) = .ok (eventParams l) := by
  induction l with
  | nil => rfl
  | cons p l ih =>
    obtain ⟨info, h1, h2, h3, _⟩ := C124_read_partial U p.1 p.2.1 (h p (by simp))
    have : readArg U (p.2.1.arg p.1, p.2.2) = .ok ⟨p.1, p.2.1.ty, p.2.1.sig, p.2.2⟩ := by
      rw [readArg, Sol.arg]
      show Res.bind (newType U (p.2.1.arg p.1)) _ = _
      rw [h1, ← h2, ← h3]
      rfl
    rw [List.map_cons, readArgs, this, ih fun q hq => h q (by simp [hq])]
    rfl

theorem readOpt_ok (U : Bytes → Bool) (l : List (Bytes × Sol)) (h : ∀ p ∈ l, p.2.Valid) : readOpt U (jArgs l) = .ok (some (params l)) := by
  have := readArgs_ok U (l.map fun p => (p.1, p.2, false)) (by
    intro p hp
    obtain ⟨q, hq, rfl⟩ := List.mem_map.mp hp
    exact h q hq)
  rw [List.map_map] at this
  rw [jArgs, readOpt]
  have e : l.map (fun p => (p.2.arg p.1, false)) = l.map ((fun p : Bytes × Sol × Bool => (p.2.1.arg p.1, p.2.2)) ∘ fun p => (p.1, p.2, false)) := rfl
  rw [e, this]
  simp [Res.bind, eventParams, params]

/-- The description with the arguments read. -/
def Item.read : Item → Field Param
  | .constructor i m => ⟨txt "constructor", [], some (params i), none, m, false, false, false⟩
  | .function n i o m => ⟨txt "function", n, some (params i), some (params o), m, false, false, false⟩
  | .fallback m => ⟨txt "fallback", [], none, none, m, false, false, false⟩
  | .receive m => ⟨txt "receive", [], none, none, m, false, false, false⟩
  | .event n i a => ⟨txt "event", n, some (eventParams i), none, [], false, false, a⟩
  | .error n i => ⟨txt "error", n, some (params i), none, [], false, false, false⟩

theorem readFields_ok (U : Bytes → Bool) (items : List Item) (h : ∀ i ∈ items, i.Valid) :
    readFields U (items.map Item.field) = .ok (items.map Item.read) := by
  induction items with
  | nil => rfl
  | cons i l ih =>
    have hi := h i (by simp)
    have hl := ih fun j hj => h j (by simp [hj])
    rw [List.map_cons, List.map_cons, readFields, hl]
    cases i with
    | constructor i m => rw [Item.field, readOpt_ok U i hi]; rfl
    | function n i o m => rw [Item.field, readOpt_ok U i hi.1, readOpt_ok U o hi.2]; rfl
    | fallback m => rfl
    | receive m => rfl
    | event n i a =>
      rw [Item.field]
      simp only [readOpt]
      rw [readArgs_ok U i hi]
      rfl
    | error n i => rw [Item.field, readOpt_ok U i hi]; rfl

/-! ### Maps -/

theorem look_put {α : Type} (m : List (Bytes × α)) (k : Bytes) (v : α) (k' : Bytes) :
    look (put m k v) k' = if k = k' then some v else look m k' := by
  induction m with
  | nil => by_cases h : k = k' <;> simp [put, look, h]
  | cons p m ih =>
    rw [put]
    by_cases h1 : p.1 = k
    · subst h1
      rw [if_pos (by simp)]
      by_cases h2 : p.1 = k' <;> simp [look, h2]
    · rw [if_neg (by simpa using h1)]
      by_cases h2 : p.1 = k'
      · subst h2
        rw [if_neg (fun h => h1 h.symm)]
        simp [look]
      · have : look (p :: put m k v) k' = look (put m k v) k' := by simp [look, h2]
        rw [this, ih]
        have : look (p :: m) k' = look m k' := by simp [look, h2]
        rw [this]

theorem look_none {α : Type} (m : List (Bytes × α)) (k : Bytes) : look m k = none ↔ ¬ k ∈ m.map (·.1) := by
  rw [look, Option.map_eq_none_iff, List.find?_eq_none]
  simp only [beq_iff_eq, List.mem_map, Prod.exists, exists_and_right, exists_eq_right, not_exists]
  exact ⟨fun h x hx => h (k, x) hx rfl, fun h p hp e => h p.2 (by rw [← e]; exact hp)⟩

theorem put_new {α : Type} (m : List (Bytes × α)) (k : Bytes) (v : α) (h : ¬ k ∈ m.map (·.1)) : put m k v = m ++ [(k, v)] := by
  induction m with
  | nil => rfl
  | cons p m ih =>
    simp only [List.map_cons, List.mem_cons, not_or] at h
    rw [put, if_neg (by simpa using fun e => h.1 e.symm), ih h.2]
    rfl

theorem look_mem {α : Type} (m : List (Bytes × α)) (hn : (m.map (·.1)).Nodup) (k : Bytes) (v : α) : look m k = some v ↔ (k, v) ∈ m := by
  induction m with
  | nil => simp [look]
  | cons p m ih =>
    rw [List.map_cons, List.nodup_cons] at hn
    by_cases h : p.1 = k
    · subst h
      have : look (p :: m) p.1 = some p.2 := by simp [look]
      rw [this]
      constructor
      · intro e; injection e with e; subst e; simp
      · intro e
        rcases List.mem_cons.mp e with e | e
        · rw [← e]
        · exact absurd (List.mem_map.mpr ⟨_, e, rfl⟩) hn.1
    · have : look (p :: m) k = look m k := by simp [look, h]
      rw [this, ih hn.2]
      constructor
      · exact fun e => List.mem_cons_of_mem _ e
      · intro e
        rcases List.mem_cons.mp e with e | e
        · rw [← e] at h; exact absurd rfl h
        · exact e

/-- A name that is free, from the raw name. -/
theorem fresh_name {α : Type} (m : List (Bytes × α)) (raw : Bytes) :
    ∃ name, resolveName (m.length + 1) raw (fun s => (look m s).isSome) = some name ∧ ¬ name ∈ m.map (·.1) ∧
      (¬ raw ∈ m.map (·.1) → name = raw) ∧ (name = raw ∨ ∃ k, name = raw ++ dec k) := by
  have hu : ∀ s, (look m s).isSome = false ↔ ¬ s ∈ m.map (·.1) := fun s => by
    rw [← look_none]
    cases look m s <;> simp
  obtain ⟨name, h1, h2, h3, h4⟩ := C79_fresh raw (fun s => (look m s).isSome) (m.map (·.1))
    (fun s hs => by
      by_contra hc
      rw [(hu s).mpr hc] at hs
      cases hs) (m.length + 1) (by simp)
  refine ⟨name, h1, (hu _).mp h2, fun h => h3 ((hu _).mpr h), ?_⟩
  cases hr : (look m raw).isSome
  · exact Or.inl (h3 hr)
  · obtain ⟨k, hk, _⟩ := h4 hr
    exact Or.inr ⟨k, hk⟩

/-! ### The tables -/

/-- The table entry for a function. -/
def MethodOf (H : Bytes → Bytes) (f : Bytes × List (Bytes × Sol) × List (Bytes × Sol)) (p : Bytes × Method) : Prop :=
  (p.1 = f.1 ∨ ∃ k, p.1 = f.1 ++ dec k) ∧ p.2.name = p.1 ∧ p.2.rawName = f.1 ∧ p.2.sig = sigOf f.1 (f.2.1.map (·.2)) ∧
    p.2.id = (H (sigOf f.1 (f.2.1.map (·.2)))).take 4 ∧ p.2.inputs = some (params f.2.1) ∧ p.2.outputs = some (params f.2.2)

/-- The names of the parameters of events and errors: unnamed ones are called `arg` and their position. -/
def shownName (i : Nat) (n : Bytes) : Bytes := if n = [] then txt "arg" ++ dec i else n

/-- The table entry for an event. -/
def EventOf (H : Bytes → Bytes) (f : Bytes × List (Bytes × Sol × Bool) × Bool) (p : Bytes × Event) : Prop :=
  (p.1 = f.1 ∨ ∃ k, p.1 = f.1 ++ dec k) ∧ p.2.name = p.1 ∧ p.2.rawName = f.1 ∧ p.2.anonymous = f.2.2 ∧
    p.2.sig = sigOf f.1 (f.2.1.map (·.2.1)) ∧ p.2.id = H (sigOf f.1 (f.2.1.map (·.2.1))) ∧
    p.2.inputs = some (f.2.1.mapIdx fun i q => ⟨shownName i q.1, q.2.1.ty, q.2.1.sig, q.2.2⟩)

/-- The table entry for an error. -/
def ErrorOf (H : Bytes → Bytes) (n : Bytes) (l : List (Bytes × Sol)) (e : ErrorDef) : Prop :=
  e.name = n ∧ e.sig = sigOf n (l.map (·.2)) ∧ e.id = H (sigOf n (l.map (·.2))) ∧
    e.inputs = some (l.mapIdx fun i q => ⟨shownName i q.1, q.2.ty, q.2.sig, false⟩)

theorem signature_eq (n : Bytes) (l : List (Bytes × Sol × Bool)) : signature n (some (eventParams l)) = sigOf n (l.map (·.2.1)) := by
  rw [signature, sigOf, sigs_eq]
  simp [eventParams, txt, List.map_map, Function.comp_def]

theorem signature_params (n : Bytes) (l : List (Bytes × Sol)) : signature n (some (params l)) = sigOf n (l.map (·.2)) := by
  rw [signature, sigOf, sigs_eq]
  simp [params, txt, List.map_map, Function.comp_def]

theorem bytesTo_id (b : Bytes) (h : b.length = 32) : ByteOps.bytesTo 32 b = b := by
  simp [ByteOps.bytesTo, ByteOps.setBytes, h, goCopyAt, goCopy]
  exact List.take_of_length_le (by omega)

theorem sanitize_eq (i : Nat) (l : List (Bytes × Sol × Bool)) :
    sanitize i (eventParams l) = l.mapIdx fun j q => (⟨shownName (i + j) q.1, q.2.1.ty, q.2.1.sig, q.2.2⟩ : Param) := by
  induction l generalizing i with
  | nil => rfl
  | cons q l ih =>
    have e : eventParams (q :: l) = ⟨q.1, q.2.1.ty, q.2.1.sig, q.2.2⟩ :: eventParams l := rfl
    rw [e, sanitize, ih, List.mapIdx_cons]
    congr 1
    · simp only [shownName, argName]
      split <;> simp
    · congr 1
      funext j q
      rw [Nat.add_right_comm]
      rfl

theorem sanitize_params (l : List (Bytes × Sol)) :
    sanitize 0 (params l) = l.mapIdx fun j q => (⟨shownName j q.1, q.2.ty, q.2.sig, false⟩ : Param) := by
  have := sanitize_eq 0 (l.map fun p => (p.1, p.2, false))
  have e : eventParams (l.map fun p => (p.1, p.2, false)) = params l := by simp [eventParams, params]
  rw [e] at this
  rw [this]
  simp [List.mapIdx_eq_zipIdx_map, List.zipIdx_map, Function.comp_def]

theorem functions_cons (i : Item) (l : List Item) : functions (i :: l) = functions [i] ++ functions l := by cases i <;> rfl
theorem events_cons (i : Item) (l : List Item) : events (i :: l) = events [i] ++ events l := by cases i <;> rfl

theorem add_receive (H : Bytes → Bytes) (c : Contract) (m : Bytes) : addField H c (Item.receive m).read =
    if c.receive.typ = .receive then .err
    else if m = txt "payable" then .ok { c with receive := newMethod H [] [] .receive m false false none none } else .err := by
  have h (k : String) (hk : ¬ txt "receive" = txt k) : ¬ (Item.receive m).read.kind = txt k := hk
  rw [addField, if_neg (h _ (by decide)), if_neg (h _ (by decide)), if_neg (h _ (by decide)),
    if_pos (show (Item.receive m).read.kind = txt "receive" from rfl)]
  rfl

/-- What one declaration does to the tables. -/
theorem addItem (H : Bytes → Bytes) (hH : ∀ b, (H b).length = 32) (c c' : Contract) (i : Item) (h : addField H c i.read = .ok c') :
    (∃ ms, c'.methods = c.methods ++ ms ∧ List.Forall₂ (MethodOf H) (functions [i]) ms ∧ (∀ p ∈ ms, ¬ p.1 ∈ c.methods.map (·.1)) ∧
      (∀ f ∈ functions [i], ¬ f.1 ∈ c.methods.map (·.1) → ms.map (·.1) = [f.1])) ∧
    (∃ es, c'.events = c.events ++ es ∧ List.Forall₂ (EventOf H) (events [i]) es ∧ (∀ p ∈ es, ¬ p.1 ∈ c.events.map (·.1)) ∧
      (∀ f ∈ events [i], ¬ f.1 ∈ c.events.map (·.1) → es.map (·.1) = [f.1])) ∧
    (∀ n, match lastError n [i] with
      | some l => ∃ e, look c'.errors n = some e ∧ ErrorOf H n l e
      | none => look c'.errors n = look c.errors n) := by
  cases i with
  | constructor i m =>
    simp only [addField, Item.read] at h
    rw [if_pos trivial] at h
    injection h with h
    subst h
    exact ⟨⟨[], by simp, .nil, by simp, by simp [functions]⟩, ⟨[], by simp, .nil, by simp, by simp [events]⟩, fun _ => rfl⟩
  | function n i o m =>
    simp only [addField, Item.read] at h
    rw [if_neg (by decide), if_pos trivial] at h
    obtain ⟨name, h1, h2, h3, h4⟩ := fresh_name c.methods n
    rw [h1] at h
    simp only at h
    injection h with h
    subst h
    refine ⟨⟨[(name, _)], put_new _ _ _ h2, .cons ⟨h4, rfl, rfl, ?_, ?_, rfl, rfl⟩ .nil, by simpa using h2, ?_⟩,
      ⟨[], by simp, .nil, by simp, by simp [events]⟩, fun _ => rfl⟩
    · simp only [newMethod, if_true]; exact signature_params n i
    · simp only [newMethod, if_true]; rw [signature_params n i]
    · intro f hf hn
      simp only [functions, List.mem_singleton] at hf
      subst hf
      simp [h3 hn]
  | fallback m =>
    simp only [addField, Item.read] at h
    rw [if_neg (by decide), if_neg (by decide), if_pos trivial] at h
    split at h
    · cases h
    · injection h with h
      subst h
      exact ⟨⟨[], by simp, .nil, by simp, by simp [functions]⟩, ⟨[], by simp, .nil, by simp, by simp [events]⟩, fun _ => rfl⟩
  | receive m =>
    rw [add_receive] at h
    split at h
    · cases h
    · by_cases hm : m = txt "payable"
      swap
      · rw [if_neg hm] at h; cases h
      · rw [if_pos hm] at h
        injection h with h
        subst h
        exact ⟨⟨[], by simp, .nil, by simp, by simp [functions]⟩, ⟨[], by simp, .nil, by simp, by simp [events]⟩, fun _ => rfl⟩
  | event n i a =>
    simp only [addField, Item.read] at h
    rw [if_neg (by decide), if_neg (by decide), if_neg (by decide), if_neg (by decide), if_pos trivial] at h
    obtain ⟨name, h1, h2, h3, h4⟩ := fresh_name c.events n
    rw [h1] at h
    simp only at h
    injection h with h
    subst h
    refine ⟨⟨[], by simp, .nil, by simp, by simp [functions]⟩,
      ⟨[(name, _)], put_new _ _ _ h2, .cons ⟨h4, rfl, rfl, rfl, ?_, ?_, ?_⟩ .nil, by simpa using h2, ?_⟩, fun _ => rfl⟩
    · exact signature_eq n i
    · simp only [newEvent]; rw [signature_eq n i, bytesTo_id _ (hH _)]
    · simp only [newEvent, Option.map_some]; rw [sanitize_eq 0 i]; simp
    · intro f hf hn
      simp only [events, List.mem_singleton] at hf
      subst hf
      simp [h3 hn]
  | error n i =>
    simp only [addField, Item.read] at h
    rw [if_neg (by decide), if_neg (by decide), if_neg (by decide), if_neg (by decide), if_neg (by decide), if_pos trivial] at h
    injection h with h
    subst h
    refine ⟨⟨[], by simp, .nil, by simp, by simp [functions]⟩, ⟨[], by simp, .nil, by simp, by simp [events]⟩, ?_⟩
    intro n'
    simp only [lastError, Option.none_or]
    by_cases hn : n = n'
    · subst hn
      rw [if_pos rfl]
      refine ⟨newError H n (some (params i)), ?_, rfl, signature_params n i, ?_, ?_⟩
      · rw [look_put, if_pos rfl]
      · simp only [newError]; rw [signature_params n i, bytesTo_id _ (hH _)]
      · simp only [newError, Option.map_some]; rw [sanitize_params i]
    · rw [if_neg hn]
      simp only
      rw [look_put, if_neg hn]

theorem lastError_cons (n : Bytes) (i : Item) (l : List Item) : lastError n (i :: l) = (lastError n l).or (lastError n [i]) := by
  cases i <;> simp [lastError]

/-- What a list of declarations does to the tables. -/
theorem addItems (H : Bytes → Bytes) (hH : ∀ b, (H b).length = 32) (items : List Item) : ∀ (c c' : Contract),
    addFields H c (items.map Item.read) = .ok c' →
    (∃ ms, c'.methods = c.methods ++ ms ∧ List.Forall₂ (MethodOf H) (functions items) ms ∧
      ((c.methods.map (·.1)).Nodup → (c'.methods.map (·.1)).Nodup) ∧
      ((c.methods.map (·.1) ++ (functions items).map (·.1)).Nodup → ms.map (·.1) = (functions items).map (·.1))) ∧
    (∃ es, c'.events = c.events ++ es ∧ List.Forall₂ (EventOf H) (events items) es ∧
      ((c.events.map (·.1)).Nodup → (c'.events.map (·.1)).Nodup) ∧
      ((c.events.map (·.1) ++ (events items).map (·.1)).Nodup → es.map (·.1) = (events items).map (·.1))) ∧
    (∀ n, match lastError n items with
      | some l => ∃ e, look c'.errors n = some e ∧ ErrorOf H n l e
      | none => look c'.errors n = look c.errors n) := by
  induction items with
  | nil =>
    intro c c' h
    injection h with h
    subst h
    exact ⟨⟨[], by simp, .nil, id, fun _ => rfl⟩, ⟨[], by simp, .nil, id, fun _ => rfl⟩, fun _ => rfl⟩
  | cons i l ih =>
    intro c c' h
    rw [List.map_cons, addFields] at h
    cases hs : addField H c i.read with
    | err => rw [hs] at h; cases h
    | panic => rw [hs] at h; cases h
    | ok c1 =>
      rw [hs] at h
      obtain ⟨⟨ms, a1, a2, a3, a4⟩, ⟨es, b1, b2, b3, b4⟩, e1⟩ := addItem H hH c c1 i hs
      obtain ⟨⟨ms', a1', a2', a3', a4'⟩, ⟨es', b1', b2', b3', b4'⟩, e1'⟩ := ih c1 c' h
      have one : ∀ {α β : Type} {R : α → Bytes × β → Prop} {x : List α} {y : List (Bytes × β)}, x.length ≤ 1 → List.Forall₂ R x y →
          (y.map (·.1)).Nodup := by
        intro α β R x y hx hf
        cases hf with
        | nil => simp
        | cons h1 h2 =>
          cases h2 with
          | nil => simp
          | cons => simp at hx
      refine ⟨⟨ms ++ ms', ?_, ?_, ?_, ?_⟩, ⟨es ++ es', ?_, ?_, ?_, ?_⟩, ?_⟩
      · rw [a1', a1, List.append_assoc]
      · rw [functions_cons]; exact List.rel_append a2 a2'
      · intro hn
        refine a3' ?_
        rw [a1, List.map_append, List.nodup_append]
        refine ⟨hn, one (by cases i <;> simp [functions]) a2, ?_⟩
        intro x hx y hy
        obtain ⟨p, hp, rfl⟩ := List.mem_map.mp hy
        intro e
        exact a3 p hp (by rw [← e]; exact hx)
      · intro hn
        rw [functions_cons, List.map_append] at hn ⊢
        have h1 : ms.map (·.1) = (functions [i]).map (·.1) := by
          cases hf : functions [i] with
          | nil => rw [hf] at a2; cases a2; rfl
          | cons f fs =>
            have hl : (functions [i]).length ≤ 1 := by cases i <;> simp [functions]
            rw [hf] at hl
            have : fs = [] := by cases fs with | nil => rfl | cons => simp at hl
            subst this
            have := a4 f (by rw [hf]; simp) (by
              rw [hf] at hn
              intro hc
              rw [List.nodup_append] at hn
              exact hn.2.2 _ hc f.1 (by simp) rfl)
            simpa using this
        rw [List.map_append, h1, a4' ?_]
        rw [a1, List.map_append, h1, List.append_assoc]
        exact hn
      · rw [b1', b1, List.append_assoc]
      · rw [events_cons]; exact List.rel_append b2 b2'
      · intro hn
        refine b3' ?_
        rw [b1, List.map_append, List.nodup_append]
        refine ⟨hn, one (by cases i <;> simp [events]) b2, ?_⟩
        intro x hx y hy
        obtain ⟨p, hp, rfl⟩ := List.mem_map.mp hy
        intro e
        exact b3 p hp (by rw [← e]; exact hx)
      · intro hn
        rw [events_cons, List.map_append] at hn ⊢
        have h1 : es.map (·.1) = (events [i]).map (·.1) := by
          cases hf : events [i] with
          | nil => rw [hf] at b2; cases b2; rfl
          | cons f fs =>
            have hl : (events [i]).length ≤ 1 := by cases i <;> simp [events]
            rw [hf] at hl
            have : fs = [] := by cases fs with | nil => rfl | cons => simp at hl
            subst this
            have := b4 f (by rw [hf]; simp) (by
              rw [hf] at hn
              intro hc
              rw [List.nodup_append] at hn
              exact hn.2.2 _ hc f.1 (by simp) rfl)
            simpa using this
        rw [List.map_append, h1, b4' ?_]
        rw [b1, List.map_append, h1, List.append_assoc]
        exact hn
      · intro n
        have g := e1 n
        have g' := e1' n
        rw [lastError_cons]
        cases h1 : lastError n l with
        | some x => rw [h1] at g'; exact g'
        | none =>
          rw [h1] at g'
          simp only [Option.none_or]
          cases h2 : lastError n [i] with
          | some x =>
            rw [h2] at g
            simp only at g g' ⊢
            rw [g']
            exact g
          | none =>
            rw [h2] at g
            simp only at g g' ⊢
            rw [g', g]

/-! ### The claims -/

variable (U : Bytes → Bool) (H : Bytes → Bytes)

theorem read_items (items : List Item) (hv : ∀ i ∈ items, i.Valid) :
    readContract U H (items.map Item.field) = addFields H emptyContract (items.map Item.read) := by
  rw [readContract, unmarshalInto, readFields_ok U items hv]
  rfl

/-- **C125.**  Every function of the contract has an entry in the table of methods, and nothing else has: with the canonical signature,
its selector, and the inputs and outputs as declared.  The names in the table are different; each is the name of the function,
possibly with a number behind it.  If the functions have different names, these are the names in the table. -/
theorem C125_methods (hH : ∀ b, (H b).length = 32) (items : List Item) (hv : ∀ i ∈ items, i.Valid) (c : Contract)
    (h : readContract U H (items.map Item.field) = .ok c) :
    List.Forall₂ (MethodOf H) (functions items) c.methods ∧ (c.methods.map (·.1)).Nodup ∧
      (((functions items).map (·.1)).Nodup → c.methods.map (·.1) = (functions items).map (·.1)) := by
  rw [read_items U H items hv] at h
  obtain ⟨⟨ms, h1, h2, h3, h4⟩, _⟩ := addItems H hH items _ _ h
  have e : c.methods = ms := by rw [h1]; rfl
  rw [e] at h3 ⊢
  exact ⟨h2, h3 (by simp [emptyContract]), fun hn => h4 (by simpa [emptyContract] using hn)⟩

/-- **C125.**  The same for events; their identifier is the hash of the signature, and unnamed arguments are called after their
position. -/
theorem C125_events (hH : ∀ b, (H b).length = 32) (items : List Item) (hv : ∀ i ∈ items, i.Valid) (c : Contract)
    (h : readContract U H (items.map Item.field) = .ok c) :
    List.Forall₂ (EventOf H) (events items) c.events ∧ (c.events.map (·.1)).Nodup ∧
      (((events items).map (·.1)).Nodup → c.events.map (·.1) = (events items).map (·.1)) := by
  rw [read_items U H items hv] at h
  obtain ⟨_, ⟨ms, h1, h2, h3, h4⟩, _⟩ := addItems H hH items _ _ h
  have e : c.events = ms := by rw [h1]; rfl
  rw [e] at h3 ⊢
  exact ⟨h2, h3 (by simp [emptyContract]), fun hn => h4 (by simpa [emptyContract] using hn)⟩

/-- **C125.**  The table of errors has the last error of each name. -/
theorem C125_errors (hH : ∀ b, (H b).length = 32) (items : List Item) (hv : ∀ i ∈ items, i.Valid) (c : Contract)
    (h : readContract U H (items.map Item.field) = .ok c) (n : Bytes) :
    match lastError n items with
    | some l => ∃ e, look c.errors n = some e ∧ ErrorOf H n l e
    | none => look c.errors n = none := by
  rw [read_items U H items hv] at h
  obtain ⟨_, _, h1⟩ := addItems H hH items _ _ h
  exact h1 n

/-- The inputs of the last constructor. -/
def lastConstructor : List Item → Option (List (Bytes × Sol))
  | [] => none
  | .constructor i _ :: l => (lastConstructor l).or (some i)
  | _ :: l => lastConstructor l

theorem special (items : List Item) : ∀ c : Contract,
    addFields H c (items.map Item.read) ≠ .panic ∧
    ((∃ c', addFields H c (items.map Item.read) = .ok c') ↔
      fallbacks items + (if c.fallback.typ = .fallback then 1 else 0) ≤ 1 ∧
      (receives items).length + (if c.receive.typ = .receive then 1 else 0) ≤ 1 ∧ ∀ m ∈ receives items, m = txt "payable") ∧
    (∀ c', addFields H c (items.map Item.read) = .ok c' →
      (c'.fallback.typ = .fallback ↔ c.fallback.typ = .fallback ∨ 0 < fallbacks items) ∧
      (c'.receive.typ = .receive ↔ c.receive.typ = .receive ∨ 0 < (receives items).length) ∧
      c'.constructor.inputs = ((lastConstructor items).map params).or c.constructor.inputs) := by
  induction items with
  | nil =>
    intro c
    refine ⟨by simp [addFields], ⟨fun _ => ?_, fun _ => ⟨c, rfl⟩⟩, ?_⟩
    · simp only [fallbacks, receives, List.length_nil, List.not_mem_nil, false_imp_iff, implies_true, and_true]
      constructor <;> split <;> omega
    · intro c' h
      injection h with h
      subst h
      simp [fallbacks, receives, lastConstructor]
  | cons i l ih =>
    intro c
    rw [List.map_cons, addFields]
    cases i with
    | constructor i m =>
      simp only [addField, Item.read]
      rw [if_pos trivial]
      simp only [Res.bind, fallbacks, receives, lastConstructor]
      obtain ⟨h1, h2, h3⟩ := ih { c with constructor := newMethod H [] [] .constructor m false false (some (params i)) none }
      refine ⟨h1, h2, fun c' h => ?_⟩
      obtain ⟨g1, g2, g3⟩ := h3 c' h
      refine ⟨g1, g2, ?_⟩
      rw [g3]
      cases lastConstructor l <;> rfl
    | function n i o m =>
      simp only [addField, Item.read]
      rw [if_neg (by decide), if_pos trivial]
      obtain ⟨name, h1, _⟩ := fresh_name c.methods n
      rw [h1]
      simp only [Res.bind, fallbacks, receives, lastConstructor]
      exact ih _
    | fallback m =>
      simp only [addField, Item.read]
      rw [if_neg (by decide), if_neg (by decide), if_pos trivial]
      by_cases hf : c.fallback.typ = .fallback
      · rw [if_pos hf]
        simp only [Res.bind, fallbacks, receives, lastConstructor]
        refine ⟨by simp, ⟨fun ⟨c', h⟩ => (by cases h), fun h => ?_⟩, fun c' h => by cases h⟩
        rw [if_pos hf] at h
        omega
      · rw [if_neg hf]
        simp only [Res.bind, fallbacks, receives, lastConstructor]
        obtain ⟨h1, h2, h3⟩ := ih { c with fallback := newMethod H [] [] .fallback m false false none none }
        refine ⟨h1, ?_, fun c' h => ?_⟩
        · rw [h2, if_neg hf, if_pos (show (newMethod H [] [] .fallback m false false none none).typ = .fallback from rfl)]
        · obtain ⟨g1, g2, g3⟩ := h3 c' h
          exact ⟨by rw [g1]; simp [newMethod], g2, g3⟩
    | receive m =>
      rw [add_receive]
      by_cases hf : c.receive.typ = .receive
      · rw [if_pos hf]
        simp only [Res.bind, fallbacks, receives, lastConstructor]
        refine ⟨by simp, ⟨fun ⟨c', h⟩ => (by cases h), fun h => ?_⟩, fun c' h => by cases h⟩
        rw [if_pos hf, List.length_cons] at h
        omega
      · rw [if_neg hf]
        by_cases hm : m = txt "payable"
        · rw [if_pos hm]
          simp only [Res.bind, fallbacks, receives, lastConstructor]
          obtain ⟨h1, h2, h3⟩ := ih { c with receive := newMethod H [] [] .receive m false false none none }
          refine ⟨h1, ?_, fun c' h => ?_⟩
          · rw [h2, if_neg hf, if_pos (show (newMethod H [] [] .receive m false false none none).typ = .receive from rfl)]
            simp [hm]
          · obtain ⟨g1, g2, g3⟩ := h3 c' h
            exact ⟨g1, by rw [g2]; simp [newMethod], g3⟩
        · rw [if_neg hm]
          simp only [Res.bind, fallbacks, receives, lastConstructor]
          refine ⟨by simp, ⟨fun ⟨c', h⟩ => (by cases h), fun h => ?_⟩, fun c' h => by cases h⟩
          exact absurd (h.2.2 m (by simp)) hm
    | event n i a =>
      simp only [addField, Item.read]
      rw [if_neg (by decide), if_neg (by decide), if_neg (by decide), if_neg (by decide), if_pos trivial]
      obtain ⟨name, h1, _⟩ := fresh_name c.events n
      rw [h1]
      simp only [Res.bind, fallbacks, receives, lastConstructor]
      exact ih _
    | error n i =>
      simp only [addField, Item.read]
      rw [if_neg (by decide), if_neg (by decide), if_neg (by decide), if_neg (by decide), if_neg (by decide), if_pos trivial]
      simp only [Res.bind, fallbacks, receives, lastConstructor]
      exact ih _

/-- **C125.**  The description of a contract is accepted if it has at most one `fallback` and at most one `receive`, which is payable;
it never panics.  The contract has a `fallback` and a `receive` if they are declared, and the constructor takes the declared inputs. -/
theorem C125_accept (items : List Item) (hv : ∀ i ∈ items, i.Valid) :
    readContract U H (items.map Item.field) ≠ .panic ∧
    ((∃ c, readContract U H (items.map Item.field) = .ok c) ↔
      fallbacks items ≤ 1 ∧ (receives items).length ≤ 1 ∧ ∀ m ∈ receives items, m = txt "payable") ∧
    (∀ c, readContract U H (items.map Item.field) = .ok c →
      (c.fallback.typ = .fallback ↔ 0 < fallbacks items) ∧ (c.receive.typ = .receive ↔ 0 < (receives items).length) ∧
      allTys c.constructor.inputs = tys (((lastConstructor items).getD []).map (·.2))) := by
  rw [read_items U H items hv]
  obtain ⟨h1, h2, h3⟩ := special H items emptyContract
  refine ⟨h1, by rw [h2]; simp [emptyContract, noMethod], fun c h => ?_⟩
  obtain ⟨g1, g2, g3⟩ := h3 c h
  refine ⟨by rw [g1]; simp [emptyContract, noMethod], by rw [g2]; simp [emptyContract, noMethod], ?_⟩
  have ht : ∀ l : List (Bytes × Sol), tys (l.map (·.2)) = (params l).map (·.ty) := by
    intro l
    induction l with
    | nil => rfl
    | cons a l ih => rw [List.map_cons, tys, ih]; rfl
  rw [g3, ht]
  cases lastConstructor items <;> rfl

theorem tys_params (l : List (Bytes × Sol)) : (params l).map (·.ty) = tys (l.map (·.2)) := by
  induction l with
  | nil => rfl
  | cons a l ih => rw [List.map_cons, tys, ← ih]; rfl

theorem data_params (l : List (Bytes × Sol)) : dataParams (some (params l)) = params l := by
  rw [dataParams, Option.getD_some, List.filter_eq_self]
  intro a ha
  obtain ⟨p, _, rfl⟩ := List.mem_map.mp ha
  rfl

mutual
theorem valid_sane : ∀ s : Sol, s.Valid → s.ty.Sane
  | .uint _, _ => trivial
  | .int _, _ => trivial
  | .bool, _ => trivial
  | .string, _ => trivial
  | .bytes, _ => trivial
  | .address, _ => trivial
  | .function, _ => trivial
  | .fixed n, h => by simp only [Sol.Valid] at h; simp only [Sol.ty, Ty.Sane]; exact h.2
  | .slice e, h => by simp only [Sol.Valid] at h; simp only [Sol.ty, Ty.Sane]; exact valid_sane e h
  | .array n e, h => by simp only [Sol.Valid] at h; simp only [Sol.ty, Ty.Sane]; exact valid_sane e h.2
  | .tuple _ l, h => by simp only [Sol.Valid] at h; simp only [Sol.ty, Ty.Sane]; exact valid_saneL l h.2.2.1
theorem valid_saneL : ∀ l : List Sol, ValidSols l → SaneL (tys l)
  | [], _ => trivial
  | s :: l, h => by rw [ValidSols] at h; rw [tys, SaneL]; exact ⟨valid_sane s h.1, valid_saneL l h.2⟩
end

theorem sane_of (l : List (Bytes × Sol)) (h : ∀ p ∈ l, p.2.Valid) : SaneL (tys (l.map (·.2))) := by
  induction l with
  | nil => trivial
  | cons a l ih => rw [List.map_cons, tys, SaneL]; exact ⟨valid_sane _ (h a (by simp)), ih fun p hp => h p (by simp [hp])⟩

theorem functions_valid (items : List Item) (hv : ∀ i ∈ items, i.Valid) (f) (hf : f ∈ functions items) :
    (∀ p ∈ f.2.1, p.2.Valid) ∧ ∀ p ∈ f.2.2, p.2.Valid := by
  induction items with
  | nil => cases hf
  | cons i l ih =>
    have ih := ih fun j hj => hv j (by simp [hj])
    have hi := hv i (by simp)
    cases i with
    | function n i o m =>
      simp only [functions, List.mem_cons] at hf
      rcases hf with rfl | hf
      · exact hi
      · exact ih hf
    | constructor i m => exact ih hf
    | fallback m => exact ih hf
    | receive m => exact ih hf
    | event n i a => exact ih hf
    | error n i => exact ih hf

theorem cut_first (a : UInt8) : ∀ (x y x' y' : Bytes), ¬ a ∈ x → ¬ a ∈ x' → x ++ a :: y = x' ++ a :: y' → x = x' ∧ y = y'
  | [], y, [], y', _, _, h => ⟨rfl, by simpa using h⟩
  | [], y, c :: x', y', _, h2, h => by
    simp only [List.nil_append, List.cons_append, List.cons.injEq] at h
    exact absurd h.1 (fun e => h2 (by simp [e]))
  | c :: x, y, [], y', h1, _, h => by
    simp only [List.nil_append, List.cons_append, List.cons.injEq] at h
    exact absurd h.1 (fun e => h1 (by simp [e]))
  | c :: x, y, c' :: x', y', h1, h2, h => by
    simp only [List.cons_append, List.cons.injEq] at h
    obtain ⟨e1, e2⟩ := cut_first a x y x' y' (fun e => h1 (by simp [e])) (fun e => h2 (by simp [e])) h.2
    exact ⟨by rw [h.1, e1], e2⟩

/-- Signatures tell names and types, if the names have no parentheses. -/
theorem sigOf_inj (n n' : Bytes) (l l' : List Sol) (h1 : ¬ 40 ∈ n) (h2 : ¬ 40 ∈ n') (h : sigOf n l = sigOf n' l') : n = n' ∧ tys l = tys l' := by
  have e : ∀ n l, sigOf n l = n ++ 40 :: (sigs l ++ [41]) := fun n l => by simp [sigOf, txt]
  rw [e, e] at h
  obtain ⟨h3, h4⟩ := cut_first 40 _ _ _ _ h1 h2 h
  exact ⟨h3, (sigs_inj l l' [] [] h4).1⟩

theorem forall₂_left {α β : Type} {R : α → β → Prop} {x : List α} {y : List β} (h : List.Forall₂ R x y) {a : α} (ha : a ∈ x) : ∃ b ∈ y, R a b := by
  induction h with
  | nil => cases ha
  | cons h1 _ ih =>
    rcases List.mem_cons.mp ha with rfl | ha
    · exact ⟨_, by simp, h1⟩
    · obtain ⟨b, hb, hr⟩ := ih ha
      exact ⟨b, by simp [hb], hr⟩

theorem forall₂_right {α β : Type} {R : α → β → Prop} {x : List α} {y : List β} (h : List.Forall₂ R x y) {b : β} (hb : b ∈ y) : ∃ a ∈ x, R a b :=
  forall₂_left (R := fun b a => R a b) (List.Forall₂.flip h) hb

/-- The same selector for different signatures. -/
def Clash (H : Bytes → Bytes) (s s' : Bytes) : Prop := s ≠ s' ∧ (H s).take 4 = (H s').take 4

/-- **C125.**  A call of a function is packed under its name in the table, starting with its selector; whatever the order in which the
table is searched, the packed call is recognised as a call of a function of that name and those types, and its arguments can be
unpacked - unless two signatures have the same selector. -/
theorem C125_call (hH : ∀ b, (H b).length = 32) (items : List Item) (hv : ∀ i ∈ items, i.Valid) (c : Contract)
    (h : readContract U H (items.map Item.field) = .ok c) (hn : ∀ f ∈ functions items, f.1 ≠ [] ∧ ¬ 40 ∈ f.1)
    (f : Bytes × List (Bytes × Sol) × List (Bytes × Sol)) (hf : f ∈ functions items) (args : List Val)
    (hw : WtL (tys (f.2.1.map (·.2))) args) (hfull : FullL (tys (f.2.1.map (·.2)))) :
    ∃ name m data, look c.methods name = some m ∧ MethodOf H f (name, m) ∧ packCall c name args = .ok data ∧
      data.take 4 = (H (sigOf f.1 (f.2.1.map (·.2)))).take 4 ∧
      (data.length < 2 ^ 63 → ∀ order : List (Bytes × Method), order.Perm c.methods → ∃ m', methodById order data = .ok m' ∧
        (Clash H (sigOf f.1 (f.2.1.map (·.2))) m'.sig ∨
          (m'.rawName = f.1 ∧ allTys m'.inputs = tys (f.2.1.map (·.2)) ∧ unpackParams m'.inputs (data.drop 4) = .ok args))) := by
  obtain ⟨t1, t2, _⟩ := C125_methods U H hH items hv c h
  obtain ⟨⟨name, m⟩, hp, hm⟩ := forall₂_left t1 hf
  have hm' := hm
  obtain ⟨m1, m2, m3, m4, m5, m6, m7⟩ := hm
  simp only at m1 m2 m3 m4 m5 m6 m7
  have hname : name ≠ [] := by
    rcases m1 with rfl | ⟨k, rfl⟩
    · exact (hn f hf).1
    · simp [(hn f hf).1]
  have hid : m.id.length = 4 := by rw [m5, List.length_take, hH]; rfl
  obtain ⟨b, b1, b2⟩ := C74_roundtrip _ args hw (sane_of _ (functions_valid items hv f hf).1) hfull
  refine ⟨name, m, m.id ++ b, (look_mem _ t2 _ _).mpr hp, hm', ?_, ?_, ?_⟩
  · rw [packCall, if_neg hname, (look_mem _ t2 _ _).mpr hp]
    simp only
    rw [m6, allTys, Option.getD_some, tys_params, b1]
    rfl
  · rw [List.take_append_of_le_length (by omega), List.take_of_length_le (by omega), m5]
  · intro hlen order hord
    have htake : (m.id ++ b).take 4 = m.id := by rw [List.take_append_of_le_length (by omega), List.take_of_length_le (by omega)]
    have hdrop : (m.id ++ b).drop 4 = b := by rw [← hid, List.drop_left]
    rw [methodById, if_neg (by simp [hid]), htake, hdrop]
    cases hfind : order.find? (fun p => p.2.id == m.id) with
    | none =>
      rw [List.find?_eq_none] at hfind
      exact absurd (hfind _ (hord.mem_iff.mpr hp)) (by simp)
    | some p =>
      have hpm := hord.mem_iff.mp (List.mem_of_find?_eq_some hfind)
      have hpid : p.2.id = m.id := by simpa using List.find?_some hfind
      obtain ⟨f', hf', q1, q2, q3, q4, q5, q6, q7⟩ := forall₂_right t1 hpm
      refine ⟨p.2, rfl, ?_⟩
      by_cases hs : sigOf f.1 (f.2.1.map (·.2)) = sigOf f'.1 (f'.2.1.map (·.2))
      · right
        obtain ⟨e1, e2⟩ := sigOf_inj _ _ _ _ (hn f hf).2 (hn f' hf').2 hs
        refine ⟨by rw [q3, e1], by rw [q6, allTys, Option.getD_some, tys_params, e2], ?_⟩
        rw [unpackParams, q6, data_params, tys_params, ← e2]
        exact (b2 (by rw [List.length_append] at hlen; omega)).1
      · left
        exact ⟨by rw [q4]; exact hs, by rw [q4, ← q5, hpid, m5]⟩

/-- **C125.**  Only data that start with the selector of a function are recognised. -/
theorem C125_unknown (hH : ∀ b, (H b).length = 32) (items : List Item) (hv : ∀ i ∈ items, i.Valid) (c : Contract)
    (h : readContract U H (items.map Item.field) = .ok c) (order : List (Bytes × Method)) (ho : order.Perm c.methods) (data : Bytes) :
    (∃ m, methodById order data = .ok m) ↔ ∃ f ∈ functions items, data.take 4 = (H (sigOf f.1 (f.2.1.map (·.2)))).take 4 := by
  obtain ⟨t1, t2, _⟩ := C125_methods U H hH items hv c h
  constructor
  · rintro ⟨m, hm⟩
    rw [methodById] at hm
    split at hm
    · cases hm
    · split at hm
      · cases hm
      · next p hp =>
        have hpm := ho.mem_iff.mp (List.mem_of_find?_eq_some hp)
        have hpid : p.2.id = data.take 4 := by simpa using List.find?_some hp
        obtain ⟨f, hf, q1, q2, q3, q4, q5, q6, q7⟩ := forall₂_right t1 hpm
        exact ⟨f, hf, by rw [← hpid, q5]⟩
  · rintro ⟨f, hf, hd⟩
    obtain ⟨⟨name, m⟩, hp, m1, m2, m3, m4, m5, m6, m7⟩ := forall₂_left t1 hf
    have hl : ¬ data.length < 4 := by
      intro hl
      have := congrArg List.length hd
      rw [List.length_take, List.length_take, hH] at this
      omega
    rw [methodById, if_neg hl]
    cases hfind : order.find? (fun p => p.2.id == data.take 4) with
    | none =>
      rw [List.find?_eq_none] at hfind
      exact absurd (hfind _ (ho.mem_iff.mpr hp)) (by simp only at m5; simp [m5, hd])
    | some p => exact ⟨p.2, rfl⟩

/-- **C125.**  An event is found by the hash of its signature: whatever the order, what is found has the same name and the same types,
unless the hash has a collision. -/
theorem C125_eventById (hH : ∀ b, (H b).length = 32) (items : List Item) (hv : ∀ i ∈ items, i.Valid) (c : Contract)
    (h : readContract U H (items.map Item.field) = .ok c) (hn : ∀ f ∈ events items, ¬ 40 ∈ f.1)
    (order : List (Bytes × Event)) (ho : order.Perm c.events)
    (f : Bytes × List (Bytes × Sol × Bool) × Bool) (hf : f ∈ events items) :
    ∃ e, eventById order (H (sigOf f.1 (f.2.1.map (·.2.1)))) = .ok e ∧
      ((sigOf f.1 (f.2.1.map (·.2.1)) ≠ e.sig ∧ H (sigOf f.1 (f.2.1.map (·.2.1))) = H e.sig) ∨
        (e.rawName = f.1 ∧ allTys e.inputs = tys (f.2.1.map (·.2.1)))) := by
  obtain ⟨t1, t2, _⟩ := C125_events U H hH items hv c h
  obtain ⟨⟨name, e⟩, hp, m1, m2, m3, m4, m5, m6, m7⟩ := forall₂_left t1 hf
  rw [eventById]
  cases hfind : order.find? (fun p => p.2.id == H (sigOf f.1 (f.2.1.map (·.2.1)))) with
  | none =>
    rw [List.find?_eq_none] at hfind
    exact absurd (hfind _ (ho.mem_iff.mpr hp)) (by simp only at m6; simp [m6])
  | some p =>
    have hpm := ho.mem_iff.mp (List.mem_of_find?_eq_some hfind)
    have hpid := List.find?_some hfind
    simp only [beq_iff_eq] at hpid
    obtain ⟨f', hf', q1, q2, q3, q4, q5, q6, q7⟩ := forall₂_right t1 hpm
    refine ⟨p.2, rfl, ?_⟩
    by_cases hs : sigOf f.1 (f.2.1.map (·.2.1)) = sigOf f'.1 (f'.2.1.map (·.2.1))
    · right
      obtain ⟨e1, e2⟩ := sigOf_inj _ _ _ _ (hn f hf) (hn f' hf') hs
      refine ⟨by rw [q3, e1], ?_⟩
      rw [q7, e2, allTys, Option.getD_some]
      have : ∀ (l : List (Bytes × Sol × Bool)) (k : Nat → Bytes → Bytes),
          (l.mapIdx fun i q => (⟨k i q.1, q.2.1.ty, q.2.1.sig, q.2.2⟩ : Param)).map (·.ty) = tys (l.map (·.2.1)) := by
        intro l
        induction l with
        | nil => intro k; rfl
        | cons a l ih => intro k; rw [List.mapIdx_cons, List.map_cons, List.map_cons, tys, ih fun i => k (i + 1)]
      exact this _ _
    · left
      exact ⟨by rw [q5]; exact hs, by rw [q5, ← q6, hpid]⟩

/-- **C125.**  What a function returns, packed with `PackReturns`, is unpacked by `Unpack`.  Missing: names that are also names of
events (`C125_returns_refuted`). -/
theorem C125_returns_partial (hH : ∀ b, (H b).length = 32) (items : List Item) (hv : ∀ i ∈ items, i.Valid) (c : Contract)
    (h : readContract U H (items.map Item.field) = .ok c) (hn : ∀ f ∈ functions items, f.1 ≠ [])
    (f : Bytes × List (Bytes × Sol) × List (Bytes × Sol)) (hf : f ∈ functions items) (vs : List Val)
    (hw : WtL (tys (f.2.2.map (·.2))) vs) (hfull : FullL (tys (f.2.2.map (·.2)))) :
    ∃ name m b, look c.methods name = some m ∧ MethodOf H f (name, m) ∧ packReturns c name vs = .ok b ∧
      (look c.events name = none → b.length < 2 ^ 63 → unpackNamed c name b = .ok vs) := by
  obtain ⟨t1, t2, _⟩ := C125_methods U H hH items hv c h
  obtain ⟨⟨name, m⟩, hp, hm⟩ := forall₂_left t1 hf
  have hm' := hm
  obtain ⟨m1, m2, m3, m4, m5, m6, m7⟩ := hm
  simp only at m1 m7
  have hname : name ≠ [] := by
    rcases m1 with rfl | ⟨k, rfl⟩
    · exact hn f hf
    · simp [hn f hf]
  have hlook := (look_mem _ t2 _ _).mpr hp
  have hs := sane_of _ (functions_valid items hv f hf).2
  obtain ⟨b, b1, b2⟩ := C74_roundtrip _ vs hw hs hfull
  obtain ⟨b', b1', _, hmod, _⟩ := C75_args _ vs hw hs
  rw [b1] at b1'
  injection b1' with b1'
  subst b1'
  refine ⟨name, m, b, hlook, hm', ?_, ?_⟩
  · rw [packReturns, if_neg hname, hlook]
    simp only
    rw [m7, allTys, Option.getD_some, tys_params, b1]
  · intro he hl
    have : getArguments c name b = .ok m.outputs := by
      rw [getArguments, hlook, he]
      simp only
      rw [if_neg (by omega), m7]
      rfl
    rw [unpackNamed, this]
    show unpackParams m.outputs b = .ok vs
    rw [unpackParams, m7, data_params, tys_params]
    exact (b2 hl).1

/-! ### Maps of values -/

theorem putAll_other (k : Bytes) : ∀ (ps : List Param) (v : List (Bytes × Val)) (vs : List Val), ¬ k ∈ ps.map (·.name) →
    look (putAll v ps vs) k = look v k
  | [], v, vs, _ => by cases vs <;> rfl
  | p :: ps, v, [], _ => rfl
  | p :: ps, v, x :: vs, h => by
    simp only [List.map_cons, List.mem_cons, not_or] at h
    rw [putAll, putAll_other k ps _ vs h.2, look_put, if_neg (fun e => h.1 e.symm)]

theorem putAll_at : ∀ (ps : List Param) (v : List (Bytes × Val)) (vs : List Val) (i : Nat) (p : Param), (ps.map (·.name)).Nodup →
    ps[i]? = some p → ps.length = vs.length → look (putAll v ps vs) p.name = vs[i]?
  | [], v, vs, i, p, _, h, _ => by simp at h
  | q :: ps, v, [], i, p, _, h, hl => by simp at hl
  | q :: ps, v, x :: vs, 0, p, hn, h, _ => by
    simp only [List.getElem?_cons_zero, Option.some.injEq] at h
    subst h
    rw [List.map_cons, List.nodup_cons] at hn
    rw [putAll, putAll_other _ _ _ _ hn.1, look_put, if_pos rfl]
    rfl
  | q :: ps, v, x :: vs, i + 1, p, hn, h, hl => by
    rw [List.map_cons, List.nodup_cons] at hn
    rw [putAll, putAll_at ps _ vs i p hn.2 (by simpa using h) (by simpa using hl)]
    rfl

/-- **C125.**  Unpacking into a map gives each name its value and leaves the other entries of the map alone.  Missing: parameters with
the same name, or without names (`C125_map_refuted`). -/
theorem C125_map_partial (l : List (Bytes × Sol)) (hv : ∀ p ∈ l, p.2.Valid) (hn : (l.map (·.1)).Nodup) (vs : List Val)
    (hw : WtL (tys (l.map (·.2))) vs) (hfull : FullL (tys (l.map (·.2)))) (v : List (Bytes × Val)) :
    ∃ b, packArgs (tys (l.map (·.2))) vs = .ok b ∧ (b.length < 2 ^ 63 → ∃ v', unpackIntoMap (some (params l)) v b = .ok v' ∧
      (∀ (i : Nat) (p : Bytes × Sol), l[i]? = some p → look v' p.1 = vs[i]?) ∧ ∀ k, ¬ k ∈ l.map (·.1) → look v' k = look v k) := by
  obtain ⟨b, b1, b2⟩ := C74_roundtrip _ vs hw (sane_of l hv) hfull
  refine ⟨b, b1, fun hl => ?_⟩
  obtain ⟨c1, c2⟩ := b2 hl
  have hnames : (params l).map (·.name) = l.map (·.1) := by simp [params]
  have hlen : (params l).length = vs.length := by
    have e1 : (params l).length = (tys (l.map (·.2))).length := by rw [← tys_params]; simp
    rw [e1]
    exact (WtL_length _ _ hw).symm
  refine ⟨putAll v (params l) vs, ?_, ?_, ?_⟩
  · rw [unpackIntoMap, data_params]
    split
    · next h0 =>
      rw [unpackArgs, if_pos h0] at c1
      have : (tys (l.map (·.2))).length = (params l).length := by rw [← tys_params]; simp
      rw [this] at c1
      split at c1
      · cases c1
      · next h1 =>
        rw [if_neg h1]
        injection c1 with c1
        subst c1
        cases params l <;> rfl
    · rw [tys_params, c2]; rfl
  · intro i p hp
    have := putAll_at (params l) v vs i ⟨p.1, p.2.ty, p.2.sig, false⟩ (by rw [hnames]; exact hn) (by simp [params, hp]) hlen
    exact this
  · intro k hk
    exact putAll_other k _ _ _ (by rw [hnames]; exact hk)

/-! ### Errors -/

/-- **C125.**  What a contract sends for one of its errors is unpacked by `Error.Unpack`; it accepts nothing that does not start with the
selector of the error. -/
theorem C125_error (hH : ∀ b, (H b).length = 32) (n : Bytes) (l : List (Bytes × Sol)) (hv : ∀ p ∈ l, p.2.Valid) (e : ErrorDef)
    (he : ErrorOf H n l e) (vs : List Val) (hw : WtL (tys (l.map (·.2))) vs) (hfull : FullL (tys (l.map (·.2)))) :
    (∃ b, packArgs (tys (l.map (·.2))) vs = .ok b ∧
      (b.length < 2 ^ 63 → unpackError e ((H (sigOf n (l.map (·.2)))).take 4 ++ b) = .ok vs)) ∧
    ∀ data ws, unpackError e data = .ok ws → data.take 4 = (H (sigOf n (l.map (·.2)))).take 4 := by
  obtain ⟨e1, e2, e3, e4⟩ := he
  constructor
  · obtain ⟨b, b1, b2⟩ := C74_roundtrip _ vs hw (sane_of l hv) hfull
    refine ⟨b, b1, fun hl => ?_⟩
    have hlen : ((H (sigOf n (l.map (·.2)))).take 4).length = 4 := by rw [List.length_take, hH]; rfl
    have htake : ((H (sigOf n (l.map (·.2)))).take 4 ++ b).take 4 = (H (sigOf n (l.map (·.2)))).take 4 := by
      rw [List.take_append_of_le_length (by omega), List.take_of_length_le (by omega)]
    have hdrop : ((H (sigOf n (l.map (·.2)))).take 4 ++ b).drop 4 = b := by
      exact List.drop_left' hlen
    rw [unpackError, if_neg (by rw [List.length_append, hlen]; omega), htake, hdrop, e3, if_neg (by simp), unpackParams, e4]
    have : (dataParams (some (l.mapIdx fun i q => (⟨shownName i q.1, q.2.ty, q.2.sig, false⟩ : Param)))).map (·.ty) = tys (l.map (·.2)) := by
      have h1 : ∀ (l : List (Bytes × Sol)) (k : Nat → Bytes → Bytes),
          ((l.mapIdx fun i q => (⟨k i q.1, q.2.ty, q.2.sig, false⟩ : Param)).filter fun p => !p.indexed).map (·.ty) = tys (l.map (·.2)) := by
        intro l
        induction l with
        | nil => intro k; rfl
        | cons a l ih =>
          intro k
          rw [List.mapIdx_cons, List.filter_cons_of_pos (by rfl), List.map_cons, List.map_cons, tys, ih fun i => k (i + 1)]
      exact h1 l _
    rw [this]
    exact (b2 hl).1
  · intro data ws h
    rw [unpackError] at h
    split at h
    · cases h
    · split at h
      · cases h
      · next _ h2 => rw [← e3]; simpa using h2

theorem string_bytes (i : Nat) (out : Bytes) (v : Val) (h : toGoType .string i out = .ok v) : ∃ b, v = .bytes b := by
  rw [toGoType] at h
  split at h
  · cases h
  · cases hl : lengthPrefixPointsTo i out with
    | err => rw [hl] at h; cases h
    | panic => rw [hl] at h; cases h
    | ok p =>
      rw [hl] at h
      simp only [Res.bind] at h
      split at h
      · injection h with h; exact ⟨_, h.symm⟩
      · cases h
      · cases h

/-- **C125.**  The reason of a revert is read from a call of `Error(string)`, and from nothing else. -/
theorem C125_revert (hH : ∀ b, (H b).length = 32) :
    (∀ s : Bytes, ∃ b, packArgs [.string] [.bytes s] = .ok b ∧
      (b.length < 2 ^ 63 → unpackRevert H ((H (sigOf (txt "Error") [.string])).take 4 ++ b) = .ok s)) ∧
    (∀ data s, unpackRevert H data = .ok s → data.take 4 = (H (sigOf (txt "Error") [.string])).take 4) ∧
    ∀ data, unpackRevert H data ≠ .panic := by
  have hsig : txt "Error(string)" = sigOf (txt "Error") [.string] := by decide +kernel
  refine ⟨?_, ?_, ?_⟩
  · intro s
    obtain ⟨b, b1, b2⟩ := C74_roundtrip [.string] [.bytes s] (by simp [WtL, Wt]) (by simp [SaneL, Ty.Sane]) (by simp [FullL, Ty.Full])
    refine ⟨b, b1, fun hl => ?_⟩
    have hlen : ((H (sigOf (txt "Error") [.string])).take 4).length = 4 := by rw [List.length_take, hH]; rfl
    have htake : ((H (sigOf (txt "Error") [.string])).take 4 ++ b).take 4 = (H (sigOf (txt "Error") [.string])).take 4 := by
      rw [List.take_append_of_le_length (by omega), List.take_of_length_le (by omega)]
    have hdrop : ((H (sigOf (txt "Error") [.string])).take 4 ++ b).drop 4 = b := by
      exact List.drop_left' hlen
    rw [unpackRevert, if_neg (by rw [List.length_append, hlen]; omega), htake, hdrop, hsig, if_neg (by simp), (b2 hl).1]
    rfl
  · intro data s h
    rw [unpackRevert] at h
    split at h
    · cases h
    · split at h
      · cases h
      · next _ h2 => rw [← hsig]; simpa using h2
  · intro data
    have hp := (C76_noPanic_partial [.string] (data.drop 4) (by simp [SaneL, Ty.Sane])).1
    rw [unpackRevert]
    split
    · simp
    · split
      · simp
      · cases hu : unpackArgs [.string] (data.drop 4) with
        | err => simp [Res.bind]
        | panic => exact absurd hu hp
        | ok vs =>
          simp only [Res.bind]
          rw [unpackArgs] at hu
          split at hu
          · simp at hu
          · rw [unpackValues, unpackFields, if_neg (by simp)] at hu
            cases hg : toGoType .string ((((0 : Nat) : Int) + 0) * 32).toNat (data.drop 4) with
            | err => rw [hg] at hu; cases hu
            | panic => rw [hg] at hu; cases hu
            | ok v =>
              rw [hg, unpackFields] at hu
              injection hu with hu
              subst hu
              obtain ⟨b, rfl⟩ := string_bytes _ _ _ hg
              simp

/-! ### An example -/

/-- A token. -/
def token : List Item :=
  [.constructor [(txt "supply", .uint 256)] (txt "nonpayable"),
   .function (txt "transfer") [(txt "to", .address), (txt "value", .uint 256)] [([], .bool)] (txt "nonpayable"),
   .event (txt "Transfer") [(txt "from", .address, true), (txt "to", .address, true), ([], .uint 256, false)] false,
   .error (txt "Insufficient") [(txt "available", .uint 256)], .receive (txt "payable")]

example : (∃ c, readContract U H (token.map Item.field) = .ok c) ∧
    sigOf (txt "transfer") [.address, .uint 256] = txt "transfer(address,uint256)" ∧
    WtL (tys [.address, .uint 256]) [.bytes (List.replicate 20 7), .num 1000] ∧ FullL (tys [.address, .uint 256]) := by
  have hv : ∀ i ∈ token, i.Valid := by
    simp only [token, List.mem_cons, List.not_mem_nil, or_false, forall_eq_or_imp, forall_eq, Item.Valid, Sol.Valid]
    simp
  refine ⟨(C125_accept U H token hv).2.1.mpr ?_, by decide +kernel, ?_, ?_⟩
  · simp [token, fallbacks, receives]
  · simp [tys, Sol.ty, WtL, Wt, width]
  · simp [tys, Sol.ty, FullL, Ty.Full]

/-! ### Where the claims fail -/

theorem dec_zero : dec 0 = [48] := by rw [dec]; simp

/-- Functions `f(uint8)`, `f(bool)` and `f0()`. -/
def overloaded : List Item :=
  [.function (txt "f") [(txt "a", .uint 8)] [] [], .function (txt "f") [(txt "a", .bool)] [] [], .function (txt "f0") [] [] []]

/-- **C125.**  A function cannot always be called by its name: if another function is overloaded, its second form may get that name. -/
theorem C125_name_refuted : ∃ c m m', readContract U H (overloaded.map Item.field) = .ok c ∧
    look c.methods (txt "f0") = some m ∧ m.sig = txt "f(bool)" ∧ look c.methods (txt "f00") = some m' ∧ m'.sig = txt "f0()" := by
  have hv : ∀ i ∈ overloaded, i.Valid := by simp [overloaded, Item.Valid, Sol.Valid]
  have e : readContract U H (overloaded.map Item.field) = .ok ⟨noMethod,
      [(txt "f", newMethod H (txt "f") (txt "f") .function [] false false (some (params [(txt "a", .uint 8)])) (some (params []))),
       (txt "f0", newMethod H (txt "f0") (txt "f") .function [] false false (some (params [(txt "a", .bool)])) (some (params []))),
       (txt "f00", newMethod H (txt "f00") (txt "f0") .function [] false false (some (params [])) (some (params [])))],
      [], [], noMethod, noMethod⟩ := by
    rw [read_items U H overloaded hv]
    simp [overloaded, addFields, addField, Item.read, emptyContract, Res.bind, resolveName, resolveLoop, look, put, dec_zero, txt]
  refine ⟨_, _, _, e, rfl, ?_, rfl, ?_⟩
  · show signature (txt "f") (some (params [(txt "a", .bool)])) = _
    decide +kernel
  · show signature (txt "f0") (some (params [])) = _
    decide +kernel

/-- An event `foo` in two forms and a function `foo0()` that returns a string. -/
def mixed : List Item :=
  [.event (txt "foo") [(txt "a", .uint 8, false)] false, .event (txt "foo") [(txt "a", .bool, false)] false,
    .function (txt "foo0") [] [([], .string)] []]

/-- **C125.**  `Unpack` takes the name of a method for that of an event: what the function returned cannot be read. -/
theorem C125_returns_refuted : ∃ c b, readContract U H (mixed.map Item.field) = .ok c ∧
    packReturns c (txt "foo0") [.bytes (txt "hi")] = .ok b ∧ unpackNamed c (txt "foo0") b = .err := by
  have hv : ∀ i ∈ mixed, i.Valid := by simp [mixed, Item.Valid, Sol.Valid]
  have e : readContract U H (mixed.map Item.field) = .ok ⟨noMethod,
      [(txt "foo0", newMethod H (txt "foo0") (txt "foo0") .function [] false false (some (params [])) (some (params [([], .string)])))],
      [(txt "foo", newEvent H (txt "foo") (txt "foo") false (some (eventParams [(txt "a", .uint 8, false)]))),
       (txt "foo0", newEvent H (txt "foo0") (txt "foo") false (some (eventParams [(txt "a", .bool, false)])))],
      [], noMethod, noMethod⟩ := by
    rw [read_items U H mixed hv]
    simp [mixed, addFields, addField, Item.read, emptyContract, Res.bind, resolveName, resolveLoop, look, put, dec_zero, txt]
  refine ⟨_, word 32 ++ word 2 ++ pad32 (txt "hi"), e, ?_, ?_⟩
  · show packArgs [.string] [.bytes (txt "hi")] = _
    decide +kernel
  · show unpackArgs [.bool] (word 32 ++ word 2 ++ pad32 (txt "hi")) = .err
    exact err_of (by decide +kernel)

/-- **C125.**  Parameters without names share one entry of the map; so do an unnamed parameter of an event and one whose name is
the name made for it. -/
theorem C125_map_refuted :
    unpackIntoMap (some (params [([], .uint 256), ([], .uint 256)])) [] (word 1 ++ word 2) = .ok [([], .num 2)] ∧
    (sanitize 0 (eventParams [([], .uint 256, false), (txt "arg0", .uint 256, false)])).map (·.name) = [txt "arg0", txt "arg0"] := by
  constructor
  · obtain ⟨b, h1, h2⟩ := C74_roundtrip [.uint 256, .uint 256] [.num 1, .num 2] (by simp [WtL, Wt, width]) (by simp [SaneL, Ty.Sane])
      (by simp [FullL, Ty.Full])
    have h3 : packArgs [.uint 256, .uint 256] [.num 1, .num 2] = .ok (word 1 ++ word 2) := by decide +kernel
    rw [h1] at h3
    injection h3 with h3
    subst h3
    rw [unpackIntoMap, if_neg (by decide +kernel), data_params, tys_params]
    have h4 := (h2 (by decide +kernel)).2
    simp only [List.map_cons, List.map_nil, tys, Sol.ty]
    rw [h4]
    rfl
  · simp [eventParams, sanitize, argName, dec_zero, txt]

/-- **C125.**  Reading a description into a contract that was read before is not the same as reading it into a new one: a second
`fallback` is refused, and the constructor of the first description stays. -/
theorem C125_reuse_refuted : ∃ c, readContract U H [(Item.fallback []).field, (Item.constructor [(txt "a", .bool)] []).field] = .ok c ∧
    unmarshalInto U H c [(Item.fallback []).field] = .err ∧ (∃ c', readContract U H [(Item.fallback []).field] = .ok c') ∧
    ∃ c', unmarshalInto U H c [] = .ok c' ∧ allTys c'.constructor.inputs = [.bool] := by
  have e := read_items U H [Item.fallback [], Item.constructor [(txt "a", .bool)] []] (by simp [Item.Valid, Sol.Valid])
  refine ⟨_, e.trans rfl, rfl, ⟨_, rfl⟩, _, rfl, rfl⟩

/-! ### The memory of the packed call -/

/-- A slice from the start of a buffer. -/
structure Slice where
  buf : Nat
  len : Nat
  cap : Nat

/-- The buffers, each with all its bytes. -/
abbrev Heap := List Bytes

def Slice.bytes (h : Heap) (s : Slice) : Bytes := ((h[s.buf]?).getD []).take s.len

/-- Go's `append`: in place if there is room, else in a new buffer. -/
def goAppend (h : Heap) (s : Slice) (b : Bytes) : Heap × Slice :=
  if s.len + b.length ≤ s.cap then
    (h.set s.buf (goCopyAt ((h[s.buf]?).getD []) s.len b), ⟨s.buf, s.len + b.length, s.cap⟩)
  else (h ++ [s.bytes h ++ b], ⟨h.length, s.len + b.length, s.len + b.length⟩)

/-- `s[i] = x`. -/
def goStore (h : Heap) (s : Slice) (i : Nat) (x : UInt8) : Heap := h.set s.buf (((h[s.buf]?).getD []).set i x)

/-- `method.ID`: the first four bytes of the digest (`/repo/abi/method.go:118`), in the buffer of the digest. -/
def methodID (h : Heap) (digest : Bytes) : Heap × Slice := (h ++ [digest], ⟨h.length, 4, digest.length⟩)

/-- **C125.**  If a function has arguments, the packed call is in memory of its own: whatever is done to it, the selector in the table
remains. -/
theorem C125_memory_partial (h : Heap) (id : Slice) (args : Bytes) (hb : id.buf < h.length) (hc : id.cap - id.len < args.length) :
    (goAppend h id args).2.bytes (goAppend h id args).1 = id.bytes h ++ args ∧
    (∀ i x, id.bytes (goStore (goAppend h id args).1 (goAppend h id args).2 i x) = id.bytes h) ∧
    ∀ b, id.bytes (goAppend (goAppend h id args).1 (goAppend h id args).2 b).1 = id.bytes h := by
  have e : goAppend h id args = (h ++ [id.bytes h ++ args], ⟨h.length, id.len + args.length, id.len + args.length⟩) := by
    rw [goAppend, if_neg (by omega)]
  have hne : h.length ≠ id.buf := by omega
  rw [e]
  refine ⟨?_, ?_, ?_⟩
  · simp only [Slice.bytes]
    rw [List.getElem?_append_right (by omega)]
    simp only [Nat.sub_self, List.getElem?_cons_zero, Option.getD_some]
    rw [List.take_of_length_le]
    rw [List.length_append, List.length_take]
    omega
  · intro i x
    simp only [goStore, Slice.bytes]
    rw [List.getElem?_set_ne hne, List.getElem?_append_left hb]
  · intro b
    rw [goAppend]
    split
    · simp only [Slice.bytes]
      rw [List.getElem?_set_ne hne, List.getElem?_append_left hb]
    · simp only [Slice.bytes]
      rw [List.getElem?_append_left (by simp; omega), List.getElem?_append_left hb]

/-- **C125.**  The packed call of a function without arguments is the memory of the selector itself.  Whoever changes it changes the
contract: calls are then packed with the wrong selector.  Two callers that append to their packed calls overwrite each other's
bytes. -/
theorem C125_memory_refuted (h : Heap) (d : Bytes) (hd : d.length = 32) (x : UInt8) (y z : UInt8) :
    (goAppend (methodID h d).1 (methodID h d).2 []).2 = (methodID h d).2 ∧
    (methodID h d).2.bytes (goStore (goAppend (methodID h d).1 (methodID h d).2 []).1 (goAppend (methodID h d).1 (methodID h d).2 []).2 0 x) =
      x :: (d.take 4).drop 1 ∧
    (let p := goAppend (methodID h d).1 (methodID h d).2 []
     let a := goAppend p.1 p.2 [y]
     let q := goAppend a.1 (methodID h d).2 []
     let b := goAppend q.1 q.2 [z]
     a.2.bytes a.1 = d.take 4 ++ [y] ∧ a.2.bytes b.1 = d.take 4 ++ [z]) := by
  obtain ⟨a0, a1, a2, a3, a4, r, rfl⟩ : ∃ a0 a1 a2 a3 a4 r, d = a0 :: a1 :: a2 :: a3 :: a4 :: r := by
    match d, hd with
    | a0 :: a1 :: a2 :: a3 :: a4 :: r, _ => exact ⟨a0, a1, a2, a3, a4, r, rfl⟩
  simp [methodID, goAppend, goStore, Slice.bytes, goCopyAt, goCopy]

end Verif.Abi

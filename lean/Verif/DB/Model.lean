import Verif.Base

/-!
# Databases, adapters and batches (package `db`)

Model of db/types.go, db/memdb.go, db/adapters.go, db/cacheddb.go, db/ldb.go and db/readonly.go.

A Go `[]byte` argument may be nil: keys and values are `Option Bytes`.  `string(key)` of a nil key is
the empty string (`keyOf`).  A database is a record of its methods over a state `σ`, so wrappers
(`keyPrefixed`, `KeyDatabase`, `ReadOnly`, `Temporary`, `cachedDB`) are functions from records to
records.  Every method returns the new state with its result, because `cachedDB.Get` writes the cache.

Not modelled here: slice aliasing (a batch and the cache keep the caller's slices) and `Replace` (both
are in `DB/Slices.lean`), the statistics counters of `cachedDB`, file names.  The hashicorp LRU cache is a finite map from which
an arbitrary set of entries may disappear before every call; goleveldb is a finite map that refuses
every call with an error once it is closed.
-/

namespace Verif.DB

/-- `string(key)`: a nil slice gives the empty string. -/
def keyOf (k : Option Bytes) : Bytes := k.getD []

/-! ## Finite maps with string keys (Go `map[string]T`, `sync.Map`) -/

/-- Map content as an association list. -/
abbrev Assoc (α : Type) := List (Bytes × α)

/-- Reading a map entry. -/
def load {α : Type} (m : Assoc α) (k : Bytes) : Option α :=
  match m with
  | [] => none
  | (k', v) :: rest => if k' = k then some v else load rest k

/-- Removing a map entry. -/
def remove {α : Type} (m : Assoc α) (k : Bytes) : Assoc α := m.filter (fun e => e.1 ≠ k)

/-- Writing a map entry. -/
def store {α : Type} (m : Assoc α) (k : Bytes) (v : α) : Assoc α := (k, v) :: remove m k

/-! ## Batches -/

/-- One recorded command (db/memdb.go:31-35 `batcher`). -/
inductive Cmd
  | put (k v : Option Bytes)
  | del (k : Option Bytes)
  deriving DecidableEq, Repr

/-- Go values of the interface type `Batch`: `*memBatch` (db/memdb.go:27), `*ldbBatch`
(db/ldb.go:109), `*KeyBatch` (db/adapters.go:46), `*cachedBatch` (db/cacheddb.go:26) and the nil
interface returned by a read-only database (db/readonly.go:35). -/
inductive Batch
  | mem (cmds : List Cmd)
  | ldb (cmds : List Cmd)
  | key (conv : Option (Option Bytes → Option Bytes)) (b : Batch)
  | cached (keys : List Bytes) (b : Batch)
  | nil

/-- `keyConvFunc` applied when it is not nil (db/adapters.go:51-65). -/
def convKey (conv : Option (Option Bytes → Option Bytes)) (k : Option Bytes) : Option Bytes :=
  match conv with
  | some f => f k
  | none => k

/-- The `Put`/`Delete` methods of the batch types: db/memdb.go:125-133, db/ldb.go:113-123,
db/adapters.go:51-65, db/cacheddb.go:31-45. Calling a method of the nil interface panics. -/
def Batch.add : Batch → Cmd → Res Batch
  | .mem cmds, c => .ok (.mem (cmds ++ [c]))
  | .ldb cmds, c => .ok (.ldb (cmds ++ [c]))
  | .key conv b, .put k v =>
    match b.add (.put (convKey conv k) v) with
    | .ok b' => .ok (.key conv b')
    | .err => .err
    | .panic => .panic
  | .key conv b, .del k =>
    match b.add (.del (convKey conv k)) with
    | .ok b' => .ok (.key conv b')
    | .err => .err
    | .panic => .panic
  | .cached keys b, .put k v =>
    match b.add (.put k v) with
    | .ok b' => .ok (.cached (if keyOf k ∈ keys then keys else keyOf k :: keys) b')
    | .err => .err
    | .panic => .panic
  | .cached keys b, .del k =>
    match b.add (.del k) with
    | .ok b' => .ok (.cached (if keyOf k ∈ keys then keys else keyOf k :: keys) b')
    | .err => .err
    | .panic => .panic
  | .nil, _ => .panic

/-- `Size` of the batch types: db/memdb.go:135, db/ldb.go:125, db/adapters.go:67, db/cacheddb.go:47. -/
def Batch.size : Batch → Res Nat
  | .mem cmds => .ok cmds.length
  | .ldb cmds => .ok cmds.length
  | .key _ b => b.size
  | .cached _ b => b.size
  | .nil => .panic

/-- A caller adding several commands, giving up at the first failure. -/
def Batch.addAll : Batch → List Cmd → Res Batch
  | b, [] => .ok b
  | b, c :: cs =>
    match b.add c with
    | .ok b' => b'.addAll cs
    | .err => .err
    | .panic => .panic

/-! ## The interface `Database` (db/types.go:65-73) -/

/-- A database: its methods over the state `σ`. -/
structure Database (σ : Type) where
  put : σ → Option Bytes → Option Bytes → σ × Res Unit
  has : σ → Option Bytes → σ × Res Bool
  get : σ → Option Bytes → σ × Res (Option Bytes)
  del : σ → Option Bytes → σ × Res Unit
  newBatch : σ → Batch
  batch : σ → Batch → σ × Res Unit
  close : σ → σ × Res Unit

/-- db/types.go:26-35 `PrefixKey`. -/
def prefixKey (pre key : Option Bytes) : Bytes :=
  goCopyAt (goCopy (List.replicate ((keyOf pre).length + (keyOf key).length) 0) (keyOf pre))
    (keyOf pre).length (keyOf key)

/-- db/types.go:37-53 `PrefixKey2`. -/
def prefixKey2 (pre1 pre2 key : Option Bytes) : Bytes :=
  goCopyAt (goCopyAt (goCopy
      (List.replicate ((keyOf pre1).length + (keyOf pre2).length + (keyOf key).length) 0) (keyOf pre1))
    (keyOf pre1).length (keyOf pre2))
    ((keyOf pre1).length + (keyOf pre2).length) (keyOf key)

/-- db/types.go:75-84 `GetNilError`; `.err` stands both for an error of `Get` and `ErrNotFound`. -/
def getNilError {σ : Type} (db : Database σ) (s : σ) (key : Option Bytes) : σ × Res (Option Bytes) :=
  ((db.get s key).1,
    match (db.get s key).2 with
    | .ok data => if (keyOf data).length = 0 then .err else .ok data
    | .err => .err
    | .panic => .panic)

/-! ## MemDB (db/memdb.go) -/

/-- db/memdb.go:50-60 `CopySlice`. -/
def copySlice (v : Option Bytes) : Option Bytes :=
  match v with
  | none => none
  | some b => some (goCopy (List.replicate b.length 0) b)

/-- db/memdb.go:61-71 `MemDB.Put`. -/
def memPut (m : Assoc Bytes) (key value : Option Bytes) : Assoc Bytes × Res Unit :=
  match copySlice key, copySlice value with
  | some k, some v => (store m k v, .ok ())
  | _, _ => (m, .err)

/-- db/memdb.go:73-80 `MemDB.Has`. -/
def memHas (m : Assoc Bytes) (key : Option Bytes) : Bool := (load m (keyOf key)).isSome

/-- db/memdb.go:82-93 `MemDB.Get`. -/
def memGet (m : Assoc Bytes) (key : Option Bytes) : Option Bytes := copySlice (load m (keyOf key))

/-- db/memdb.go:95-99 `MemDB.Delete`. -/
def memDel (m : Assoc Bytes) (key : Option Bytes) : Assoc Bytes := remove m (keyOf key)

/-- One command of `MemDB.Batch` (db/memdb.go:110-117); the result of `Put` is dropped. -/
def memCmd (m : Assoc Bytes) : Cmd → Assoc Bytes
  | .put k v => (memPut m k v).1
  | .del k => memDel m k

/-- db/memdb.go:105-119 `MemDB.Batch`. -/
def memBatch (m : Assoc Bytes) : Batch → Assoc Bytes × Res Unit
  | .mem cmds => (cmds.foldl memCmd m, .ok ())
  | _ => (m, .panic)

/-- db/memdb.go: the database `MemDB`; its state is the content of the `sync.Map`. -/
def memDB : Database (Assoc Bytes) where
  put := memPut
  has := fun m k => (m, .ok (memHas m k))
  get := fun m k => (m, .ok (memGet m k))
  del := fun m k => (memDel m k, .ok ())
  newBatch := fun _ => .mem []
  batch := memBatch
  close := fun m => (m, .ok ())

/-! ## LDB (db/ldb.go) over goleveldb -/

/-- goleveldb: a map and whether it was closed. -/
structure Level where
  closed : Bool
  m : Assoc Bytes

/-- goleveldb `Write` of one command of a batch: nil and empty slices are the same. -/
def levelCmd (m : Assoc Bytes) : Cmd → Assoc Bytes
  | .put k v => store m (keyOf k) (keyOf v)
  | .del k => remove m (keyOf k)

/-- goleveldb `Write`: refused with `ErrClosed` after `Close`. -/
def Level.write (l : Level) (cmds : List Cmd) : Level × Res Unit :=
  if l.closed then (l, .err) else ({ l with m := cmds.foldl levelCmd l.m }, .ok ())

/-- db/ldb.go:71-107: `LDB`. `Get` turns "not found" into nil; `Batch` drops the result of `Write`
(db/ldb.go:104-105). -/
def ldb : Database Level where
  put := fun l k v => l.write [.put k v]
  has := fun l k => (l, if l.closed then .err else .ok (load l.m (keyOf k)).isSome)
  get := fun l k => (l, if l.closed then .err else .ok (load l.m (keyOf k)))
  del := fun l k => l.write [.del k]
  newBatch := fun _ => .ldb []
  batch := fun l b =>
    match b with
    | .ldb cmds => ((l.write cmds).1, .ok ())
    | _ => (l, .err)
  close := fun l => ({ l with closed := true }, if l.closed then .err else .ok ())

/-! ## Adapters (db/adapters.go) -/

/-- db/adapters.go:76-85 `NewKeyPrefixedDataAdapter`: the stored prefix, nil when empty. -/
def newKeyPrefix (p : Option Bytes) : Option Bytes :=
  if (keyOf p).length > 0 then some (goCopy (List.replicate (keyOf p).length 0) (keyOf p)) else none

/-- db/adapters.go:105-110 `keyPrefixedDataAdapter.key`. -/
def adapterKey (keyPrefix : Option Bytes) (key : Option Bytes) : Option Bytes :=
  match keyPrefix with
  | none => key
  | some _ => some (prefixKey keyPrefix key)

/-- db/adapters.go:178-210 `KeyDatabase` before it is closed. `Close` forgets the key function; the
use of a closed `KeyDatabase` is not modelled. -/
def keyDatabase {σ : Type} (db : Database σ) (f : Option Bytes → Option Bytes) : Database σ where
  put := fun s k v => db.put s (f k) v
  has := fun s k => db.has s (f k)
  get := fun s k => db.get s (f k)
  del := fun s k => db.del s (f k)
  newBatch := fun s => .key (some f) (db.newBatch s)
  batch := db.batch
  close := fun s => (s, .ok ())

/-- db/adapters.go:71-154 `keyPrefixedDataAdapter` as made by `NewKeyPrefixedDataAdapter`. -/
def keyPrefixed {σ : Type} (db : Database σ) (p : Option Bytes) : Database σ where
  put := fun s k v => db.put s (adapterKey (newKeyPrefix p) k) v
  has := fun s k => db.has s (adapterKey (newKeyPrefix p) k)
  get := fun s k => db.get s (adapterKey (newKeyPrefix p) k)
  del := fun s k => db.del s (adapterKey (newKeyPrefix p) k)
  newBatch := fun s => .key (some (adapterKey (newKeyPrefix p))) (db.newBatch s)
  batch := db.batch
  close := fun s => (s, .ok ())

/-! ## Read-only and temporary databases (db/readonly.go) -/

/-- db/readonly.go:5-43 `readOnlyDB`. -/
def readOnlyOf {σ : Type} (db : Database σ) : Database σ where
  put := fun s _ _ => (s, .err)
  has := db.has
  get := db.get
  del := fun s _ => (s, .err)
  newBatch := fun _ => .nil
  batch := fun s _ => (s, .err)
  close := fun s => (s, .err)

/-- A Go value of interface type `Database` together with what the type switches of `ReadOnly` and
`Temporary` can see: whether its dynamic type is `*readOnlyDB`. -/
inductive Wrapped (σ : Type)
  | readOnly (inner : Database σ)
  | other (db : Database σ)

/-- The methods of a wrapped value. -/
def Wrapped.db {σ : Type} : Wrapped σ → Database σ
  | .readOnly inner => readOnlyOf inner
  | .other db => db

/-- db/readonly.go:9-16 `ReadOnly`. -/
def readOnly {σ : Type} : Wrapped σ → Wrapped σ
  | .readOnly inner => .readOnly inner
  | .other db => .readOnly db

/-- db/readonly.go:45-50 `temporaryDB`. -/
structure Temp (σ : Type) where
  read : σ
  mem : Assoc Bytes
  deleted : List Bytes

/-- db/readonly.go:52-63 `Temporary`: a new overlay. -/
def newTemp {σ : Type} (s : σ) : Temp σ := ⟨s, [], []⟩

/-- db/readonly.go:65-72 `_put`. -/
def tempPut {σ : Type} (t : Temp σ) (k v : Option Bytes) : Temp σ × Res Unit :=
  match (memPut t.mem k v).2 with
  | .ok _ => ({ t with mem := (memPut t.mem k v).1, deleted := t.deleted.filter (· ≠ keyOf k) }, .ok ())
  | .err => ({ t with mem := (memPut t.mem k v).1 }, .err)
  | .panic => ({ t with mem := (memPut t.mem k v).1 }, .panic)

/-- db/readonly.go:111-115 `_delete`. -/
def tempDel {σ : Type} (t : Temp σ) (k : Option Bytes) : Temp σ :=
  { t with deleted := if keyOf k ∈ t.deleted then t.deleted else keyOf k :: t.deleted,
           mem := memDel t.mem k }

/-- One command of `temporaryDB.Batch` (db/readonly.go:134-141). -/
def tempCmd {σ : Type} (t : Temp σ) : Cmd → Temp σ
  | .put k v => (tempPut t k v).1
  | .del k => tempDel t k

/-- db/readonly.go:74-147 `temporaryDB` over a base database. -/
def temporary {σ : Type} (base : Database σ) : Database (Temp σ) where
  put := tempPut
  has := fun t k =>
    if keyOf k ∈ t.deleted then (t, .ok false)
    else if memHas t.mem k then (t, .ok true)
    else ({ t with read := (base.has t.read k).1 }, (base.has t.read k).2)
  get := fun t k =>
    if keyOf k ∈ t.deleted then (t, .ok none)
    else match memGet t.mem k with
      | some bs => (t, .ok (some bs))
      | none => ({ t with read := (base.get t.read k).1 }, (base.get t.read k).2)
  del := fun t k => (tempDel t k, .ok ())
  newBatch := fun _ => .mem []
  batch := fun t b =>
    match b with
    | .mem cmds => (cmds.foldl tempCmd t, .ok ())
    | _ => (t, .panic)
  close := fun t => (t, .ok ())

/-! ## Cached database (db/cacheddb.go) -/

/-- db/cacheddb.go:51-61 `cachedDB`: the base database and the cache (a cached nil is `some none`). -/
structure Cached (σ : Type) where
  base : σ
  cache : Assoc (Option Bytes)

/-- The cache forgets the keys selected by `e` (LRU eviction is one such choice). -/
def Cached.evict {σ : Type} (c : Cached σ) (e : Bytes → Bool) : Cached σ :=
  { c with cache := c.cache.filter (fun p => !e p.1) }

/-- Removing several keys (db/cacheddb.go:145-147). -/
def removeAll {α : Type} (m : Assoc α) : List Bytes → Assoc α
  | [] => m
  | k :: ks => removeAll (remove m k) ks

/-- db/cacheddb.go:84-156 `cachedDB`. -/
def cachedDB {σ : Type} (base : Database σ) : Database (Cached σ) where
  put := fun c k v =>
    match (base.put c.base k v).2 with
    | .ok _ => (⟨(base.put c.base k v).1, remove c.cache (keyOf k)⟩, .ok ())
    | .err => (⟨(base.put c.base k v).1, c.cache⟩, .err)
    | .panic => (⟨(base.put c.base k v).1, c.cache⟩, .panic)
  has := fun c k =>
    match load c.cache (keyOf k) with
    | some _ => (c, .ok true)
    | none => (⟨(base.has c.base k).1, c.cache⟩, (base.has c.base k).2)
  get := fun c k =>
    match load c.cache (keyOf k) with
    | some v => (c, .ok v)
    | none =>
      match (base.get c.base k).2 with
      | .ok r => (⟨(base.get c.base k).1, store c.cache (keyOf k) r⟩, .ok r)
      | .err => (⟨(base.get c.base k).1, c.cache⟩, .err)
      | .panic => (⟨(base.get c.base k).1, c.cache⟩, .panic)
  del := fun c k =>
    (⟨(base.del c.base k).1, remove c.cache (keyOf k)⟩, (base.del c.base k).2)
  newBatch := fun c => .cached [] (base.newBatch c.base)
  batch := fun c b =>
    match b with
    | .cached keys inner =>
      (⟨(base.batch c.base inner).1, removeAll c.cache keys⟩, (base.batch c.base inner).2)
    | other => (⟨(base.batch c.base other).1, c.cache⟩, (base.batch c.base other).2)
  close := fun c => (⟨(base.close c.base).1, c.cache⟩, (base.close c.base).2)

/-! ## BatchWrite (db/types.go:86-111) -/

/-- What the callback does with item `j`: the commands it sends to the writer, whether it accepts the
item and whether it reports an error. -/
structure Action where
  cmds : List Cmd
  ok : Bool
  err : Bool

/-- Result of `BatchWrite`: the database, the count and how it ended. -/
structure BWResult (σ : Type) where
  state : σ
  count : Nat
  res : Res Unit

/-- The loop of `BatchWrite` over the items that remain; `index` items are pending in `batch`. -/
def bwLoop {σ : Type} (db : Database σ) (threshold : Int) :
    List Action → σ → Batch → Nat → Nat → BWResult σ
  | [], s, _, _, count => ⟨s, count, .ok ()⟩
  | a :: rest, s, batch, index, count =>
    match (if index = 0 then db.newBatch s else batch).addAll a.cmds with
    | .panic => ⟨s, count, .panic⟩
    | .err => ⟨s, count, .err⟩
    | .ok batch' =>
      if a.err then ⟨s, count, .err⟩
      else if !a.ok then bwLoop db threshold rest s batch' index count
      else if ((index + 1 : Nat) : Int) = threshold ∨ rest = [] then
        match (db.batch s batch').2 with
        | .ok _ => bwLoop db threshold rest (db.batch s batch').1 batch' 0 (count + (index + 1))
        | .err => ⟨(db.batch s batch').1, count, .err⟩
        | .panic => ⟨(db.batch s batch').1, count, .panic⟩
      else bwLoop db threshold rest s batch' (index + 1) count

/-- db/types.go:86-111 `BatchWrite`; `items` lists what the callback does with items 0, 1, …
A callback whose command fails is taken to report that error. -/
def batchWrite {σ : Type} (db : Database σ) (threshold : Int) (items : List Action) (s : σ) : BWResult σ :=
  bwLoop db threshold items s .nil 0 0

end Verif.DB

import Verif.Trie.Hash

/-!
# Model of the trie with its caches and its storage (`/repo/trie/trie.go`, `/repo/trie/node.go`)

Level B: nodes carry the caches of the code (`dirty`, `hash`, `valuehash`, `valuestream`, `generation`), may be collapsed
to a hash, and are saved to and loaded from two adapters.

Simplifications:
* the encoder and the hasher of values are total functions of the value; the decoder may fail;
* `rtl.Encode(node)` and `rtl.Decode(r, node)` call the `Serialization`/`Deserialization` methods of the node and add
  nothing (go-rtl is not part of `/repo`);
* a `Load` of a missing key fails; a node whose bytes cannot be decoded is left as it was (the code may leave it half
  filled); a node that is still collapsed after decoding is an error (the code recurses for ever,
  `/repo/trie/trie.go:607-610`);
* `CheckNodeValueHash` only logs and is left out;
* the header hash cache (`headerhash`) is not used by `computeHash` and left out;
* key nibbles, prefixes and values as in `Verif.Trie.Model`.
-/

namespace Verif.Trie.Store
open Verif Verif.Merkle Verif.Trie

variable {V : Type}

/-- The functions of a trie: digest, go-rtl, value encoder, value decoder, value hasher (after the encoder). -/
structure Env (V : Type) where
  H : Bytes → Bytes
  R : Rtl
  enc : V → Bytes
  dec : Bytes → Option V
  vh : V → Bytes

/-- `common.EmptyNodeHashSlice`: the hash of a fresh trie (`/repo/trie/trie.go:45-57`). -/
def emptyHash (E : Env V) : Bytes := nodeHash E.H E.R E.vh (.mk [] none noChild)

/-- The fields of a node other than the children (`/repo/trie/node.go:252-268`). A nil slice is `none`. -/
structure Info (V : Type) where
  pre : List Nib
  value : Option V
  dirty : Bool
  hash : Option Bytes
  vhash : Option Bytes
  vstream : Option Bytes
  gen : UInt64

/-- A node (`/repo/trie/node.go:252-268`). -/
inductive BNode (V : Type) where
  | nil
  | mk (i : Info V) (c : Nib → BNode V)

/-- `n != nil`. -/
def BNode.isSome : BNode V → Bool
  | .nil => false
  | .mk _ _ => true

/-- The two adapters: `none` is a nil adapter, otherwise the stored bytes by hash. -/
structure Disk where
  nodes : Option (Bytes → Option Bytes)
  values : Option (Bytes → Option Bytes)

/-- Which `Save` calls fail. -/
structure Faults where
  node : Bytes → Bool
  value : Bytes → Bool

/-- No failing `Save`. -/
def noFaults : Faults := ⟨fun _ => false, fun _ => false⟩

/-- An array of nil children. -/
def noKids : Nib → BNode V := fun _ => .nil

/-- `children[j] = x`. -/
def setKid (c : Nib → BNode V) (j : Nib) (x : BNode V) : Nib → BNode V := fun k => if k = j then x else c k

/-- `hasChildren` (`/repo/trie/node.go:349-356`). -/
def hasKids (c : Nib → BNode V) : Bool := nibbles.any fun j => (c j).isSome

/-- The indices of the non-nil children. -/
def kidIds (c : Nib → BNode V) : List Nib := nibbles.filter fun j => (c j).isSome

/-- `NewNodeWithFuncs` (`/repo/trie/node.go:273-285`). -/
def newNode (hash : Option Bytes) (g : UInt64) : BNode V := .mk ⟨[], none, false, hash, none, none, g⟩ noKids

/-- `isEmptyNodeHash` (`/repo/trie/node.go:324-326`). -/
def isEmptyNodeHash (E : Env V) (h : Option Bytes) : Bool :=
  decide ((h.getD []).length < 32) || decide (h.getD [] = emptyHash E)

/-- `isEmpty` (`/repo/trie/node.go:310-315`). -/
def isEmptyB (E : Env V) (i : Info V) (c : Nib → BNode V) : Bool :=
  i.pre.isEmpty && !hasKids c && i.value.isNone && isEmptyNodeHash E i.hash && decide ((i.vhash.getD []).length = 0)

/-- `isCollapsed` (`/repo/trie/node.go:328-335`). -/
def isCollapsed (E : Env V) (i : Info V) (c : Nib → BNode V) : Bool :=
  !isEmptyNodeHash E i.hash && !hasKids c && i.value.isNone && decide ((i.vhash.getD []).length = 0)

/-- `isValueCollapsed` (`/repo/trie/node.go:337-339`). -/
def isValueCollapsed (i : Info V) : Bool := decide (32 ≤ (i.vhash.getD []).length) && i.value.isNone

/-- `inErrorStatus` (`/repo/trie/node.go:320-322`). -/
def inErrorStatus (E : Env V) (i : Info V) (c : Nib → BNode V) : Bool :=
  !i.pre.isEmpty && !isEmptyNodeHash E i.hash && !hasKids c && i.value.isNone && !isValueCollapsed i

/-- `prefixChanged`, `childChanged` (`/repo/trie/node.go:366-371, 381-386`). -/
def Info.touch (i : Info V) : Info V := { i with hash := none, dirty := true }

/-- `setValue` with a non-nil value (`/repo/trie/node.go:444-466`). -/
def Info.put (i : Info V) (x : V) : Info V :=
  { i with value := some x, vhash := none, vstream := none, hash := none, dirty := true }

/-- `setValue(nil)` (`/repo/trie/node.go:444-466`): nothing happens if there is no value. -/
def Info.unset (i : Info V) : Info V :=
  if i.value.isSome then { i with value := none, vhash := none, vstream := none, hash := none, dirty := true } else i

/-! ### Hashing and serialization -/

/-- The effect of `valueHash` on the caches (`/repo/trie/node.go:566-591`). -/
def valueHashed (E : Env V) (i : Info V) : Info V :=
  match i.value with
  | none => i
  | some x =>
    if i.vhash.isSome && i.vstream.isSome then i
    else { i with vhash := some (E.vh x), vstream := some (E.enc x) }

/-- `newNodeHeader(n)` (`/repo/trie/node.go:141-155`). -/
def headerB (i : Info V) (c : Nib → BNode V) : Header :=
  newHeader i.pre (fun j => (c j).isSome) i.value.isSome

/-- `nodehasher.ValueHash` (`/repo/trie/node.go:858-869`). -/
def hashedValue (E : Env V) (i : Info V) : Option Bytes :=
  if isValueCollapsed i then i.vhash.map toHash
  else if i.value.isSome then (valueHashed E i).vhash.map toHash
  else none

/-- The cached hash of a node. -/
def cached : BNode V → Bytes
  | .nil => []
  | .mk i _ => i.hash.getD []

/-- The effect of `HashValue` on a node (`/repo/trie/node.go:537-547, 842-904`): the caches are filled, below as far as
they are needed. -/
def hashed (E : Env V) : BNode V → BNode V
  | .nil => .nil
  | .mk i c =>
    if i.hash.isSome then .mk i c
    else
      .mk { valueHashed E i with
            hash := some (makeHash E.H E.R (headerB i c) (hashedValue E i)
              ((kidIds c).map fun j => cached (hashed E (c j)))) }
        (fun j => hashed E (c j))

/-- `HashValue` (`/repo/trie/node.go:537-547`). -/
def hashOf (E : Env V) (n : BNode V) : Bytes := cached (hashed E n)

/-- The bytes `Serialization` writes (`/repo/trie/node.go:600-648`). -/
def serB (E : Env V) (i : Info V) (c : Nib → BNode V) : Bytes :=
  (headerB i c).ser E.R ++ (kidIds c).flatMap (fun j => hashOf E (c j)) ++
    (if i.value.isSome then (valueHashed E i).vhash.getD [] else [])

/-- The loop of `Deserialization` over the children (`/repo/trie/node.go:668-683`): 32 bytes for each child of the header. -/
def readKids (h : Header) : List Nib → Bytes → Option (List (Nib × Bytes) × Bytes)
  | [], bs => some ([], bs)
  | j :: js, bs =>
    if h.hasChild j then
      if bs.length < 32 then none
      else (readKids h js (bs.drop 32)).map fun r => ((j, bs.take 32) :: r.1, r.2)
    else readKids h js bs

/-- The children as fresh hash-only nodes. -/
def kidsOf (g : UInt64) (l : List (Nib × Bytes)) : Nib → BNode V := fun j =>
  match l.find? (fun e => e.1 = j) with
  | some e => newNode (some e.2) g
  | none => .nil

/-- The value hash at the end (`/repo/trie/node.go:686-697`). -/
def readValueHash (nt : UInt8) (old : Option Bytes) (bs : Bytes) : Option (Option Bytes) :=
  if ntHasValue nt then (if bs.length < 32 then none else some (some (bs.take 32))) else some old

/-- `Deserialization` into a node (`/repo/trie/node.go:650-699`); `none` is an error. -/
def deserB (E : Env V) (i : Info V) (c : Nib → BNode V) (bs : Bytes) : Option (BNode V) :=
  (Header.deser E.R bs).bind fun (h : Header × Bytes) =>
    (if ntHasChildren h.1.nt then (readKids h.1 nibbles h.2).map fun r => (kidsOf i.gen r.1, r.2)
      else some (c, h.2)).bind fun (k : (Nib → BNode V) × Bytes) =>
        (readValueHash h.1.nt i.vhash k.2).map fun w => .mk { i with pre := h.1.prefix, vhash := w } k.1

/-! ### Expanding -/

/-- `adapter.Load`. -/
def load (f : Bytes → Option Bytes) (h : Option Bytes) : Option Bytes := f (h.getD [])

/-- `expandValue` of a node whose value is collapsed (`/repo/trie/node.go:476-512`, `/repo/trie/trie.go:611-617`): the node
and whether there was no error. -/
def expandValue (E : Env V) (D : Disk) (i : Info V) (c : Nib → BNode V) : BNode V × Bool :=
  if isValueCollapsed i then
    match D.values with
    | none => (.mk i c, true)
    | some f =>
      match (load f i.vhash).bind E.dec with
      | none => (.mk i c, false)
      | some x => (.mk { i with value := some x } c, true)
  else (.mk i c, true)

/-- What `expandNode` does after decoding (`/repo/trie/trie.go:592-604`). -/
def afterDecode (E : Env V) (D : Disk) : BNode V → BNode V × Bool
  | .nil => (.nil, false)
  | .mk i c =>
    let i' := if inErrorStatus E i c then { i with hash := some (emptyHash E) } else i
    if isCollapsed E i' c then (.mk i' c, false) else expandValue E D i' c

/-- `expandNode` of a collapsed node (`/repo/trie/trie.go:575-605`). `g` is the generation of the trie. -/
def expandNode (E : Env V) (D : Disk) (g : UInt64) (i : Info V) (c : Nib → BNode V) : BNode V × Bool :=
  match D.nodes with
  | none => (.mk i c, true)
  | some f =>
    match (load f i.hash).bind (deserB E { i with gen := g } c) with
    | none => (.mk { i with gen := g } c, false)
    | some n => afterDecode E D n

/-- `fullExpand` (`/repo/trie/trie.go:474-491`): the node and whether there was no error. The expansion of the value after
that of the node is part of `expandNode`. -/
def fullExpand (E : Env V) (D : Disk) (g : UInt64) : BNode V → BNode V × Bool
  | .nil => (.nil, true)
  | .mk i c => if isCollapsed E i c then expandNode E D g i c else expandValue E D i c

/-! ### Get, Put, Delete -/

/-- `get` (`/repo/trie/trie.go:264-322`): the node afterwards (expanded along the path) and the value. The child is
expanded once, by the recursive call. The first argument bounds the depth, see `getB`. -/
def getF (E : Env V) (D : Disk) (g : UInt64) : Nat → BNode V → List Nib → BNode V × Option V
  | 0, n, _ => (n, none)
  | f + 1, n, q =>
    match fullExpand E D g n with
    | (.nil, _) => (.nil, none)
    | (.mk i c, false) => (.mk i c, none)
    | (.mk i c, true) =>
      if q = [] then (.mk i c, i.value)
      else if isEmptyB E i c then (.mk i c, none)
      else if i.pre.drop (matchPrefix i.pre q) = [] then
        match q.drop (matchPrefix i.pre q) with
        | [] => (.mk i c, i.value)
        | k :: q' =>
          if (c k).isSome = false then (.mk i c, none)
          else
            let r := getF E D g f (c k) q'
            (.mk i (setKid c k r.1), r.2)
      else (.mk i c, none)

/-- `get` with a sufficient bound: every level consumes a nibble. -/
def getB (E : Env V) (D : Disk) (g : UInt64) (n : BNode V) (q : List Nib) : BNode V × Option V :=
  getF E D g (q.length + 1) n q

/-- A fresh node that carries a value (`createNode`, `setValue`, `/repo/trie/trie.go:141-155`). -/
def leafB (g : UInt64) (p : List Nib) (x : V) : BNode V := .mk ⟨p, some x, true, none, none, none, g⟩ noKids

/-- What `insert` leaves behind. -/
structure PutResB (V : Type) where
  node : BNode V
  changed : Bool
  delta : Int

/-- The part of `insert` after the expansion of the start node, with the call for a child passed in
(`/repo/trie/trie.go:360-442`). -/
def insertAt (E : Env V) (g : UInt64) (rec : BNode V → List Nib → PutResB V) (i0 : Info V) (c : Nib → BNode V)
    (q : List Nib) (x : V) : PutResB V :=
  let i : Info V := { i0 with gen := g }
  if q = [] then ⟨.mk (i.put x) c, true, putDelta i.value⟩
  else if isEmptyB E i c then ⟨.mk { i.put x with pre := q } c, true, putDelta i.value⟩
  else
    match i.pre.drop (matchPrefix i.pre q) with
    | [] =>
      match q.drop (matchPrefix i.pre q) with
      | [] => ⟨.mk (i.put x) c, true, putDelta i.value⟩
      | k :: q' =>
        if (c k).isSome = false then ⟨.mk i.touch (setKid c k (leafB g q' x)), true, 1⟩
        else
          let r := rec (c k) q'
          ⟨.mk (if r.changed then i.touch else i) (setKid c k r.node), r.changed, r.delta⟩
    | j :: p' =>
      let top : Info V := ⟨q.take (matchPrefix i.pre q), none, true, none, none, none, g⟩
      let old : Nib → BNode V := setKid noKids j (.mk { i.touch with pre := p' } c)
      match q.drop (matchPrefix i.pre q) with
      | [] => ⟨.mk (top.put x) old, true, 1⟩
      | k :: q' => ⟨.mk top (setKid old k (leafB g q' x)), true, 1⟩

/-- `insert` (`/repo/trie/trie.go:355-442`). -/
def insertF (E : Env V) (D : Disk) (g : UInt64) (x : V) : Nat → BNode V → List Nib → PutResB V
  | 0, n, _ => ⟨n, false, 0⟩
  | f + 1, n, q =>
    match fullExpand E D g n with
    | (.nil, _) => ⟨.nil, false, 0⟩
    | (.mk i c, false) => ⟨.mk i c, false, 0⟩
    | (.mk i c, true) => insertAt E g (insertF E D g x f) i c q x

/-- The children of the only child moved up (`/repo/trie/node.go:962-968`). -/
def lift (c c2 : Nib → BNode V) : Nib → BNode V := fun k => if (c2 k).isSome then c2 k else c k

/-- `mergeTheLastChild` (`/repo/trie/node.go:921-976`); `none` is the panic when the child cannot be expanded. -/
def mergeB (E : Env V) (D : Disk) (g : UInt64) (i : Info V) (c : Nib → BNode V) : Option (BNode V × Bool) :=
  if i.value.isSome then some (.mk i c, false)
  else
    match kidIds c with
    | [k] =>
      match fullExpand E D g (c k) with
      | (.mk i2 c2, true) =>
        let i' : Info V := { i.touch with pre := i.pre ++ k :: i2.pre }
        let i'' : Info V := match i2.value with
          | some x => i'.put x
          | none => i'
        some (.mk i'' (lift (setKid c k .nil) c2), true)
      | (_, _) => none
    | _ => some (.mk i c, false)

/-- What `delete` leaves behind. -/
structure DelResB (V : Type) where
  node : BNode V
  changed : Bool
  remove : Bool
  old : Option V
  delta : Int

/-- `removeValue` (`/repo/trie/trie.go:461-472`). -/
def removeValueB (E : Env V) (D : Disk) (g : UInt64) (i : Info V) (c : Nib → BNode V) : Option (DelResB V) :=
  if hasKids c = false then some ⟨.mk i.unset c, i.value.isSome, true, i.value, delDelta i.value⟩
  else
    (mergeB E D g i.unset c).map fun r => ⟨r.1, i.value.isSome || r.2, false, i.value, delDelta i.value⟩

/-- The part of `delete` behind the recursive call (`/repo/trie/trie.go:538-557`). -/
def deleteUp (E : Env V) (D : Disk) (g : UInt64) (i : Info V) (c : Nib → BNode V) (k : Nib) (r : DelResB V) :
    Option (DelResB V) :=
  let i' := if r.changed then i.touch else i
  let c' := if r.changed && r.remove then setKid c k .nil else setKid c k r.node
  if hasKids c' = false ∧ i.value.isNone = true then some ⟨.mk i' c', r.changed, true, r.old, r.delta⟩
  else (mergeB E D g i' c').map fun m => ⟨m.1, r.changed, false, r.old, r.delta⟩

/-- The part of `delete` after the expansion of the start node, with the call for a child passed in
(`/repo/trie/trie.go:500-559`). -/
def deleteAt (E : Env V) (D : Disk) (g : UInt64) (rec : BNode V → List Nib → Option (DelResB V)) (i0 : Info V)
    (c : Nib → BNode V) (q : List Nib) : Option (DelResB V) :=
  if isEmptyB E i0 c then some ⟨.mk i0 c, false, false, none, 0⟩
  else
    let i : Info V := { i0 with gen := g }
    if q = [] then removeValueB E D g i c
    else if i.pre.drop (matchPrefix i.pre q) = [] then
      match q.drop (matchPrefix i.pre q) with
      | [] => removeValueB E D g i c
      | k :: q' =>
        if (c k).isSome = false then some ⟨.mk i c, false, false, none, 0⟩
        else (rec (c k) q').bind (deleteUp E D g i c k)
    else some ⟨.mk i c, false, false, none, 0⟩

/-- `delete` (`/repo/trie/trie.go:493-559`); `none` is a panic. -/
def deleteF (E : Env V) (D : Disk) (g : UInt64) : Nat → BNode V → List Nib → Option (DelResB V)
  | 0, n, _ => some ⟨n, false, false, none, 0⟩
  | f + 1, n, q =>
    match fullExpand E D g n with
    | (.nil, _) => some ⟨.nil, false, false, none, 0⟩
    | (.mk i c, false) => some ⟨.mk i c, false, false, none, 0⟩
    | (.mk i c, true) => deleteAt E D g (deleteF E D g f) i c q

/-! ### Saving -/

/-- `collapse` (`/repo/trie/node.go:703-720`). -/
def collapse (E : Env V) (i : Info V) (c : Nib → BNode V) : BNode V :=
  if isCollapsed E i c then .mk i c
  else .mk { i with hash := some (hashOf E (.mk i c)), value := none, vhash := none, vstream := none } noKids

/-- `collapseValue` (`/repo/trie/node.go:722-735`). -/
def collapseValue (E : Env V) (i : Info V) (c : Nib → BNode V) : BNode V :=
  if isValueCollapsed i then .mk i c
  else .mk { i with vhash := if i.value.isSome then (valueHashed E i).vhash else none, value := none, vstream := none } c

/-- `canCollapse` (`/repo/trie/node.go:906-911`). -/
def canCollapse (E : Env V) (i : Info V) (c : Nib → BNode V) : Bool :=
  !i.dirty && decide (i.hash.getD [] ≠ emptyHash E) && !isCollapsed E i c

/-- `maxGenSize` and `maxValLength` (`/repo/trie/trie.go:33-38`). -/
structure Limits where
  gen : UInt64
  val : Nat

/-- `Save` to an adapter; the result is false if it fails. A nil adapter is not called. -/
def saveTo (f : Option (Bytes → Option Bytes)) (bad : Bytes → Bool) (h b : Bytes) : Option (Bytes → Option Bytes) × Bool :=
  match f with
  | none => (none, true)
  | some s => if bad h then (some s, false) else (some fun k => if k = h then some b else s k, true)

/-- The value part of `saveOneNode` (`/repo/trie/trie.go:693-707`). -/
def saveValue (F : Faults) (D : Disk) (i : Info V) : Disk × Bool :=
  if i.value.isSome ∧ 32 ≤ (i.vhash.getD []).length then
    let r := saveTo D.values F.value (i.vhash.getD []) (i.vstream.getD [])
    ({ D with values := r.1 }, r.2)
  else (D, true)

/-- `saveOneNode` (`/repo/trie/trie.go:693-731`): the node, the storage, and whether there was no error. -/
def saveOne (E : Env V) (F : Faults) (D : Disk) (i : Info V) (c : Nib → BNode V) : BNode V × Disk × Bool :=
  let i1 := valueHashed E i
  let d := saveValue F D i1
  if d.2 = false then (.mk i1 c, d.1, false)
  else
    match hashed E (.mk i1 c) with
    | .nil => (.nil, d.1, false)
    | .mk i2 c2 =>
      let r := saveTo d.1.nodes F.node (i2.hash.getD []) (serB E i1 c)
      let c3 : Nib → BNode V := fun j => hashed E (c2 j)
      if r.2 = false then (.mk i2 c3, { d.1 with nodes := r.1 }, false)
      else (.mk { i2 with dirty := false } c3, { d.1 with nodes := r.1 }, true)

/-- What `iterateSave` does with the node after its children (`/repo/trie/trie.go:673-690`). -/
def saveHere (E : Env V) (F : Faults) (L : Limits) (g : UInt64) (D : Disk) (i : Info V) (c : Nib → BNode V) :
    BNode V × Disk × Bool :=
  if i.dirty then saveOne E F D i c
  else if g - i.gen > L.gen && canCollapse E i c then (collapse E i c, D, true)
  else if !isValueCollapsed i && decide ((i.vstream.getD []).length > L.val) then (collapseValue E i c, D, true)
  else (.mk i c, D, true)

/-- `iterateSave` (`/repo/trie/trie.go:667-691`). The errors of the children are dropped, as in the code. -/
def save (E : Env V) (F : Faults) (L : Limits) (g : UInt64) : BNode V → Disk → BNode V × Disk × Bool
  | .nil, D => (.nil, D, true)
  | .mk i c, D =>
    let r := nibbles.foldl (fun (s : (Nib → BNode V) × Disk) j =>
      if (c j).isSome then
        let x := save E F L g (c j) s.2
        (setKid s.1 j x.1, x.2.1)
      else s) (c, D)
    saveHere E F L g r.2 i r.1

/-! ### The trie -/

/-- A `Trie` (`/repo/trie/trie.go:87-97`) without its adapters. -/
structure BTrie (V : Type) where
  root : BNode V
  count : Int
  gen : UInt64

/-- `NewTrie(hash, ...)` (`/repo/trie/trie.go:108-139`); `none` is a nil hash. -/
def openTrie (hash : Option Bytes) : BTrie V := ⟨newNode hash 1, 0, 1⟩

/-- `Get` (`/repo/trie/trie.go:252-257`). -/
def BTrie.get (E : Env V) (D : Disk) (t : BTrie V) (key : Bytes) : BTrie V × Option V :=
  let r := getB E D t.gen t.root (keyToPrefix key)
  ({ t with root := r.1 }, r.2)

/-- `Put` (`/repo/trie/trie.go:324-345`). -/
def BTrie.put (E : Env V) (D : Disk) (t : BTrie V) (key : Bytes) (x : V) : BTrie V × Bool :=
  let r := insertF E D t.gen x ((keyToPrefix key).length + 1) t.root (keyToPrefix key)
  ({ t with root := r.node, count := t.count + r.delta }, r.changed)

/-- `root.setPrefix(nil)` (`/repo/trie/trie.go:447-451`, `/repo/trie/node.go:400-416`). -/
def clearPrefixB : BNode V → BNode V
  | .nil => .nil
  | .mk i c => if i.pre = [] then .mk i c else .mk { i.touch with pre := [] } c

/-- `Delete` (`/repo/trie/trie.go:444-459`); `none` is a panic. -/
def BTrie.del (E : Env V) (D : Disk) (t : BTrie V) (key : Bytes) : Option (BTrie V × Bool × Option V) :=
  (deleteF E D t.gen ((keyToPrefix key).length + 1) t.root (keyToPrefix key)).map fun r =>
    ({ t with root := if r.remove then clearPrefixB r.node else r.node, count := t.count + r.delta }, r.changed, r.old)

/-- `Commit` (`/repo/trie/trie.go:631-644`): trie, storage, and whether it returned nil. -/
def BTrie.commit (E : Env V) (F : Faults) (L : Limits) (D : Disk) (t : BTrie V) : BTrie V × Disk × Bool :=
  let r := save E F L t.gen t.root D
  ({ t with root := r.1, gen := if r.2.2 then t.gen + 1 else t.gen }, r.2.1, r.2.2)

/-- `HashValue` (`/repo/trie/trie.go:234-239`). -/
def BTrie.hash (E : Env V) (t : BTrie V) : BTrie V × Bytes := ({ t with root := hashed E t.root }, hashOf E t.root)

/-- `Collapse` (`/repo/trie/trie.go:646-660`). -/
def BTrie.collapse (E : Env V) (t : BTrie V) : BTrie V :=
  match t.root with
  | .nil => t
  | .mk i c => if canCollapse E i c then { t with root := Store.collapse E i c } else t

/-- `Clone` (`/repo/trie/trie.go:162-178`): the trie itself after its commit, the storage, the clone. -/
def BTrie.clone (E : Env V) (F : Faults) (L : Limits) (D : Disk) (t : BTrie V) : BTrie V × Disk × BTrie V :=
  let r := t.commit E F L D
  let h := r.1.hash E
  (h.1, r.2.1, ⟨newNode (some h.2) r.1.gen, 0, r.1.gen⟩)

/-- `Inherit` (`/repo/trie/trie.go:204-218`). -/
def inherit (root : Bytes) : BTrie V := ⟨newNode (some root) 0, 0, 0⟩

end Verif.Trie.Store

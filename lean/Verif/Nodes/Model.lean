import Verif.Sorted
import Verif.Num.Model
import Verif.Hex.Model

/-!
# Model of node id lists and sets (/repo/basic.go, /repo/utils.go) and of chain information (/repo/chaininfo.go)

Node ids and strings are byte strings.  A Go map used as a set is the duplicate-free list of its keys; the order in which
`range` visits it is an arbitrary permutation, given by a parameter `order`.  `sort.Sort` is `sortCmp` (`Verif/Sorted.lean`),
except for `NodeIDSet`, whose `Swap` also maintains the index and is modelled swap by swap.
-/

namespace Verif.Nodes
open Verif

/-! ### Maps used as sets -/

/-- `m[k] = struct{}{}`. -/
def setAdd (m : List Bytes) (k : Bytes) : List Bytes := if k ∈ m then m else m ++ [k]

/-- `delete(m, k)`. -/
def setDel (m : List Bytes) (k : Bytes) : List Bytes := m.filter (· ≠ k)

/-- The loop that enters all elements of a slice into a map. -/
def setAddAll (m : List Bytes) (l : List Bytes) : List Bytes := l.foldl setAdd m

/-! ### Node id lists -/

/-- /repo/basic.go:527-534 `NodeIDs.Contains`. -/
def contains : List Bytes → Bytes → Bool
  | [], _ => false
  | x :: xs, nid => if x == nid then true else contains xs nid

/-- /repo/basic.go:536-552 `NodeIDs.Union`. -/
def union (order : List Bytes → List Bytes) (ns os : List Bytes) : List Bytes :=
  if (setAddAll (setAddAll [] ns) os).length = 0 then [] else order (setAddAll (setAddAll [] ns) os)

/-- /repo/basic.go:554-573 `NodeIDs.Remove`. -/
def remove (order : List Bytes → List Bytes) (ns os : List Bytes) : List Bytes :=
  if ns.length = 0 then []
  else if (os.foldl setDel (setAddAll [] ns)).length = 0 then []
  else order (os.foldl setDel (setAddAll [] ns))

/-- /repo/basic.go:484-497 `NodeIDs.Equal`: the element loop. -/
def equalLoop : List Bytes → List Bytes → Bool
  | x :: xs, y :: ys => if x != y then false else equalLoop xs ys
  | _, _ => true

/-- /repo/basic.go:484-497 `NodeIDs.Equal`. -/
def idsEqual (ns os : List Bytes) : Bool :=
  if ns.length = 0 ∧ os.length = 0 then true
  else if ns.length ≠ os.length then false
  else equalLoop ns os

/-- /repo/utils.go:168-187: the loop of `ByteSlicesToNodeIDs`; `seen` is the map and the list built so far. -/
def toIdsLoop : List Bytes → List Bytes → Res (List Bytes)
  | seen, [] => .ok seen
  | seen, b :: bs =>
    if b.length ≠ 64 then .err
    else if goCopy (List.replicate 64 0) b ∈ seen then .err
    else toIdsLoop (seen ++ [goCopy (List.replicate 64 0) b]) bs

/-- /repo/utils.go:168-187 `ByteSlicesToNodeIDs` (`BytesToNodeID` of 64 bytes copies them, see `NodeID.SetBytes`,
/repo/basic.go:406-411). -/
def byteSlicesToNodeIDs (bss : List Bytes) : Res (List Bytes) :=
  if bss.length = 0 then .ok [] else toIdsLoop [] bss

/-! ### Comparisons of possibly nil things -/

/-- /repo/basic.go:421-432 `NodeID.Compare`. -/
def nodeIdCompare : Option Bytes → Option Bytes → Int
  | none, none => 0
  | none, some _ => -1
  | some _, none => 1
  | some a, some b => bytesCompare a b

/-- /repo/utils.go:125-137 `PointerCompare`: the verdict and whether the objects themselves must be compared. -/
def pointerCompare {α : Type} : Option α → Option α → Int × Bool
  | none, none => (0, false)
  | none, some _ => (-1, false)
  | some _, none => (1, false)
  | some _, some _ => (0, true)

/-- /repo/utils.go:153-158: the element loop of `CompareSlices`. -/
def compareLoop {α : Type} (cmp : α → α → Int) : List α → List α → Int
  | x :: xs, y :: ys => if cmp x y ≠ 0 then cmp x y else compareLoop cmp xs ys
  | _, _ => 0

/-- /repo/utils.go:139-166 `CompareSlices`; `none` is the nil slice. -/
def compareSlices {α : Type} (cmp : α → α → Int) : Option (List α) → Option (List α) → Int
  | none, none => 0
  | none, some _ => -1
  | some _, none => 1
  | some a, some b =>
    if a.length = 0 ∧ b.length = 0 then 0
    else if a.length = b.length then compareLoop cmp a b
    else if a.length < b.length then -1 else 1

/-! ### NodeIDSet -/

/-- /repo/basic.go:71-75 `NodeIDSet`: index by id, and the list (the lock is left out: sequential use). -/
structure NodeSet where
  m : Bytes → Option Nat
  l : List Bytes

/-- `m[k] = v`. -/
def mapSet (m : Bytes → Option Nat) (k : Bytes) (v : Nat) : Bytes → Option Nat := fun x => if x = k then some v else m x

/-- `delete(m, k)`. -/
def mapDel (m : Bytes → Option Nat) (k : Bytes) : Bytes → Option Nat := fun x => if x = k then none else m x

/-- The empty set, /repo/basic.go:580-585. -/
def NodeSet.empty : NodeSet := ⟨fun _ => none, []⟩

/-- /repo/basic.go:624-637 `Put` of a non-nil id. -/
def NodeSet.put (s : NodeSet) (id : Bytes) : NodeSet × Bool :=
  match s.m id with
  | some _ => (s, false)
  | none => (⟨mapSet s.m id s.l.length, s.l ++ [id]⟩, true)

/-- /repo/basic.go:639-652 `Delete` of a non-nil id; slicing past the end panics. -/
def NodeSet.delete (s : NodeSet) (id : Bytes) : Res NodeSet :=
  match s.m id with
  | none => .ok s
  | some i =>
    if i + 1 > s.l.length then .panic
    else .ok ⟨mapDel s.m id, (goCopyAt s.l i (s.l.drop (i + 1))).take (s.l.length - 1)⟩

/-- /repo/basic.go:610-616 `Swap` of two positions in range. -/
def NodeSet.swap (s : NodeSet) (i j : Nat) : NodeSet :=
  ⟨mapSet (mapSet s.m (s.l.getD i []) j) (s.l.getD j []) i, (s.l.set i (s.l.getD j [])).set j (s.l.getD i [])⟩

/-- `sort.Sort(set)`: some swaps in range, after which the list is in order. -/
inductive Swaps : NodeSet → NodeSet → Prop where
  | refl (s : NodeSet) : Swaps s s
  | step {s t : NodeSet} (i j : Nat) (hi : i < s.l.length) (hj : j < s.l.length) : Swaps (s.swap i j) t → Swaps s t

/-- `sort.Sort(set)`, whatever algorithm. -/
def Sorts (s t : NodeSet) : Prop := Swaps s t ∧ t.l.Pairwise fun a b => ¬ bytesCompare b a < 0

/-- /repo/basic.go:588-596: the loop of `NewNodeIDSet`. -/
def newLoop (s : NodeSet) : List Bytes → NodeSet
  | [] => s
  | x :: xs =>
    match s.m x with
    | some _ => newLoop s xs
    | none => newLoop ⟨mapSet s.m x s.l.length, s.l ++ [x]⟩ xs

/-- /repo/basic.go:579-602 `NewNodeIDSet` with non-nil ids. -/
def NewSet (ids : List Bytes) (t : NodeSet) : Prop :=
  if ids.length = 0 then t = NodeSet.empty else Sorts (newLoop NodeSet.empty ids) t

/-- /repo/basic.go:661-669 `GetIndex` of a non-nil id. -/
def NodeSet.getIndex (s : NodeSet) (id : Bytes) : Option Nat := s.m id

/-- /repo/basic.go:671-682 `GetNodeIDs`: the set is sorted in place; the result starts out as a slice of zero ids. -/
def GetNodeIDs (s : NodeSet) (t : NodeSet) (out : List Bytes) : Prop :=
  if s.l.length > 0 then Sorts s t ∧ out = List.replicate s.l.length (List.replicate 64 0) ++ t.l
  else t = s ∧ out = []

/-! ### Data node lists of `ChainInfos` -/

/-- /repo/chaininfo.go:788-803 `AddDataNode`. -/
def addData (l : List Bytes) (node : Bytes) : List Bytes × Bool :=
  if l.length = 0 then (l ++ [node], true)
  else if l[lowerBound bytesCompare l node]? = some node then (l, false)
  else (sortCmp bytesCompare (l ++ [node]), true)

/-- /repo/chaininfo.go:805-821 `RemoveDataNode`. -/
def removeData (l : List Bytes) (node : Bytes) : List Bytes × Bool :=
  if l.length = 0 then (l, true)
  else if l[lowerBound bytesCompare l node]? = some node then
    (goCopyAt (goCopy (List.replicate (l.length - 1) []) (l.take (lowerBound bytesCompare l node)))
      (lowerBound bytesCompare l node) (l.drop (lowerBound bytesCompare l node + 1)), true)
  else (l, false)

/-- /repo/chaininfo.go:894-905 `HasDataNode`. -/
def hasData (l : List Bytes) (nid : Bytes) : Bool :=
  if l.length = 0 then false
  else match l[lowerBound bytesCompare l nid]? with
    | none => false
    | some x => bytesCompare x nid == 0

/-- /repo/chaininfo.go:734-744 `ChainInfos.Index`, from position `k`. -/
def indexLoop : List Bytes → Bytes → Nat → Int
  | [], _, _ => -1
  | x :: xs, nid, k => if bytesCompare nid x = 0 then k else indexLoop xs nid (k + 1)

/-- /repo/chaininfo.go:827-854 `GetAuditorMap`, `GetAuditorIds`. -/
def auditorIds (order : List Bytes → List Bytes) (genesis datas auditors : List Bytes) : List Bytes :=
  if (order (setAddAll (setAddAll (setAddAll [] genesis) datas) auditors)).length > 1 then
    sortCmp bytesCompare (order (setAddAll (setAddAll (setAddAll [] genesis) datas) auditors))
  else order (setAddAll (setAddAll (setAddAll [] genesis) datas) auditors)

/-! ### Boot nodes -/

/-- A boot node: its id string and the remaining fields. -/
structure Boot where
  idString : Bytes
  rest : Nat
  deriving DecidableEq, Repr

/-- The key of the search in `AddBootNode`. -/
def bootSearch (l : List Boot) (key : Bytes) : Nat :=
  search l.length fun i => match l[i]? with
    | some b => decide (bytesCompare b.idString key ≥ 0)
    | none => true

/-- /repo/chaininfo.go:746-763 `AddBootNode`; `sort.Slice` leaves any ascending rearrangement. -/
def AddBoot (l : List Boot) (b : Boot) (l' : List Boot) (flag : Bool) : Prop :=
  if l.length = 0 then l' = l ++ [b] ∧ flag = true
  else if (l[bootSearch l b.idString]?).map Boot.idString = some b.idString then l' = l ∧ flag = false
  else l'.Perm (l ++ [b]) ∧ l'.Pairwise (fun x y => bytesCompare x.idString y.idString ≤ 0) ∧ flag = true

/-- /repo/chaininfo.go:770-773: the search in `RemoveBootNode` compares decoded ids. -/
def bootSearchDecoded (l : List Boot) (node : Bytes) : Nat :=
  search l.length fun i => match l[i]? with
    | some b => decide (bytesCompare (Hex.hexDecode b.idString).1 node ≥ 0)
    | none => true

/-- /repo/chaininfo.go:765-786 `RemoveBootNode`. -/
def removeBoot (l : List Boot) (node : Bytes) : List Boot × Bool :=
  if l.length = 0 then (l, true)
  else if (l[bootSearchDecoded l node]?).map (fun b => (Hex.hexDecode b.idString).1) = some node then
    (l.take (bootSearchDecoded l node) ++ l.drop (bootSearchDecoded l node + 1), true)
  else (l, false)

/-! ### Data server serialization -/

/-- `strconv.Itoa` of a non-negative number: its decimal digits. -/
def itoa (n : Nat) : Bytes :=
  if n < 10 then [UInt8.ofNat (48 + n)] else itoa (n / 10) ++ [UInt8.ofNat (48 + n % 10)]
termination_by n

/-- The fields of a data server that are hashed, in the order of /repo/chaininfo.go:980-988. -/
structure Server where
  chain : Nat
  nid : Bytes
  ip : Bytes
  basic : Nat
  cons0 : Nat
  cons1 : Nat
  data0 : Nat
  data1 : Nat
  rpc : Nat
  deriving DecidableEq, Repr

/-- /repo/chaininfo.go:979-992 `Dataserver.hashSerialize`: the fields joined without separator. -/
def Server.hashSerialize (d : Server) : Bytes :=
  itoa d.chain ++ d.nid ++ d.ip ++ itoa d.basic ++ itoa d.cons0 ++ itoa d.cons1 ++ itoa d.data0 ++ itoa d.data1 ++
    itoa d.rpc

/-! ### Chain attributes -/

/-- /repo/chaininfo.go:235-246: the three attributes `POC`, `REWARD`, `NOGAS`. -/
def validAttrs : List Bytes := [[80, 79, 67], [82, 69, 87, 65, 82, 68], [78, 79, 71, 65, 83]]

/-- /repo/chaininfo.go:248-251 `IsValid`. -/
def attrValid (a : Bytes) : Bool := decide (a ∈ validAttrs)

/-- /repo/chaininfo.go:274-281 `Contains`. -/
def attrContains (l : List Bytes) (a : Bytes) : Bool := contains l a

/-- /repo/chaininfo.go:294-303: the adding loop. -/
def attrLoop : List Bytes → List Bytes → List Bytes
  | l, [] => l
  | l, a :: as =>
    if l.length = 0 then attrLoop (l ++ [a]) as
    else if !attrContains l a then attrLoop (sortCmp bytesCompare (l ++ [a])) as
    else attrLoop (sortCmp bytesCompare l) as

/-- /repo/chaininfo.go:284-305 `Add` on a non-nil receiver. -/
def attrAdd (l : List Bytes) (attrs : List Bytes) : Res (List Bytes) :=
  if attrs.any (fun a => !attrValid a) then .err else .ok (attrLoop l attrs)

/-- /repo/chaininfo.go:326-335 `ToMap` of a non-nil list. -/
def attrToMap (l : List Bytes) : List Bytes := setAddAll [] l

/-- /repo/chaininfo.go:337-356 `FromMap`. -/
def attrFromMap (order : List Bytes → List Bytes) (m : List Bytes) : List Bytes :=
  if m.length = 0 then []
  else if (order m).length > 1 then sortCmp bytesCompare (order m) else order m

/-! ### Chain structures -/

/-- The chain modes; any other byte is not a mode (/repo/chaininfo.go). -/
inductive Mode where
  | root | branch | shard | other
  deriving DecidableEq, Repr

/-- `ChainStruct`. -/
structure ChainStruct where
  id : UInt32
  parent : UInt32
  mode : Mode
  deriving DecidableEq, Repr

/-- /repo/chaininfo.go:585-605 `NewChainStruct`; the package variable `StandAlone` is a parameter. -/
def newChainStruct (standAlone : Bool) (id parent : UInt32) : Res ChainStruct :=
  if id = Num.nilChainID then .err
  else if parent = Num.nilChainID then
    if id = 0 then .ok ⟨id, parent, .root⟩
    else if standAlone then .ok ⟨id, parent, .branch⟩
    else .err
  else if parent = 0 then .ok ⟨id, parent, .branch⟩
  else .ok ⟨id, parent, .shard⟩

/-- /repo/chaininfo.go:607-628 `ChainStruct.Validate`. -/
def ChainStruct.validate (s : ChainStruct) : Res Unit :=
  match s.mode with
  | .root => if s.id ≠ 0 ∨ s.parent ≠ Num.nilChainID then .err else .ok ()
  | .branch =>
    if s.id = 0 ∨ s.parent = Num.nilChainID then .err
    else if s.parent ≠ 0 then .err else .ok ()
  | .shard =>
    if s.id = 0 ∨ s.parent = Num.nilChainID then .err
    else if s.parent = 0 then .err else .ok ()
  | .other => .err

end Verif.Nodes

import Verif.Trie.Hash
import Verif.Trie.Codec

/-!
# The history tree (`/repo/trie/historytree.go`)

A value is stored for every key 0, 1, 2, …; the tree has 16 levels of nodes, each node is a binary tree of 4 levels over 16
children (or leaf values).  `H` is the digest.

Simplifications:
* the adapter is a partial map from hashes to bytes; `Load` of a missing key returns nothing without error, as the
  databases do; `Save` fails for the keys chosen by `F`;
* the external codec of arrays of byte strings and of the record `serialNode` is a parameter (`HCodec`); nil and empty byte
  strings are told apart by `Option`;
* `Branchs` is a partial map from bit strings; its entries are never nil; entries at prefixes of more than 3 bits are never
  made by the code;
* the lock is omitted, every call is one step (`HTree/Has.lean` has the locks of `Has` and `Get`);
* the nil receiver is `TNode.nil`.
-/

namespace Verif.HTree
open Verif Verif.Merkle Verif.Trie

/-- The fields of `TreeNode` besides the children (`/repo/trie/historytree.go:590-596`). -/
structure TInfo where
  dirty : Bool
  leaf : Bool
  br : List Bool → Option Bytes
  leafs : Nib → Option Bytes

/-- `TreeNode` (`/repo/trie/historytree.go:590-596`); `nil` is the nil pointer. -/
inductive TNode where
  | nil
  | mk (i : TInfo) (c : Nib → TNode)

/-- Not the nil pointer. -/
def TNode.isSome : TNode → Bool
  | .nil => false
  | .mk _ _ => true

/-- What is stored for a node: the values of a full node, or a whole `serialNode`
(`/repo/trie/historytree.go:871-875`). -/
structure HCodec where
  encSlots : (Nib → Option Bytes) → Bytes
  decSlots : Bytes → Option (Nib → Option Bytes)
  encNode : Bool → (List Bool → Option Bytes) → (Nib → Option Bytes) → Bytes
  decNode : Bytes → Option (Bool × (List Bool → Option Bytes) × (Nib → Option Bytes))

/-- The binary prefixes of less than four bits. -/
def prefixes : List (List Bool) :=
  [[], [false], [true], [false, false], [false, true], [true, false], [true, true],
    [false, false, false], [false, false, true], [false, true, false], [false, true, true],
    [true, false, false], [true, false, true], [true, true, false], [true, true, true]]

/-- The digest, the codec, the keys for which `Save` fails. -/
structure HEnv where
  H : Bytes → Bytes
  C : HCodec
  F : Bytes → Bool

abbrev HDisk := Bytes → Option Bytes

/-- `ToBinary(index, 4)` (`/repo/trie/historytree.go:624-634`). -/
def bits4 (j : Nib) : List Bool := [j.val.testBit 3, j.val.testBit 2, j.val.testBit 1, j.val.testBit 0]

/-- `ToByte` (`/repo/trie/historytree.go:638-651`) for at most eight bits. -/
def ofBits (bs : List Bool) : Nat := bs.foldl (fun n b => 2 * n + b.toNat) 0

/-- The index that four bits stand for. -/
def nibOf (bs : List Bool) : Nib := ⟨ofBits bs % 16, by omega⟩

/-- `NewTreeNode` (`/repo/trie/historytree.go:598-602`), with the leaf flag. -/
def newTNode (leaf : Bool) : TNode := .mk ⟨false, leaf, fun _ => none, fun _ => none⟩ fun _ => .nil

/-- A node that holds only its root hash: `putValue(nil, hash)` on a new node (`/repo/trie/historytree.go:1097-1117`). -/
def closed (h : Bytes) : TNode := .mk ⟨false, false, fun p => if p = [] then some h else none, fun _ => none⟩ fun _ => .nil

/-- `hasChild` (`/repo/trie/historytree.go:678-685`). -/
def hasChild (c : Nib → TNode) : Bool := nibbles.any fun j => (c j).isSome

/-- `hasLeaf` (`/repo/trie/historytree.go:728-735`). -/
def TInfo.hasLeaf (i : TInfo) : Bool := nibbles.any fun j => (i.leafs j).isSome

/-- `isCollapsed` (`/repo/trie/historytree.go:785-800`). -/
def isCollapsed (i : TInfo) (c : Nib → TNode) : Bool :=
  (prefixes.filter fun p => (i.br p).isSome).length == 1 && (i.br []).isSome &&
    ((i.leaf && !i.hasLeaf) || (!i.leaf && !hasChild c))

/-- The children made of their hashes (`/repo/trie/historytree.go:910-917, 1645-1655`). -/
def kidsOf (s : Nib → Option Bytes) : Nib → TNode := fun j =>
  match s j with
  | none => .nil
  | some h => closed h

/-- A node as read from storage (`fromSerialNode`, `decodeDescendants`, `/repo/trie/historytree.go:899-921, 1637-1657`). -/
def ofParts (leaf : Bool) (br : List Bool → Option Bytes) (s : Nib → Option Bytes) : TNode :=
  if leaf then .mk ⟨false, true, br, s⟩ fun _ => .nil else .mk ⟨false, false, br, fun _ => none⟩ (kidsOf s)

/-- `readFull` (`/repo/trie/historytree.go:1028-1073`) for a node with the given leaf flag: the node and whether it
succeeded. -/
def readFull (E : HEnv) (D : HDisk) (leaf : Bool) (root : Bytes) : TNode × Bool :=
  if root = [] ∨ root = nilHash E.H then (newTNode leaf, true)
  else
    match D root with
    | none => (newTNode leaf, true)
    | some [] => (newTNode leaf, true)
    | some (t :: body) =>
      if t = 1 then
        match E.C.decSlots body with
        | none => (newTNode true, false)
        | some s => (ofParts true (fun _ => none) s, true)
      else if t = 0 then
        match E.C.decSlots body with
        | none => (newTNode false, false)
        | some s => (ofParts false (fun _ => none) s, true)
      else if t = 0xff then
        match E.C.decNode body with
        | none => (newTNode leaf, false)
        | some (l, br, s) => (ofParts l br s, true)
      else (newTNode leaf, false)

/-- `expand` (`/repo/trie/historytree.go:808-819`) if the node is collapsed, as every traversal does. -/
def opened (E : HEnv) (D : HDisk) : TNode → TNode × Bool
  | .nil => (.nil, true)
  | .mk i c =>
    if isCollapsed i c then
      match i.br [] with
      | none => (.mk i c, false)
      | some root => if root = [] then (.mk i c, false) else readFull E D i.leaf root
    else (.mk i c, true)

/-! ### Hashes -/

/-- The branch cache of a node, and which children have been asked for their hash. -/
structure HState where
  br : List Bool → Option Bytes
  seen : Nib → Bool

/-- `HashAtPrefix` (`/repo/trie/historytree.go:1345-1420`) for a prefix that is `d` bits above the slots, over the hashes of
the slots (`LeafHash`, lines 1422-1434; outer `none` is an error): hash, `leftIsNil`, `rightIsNil`. -/
def hashPfx (H : Bytes → Bytes) (slot : Nib → Option (Option Bytes)) :
    Nat → List Bool → HState → HState × Option (Option Bytes × Bool × Bool)
  | 0, p, st => (⟨st.br, fun j => st.seen j || j == nibOf p⟩, (slot (nibOf p)).map fun h => (h, false, false))
  | d + 1, p, st =>
    match st.br p with
    | some r => (st, some (some r, false, false))
    | none =>
      let L := hashPfx H slot d (p ++ [false]) st
      match L.2 with
      | none => (L.1, none)
      | some (left, lln, lrn) =>
        if lln && !lrn then (L.1, none)
        else
          let R := hashPfx H slot d (p ++ [true]) L.1
          match R.2 with
          | none => (R.1, none)
          | some (right, rln, rrn) =>
            if rln && !rrn then (R.1, none)
            else if lrn && right.isSome then
              (if lln then R.1 else ⟨fun q => if q = p ++ [false] then none else R.1.br q, R.1.seen⟩, none)
            else
              match left, right with
              | none, none => (R.1, some (none, true, true))
              | none, some _ => (R.1, none)
              | some x, right =>
                let h := hashPair H x (right.getD (nilHash H))
                (⟨fun q => if q = p then some h else R.1.br q, R.1.seen⟩, some (some h, false, right.isNone))

/-- The children whose hash was asked for are replaced by what hashing made of them. -/
def settle (leaf : Bool) (seen : Nib → Bool) (c c' : Nib → TNode) : Nib → TNode := fun j =>
  if leaf then c j else if seen j then c' j else c j

/-- `HashAtPrefix(nil)` of a node (`/repo/trie/historytree.go:1345-1420`): the node with its caches, and the hash (outer
`none` is an error, inner `none` the nil slice). -/
def hashNode (H : Bytes → Bytes) : TNode → TNode × Option (Option Bytes)
  | .nil => (.nil, some none)
  | .mk i c =>
    let r := hashPfx H (fun j => if i.leaf then some (i.leafs j) else (hashNode H (c j)).2) 4 [] ⟨i.br, fun _ => false⟩
    (.mk { i with br := r.1.br } (settle i.leaf r.1.seen c fun j => (hashNode H (c j)).1), r.2.map fun x => x.1)

/-- The hashes of the slots of a node (`LeafHash`, `/repo/trie/historytree.go:1422-1434`). -/
def slotsOf (H : Bytes → Bytes) (i : TInfo) (c : Nib → TNode) : Nib → Option (Option Bytes) := fun j =>
  if i.leaf then some (i.leafs j) else (hashNode H (c j)).2

/-! ### Append and Get -/

/-- `clearAncestors` (`/repo/trie/historytree.go:1076-1095`) for the four bits of an index. -/
def clearAnc (j : Nib) (br : List Bool → Option Bytes) : List Bool → Option Bytes := fun p =>
  if p <+: (bits4 j).take 3 then none else br p

/-- A child replaced. -/
def setKid (c : Nib → TNode) (j : Nib) (n : TNode) : Nib → TNode := fun k => if k = j then n else c k

/-- The node with a changed slot: ancestors cleared, dirty. -/
def TInfo.touch (i : TInfo) (j : Nib) : TInfo := { i with br := clearAnc j i.br, dirty := true }

/-- `traceDescendant` (`/repo/trie/historytree.go:1248-1317`) for appending, from the nibble at hand on: the node, and
whether it changed (`none` is an error). -/
def appendAt (E : HEnv) (D : HDisk) : List Nib → TNode → Bytes → TNode × Option Bool
  | [], n, _ => (n, some false)
  | j :: q, n, v =>
    let e := opened E D n
    if e.2 = false then (e.1, none)
    else
      match e.1 with
      | .nil => (.nil, some false)
      | .mk i c =>
        if q = [] then
          if i.leaf = false then (.mk i c, none)
          else if isCollapsed i c || v == [] then (.mk i c, none)
          else (.mk { i.touch j with leafs := fun k => if k = j then some v else i.leafs k } c, some true)
        else if i.leaf then (.mk i c, none)
        else if (c j).isSome then
          let r := appendAt E D q (c j) v
          match r.2 with
          | some true => (.mk (i.touch j) (setKid c j r.1), some true)
          | o => (.mk i (setKid c j r.1), o)
        else
          let r := appendAt E D q (newTNode (q.length == 1)) v
          match r.2 with
          | none => (.mk i c, none)
          | some _ => (.mk (i.touch j) (setKid c j r.1), some true)

/-- `traceDescendant` (`/repo/trie/historytree.go:1248-1317`) for reading: the node and the value (outer `none` is an
error). -/
def getAt (E : HEnv) (D : HDisk) : List Nib → TNode → TNode × Option (Option Bytes)
  | [], n => (n, some none)
  | j :: q, n =>
    let e := opened E D n
    if e.2 = false then (e.1, none)
    else
      match e.1 with
      | .nil => (.nil, some none)
      | .mk i c =>
        if q = [] then
          if i.leaf = false then (.mk i c, none) else (.mk i c, some (i.leafs j))
        else if i.leaf then (.mk i c, none)
        else if (c j).isSome then
          let r := getAt E D q (c j)
          (.mk i (setKid c j r.1), r.2)
        else (.mk i c, some none)

/-! ### Proofs -/

/-- The bits of a prefix with the last one inverted. -/
def sibling (j : Nib) (t : Nat) : List Bool := (bits4 j).take t ++ [!(bits4 j).getD t false]

/-- The loop of `appendToProof` (`/repo/trie/historytree.go:1492-1525`): `t + 1` bits are left. -/
def proofUp (H : Bytes → Bytes) (slot : Nib → Option (Option Bytes)) (j : Nib) :
    Nat → HState → HState × Option (List (Bytes × Bool))
  | 0, st => (st, some [])
  | t + 1, st =>
    let r := hashPfx H slot (3 - t) (sibling j t) st
    match r.2 with
    | none => (r.1, none)
    | some (h, ln, rn) =>
      if (bits4 j).getD t false then
        match h with
        | none => (r.1, none)
        | some x =>
          if ln || rn then (r.1, none)
          else
            let u := proofUp H slot j t r.1
            (u.1, u.2.map fun l => (toHash x, true) :: l)
      else
        let u := proofUp H slot j t r.1
        (u.1, u.2.map fun l => (toHash (h.getD (nilHash H)), false) :: l)

/-- `appendToProof` (`/repo/trie/historytree.go:1441-1528`): the appended hashes with their order flags. -/
def proofItems (H : Bytes → Bytes) (slot : Nib → Option (Option Bytes)) (j : Nib) (st : HState) :
    HState × Option (List (Bytes × Bool)) :=
  let own := hashPfx H slot 0 (bits4 j) st
  let sib := hashPfx H slot 0 (sibling j 3) own.1
  match own.2, sib.2 with
  | some _, some (h, _, _) =>
    if (bits4 j).getD 3 false then
      match h with
      | none => (sib.1, none)
      | some x =>
        let u := proofUp H slot j 3 sib.1
        (u.1, u.2.map fun l => (toHash x, true) :: l)
    else
      let u := proofUp H slot j 3 sib.1
      (u.1, u.2.map fun l => (toHash (h.getD (nilHash H)), false) :: l)
  | _, _ => (sib.1, none)

/-- The proof part of one node on its fields. -/
def nodeItems (H : Bytes → Bytes) (i : TInfo) (c : Nib → TNode) (j : Nib) : TNode × Option (List (Bytes × Bool)) :=
  let r := proofItems H (slotsOf H i c) j ⟨i.br, fun _ => false⟩
  (.mk { i with br := r.1.br } (settle i.leaf r.1.seen c fun k => (hashNode H (c k)).1), r.2)

/-- `locateNode` and the loop of `GetProof` (`/repo/trie/historytree.go:229-280, 448-466`): the value and the hashes from
the leaf up; `none` is `ok == false`. -/
def proofAt (E : HEnv) (D : HDisk) : List Nib → TNode → TNode × Option (Bytes × List (Bytes × Bool))
  | [], n => (n, none)
  | j :: q, n =>
    let e := opened E D n
    if e.2 = false then (e.1, none)
    else
      match e.1 with
      | .nil => (.nil, none)
      | .mk i c =>
        if i.leaf then
          if q = [] then
            match i.leafs j with
            | none => (.mk i c, none)
            | some v =>
              let r := nodeItems E.H i c j
              (r.1, r.2.map fun l => (v, l))
          else (.mk i c, none)
        else if q = [] then (.mk i c, none)
        else if (c j).isSome then
          let r := proofAt E D q (c j)
          match r.2 with
          | none => (.mk i (setKid c j r.1), none)
          | some (v, l) =>
            let u := nodeItems E.H i (setKid c j r.1) j
            (u.1, u.2.map fun l' => (v, l ++ l'))
        else (.mk i c, none)

/-! ### Storage -/

/-- Every slot is used: `checkLeafs`, `checkChildren` (`/repo/trie/historytree.go:691-706, 741-756, 979-996`); otherwise the
whole node is saved. -/
def fullNode (i : TInfo) (c : Nib → TNode) : Bool :=
  nibbles.all fun j => if i.leaf then (i.leafs j).isSome else (c j).isSome

/-- What is written for the children (`toSerialNode`, `encodeDescendants`, `/repo/trie/historytree.go:877-899,
1609-1625`). -/
def slotHashes (H : Bytes → Bytes) (i : TInfo) (c : Nib → TNode) : Option (Nib → Option Bytes) :=
  if nibbles.all fun j => (slotsOf H i c j).isSome then some fun j => (slotsOf H i c j).getD none else none

/-- The bytes written. -/
def content (C : HCodec) (i : TInfo) (c : Nib → TNode) (s : Nib → Option Bytes) : Bytes :=
  if fullNode i c then (if i.leaf then 1 else 0) :: C.encSlots s else 0xff :: C.encNode i.leaf i.br s

/-- The children after their hashes were asked for. -/
def hashKids (H : Bytes → Bytes) (i : TInfo) (c : Nib → TNode) : Nib → TNode := fun j =>
  if i.leaf then c j else (hashNode H (c j)).1

/-- `saveFull` (`/repo/trie/historytree.go:964-1025`) for a dirty node, and the flag reset of `commitNode`: node, storage,
success. -/
def saveFull (E : HEnv) (D : HDisk) (n : TNode) : TNode × HDisk × Bool :=
  let h := hashNode E.H n
  match h.1, h.2 with
  | .nil, _ => (.nil, D, true)
  | .mk i c, none => (.mk i c, D, false)
  | .mk i c, some none => (.mk { i with dirty := false } c, D, true)
  | .mk i c, some (some root) =>
    match slotHashes E.H i c with
    | none => (.mk i (hashKids E.H i c), D, false)
    | some s =>
      if E.F root then (.mk i (hashKids E.H i c), D, false)
      else (.mk { i with dirty := false } (hashKids E.H i c),
        fun k => if k = root then some (content E.C i c s) else D k, true)

/-- The state of the loop over the children in `commitNode`. -/
structure CLoop where
  c : Nib → TNode
  D : HDisk
  ok : Bool

/-- `isDirty` of a child that is not nil. -/
def TNode.dirty : TNode → Bool
  | .nil => false
  | .mk i _ => i.dirty

/-- `commitNode` (`/repo/trie/historytree.go:845-866`): node, storage, success. -/
def commitNode (E : HEnv) : TNode → HDisk → TNode × HDisk × Bool
  | .nil, D => (.nil, D, true)
  | .mk i c, D =>
    if i.dirty = false then (.mk i c, D, true)
    else if i.leaf then saveFull E D (.mk i c)
    else
      let s := nibbles.foldl (fun (s : CLoop) j =>
        if s.ok && (c j).dirty then
          let r := commitNode E (c j) s.D
          ⟨setKid s.c j r.1, r.2.1, r.2.2⟩
        else s) ⟨c, D, true⟩
      if s.ok then saveFull E s.D (.mk i s.c) else (.mk i s.c, s.D, false)

/-- `collapse` (`/repo/trie/historytree.go:821-843`) of a clean node; the flag is the success. -/
def collapseNode (H : Bytes → Bytes) : TNode → TNode × Bool
  | .nil => (.nil, true)
  | .mk i c =>
    if isCollapsed i c then (.mk i c, true)
    else
      let h := hashNode H (.mk i c)
      match h.2 with
      | none => (h.1, false)
      | some o => (.mk ⟨false, i.leaf, fun p => if p = [] then o else none, fun _ => none⟩ fun _ => .nil, true)

/-- `locateNode` and the end of `CollapseBefore` (`/repo/trie/historytree.go:229-280, 360-379`) along the nibbles up to the
last one that is not zero. -/
def collapseAt (E : HEnv) (D : HDisk) : List Nib → TNode → TNode × Res Unit
  | [], n => (n, .err)
  | j :: q, n =>
    let e := opened E D n
    if e.2 = false then (e.1, .err)
    else
      match e.1 with
      | .nil => (.nil, .err)
      | .mk i c =>
        if i.leaf then (.mk i c, .err)
        else if (c j).isSome = false then (.mk i c, .err)
        else if q = [] then
          if j.val = 0 then (.mk i c, .err)
          else if (c (j - 1)).isSome = false then (.mk i c, .panic)
          else if (c (j - 1)).dirty then (.mk i c, .err)
          else
            let r := collapseNode E.H (c (j - 1))
            (.mk i (setKid c (j - 1) r.1), if r.2 then .ok () else .err)
        else
          let r := collapseAt E D q (c j)
          (.mk i (setKid c j r.1), r.2)

/-! ### The tree -/

/-- `HistoryTree` (`/repo/trie/historytree.go:40-45`) with its storage; no root is `TNode.nil`. -/
structure Tree where
  expecting : UInt64
  root : TNode
  D : HDisk

/-- `heightToPrefix` (`/repo/trie/historytree.go:152-159`). -/
def heightToPrefix (k : UInt64) : List Nib := keyToPrefix (natBE 8 k.toNat)

/-- `prefixToHeight` (`/repo/trie/historytree.go:161-167`); nibbles are bytes, `none` is an error. -/
def prefixToHeight (p : Bytes) : Option UInt64 :=
  if p.length ≠ 16 then none else some (UInt64.ofNat (beNat ((prefixToKey p).take 8)))

/-- The loop of `rightmostChild` and `rightmostLeaf` (`/repo/trie/historytree.go:709-726, 758-775`) over the remaining
slots. -/
def rightmost (has : Nib → Bool) : Bool → Option Nib → List Nib → Option Nib
  | _, r, [] => r
  | check, r, j :: js => if has j then rightmost has true (some j) js else if check then r else rightmost has check r js

/-- `findRightmost` (`/repo/trie/historytree.go:169-211`), at most `f` nodes: the root with the nodes read, and the
nibbles (`none` is an error). -/
def findRightmost (E : HEnv) (D : HDisk) (check : Bool) : Nat → TNode → TNode × Option (List Nib)
  | 0, n => (n, none)
  | f + 1, n =>
    let e := opened E D n
    if e.2 = false then (e.1, none)
    else
      match e.1 with
      | .nil => (.nil, none)
      | .mk i c =>
        if i.leaf then (.mk i c, (rightmost (fun j => (i.leafs j).isSome) check none nibbles).map fun j => [j])
        else
          match rightmost (fun j => (c j).isSome) check none nibbles with
          | none => (.mk i c, none)
          | some j =>
            let r := findRightmost E D check f (c j)
            (.mk i (setKid c j r.1), r.2.map fun q => j :: q)

/-- `_newHistoryTree` (`/repo/trie/historytree.go:69-99`); `none` is an error. -/
def openTree (E : HEnv) (D : HDisk) (rootHash : Bytes) (check : Bool) : Option Tree :=
  if rootHash.length ≠ 32 ∨ rootHash = nilHash E.H then some ⟨0, .nil, D⟩
  else
    let r := findRightmost E D check 16 (closed rootHash)
    r.2.bind fun q => (prefixToHeight (q.map nibByte)).map fun h => ⟨h + 1, r.1, D⟩

/-- `Append` (`/repo/trie/historytree.go:382-413`): the tree and whether it succeeded. -/
def Tree.append (E : HEnv) (t : Tree) (key : UInt64) (v : Bytes) : Tree × Bool :=
  if key ≠ t.expecting then (t, false)
  else if v = [] then (t, false)
  else
    let root := if t.root.isSome then t.root else newTNode false
    let r := appendAt E t.D (heightToPrefix key) root v
    match r.2 with
    | none => ({ t with root := r.1 }, false)
    | some true => ({ t with root := r.1, expecting := t.expecting + 1 }, true)
    | some false => ({ t with root := r.1 }, true)

/-- `Get` (`/repo/trie/historytree.go:423-434`). -/
def Tree.get (E : HEnv) (t : Tree) (key : UInt64) : Tree × Option Bytes :=
  let r := getAt E t.D (heightToPrefix key) t.root
  ({ t with root := r.1 }, r.2.getD none)

/-- `HashValue` (`/repo/trie/historytree.go:325-329, 1325-1338`); `none` is an error. -/
def Tree.hash (E : HEnv) (t : Tree) : Tree × Option Bytes :=
  let r := hashNode E.H t.root
  ({ t with root := r.1 }, r.2.map fun h => h.getD (nilHash E.H))

/-- `GetProof` (`/repo/trie/historytree.go:436-470`). -/
def Tree.getProof (E : HEnv) (t : Tree) (key : UInt64) : Tree × Option (Bytes × List NodeProof) :=
  let r := proofAt E t.D (heightToPrefix key) t.root
  ({ t with root := r.1 }, r.2.map fun x =>
    (x.1, [newNodeProof proofMerkleOnly ⟨0, [], 0, 0⟩ none (some (x.2.foldl (fun p it => p.append it.1 it.2) newProofs))]))

/-- `Commit` (`/repo/trie/historytree.go:567-578`). -/
def Tree.commit (E : HEnv) (t : Tree) : Tree × Bool :=
  let r := commitNode E t.root t.D
  ({ t with root := r.1, D := r.2.1 }, r.2.2)

/-- The nibbles up to the last one that is not zero (`/repo/trie/historytree.go:351-356`). -/
def lastNonZero (p : List Nib) : List Nib := (p.reverse.dropWhile (· == 0)).reverse

/-- `CollapseBefore` (`/repo/trie/historytree.go:344-380`). -/
def Tree.collapseBefore (E : HEnv) (t : Tree) (key : UInt64) : Tree × Res Unit :=
  let p := lastNonZero (heightToPrefix key)
  if p.length = 16 ∨ p.length = 0 then (t, .ok ())
  else
    let r := collapseAt E t.D p t.root
    ({ t with root := r.1 }, r.2)

end Verif.HTree

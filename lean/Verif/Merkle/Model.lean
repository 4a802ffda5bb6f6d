import Verif.Base

/-!
# Model of the Merkle functions and Merkle proofs of /repo/hash.go

The digest (`SystemHash256`, Keccak-256, hash.go:683-708) is a parameter `H : Bytes → Bytes`; several arguments are
concatenated, as successive `Write`s to the hasher do.  `Hash` (a `[32]byte`) and `[]byte` digests are both `Bytes`;
Go `int`s are unbounded.
-/

namespace Verif.Merkle
open Verif

/-- /repo/basic.go:1465-1471, 1594-1598 `BytesToHash`: the last 32 bytes, left-padded with zeros. -/
def toHash (b : Bytes) : Bytes :=
  if b.length > 32 then b.drop (b.length - 32) else List.replicate (32 - b.length) 0 ++ b

/-- `NilHashSlice`: the digest of nothing (hash.go / consts.go). -/
def nilHash (H : Bytes → Bytes) : Bytes := H []

/-- /repo/hash.go:990-997 `HashPair`. -/
def hashPair (H : Bytes → Bytes) (a b : Bytes) : Bytes := H (a ++ b)

/-- /repo/hash.go:999-1005 `HashPairOrder`. -/
def hashPairOrder (H : Bytes → Bytes) (order : Bool) (a b : Bytes) : Bytes :=
  if order then H (a ++ b) else H (b ++ a)

/-! ### Repeat tables -/

/-- /repo/hash.go:39-42 `MoreTime`. -/
structure MoreTime where
  index : Int
  times : Int
  deriving DecidableEq, Repr

/-- /repo/hash.go:87-89 `MoreTime.IsValid`. -/
def MoreTime.valid (m : MoreTime) : Bool := decide (m.index ≥ 0) && decide (m.times > 0)

/-- `MoreTimes`, a slice: `none` is nil. -/
abbrev MoreTimes := Option (List MoreTime)

/-- The entries of a slice. -/
def MoreTimes.list (ms : MoreTimes) : List MoreTime := ms.getD []

/-- The loop of /repo/hash.go:119-136. -/
def validFrom : Int → List MoreTime → Bool
  | _, [] => true
  | last, m :: ms => m.valid && !(decide (last ≥ m.index)) && validFrom m.index ms

/-- /repo/hash.go:119-136 `MoreTimes.IsValid`. -/
def MoreTimes.isValid : MoreTimes → Bool
  | none => true
  | some [] => false
  | some ms => validFrom 0 ms

/-- /repo/hash.go:170-192 `MoreTimes.Append`. -/
def MoreTimes.append (ms : MoreTimes) (index : Int) : MoreTimes :=
  if index < 0 then ms
  else match ms.list.getLast? with
    | none => some [⟨index, 1⟩]
    | some last =>
      if last.index = index then some (ms.list.dropLast ++ [⟨last.index, last.times + 1⟩])
      else if last.index < index then some (ms.list ++ [⟨index, 1⟩])
      else ms

/-- /repo/hash.go:194-205 `MoreTimes.Count`. -/
def MoreTimes.count (ms : MoreTimes) : Int :=
  ms.list.foldl (fun c m => if m.times > 0 then c + m.times else c) 0

/-- /repo/hash.go:95-104 `MoreTime._border`: `(a, b)` of the border of `m`. -/
def border (m prev : MoreTime) (prevB : Int) : Int × Int :=
  if !prev.valid then (m.index, m.index + m.times)
  else (prevB + m.index - prev.index, prevB + m.index - prev.index + m.times)

/-- The loop of /repo/hash.go:208-227. -/
def hashsIndexLoop (f : Int) : MoreTime → Int → List MoreTime → Int
  | last, lastB, [] => f - lastB + last.index
  | last, lastB, m :: ms =>
    let b := border m last lastB
    if f < b.1 then f - lastB + last.index
    else if f ≤ b.2 then m.index
    else hashsIndexLoop f m b.2 ms

/-- /repo/hash.go:208-227 `MoreTimes.GetHashsIndex`. -/
def MoreTimes.hashsIndex (ms : MoreTimes) (f : Int) : Int :=
  if ms.list.length = 0 ∨ f ≤ 0 then f else hashsIndexLoop f ⟨0, 0⟩ 0 ms.list

/-! ### Merkle proofs -/

/-- /repo/hash.go:255-266 `MerkleProofs`.  `Paths` is a non-negative, non-nil `big.Int`. -/
structure Proofs where
  hashs : List Bytes
  paths : Nat
  repeats : MoreTimes
  deriving DecidableEq

/-- /repo/hash.go:268-272 `NewMerkleProofs`. -/
def newProofs : Proofs := ⟨[], 0, none⟩

/-- /repo/hash.go:309-314 `MerkleProofs.Len`. -/
def Proofs.len (p : Proofs) : Int := p.hashs.length + p.repeats.count

/-- /repo/hash.go:333-347 `MerkleProofs.Append`.  `SetBit(i, 1)` is `||| 2^i`. -/
def Proofs.append (p : Proofs) (h : Bytes) (order : Bool) : Proofs :=
  let p1 : Proofs :=
    if p.hashs.getLast? = some h then { p with repeats := p.repeats.append ((p.hashs.length : Int) - 1) }
    else { p with hashs := p.hashs ++ [h] }
  if order then { p1 with paths := p1.paths ||| 2 ^ ((p1.hashs.length : Int) + p1.repeats.count - 1).toNat } else p1

/-- /repo/hash.go:351-360 `MerkleProofs.Order`. -/
def Proofs.order (p : Proofs) (i : Nat) : Bool := p.paths.testBit i

/-- The inner `for it.hasMore() && i > cursor.Index` loop of /repo/hash.go:362-391 (`none`: the error return). -/
def advance (i : Int) : MoreTime → List MoreTime → Option (MoreTime × List MoreTime)
  | c, [] => some (c, [])
  | c, m :: ms => if i > c.index then (if m.valid then advance i m ms else none) else some (c, m :: ms)

/-- /repo/hash.go:362-391 `_hashsIterate`: the `(hash, times)` pairs handed to the callback, in order. -/
def hashsIterate : Int → MoreTime → List MoreTime → List Bytes → Option (List (Bytes × Nat))
  | _, _, _, [] => some []
  | i, c, ms, h :: hs =>
    match advance i c ms with
    | none => none
    | some (c', ms') =>
      match hashsIterate (i + 1) c' ms' hs with
      | none => none
      | some rest => some ((h, if c'.index = i then (c'.times + 1).toNat else 1) :: rest)

/-- Positions of the expanded list: /repo/hash.go:394-408 `Iterate` numbers the expanded hashes consecutively and
asks `Order` for each. -/
def expand (p : Proofs) : Nat → List (Bytes × Nat) → List (Bytes × Bool)
  | _, [] => []
  | k, (h, n) :: rest => (List.range n).map (fun j => (h, p.order (k + j))) ++ expand p (k + n) rest

/-- /repo/hash.go:394-425 `Iterate` / `ToItems`: the visited `(hash, order)` pairs; `none` is the error. -/
def Proofs.items (p : Proofs) : Option (List (Bytes × Bool)) :=
  (hashsIterate 0 ⟨-1, 0⟩ p.repeats.list p.hashs).map (expand p 0)

/-- The callback of `Proof` (hash.go:427-439) folded over the visited pairs. -/
def evalItems (H : Bytes → Bytes) (items : List (Bytes × Bool)) (h : Bytes) : Bytes :=
  items.foldl (fun acc it => hashPairOrder H it.2 it.1 acc) h

/-- /repo/hash.go:427-439 `MerkleProofs.Proof`. -/
def Proofs.proof (H : Bytes → Bytes) (p : Proofs) (h : Bytes) : Option Bytes :=
  p.items.map (fun it => evalItems H it h)

/-- /repo/hash.go:442-457 `MerkleProofs.Get`; `none` is `ErrIllegalParams`. -/
def Proofs.get (p : Proofs) (f : Int) : Option (Bytes × Bool) :=
  if f < 0 then none
  else
    let i := p.repeats.hashsIndex f
    if i < 0 ∨ i ≥ p.hashs.length then none
    else some (p.hashs[i.toNat]?.getD [], p.paths.testBit f.toNat)

/-- /repo/hash.go:316-329 `MerkleProofs.BigKey`: writes the order bits into `key` from position `start`, returns the
new key and position.  (`SetBit(i, 0)` clears, `SetBit(i, 1)` sets.)  `nil` receivers do nothing. -/
def setBit (n i : Nat) (b : Bool) : Nat := if n.testBit i = b then n else n ^^^ 2 ^ i

/-- See `setBit`. -/
def Proofs.bigKey (p : Proofs) (key start : Nat) : Nat × Nat :=
  if p.hashs.length = 0 then (key, start)
  else ((List.range p.len.toNat).foldl (fun k i => setBit k (i + start) (p.paths.testBit i)) key,
        p.len.toNat + start)

/-! ### Merkle roots -/

/-- `max := 2; for max < len { max <<= 1 }` (hash.go:814-817, 868-871). -/
def growMax (max len : Nat) : Nat := if _h : 0 < max ∧ max < len then growMax (2 * max) len else max
termination_by len - max

/-- One appended proof element (hash.go:837-843, 896-902): `t` is the still non-negative `toBeProof`. -/
def addSibling (t : Int) (p1 p2 : Nat) (a b : Bytes) (pf : Option Proofs) : Option Proofs :=
  match pf with
  | none => none
  | some p =>
    if t ≥ 0 then
      if t = p1 then some (p.append (toHash b) false)
      else if t = p2 then some (p.append (toHash a) true)
      else some p
    else some p

/-- The variables of the loops of `MerkleHashComplete`.  `hashList` and `b` are slices; after the first level they
are the same slice (`hashList = b`), which is what `aliased` records: reads then see the writes to `b`. -/
structure CState where
  hashList : List Bytes
  b : List Bytes
  aliased : Bool
  proofs : Option Proofs

/-- /repo/hash.go:876-881 the closure `hashVal`. -/
def CState.hashVal (H : Bytes → Bytes) (s : CState) (p : Nat) : Bytes :=
  let l := if s.aliased then s.b else s.hashList
  if p ≥ l.length then nilHash H else l[p]?.getD []

/-- Body of the inner loop, /repo/hash.go:890-909. -/
def cBody (H : Bytes → Bytes) (t : Int) (s : CState) (i : Nat) : CState :=
  let ba := s.hashVal H (2 * i)
  let bb := s.hashVal H (2 * i + 1)
  { s with b := s.b.set i (hashPair H ba bb), proofs := addSibling t (2 * i) (2 * i + 1) ba bb s.proofs }

/-- `if toBeProof >= 0 { toBeProof >>= 1 }`. -/
def shiftT (t : Int) : Int := if t ≥ 0 then t / 2 else t

/-- The outer loop, /repo/hash.go:886-918. -/
def cLevels (H : Bytes → Bytes) (max : Nat) (t : Int) (s : CState) : CState × Int :=
  if _h : max > 1 then
    let s' := (List.range (max / 2)).foldl (cBody H t) s
    cLevels H (max / 2) (shiftT t) { s' with aliased := true }
  else (s, t)
termination_by max

/-- /repo/hash.go:861-927 `MerkleHashComplete`: root and the proofs object after the call. -/
def merkleHashComplete (H : Bytes → Bytes) (hashList : List Bytes) (toBeProof : Int) (proofs : Option Proofs) :
    Bytes × Option Proofs :=
  if hashList.length = 0 then (nilHash H, proofs)
  else
    let max := growMax 2 hashList.length
    let (s, t) := cLevels H max toBeProof ⟨hashList, List.replicate (max / 2) [], false, proofs⟩
    let root := (if s.aliased then s.b else s.hashList)[0]?.getD []
    (root, match s.proofs with
      | none => none
      | some p => if t < 0 then some (p.append (toHash root) false) else some p)

/-- One level of `MerkleHashCompleteOld` (hash.go:826-850) on freshly allocated slices: new list and proofs. -/
def oldLevel (H : Bytes → Bytes) (max : Nat) (t : Int) (list : List Bytes) (pf : Option Proofs) :
    List Bytes × Option Proofs :=
  (List.range max).foldl (fun (acc : List Bytes × Option Proofs) i =>
    let a := list[2 * i]?.getD []
    let b := list[2 * i + 1]?.getD []
    (acc.1.set i (hashPair H a b), addSibling t (2 * i) (2 * i + 1) a b acc.2)) (List.replicate max [], pf)

/-- The outer loop of hash.go:824-852. -/
def oldLevels (H : Bytes → Bytes) (max : Nat) (t : Int) (list : List Bytes) (pf : Option Proofs) :
    List Bytes × Option Proofs × Int :=
  if _h : max > 1 then
    let r := oldLevel H (max / 2) t list pf
    oldLevels H (max / 2) (shiftT t) r.1 r.2
  else (list, pf, t)
termination_by max

/-- /repo/hash.go:807-859 `MerkleHashCompleteOld`. -/
def merkleHashCompleteOld (H : Bytes → Bytes) (hashList : List Bytes) (toBeProof : Int) (proofs : Option Proofs) :
    Bytes × Option Proofs :=
  if hashList.length = 0 then (nilHash H, proofs)
  else
    let max := growMax 2 hashList.length
    let padded := hashList ++ List.replicate (max - hashList.length) (nilHash H)
    let (list, pf, t) := oldLevels H max toBeProof padded proofs
    let root := list[0]?.getD []
    (root, match pf with
      | none => none
      | some p => if t < 0 then some (p.append (toHash root) false) else some p)

/-- `depth := 1; max := 2; for max < len { max <<= 1; depth++ }` (hash.go:946-951). -/
def growDepth (max depth len : Nat) : Nat :=
  if _h : 0 < max ∧ max < len then growDepth (2 * max) (depth + 1) len else depth
termination_by len - max

/-- Body of the inner loop of `MerkleHash` (hash.go:963-983) for `i = 2 * k`; `next` is a prefix of the same array
as `list`, so the write goes to `list`. -/
def mBody (H : Bytes → Bytes) (t : Int) (length : Nat) (acc : List Bytes × Option Proofs) (k : Nat) :
    List Bytes × Option Proofs :=
  let a := acc.1[2 * k]?.getD []
  let right := if 2 * k + 1 < length then acc.1[2 * k + 1]?.getD [] else nilHash H
  (acc.1.set k (hashPair H a right), addSibling t (2 * k) (2 * k + 1) a right acc.2)

/-- The outer loop of hash.go:959-988: `d` levels left. -/
def mLevels (H : Bytes → Bytes) : Nat → Int → List Bytes → Option Proofs → List Bytes × Option Proofs
  | 0, _, list, pf => (list, pf)
  | d + 1, t, list, pf =>
    let n := (list.length + 1) / 2
    let r := (List.range n).foldl (mBody H t list.length) (list, pf)
    mLevels H d (shiftT t) (r.1.take n) r.2

/-- /repo/hash.go:939-988 `MerkleHash`. -/
def merkleHash (H : Bytes → Bytes) (hashList : List Bytes) (toBeProof : Int) (proofs : Option Proofs) :
    Bytes × Option Proofs :=
  if hashList.length = 0 then (nilHash H, proofs)
  else
    let r := mLevels H (growDepth 2 1 hashList.length) toBeProof hashList proofs
    (r.1[0]?.getD [], r.2)

/-! ### Serialisation -/

/-- The three flag bytes of the external package `rtl` (`NilOrFalse`, `NotNilOrTrue`, `Version0`): any three distinct
bytes. -/
structure Flags where
  nilOrFalse : UInt8
  notNil : UInt8
  version0 : UInt8
  d1 : nilOrFalse ≠ notNil
  d2 : nilOrFalse ≠ version0
  d3 : notNil ≠ version0

/-- /repo/hash.go:459-476 `writeArray`; `uint16(l)` truncates. -/
def writeArray (a : Bytes) : Bytes := natBE 2 (a.length % 2 ^ 16) ++ a

/-- /repo/hash.go:516-572 `Serialization` (`none`: nil receiver).  `uint16(...)` conversions truncate. -/
def serialize (fl : Flags) : Option Proofs → Bytes
  | none => [fl.nilOrFalse]
  | some p =>
    [if p.repeats.list.length = 0 then fl.notNil else fl.version0]
    ++ natBE 2 (p.hashs.length % 2 ^ 16) ++ p.hashs.flatten
    ++ writeArray (natBytes p.paths)
    ++ (if p.repeats.list.length > 0 then
          natBE 2 (p.repeats.list.length % 2 ^ 16)
          ++ (p.repeats.list.map (fun m => natBE 2 (m.index % 2 ^ 16).toNat ++ natBE 2 (m.times % 2 ^ 16).toNat)).flatten
        else [])

/-- `io.ReadFull` of `n` bytes from an in-memory reader. -/
def readFull (n : Nat) (r : Bytes) : Option (Bytes × Bytes) :=
  if r.length < n then none else some (r.take n, r.drop n)

/-- `io.Reader.Read` of an in-memory reader into a zeroed buffer of `n` bytes: short reads leave zeros, nothing left
is `io.EOF`. -/
def readSome (n : Nat) (r : Bytes) : Option (Bytes × Bytes) :=
  if n = 0 then some ([], r)
  else if r.length = 0 then none
  else some (r.take n ++ List.replicate (n - r.length) 0, r.drop n)

/-- /repo/hash.go:478-493 `readArray`. -/
def readArray (r : Bytes) : Option (Bytes × Bytes) :=
  match readSome 2 r with
  | none => none
  | some (sz, r1) => if beNat sz > 0 then readSome (beNat sz) r1 else some ([], r1)

/-- Reading `n` hashes. -/
def readHashs : Nat → Bytes → Option (List Bytes × Bytes)
  | 0, r => some ([], r)
  | n + 1, r =>
    match readFull 32 r with
    | none => none
    | some (h, r1) =>
      match readHashs n r1 with
      | none => none
      | some (hs, r2) => some (h :: hs, r2)

/-- Reading `n` repeat entries. -/
def readRepeats : Nat → Bytes → Option (List MoreTime × Bytes)
  | 0, r => some ([], r)
  | n + 1, r =>
    match readFull 4 r with
    | none => none
    | some (b, r1) =>
      match readRepeats n r1 with
      | none => none
      | some (ms, r2) => some (⟨beNat (b.take 2), beNat (b.drop 2)⟩ :: ms, r2)

/-- The optional repeat table of /repo/hash.go:605-622. -/
def readTable (fl : Flags) (flag : UInt8) (r : Bytes) : Option (MoreTimes × Bytes) :=
  if flag = fl.version0 then
    match readFull 2 r with
    | none => none
    | some (n, r1) => (readRepeats (beNat n) r1).map (fun x => (some x.1, x.2))
  else some (none, r)

/-- /repo/hash.go:574-625 `Deserialization`: the value (`none`: `shouldBeNil`) and the unread bytes; outer `none` is a
returned error. -/
def deserialize (fl : Flags) (r : Bytes) : Option (Option Proofs × Bytes) :=
  match r with
  | [] => none
  | flag :: r0 =>
    if flag = fl.nilOrFalse then some (none, r0)
    else
      match readFull 2 r0 with
      | none => none
      | some (sz, r1) =>
        match readHashs (beNat sz) r1 with
        | none => none
        | some (hs, r2) =>
          match readArray r2 with
          | none => none
          | some (pa, r3) =>
            match readTable fl flag r3 with
            | none => none
            | some (rep, r4) => some (some ⟨hs, beNat pa, rep⟩, r4)

/-! ### Header index hashes -/

/-- /repo/hash.go:1040-1047 `ToHeaderPosHashBuffer` (13 bytes: 4 of the chain id, 8 of the height, one zero). -/
def headerPosBuffer (id : UInt32) (height : UInt64) : Bytes :=
  goCopyAt (goCopyAt (List.replicate 13 0) 0 (natBE 4 id.toNat)) 4 (natBE 8 height.toNat)

/-- /repo/hash.go:1049-1053 `HeaderIndexHash`. -/
def headerIndexHash (H : Bytes → Bytes) (buf : Bytes) (index : UInt8) : Bytes := H (buf.set 12 index)

end Verif.Merkle

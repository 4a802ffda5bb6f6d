import Verif.Sorted
import Verif.Num.Model

/-!
# Model of /repo/shardinfo.go: bit strings, address shards, account sharding

Addresses and bit strings are byte strings; chain ids are `UInt32`.  `rtl.Numeric.BytesToInt` (external) is read as the
big-endian number of its one or two argument bytes.  A `BitIndex` is an integer.
-/

namespace Verif.Shard
open Verif Verif.Num

/-! ### Bits -/

/-- /repo/shardinfo.go:38-40 `BitIndex.BytePos`: an arithmetic shift. -/
def bytePos (p : Int) : Int := p / 8

/-- /repo/shardinfo.go:43-45 `BitIndex.BitPos`: the three low bits. -/
def bitPos (p : Int) : Nat := (p % 8).toNat

/-- /repo/shardinfo.go:48-60 `BitIndex.Mask`. -/
def mask (p : Int) (b : UInt8) : UInt8 :=
  if bitPos p = 7 then b
  else if bitPos p = 0 then 0
  else UInt8.ofNat ((b.toNat >>> (7 - bitPos p)) <<< (7 - bitPos p))

/-- The expression `(b>>(7-j))&0x1 == 0x1`. -/
def byteBit (b : UInt8) (j : Nat) : Bool := (b.toNat >>> (7 - j)) &&& 1 == 1

/-- /repo/shardinfo.go:63-70 `Bits.Bit`; a negative index panics. -/
def bit (bs : Bytes) (index : Int) : Res Bool :=
  if bytePos index ≥ bs.length then .ok false
  else if bytePos index < 0 then .panic
  else .ok (byteBit (bs.getD (bytePos index).toNat 0) (bitPos index))

/-- /repo/shardinfo.go:83-88: the inner loop of `Bits.Bits`, from bit `j` of the byte `b` at position `i`. -/
def bitsInner (b : UInt8) (i x y j : Nat) (r : List Bool) : List Bool :=
  if j < 8 then
    if i ≥ x ∧ j ≥ y then r ++ [byteBit b j] else bitsInner b i x y (j + 1) (r ++ [byteBit b j])
  else r
termination_by 8 - j

/-- /repo/shardinfo.go:82-89: the outer loop of `Bits.Bits`, at byte `i` with the bytes from there on. -/
def bitsOuter (x y : Nat) : Nat → Bytes → List Bool → List Bool
  | _, [], r => r
  | i, b :: bs, r => if i ≤ x then bitsOuter x y (i + 1) bs (bitsInner b i x y 0 r) else r

/-- /repo/shardinfo.go:75-91 `Bits.Bits`. -/
def bits (bs : Bytes) (length : Int) : List Bool :=
  if length ≤ 0 then [] else bitsOuter (bytePos length).toNat (bitPos length) 0 bs []

/-- /repo/shardinfo.go:31-34 `AddressShard`. -/
structure AddressShard where
  index : Int
  value : Bytes
  deriving DecidableEq, Repr

/-- /repo/shardinfo.go:101-115 `AddressShard.IsValid` (non-nil receiver). -/
def AddressShard.isValid (s : AddressShard) : Bool :=
  if s.index ≤ 0 then false
  else if s.index > 20 * 8 then false
  else if s.value.length * 8 < s.index then false
  else true

/-- /repo/shardinfo.go:125-141: the loop of `IsIn` from position `i` up to `pos`. -/
def isInLoop (s : AddressShard) (addr : Bytes) (pos i : Nat) : Bool :=
  if i ≤ pos then
    match s.value[i]? with
    | none => false
    | some b =>
      if i = pos then
        if mask s.index b != mask s.index (addr.getD i 0) then false else isInLoop s addr pos (i + 1)
      else
        if b != addr.getD i 0 then false else isInLoop s addr pos (i + 1)
  else true
termination_by pos + 1 - i

/-- /repo/shardinfo.go:117-143 `AddressShard.IsIn` (non-nil receiver). -/
def AddressShard.isIn (s : AddressShard) (addr : Bytes) : Bool :=
  if bytePos s.index ≥ addr.length then false
  else if bytePos s.index < 0 then true
  else isInLoop s addr (bytePos s.index).toNat 0

/-! ### Account sharding -/

/-- /repo/shardinfo.go:146-153 `AccountShards` (of the parent structure only the id matters). -/
structure AccountShards where
  maskBits : Nat
  parent : UInt32
  chains : List UInt32
  deriving DecidableEq, Repr

/-- /repo/shardinfo.go:174-179: the doubling loop of `NewAccountShards`. -/
def bitsLoop (n length bits : Nat) : Nat :=
  if 0 < length ∧ length < n then bitsLoop n (2 * length) (bits + 1) else bits
termination_by n - length

/-- `MaxExponentOfShards` (consts.go). -/
def maxExponent : Nat := 8

/-- /repo/shardinfo.go:161-190 `NewAccountShards`. -/
def newAccountShards (parent : UInt32) (chains : List UInt32) : Res AccountShards :=
  if chains.length ≤ 0 then .ok ⟨0, parent, []⟩
  else if bitsLoop (sortCmp chainCompare chains).length 1 0 > maxExponent then .panic
  else .ok ⟨bitsLoop (sortCmp chainCompare chains).length 1 0, parent, sortCmp chainCompare chains⟩

/-- /repo/shardinfo.go:192-209 `AccountShards.index`. -/
def AccountShards.index (s : AccountShards) (addr : Bytes) : Nat :=
  if s.maskBits % 8 = 0 then beNat (addr.take (s.maskBits / 8 + 1))
  else beNat (addr.take (s.maskBits / 8 + 1)) >>> (8 - s.maskBits % 8)

/-- /repo/shardinfo.go:211-218 `AccountShards.shardTo`. -/
def AccountShards.shardTo (s : AccountShards) (addr : Bytes) : UInt32 :=
  if s.chains.length ≤ 0 then s.parent else s.chains.getD (s.index addr % s.chains.length) 0

/-- /repo/shardinfo.go:220-228 `AccountShards.pos`: the search compares ids as numbers. -/
def AccountShards.pos (s : AccountShards) (id : UInt32) : Int :=
  if s.chains[search s.chains.length fun j => decide (s.chains.getD j 0 ≥ id)]? = some id then
    (search s.chains.length fun j => decide (s.chains.getD j 0 ≥ id) : Nat)
  else -1

/-- /repo/shardinfo.go:155-158 `AccountSharding`. -/
structure AccountSharding where
  id : UInt32
  shards : AccountShards
  deriving DecidableEq, Repr

/-- /repo/shardinfo.go:254-263: the loop that drops repeated ids (the map holds what was appended). -/
def dedupLoop : List UInt32 → List UInt32 → List UInt32
  | acc, [] => acc
  | acc, x :: xs => if x ∈ acc then dedupLoop acc xs else dedupLoop (acc ++ [x]) xs

/-- /repo/shardinfo.go:264-270: the current chain is added unless it is the parent. -/
def addCurrent (parent current : UInt32) (l : List UInt32) : List UInt32 :=
  if current ≠ parent then if current ∈ l then l else l ++ [current] else l

/-- /repo/shardinfo.go:272-276 -/
def withShards (current : UInt32) : Res AccountShards → Res AccountSharding
  | .ok s => .ok ⟨current, s⟩
  | .err => .err
  | .panic => .panic

/-- /repo/shardinfo.go:242-279 `NewShardInfo`; `none` is the nil slice. -/
def newShardInfo (parent current : UInt32) (shards : Option (List UInt32)) : Res AccountSharding :=
  if current = nilChainID ∧ shards = none then withShards parent (newAccountShards parent [])
  else if current = nilChainID then .panic
  else withShards current
    (newAccountShards parent (addCurrent parent current (dedupLoop [] (shards.getD []))))

/-- /repo/shardinfo.go:281-283 `Number`. -/
def AccountSharding.number (a : AccountSharding) : Nat := a.shards.chains.length

/-- /repo/shardinfo.go:296-298 `AllIDs`. -/
def AccountSharding.allIDs (a : AccountSharding) : List UInt32 := a.shards.chains

/-- /repo/shardinfo.go:300-316 `ShardTo` of an address. -/
def AccountSharding.shardTo (a : AccountSharding) (addr : Bytes) : UInt32 := a.shards.shardTo addr

/-- /repo/shardinfo.go:319-321 `Pos`. -/
def AccountSharding.pos (a : AccountSharding) (id : UInt32) : Int := a.shards.pos id

end Verif.Shard

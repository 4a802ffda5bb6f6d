import Verif.Base

/-!
# Model of the fixed-width arithmetic: gas pool, versions, checked arithmetic, heights, epochs, chain ids

Go's `uint64`/`uint32` are `UInt64`/`UInt32`: `+`, `-`, `*` wrap, `/`, `%` are truncating, exactly as in Go.
-/

namespace Verif.Num
open Verif

/-- `math.MaxUint64`. -/
def maxU64 : UInt64 := 0xFFFFFFFFFFFFFFFF

/-- /repo/gaspool.go:16-22 `GasPool.AddGas`. -/
def addGas (gp amount : UInt64) : Res UInt64 :=
  if gp > maxU64 - amount then .panic else .ok (gp + amount)

/-- /repo/gaspool.go:26-32 `GasPool.SubGas`; on `err` the pool keeps its value. -/
def subGas (gp amount : UInt64) : Res UInt64 :=
  if gp < amount then .err else .ok (gp - amount)

/-- /repo/math/integer.go:84-86 `SafeSub`. -/
def safeSub (x y : UInt64) : UInt64 × Bool := (x - y, decide (x < y))

/-- /repo/math/integer.go:89-91 `SafeAdd`. -/
def safeAdd (x y : UInt64) : UInt64 × Bool := (x + y, decide (y > maxU64 - x))

/-- /repo/math/integer.go:94-99 `SafeMul`. -/
def safeMul (x y : UInt64) : UInt64 × Bool :=
  if x == 0 || y == 0 then (0, false) else (x * y, decide (y > maxU64 / x))

/-- /repo/version.go:10-12 `Version.Major`. -/
def verMajor (v : UInt64) : UInt64 := v / 1000000

/-- /repo/version.go:14-17 `Version.Minor`. -/
def verMinor (v : UInt64) : UInt64 := (v - (v / 1000000) * 1000000) / 1000

/-- /repo/version.go:19-22 `Version.Patch`. -/
def verPatch (v : UInt64) : UInt64 := v - (v / 1000) * 1000

/-- /repo/version.go:24-29 `NewNodeVersion`; `none` is the returned error. -/
def newNodeVersion (major minor patch : UInt64) : Option UInt64 :=
  if minor > 999 || patch > 999 || major > 999 then none
  else some (patch + minor * 1000 + major * 1000000)

/-- `NilHeight`, `NilEpoch`, `NilEra` (basic.go: all `math.MaxUint64`). -/
def nilU64 : UInt64 := maxU64

/-- `NilBlock` (basic.go: `math.MaxUint32`). -/
def nilBlock : UInt32 := 0xFFFFFFFF

/-- /repo/basic.go:714-729, 803-818, 933-948 and /repo/chaininfo.go:484-499: the common body of
`EraNum.Compare`, `EpochNum.Compare`, `Height.Compare`, `ChainID.Compare`, with the nil sentinel as a parameter
and the 32-bit chain id widened to 64 bits. -/
def cmpNil (nil_ a b : UInt64) : Int :=
  if a == b then 0
  else if a == nil_ then -1
  else if b == nil_ then 1
  else if a < b then -1 else 1

/-- /repo/basic.go:933-948 `Height.Compare` (same code for epochs and eras). -/
def heightCompare (a b : UInt64) : Int := cmpNil nilU64 a b

/-- `NilChainID = ReservedMaxChainID = 1<<20` (consts.go). -/
def nilChainID : UInt32 := 0x100000

/-- /repo/chaininfo.go:484-499 `ChainID.Compare`. -/
def chainCompare (a b : UInt32) : Int :=
  if a == b then 0
  else if a == nilChainID then -1
  else if b == nilChainID then 1
  else if a < b then -1 else 1

/-- /repo/basic.go:916-931 `Height.Diff` (786-801 `EpochNum.Diff` has the same body). -/
def heightDiff (h o : UInt64) : UInt64 × Int :=
  if h == o then (0, 0)
  else if h == nilU64 then (o + 1, -1)
  else if o == nilU64 then (h + 1, 1)
  else if h < o then (o - h, -1) else (h - o, 1)

/-- /repo/basic.go:833-842 `EpochNum.FirstHeight`; `bie` is the variable `BlocksInEpoch`. -/
def firstHeight (bie en : UInt64) : UInt64 :=
  if en == nilU64 then nilU64
  else
    let r := safeMul en bie
    if r.2 then nilU64 else r.1

/-- /repo/basic.go:844-857 `EpochNum.LastHeight`. -/
def lastHeight (bie en : UInt64) : UInt64 :=
  if en == nilU64 then nilU64
  else
    let r := safeMul en bie
    if r.2 then nilU64
    else
      let s := safeAdd r.1 (bie - 1)
      if s.2 then nilU64 else s.1

/-- /repo/basic.go:889-891 `BlockNum.IsValid`. -/
def blockValid (bie : UInt64) (bn : UInt32) : Bool := decide (bn.toUInt64 < bie)

/-- /repo/basic.go:898-900 `BlockNum.IsLastOfEpoch`. -/
def blockIsLast (bie : UInt64) (bn : UInt32) : Bool := blockValid bie bn && (bn.toUInt64 + 1 == bie)

/-- /repo/basic.go:970-975 `Height.EpochNum`. -/
def epochNum (bie h : UInt64) : UInt64 := if h == nilU64 then nilU64 else h / bie

/-- /repo/basic.go:963-968 `Height.EraNum`. -/
def eraNum (bie eie h : UInt64) : UInt64 := if h == nilU64 then nilU64 else h / (bie * eie)

/-- /repo/basic.go:984-989 `Height.BlockNum`. -/
def blockNum (bie h : UInt64) : UInt32 := if h == nilU64 then nilBlock else (h % bie).toUInt32

/-- /repo/basic.go:1009-1016 `Height.Split`. -/
def split (bie h : UInt64) : UInt64 × UInt32 :=
  if h == nilU64 then (nilU64, nilBlock) else (h / bie, (h % bie).toUInt32)

/-- /repo/basic.go:1039-1053 `ToHeight`. -/
def toHeight (bie epoch : UInt64) (bn : UInt32) : UInt64 :=
  if epoch == nilU64 || !blockValid bie bn then nilU64
  else
    let h1 := safeMul epoch bie
    if h1.2 then nilU64
    else
      let h2 := safeAdd h1.1 bn.toUInt64
      if h2.2 then nilU64 else h2.1

/-- /repo/basic.go:998-1000 `Height.IsFirstOfEpoch`. -/
def isFirstOfEpoch (bie h : UInt64) : Bool := !(h == nilU64) && (h % bie == 0)

/-- /repo/basic.go:1003-1007 `Height.IsLastOfEpoch`. -/
def isLastOfEpoch (bie h : UInt64) : Bool := !(h == nilU64) && ((h + 1) % bie == 0)

/-- /repo/basic.go:1018-1027 `Height.RemoveRemainder`. -/
def removeRemainder (h n : UInt64) : UInt64 :=
  if n == 0 || n == 1 then h
  else if h == nilU64 then nilU64
  else (h / n) * n

/-- /repo/basic.go:264-271 `CommID.ShouldPropose`.  `bie`, `commSize`, `i` are Go `int`s (here `Int`, with
truncating division); `none` is the division-by-zero panic. -/
def shouldPropose (bie commSize i : Int) : Option Int :=
  if commSize = 0 then none
  else
    let q := Int.tdiv bie commSize
    let r := Int.tmod bie commSize
    some (if r > i then q + 1 else q)

/-- /repo/basic.go:950-954 `Height.Bytes` (also `EpochNum.Bytes`, `EraNum.Bytes`). -/
def heightBytes (h : UInt64) : Bytes := natBE 8 h.toNat

/-- /repo/basic.go:1029-1037 `BytesToHeight`. -/
def bytesToHeight (bs : Bytes) : UInt64 :=
  if bs.length ≥ 8 then UInt64.ofNat (beNat (bs.drop (bs.length - 8)))
  else UInt64.ofNat (beNat (goCopyAt (List.replicate 8 0) (8 - bs.length) bs))

/-- /repo/chaininfo.go:474-478 `ChainID.Bytes`. -/
def chainBytes (id : UInt32) : Bytes := natBE 4 id.toNat

/-- /repo/chaininfo.go:501-510 `BytesToChainID`. -/
def bytesToChainID (bs : Bytes) : UInt32 :=
  let buf :=
    if bs.length > 4 then bs.drop (bs.length - 4)
    else if bs.length < 4 then goCopyAt (List.replicate 4 0) (4 - bs.length) bs
    else bs
  UInt32.ofNat (beNat buf)

/-! ### LastBlockMap: a map guarded by one mutex -/

/-- /repo/basic.go:239-248 `LastBlockMap.CAS` on the guarded map.  The critical section is atomic because the
method holds `lock` from the first to the last statement. -/
def lbCAS (m : UInt32 → Option UInt64) (key : UInt32) (value : UInt64) : (UInt32 → Option UInt64) × Bool :=
  match m key with
  | some v => if v ≥ value then (m, false) else (fun k => if k = key then some value else m k, true)
  | none => (fun k => if k = key then some value else m k, true)

/-- /repo/basic.go:224-228 `LastBlockMap.Set`. -/
def lbSet (m : UInt32 → Option UInt64) (key : UInt32) (value : UInt64) : UInt32 → Option UInt64 :=
  fun k => if k = key then some value else m k

end Verif.Num

import Verif.Base
import Mathlib.Data.List.Dedup

/-!
# Model of the byte-string functions of `/repo/bytes.go` and of the fixed-size identifiers of `/repo/basic.go`

A `[]byte` argument is read as a value; functions that distinguish a nil slice return an `Option`.  `int` is a 64-bit
integer: the one addition that can leave its range (`size+from` in `SubBytes`) wraps around.
-/

namespace Verif.ByteOps
open Verif

/-! ### Bit extraction -/

/-- 64-bit two's complement wrap-around of Go's `int`. -/
def wrap64 (x : Int) : Int := (x + 2 ^ 63) % 2 ^ 64 - 2 ^ 63

/-- The number of bits that `ShiftBits` keeps (`/repo/bytes.go:320-325`). -/
def shiftLen : Option UInt8 → UInt8
  | none => 8
  | some l => if 0 < l ∧ l < 8 then l else 8

/-- `ShiftBits` (`/repo/bytes.go:329-351`); `length` is the optional last argument. -/
def shiftBits (b0 b1 shifts : UInt8) (length : Option UInt8) : UInt8 :=
  let shifts := shifts &&& 7
  let bitLength := shiftLen length
  let r := if shifts = 0 then b0
    else
      let r := b0 >>> shifts
      if bitLength + shifts > 8 then r ||| (b1 <<< (8 - shifts)) else r
  let offset := 8 - bitLength
  if offset > 0 then (r <<< offset) >>> offset else r

/-- `bs[p]` for an `int` index; `none` is the panic. -/
def at? (bs : Bytes) (p : Int) : Option UInt8 := if 0 ≤ p then bs[p.toNat]? else none

/-- The loop of `SubBytes` (`/repo/bytes.go:361-375`); `none` is a panic. -/
def subLoop (bs : Bytes) (frm size : Nat) (i : Nat) (rs : Bytes) : Option Bytes :=
  if i < size then
    let p : Int := (bs.length : Int) - 1 - ((i + frm) / 8 : Nat)
    let pr : Int := (rs.length : Int) - 1 - (i / 8 : Nat)
    match at? bs p, (if p > 0 then at? bs (p - 1) else some 0), at? rs pr with
    | some b0, some b1, some _ =>
      let b := if size - i ≥ 8 then shiftBits b0 b1 (UInt8.ofNat (frm % 8)) none
        else shiftBits b0 b1 (UInt8.ofNat (frm % 8)) (some (UInt8.ofNat (size - i)))
      subLoop bs frm size (i + 8) (rs.set pr.toNat b)
    | _, _, _ => none
  else some rs
termination_by size - i

/-- `SubBytes` (`/repo/bytes.go:354-385`); the inner `none` is the nil slice.  `make` panics for a length of 2^48 or more
(the limit of the allocator of the 64-bit runtime). -/
def subBytes (bs : Bytes) (frm size : Int) : Res (Option Bytes) :=
  if frm < 0 ∨ size ≤ 0 then .err
  else
    let bitSize : Int := bs.length * 8
    if frm ≥ bitSize then .ok none
    else
      let size := if wrap64 (size + frm) > bitSize then bitSize - frm else size
      let rssize := wrap64 (size + 7) / 8
      if rssize < 0 ∨ rssize ≥ 2 ^ 48 then .panic
      else match subLoop bs frm.toNat size.toNat 0 (List.replicate rssize.toNat 0) with
        | none => .panic
        | some rs => .ok (some rs)

/-! ### Splitting and joining -/

/-- The loop of `SplitBytes` (`/repo/bytes.go:237-240`). -/
def splitLoop (bs : Bytes) (size p : Nat) : List Bytes :=
  if p < bs.length ∧ 0 < size then (bs.drop p).take size :: splitLoop bs size (p + size) else []
termination_by bs.length - p

/-- `SplitBytes` (`/repo/bytes.go:232-242`): a zero size divides by zero, a negative one asks for a negative capacity. -/
def splitBytes (bs : Bytes) (size : Int) : Res (List Bytes) :=
  if size = 0 then .panic
  else if (bs.length : Int) % size ≠ 0 then .err
  else if size < 0 then (if bs.length = 0 then .ok [] else .panic)
  else .ok (splitLoop bs size.toNat 0)

/-- The copy loop of `ConcatenateBytes` (`/repo/bytes.go:253-259`). -/
def concatLoop : List Bytes → Nat → Bytes → Bytes
  | [], _, buf => buf
  | b :: bss, p, buf =>
    if b.length = 0 then concatLoop bss p buf else concatLoop bss (p + b.length) (goCopyAt buf p b)

/-- `ConcatenateBytes` (`/repo/bytes.go:245-261`). -/
def concatBytes (bss : List Bytes) : Bytes :=
  concatLoop bss 0 (List.replicate (bss.map List.length).sum 0)

/-! ### Padding and fixed sizes -/

/-- `RightPadBytes` (`/repo/bytes.go:208-217`). -/
def rightPad (s : Bytes) (l : Nat) : Bytes :=
  if l ≤ s.length then s else goCopy (List.replicate l 0) s

/-- `LeftPadBytes` (`/repo/bytes.go:220-229`). -/
def leftPad (s : Bytes) (l : Nat) : Bytes :=
  if l ≤ s.length then s else goCopyAt (List.replicate l 0) (l - s.length) s

/-- The end of `Hex2BytesFixed` (`/repo/bytes.go:194-205`) on the decoded bytes. -/
def fixedBytes (h : Bytes) (flen : Nat) : Bytes :=
  if h.length = flen then h
  else if h.length > flen then h.drop (h.length - flen)
  else goCopyAt (List.replicate flen 0) (flen - h.length) h

/-- `SetBytes` of an `n`-byte identifier that holds `old` (`/repo/basic.go:1465-1471` for `Hash`, `1281-1286` for
`Address`, `406-411` for `NodeID`, `1659-1666` for `Seed`; they differ in `n` only). -/
def setBytes (n : Nat) (old b : Bytes) : Bytes :=
  let b := if b.length > n then b.drop (b.length - n) else b
  goCopyAt old (n - b.length) b

/-- `BytesToHash`, `BytesToAddress`, `BytesToNodeID`, `BytesToSeed` (`/repo/basic.go:1594-1598, 1553-1557, 328-332, 1624-1628`):
`SetBytes` on a zero value. -/
def bytesTo (n : Nat) (b : Bytes) : Bytes := setBytes n (List.replicate n 0) b

/-- `NodeIDBytes` (`/repo/basic.go`). -/
def nodeIDBytes : Nat := 64

/-- The loop of `ParseBytesToNodeIds` (`/repo/basic.go:345-348`). -/
def parseIds (s : Bytes) (p : Nat) : List Bytes :=
  if p < s.length then bytesTo nodeIDBytes ((s.drop p).take nodeIDBytes) :: parseIds s (p + nodeIDBytes) else []
termination_by s.length - p
decreasing_by simp only [nodeIDBytes]; omega

/-- `ParseBytesToNodeIds` (`/repo/basic.go:340-350`); `none` is the error. -/
def parseNodeIds (s : Bytes) : Option (List Bytes) :=
  if s.length % nodeIDBytes ≠ 0 then none else some (parseIds s 0)

/-- The loop of `PackNodeIdsToBytes` (`/repo/basic.go:370-372`). -/
def packLoop : List Bytes → Nat → Bytes → Bytes
  | [], _, buf => buf
  | b :: bss, i, buf => packLoop bss (i + 1) (goCopyAt buf (i * nodeIDBytes) b)

/-- `PackNodeIdsToBytes` (`/repo/basic.go:365-374`); a nil slice is read as the empty one. -/
def packNodeIds (ids : List Bytes) : Bytes :=
  if ids.length = 0 then [] else packLoop ids 0 (List.replicate (ids.length * nodeIDBytes) 0)

/-- The loop of `ReverseBytes` (`/repo/utils.go:41-44`), which works in place. -/
def reverseLoop (l : Nat) (j : Nat) (bs : Bytes) : Bytes :=
  if j < l / 2 then
    let k := l - j - 1
    reverseLoop l (j + 1) ((bs.set j (bs.getD k 0)).set k (bs.getD j 0))
  else bs
termination_by l / 2 - j

/-- `ReverseBytes` (`/repo/utils.go:39-46`). -/
def reverseBytes (bs : Bytes) : Bytes := reverseLoop bs.length 0 bs

/-! ### Intersection -/

/-- The second loop of `BytesIntersection` (`/repo/bytes.go:276-281`): the map is a list of distinct keys. -/
def interLoop : List Bytes → List Bytes → List Bytes
  | _, [] => []
  | m, b :: y => if b ∈ m then b :: interLoop (m.erase b) y else interLoop m y

/-- `BytesIntersection` (`/repo/bytes.go:263-283`). -/
def bytesIntersection (a b : List Bytes) : List Bytes :=
  if a.length = 0 ∨ b.length = 0 then []
  else if a.length < b.length then interLoop b.dedup a else interLoop a.dedup b

end Verif.ByteOps

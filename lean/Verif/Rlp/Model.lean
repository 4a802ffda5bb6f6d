import Verif.Rlp.Spec

/-!
# The code of `/repo/rlp`

Sizes of the stream are natural numbers below 2^64 with the wrap-around of `uint64` where the code subtracts unchecked
(`sub64`).  Simplifications: allocation succeeds; the reader returns as many bytes as asked for while it has them; errors carry
no context; the pools of streams are omitted (a stream is reset before use); that of buffers is in `Rlp/Buffers.lean`.
-/

namespace Verif.Rlp
open Verif

/-! ### Integers and headers -/

/-- `byte(i >> (8 * k))`. -/
def byteAt (i : UInt64) (k : Nat) : UInt8 := (i >>> UInt64.ofNat (8 * k)).toUInt8

/-- `putint` (`/repo/rlp/encode.go:431-486`): the bytes written. -/
def putint (i : UInt64) : Bytes :=
  if i < 0x100 then [byteAt i 0]
  else if i < 0x10000 then [byteAt i 1, byteAt i 0]
  else if i < 0x1000000 then [byteAt i 2, byteAt i 1, byteAt i 0]
  else if i < 0x100000000 then [byteAt i 3, byteAt i 2, byteAt i 1, byteAt i 0]
  else if i < 0x10000000000 then [byteAt i 4, byteAt i 3, byteAt i 2, byteAt i 1, byteAt i 0]
  else if i < 0x1000000000000 then [byteAt i 5, byteAt i 4, byteAt i 3, byteAt i 2, byteAt i 1, byteAt i 0]
  else if i < 0x100000000000000 then [byteAt i 6, byteAt i 5, byteAt i 4, byteAt i 3, byteAt i 2, byteAt i 1, byteAt i 0]
  else [byteAt i 7, byteAt i 6, byteAt i 5, byteAt i 4, byteAt i 3, byteAt i 2, byteAt i 1, byteAt i 0]

/-- The loop of `intsize` (`/repo/rlp/encode.go:489-495`), for at most `f` rounds. -/
def intsizeLoop : Nat → UInt64 → Nat → Nat
  | 0, _, size => size
  | f + 1, i, size => if i >>> 8 = 0 then size else intsizeLoop f (i >>> 8) (size + 1)

/-- `intsize` (`/repo/rlp/encode.go:489-495`). -/
def intsize (i : UInt64) : Nat := intsizeLoop 8 i 1

/-- `headsize` (`/repo/rlp/encode.go:117-122`). -/
def headsize (size : UInt64) : Nat := if size < 56 then 1 else 1 + intsize size

/-- `puthead` (`/repo/rlp/encode.go:126-134`): the bytes written. -/
def puthead (small large : UInt8) (size : UInt64) : Bytes :=
  if size < 56 then [small + size.toUInt8] else (large + UInt8.ofNat (putint size).length) :: putint size

/-- `StringSize`, `BytesSize` (`/repo/rlp/raw.go:32-61`). -/
def bytesSize (b : Bytes) : Nat :=
  match b with
  | [] => 1
  | [x] => if x ≤ 0x7f then 1 else 2
  | b => headsize (UInt64.ofNat b.length) + b.length

/-- `ListSize` (`/repo/rlp/raw.go:65-67`). -/
def listSize (n : UInt64) : UInt64 := UInt64.ofNat (headsize n) + n

/-- `IntSize` (`/repo/rlp/raw.go:71-76`). -/
def intSize (x : UInt64) : Nat := if x < 0x80 then 1 else 1 + intsize x

/-- `AppendUint64` (`/repo/rlp/raw.go:226-294`). -/
def appendUint64 (b : Bytes) (i : UInt64) : Bytes :=
  if i = 0 then b ++ [0x80]
  else if i < 128 then b ++ [i.toUInt8]
  else if i < 0x100 then b ++ [0x81, i.toUInt8]
  else if i < 0x10000 then b ++ [0x82, byteAt i 1, i.toUInt8]
  else if i < 0x1000000 then b ++ [0x83, byteAt i 2, byteAt i 1, i.toUInt8]
  else if i < 0x100000000 then b ++ [0x84, byteAt i 3, byteAt i 2, byteAt i 1, i.toUInt8]
  else if i < 0x10000000000 then b ++ [0x85, byteAt i 4, byteAt i 3, byteAt i 2, byteAt i 1, i.toUInt8]
  else if i < 0x1000000000000 then b ++ [0x86, byteAt i 5, byteAt i 4, byteAt i 3, byteAt i 2, byteAt i 1, i.toUInt8]
  else if i < 0x100000000000000 then
    b ++ [0x87, byteAt i 6, byteAt i 5, byteAt i 4, byteAt i 3, byteAt i 2, byteAt i 1, i.toUInt8]
  else b ++ [0x88, byteAt i 7, byteAt i 6, byteAt i 5, byteAt i 4, byteAt i 3, byteAt i 2, byteAt i 1, i.toUInt8]

/-! ### The encoder buffer -/

/-- `listhead` (`/repo/rlp/encode.go:104-107`). -/
structure Head where
  offset : Nat
  size : Nat
  deriving DecidableEq

/-- `encBuffer` (`/repo/rlp/encbuffer.go:29-34`). -/
structure Buf where
  str : Bytes
  lheads : List Head
  lhsize : Nat

/-- `reset` (`/repo/rlp/encbuffer.go:47-51`). -/
def Buf.empty : Buf := ⟨[], [], 0⟩

/-- `size` (`/repo/rlp/encbuffer.go:54-56`). -/
def Buf.size (b : Buf) : Nat := b.str.length + b.lhsize

/-- `listhead.encode` (`/repo/rlp/encode.go:111-113`). -/
def Head.encode (h : Head) : Bytes := puthead 0xC0 0xF7 (UInt64.ofNat h.size)

/-- The loops of `copyTo` and `writeTo` (`/repo/rlp/encbuffer.go:65-104`): what is written, from position `p` of the string
data. -/
def emit (s : Bytes) : List Head → Nat → Bytes
  | [], p => s.drop p
  | h :: hs, p => (s.drop p).take (h.offset - p) ++ h.encode ++ emit s hs h.offset

/-- `makeBytes` (`/repo/rlp/encbuffer.go:59-63`): `size()` bytes are allocated and filled from the left. -/
def Buf.makeBytes (b : Buf) : Res Bytes :=
  let out := emit b.str b.lheads 0
  if b.size < out.length then .panic else .ok (out ++ List.replicate (b.size - out.length) 0)

/-- `writeTo` (`/repo/rlp/encbuffer.go:82-104`) to a writer that accepts everything. -/
def Buf.writeTo (b : Buf) : Bytes := emit b.str b.lheads 0

/-- `Write` (`/repo/rlp/encbuffer.go:107-110`). -/
def Buf.write (b : Buf) (x : Bytes) : Buf := { b with str := b.str ++ x }

/-- `writeBool` (`/repo/rlp/encbuffer.go:113-119`). -/
def Buf.writeBool (b : Buf) (x : Bool) : Buf := b.write (if x then [0x01] else [0x80])

/-- `writeUint64` (`/repo/rlp/encbuffer.go:121-132`). -/
def Buf.writeUint64 (b : Buf) (i : UInt64) : Buf :=
  if i = 0 then b.write [0x80]
  else if i < 128 then b.write [i.toUInt8]
  else b.write ((0x80 + UInt8.ofNat (putint i).length) :: putint i)

/-- `encodeStringHeader` (`/repo/rlp/encbuffer.go:218-226`). -/
def Buf.encodeStringHeader (b : Buf) (size : Nat) : Buf :=
  if size < 56 then b.write [0x80 + UInt8.ofNat size]
  else b.write ((0xB7 + UInt8.ofNat (putint (UInt64.ofNat size)).length) :: putint (UInt64.ofNat size))

/-- `writeBytes`, `writeString` (`/repo/rlp/encbuffer.go:134-146`, `/repo/rlp/encode.go:230-233, 274-284`). -/
def Buf.writeBytes (b : Buf) (x : Bytes) : Buf :=
  match x with
  | [y] => if y ≤ 0x7F then b.write [y] else (b.encodeStringHeader 1).write [y]
  | x => (b.encodeStringHeader x.length).write x

/-- The 64-bit words of a number, least significant first, without leading zero words (`big.Int.Bits`). -/
def words (n : Nat) : List UInt64 :=
  if h : n = 0 then [] else UInt64.ofNat (n % 2 ^ 64) :: words (n / 2 ^ 64)
  termination_by n
  decreasing_by omega

/-- The bytes of a word, least significant first: `byte(d); d >>= 8` eight times. -/
def leBytes (d : UInt64) : Bytes := (List.range 8).map (byteAt d)

/-- `writeBigInt` (`/repo/rlp/encbuffer.go:152-173`); `n` is the absolute value. -/
def Buf.writeBigInt (b : Buf) (n : Nat) : Buf :=
  let bitlen := if n = 0 then 0 else n.log2 + 1
  if bitlen ≤ 64 then b.writeUint64 (UInt64.ofNat n)
  else
    let length := ((bitlen + 7) / 8 * 8) / 8
    let bs := ((words n).flatMap leBytes).take length
    (b.encodeStringHeader length).write (List.replicate (length - bs.length) 0 ++ bs.reverse)

/-- `writeUint256` (`/repo/rlp/encbuffer.go:176-190`); the words are the least significant first. -/
def Buf.writeUint256 (b : Buf) (z0 z1 z2 z3 : UInt64) : Buf :=
  let n := ((z3.toNat * 2 ^ 64 + z2.toNat) * 2 ^ 64 + z1.toNat) * 2 ^ 64 + z0.toNat
  let bitlen := if n = 0 then 0 else n.log2 + 1
  if bitlen ≤ 64 then b.writeUint64 z0
  else
    let nBytes := (bitlen + 7) / 8
    let buf := [0] ++ natBE 8 z3.toNat ++ natBE 8 z2.toNat ++ natBE 8 z1.toNat ++ natBE 8 z0.toNat
    b.write ((buf.set (32 - nBytes) (0x80 + UInt8.ofNat nBytes)).drop (32 - nBytes))

/-- `list` (`/repo/rlp/encbuffer.go:194-197`). -/
def Buf.list (b : Buf) : Buf × Nat := ({ b with lheads := b.lheads ++ [⟨b.str.length, b.lhsize⟩] }, b.lheads.length)

/-- `listEnd` (`/repo/rlp/encbuffer.go:199-207`). -/
def Buf.listEnd (b : Buf) (index : Nat) : Buf :=
  match b.lheads[index]? with
  | none => b
  | some lh =>
    let size := b.size - lh.offset - lh.size
    { b with
      lheads := b.lheads.set index ⟨lh.offset, size⟩
      lhsize := if size < 56 then b.lhsize + 1 else b.lhsize + (1 + intsize (UInt64.ofNat size)) }

mutual
/-- Encoding a nested value given as `[]byte` and `[]interface{}` (`writeInterface`, `writeBytes`, the writer of slices:
`/repo/rlp/encode.go:230-233, 286-300, 323-337`). -/
def Buf.item (b : Buf) : Item → Buf
  | .str x => b.writeBytes x
  | .list [] => b.write [0xC0]
  | .list (v :: l) => (((b.list).1).items (v :: l)).listEnd b.list.2
/-- The elements. -/
def Buf.items (b : Buf) : List Item → Buf
  | [] => b
  | v :: l => (b.item v).items l
end

/-- `EncodeToBytes` (`/repo/rlp/encode.go:77-85`). -/
def encodeToBytes (v : Item) : Res Bytes := (Buf.empty.item v).makeBytes

/-! ### Raw values -/

/-- `Kind` (`/repo/rlp/decode.go:546-552`). -/
inductive Kind where
  | byte
  | string
  | list
  deriving DecidableEq

/-- The errors. -/
inductive Err where
  | eol | eof | unexpectedEOF | elemTooLarge | valueTooLarge | canonSize | canonInt | expectedString | expectedList
  | uintOverflow | notInList | notAtEOL | badBool | uint256Large | wrongSize | tooFew | moreThanOne | wrongNil
  | outOfFuel
  deriving DecidableEq

/-- `uint64(b[j]) << (8 * k)`. -/
def shl (b : Bytes) (j k : Nat) : UInt64 := (b.getD j 0).toUInt64 <<< UInt64.ofNat (8 * k)

/-- The switch of `readSize` (`/repo/rlp/raw.go:199-216`). -/
def sizeOf (b : Bytes) (slen : Nat) : UInt64 :=
  match slen with
  | 1 => (b.getD 0 0).toUInt64
  | 2 => shl b 0 1 ||| (b.getD 1 0).toUInt64
  | 3 => shl b 0 2 ||| shl b 1 1 ||| (b.getD 2 0).toUInt64
  | 4 => shl b 0 3 ||| shl b 1 2 ||| shl b 2 1 ||| (b.getD 3 0).toUInt64
  | 5 => shl b 0 4 ||| shl b 1 3 ||| shl b 2 2 ||| shl b 3 1 ||| (b.getD 4 0).toUInt64
  | 6 => shl b 0 5 ||| shl b 1 4 ||| shl b 2 3 ||| shl b 3 2 ||| shl b 4 1 ||| (b.getD 5 0).toUInt64
  | 7 => shl b 0 6 ||| shl b 1 5 ||| shl b 2 4 ||| shl b 3 3 ||| shl b 4 2 ||| shl b 5 1 ||| (b.getD 6 0).toUInt64
  | 8 => shl b 0 7 ||| shl b 1 6 ||| shl b 2 5 ||| shl b 3 4 ||| shl b 4 3 ||| shl b 5 2 ||| shl b 6 1 |||
      (b.getD 7 0).toUInt64
  | _ => 0

/-- `readSize` (`/repo/rlp/raw.go:194-223`). -/
def readSize (b : Bytes) (slen : Nat) : Except Err Nat :=
  if b.length < slen then .error .unexpectedEOF
  else if sizeOf b slen < 56 ∨ b.getD 0 0 = 0 then .error .canonSize
  else .ok (sizeOf b slen).toNat

/-- The switch of `readKind` (`/repo/rlp/raw.go:157-183`): kind, tag size and content size. -/
def readTag (buf : Bytes) (b : UInt8) : Except Err (Kind × Nat × Nat) :=
  if b < 0x80 then .ok (.byte, 0, 1)
  else if b < 0xB8 then
    if (b - 0x80).toNat = 1 ∧ buf.length > 1 ∧ buf.getD 1 0 < 128 then .error .canonSize
    else .ok (.string, 1, (b - 0x80).toNat)
  else if b < 0xC0 then (readSize (buf.drop 1) (b - 0xB7).toNat).map fun n => (.string, (b - 0xB7).toNat + 1, n)
  else if b < 0xF8 then .ok (.list, 1, (b - 0xC0).toNat)
  else (readSize (buf.drop 1) (b - 0xF7).toNat).map fun n => (.list, (b - 0xF7).toNat + 1, n)

/-- `readKind` (`/repo/rlp/raw.go:153-192`). -/
def readKind (buf : Bytes) : Except Err (Kind × Nat × Nat) :=
  match buf with
  | [] => .error .unexpectedEOF
  | b :: _ =>
    match readTag buf b with
    | .error e => .error e
    | .ok (k, ts, cs) => if cs > buf.length - ts then .error .valueTooLarge else .ok (k, ts, cs)

/-- `Split` (`/repo/rlp/raw.go:80-86`). -/
def split (b : Bytes) : Except Err (Kind × Bytes × Bytes) :=
  (readKind b).map fun (k, ts, cs) => (k, (b.drop ts).take cs, b.drop (ts + cs))

/-- `SplitString` (`/repo/rlp/raw.go:90-99`). -/
def splitString (b : Bytes) : Except Err (Bytes × Bytes) :=
  match split b with
  | .error e => .error e
  | .ok (k, c, r) => if k = .list then .error .expectedString else .ok (c, r)

/-- `SplitUint64` (`/repo/rlp/raw.go:103-125`). -/
def splitUint64 (b : Bytes) : Except Err (Nat × Bytes) :=
  match splitString b with
  | .error e => .error e
  | .ok ([], r) => .ok (0, r)
  | .ok ([x], r) => if x = 0 then .error .canonInt else .ok (x.toNat, r)
  | .ok (c, r) =>
    if c.length > 8 then .error .uintOverflow
    else match readSize c c.length with
      | .error _ => .error .canonInt
      | .ok n => .ok (n, r)

/-- `SplitList` (`/repo/rlp/raw.go:129-138`). -/
def splitList (b : Bytes) : Except Err (Bytes × Bytes) :=
  match split b with
  | .error e => .error e
  | .ok (k, c, r) => if k ≠ .list then .error .expectedList else .ok (c, r)

/-- `CountValues` (`/repo/rlp/raw.go:141-151`), for at most `f` values. -/
def countValues : Nat → Bytes → Except Err Nat
  | _, [] => .ok 0
  | 0, _ :: _ => .error .outOfFuel
  | f + 1, x :: b =>
    match readKind (x :: b) with
    | .error e => .error e
    | .ok (_, ts, cs) => (countValues f ((x :: b).drop (ts + cs))).map (· + 1)

/-- `listIterator` (`/repo/rlp/iterator.go:19-23`). -/
structure Iter where
  data : Bytes
  next : Bytes
  err : Option Err
  deriving DecidableEq

/-- `NewListIterator` (`/repo/rlp/iterator.go:27-39`). -/
def newListIterator (d : Bytes) : Except Err Iter :=
  match readKind d with
  | .error e => .error e
  | .ok (k, t, c) => if k ≠ .list then .error .expectedList else .ok ⟨(d.drop t).take c, [], none⟩

/-- `Next` (`/repo/rlp/iterator.go:42-51`). -/
def Iter.nextStep (it : Iter) : Iter × Bool :=
  if it.data = [] then (it, false)
  else
    let (t, c, e) := match readKind it.data with
      | .ok (_, t, c) => (t, c, none)
      | .error e => (0, 0, some e)
    (⟨it.data.drop (t + c), it.data.take (t + c), e⟩, true)

/-! ### The stream -/

/-- `Stream` (`/repo/rlp/decode.go:586-597`): the unread input, the limits (innermost list first), and the value ahead if its
header has been read. -/
structure Stream where
  r : Bytes
  remaining : Nat
  limited : Bool
  stack : List Nat
  ahead : Option (Kind × Nat × Option Err)
  byteval : UInt8
  deriving DecidableEq

/-- `Reset` with a limit (`/repo/rlp/decode.go:964-998`), as in `DecodeBytes`. -/
def Stream.ofBytes (b : Bytes) : Stream := ⟨b, b.length, true, [], none, 0⟩

/-- `a - b` on `uint64`. -/
def sub64 (a b : Nat) : Nat := (a + (2 ^ 64 - b % 2 ^ 64)) % 2 ^ 64

/-- `willRead` (`/repo/rlp/decode.go:1160-1176`). -/
def Stream.willRead (s : Stream) (n : Nat) : Except Err Unit × Stream :=
  let s := { s with ahead := none }
  match s.stack with
  | [] =>
    if s.limited then
      if n > s.remaining then (.error .valueTooLarge, s) else (.ok (), { s with remaining := s.remaining - n })
    else (.ok (), s)
  | l :: st =>
    if n > l then (.error .elemTooLarge, s)
    else
      let s := { s with stack := (l - n) :: st }
      if s.limited then
        if n > s.remaining then (.error .valueTooLarge, s) else (.ok (), { s with remaining := s.remaining - n })
      else (.ok (), s)

/-- `readByte` (`/repo/rlp/decode.go:1147-1156`). -/
def Stream.readByte (s : Stream) : Except Err UInt8 × Stream :=
  match s.willRead 1 with
  | (.error e, s) => (.error e, s)
  | (.ok _, s) =>
    match s.r with
    | [] => (.error .unexpectedEOF, s)
    | b :: r => (.ok b, { s with r := r })

/-- `readFull` (`/repo/rlp/decode.go:1125-1144`). -/
def Stream.readFull (s : Stream) (n : Nat) : Except Err Bytes × Stream :=
  match s.willRead n with
  | (.error e, s) => (.error e, s)
  | (.ok _, s) =>
    if s.r.length < n then (.error .unexpectedEOF, { s with r := [] })
    else (.ok (s.r.take n), { s with r := s.r.drop n })

/-- `readUint` (`/repo/rlp/decode.go:1098-1122`), for at most 8 bytes. -/
def Stream.readUint (s : Stream) (size : Nat) : Except Err Nat × Stream :=
  match size with
  | 0 => (.ok 0, { s with ahead := none })
  | 1 =>
    match s.readByte with
    | (.error e, s) => (.error e, s)
    | (.ok b, s) => (.ok b.toNat, s)
  | n =>
    match s.readFull n with
    | (.error e, s) => (.error e, s)
    | (.ok b, s) => if b.getD 0 0 = 0 then (.error .canonSize, s) else (.ok (beNat b), s)

/-- The size of a value with a long header (`/repo/rlp/decode.go:1072-1076, 1090-1094`). -/
def Stream.readLong (s : Stream) (k : Kind) (n : Nat) : Kind × Nat × Option Err × Stream :=
  match s.readUint n with
  | (.error e, s) => (k, 0, some e, s)
  | (.ok size, s) => (k, size, if size < 56 then some .canonSize else none, s)

/-- `readKind` (`/repo/rlp/decode.go:1038-1096`). -/
def Stream.readKind (s : Stream) : Kind × Nat × Option Err × Stream :=
  match s.readByte with
  | (.error e, s) =>
    (.byte, 0, some (if s.stack = [] ∧ (e = .unexpectedEOF ∨ e = .valueTooLarge) then .eof else e), s)
  | (.ok b, s) =>
    let s := { s with byteval := 0 }
    if b < 0x80 then (.byte, 0, none, { s with byteval := b })
    else if b < 0xB8 then (.string, (b - 0x80).toNat, none, s)
    else if b < 0xC0 then s.readLong .string (b - 0xB7).toNat
    else if b < 0xF8 then (.list, (b - 0xC0).toNat, none, s)
    else s.readLong .list (b - 0xF7).toNat

/-- A size above a limit, if there is one. -/
def exceeds (n : Nat) : Option Nat → Bool
  | some l => decide (n > l)
  | none => false

/-- `Kind` (`/repo/rlp/decode.go:1011-1036`). -/
def Stream.kind (s : Stream) : Except Err (Kind × Nat) × Stream :=
  match s.ahead with
  | some (k, n, none) => (.ok (k, n), s)
  | some (_, _, some e) => (.error e, s)
  | none =>
    if s.stack.head? = some 0 then (.error .eol, s)
    else
      let (k, n, e, s') := s.readKind
      let e := match e with
        | some e => some e
        | none =>
          if exceeds n s.stack.head? then some .elemTooLarge
          else if s'.limited ∧ n > s'.remaining then some .valueTooLarge
          else none
      let s' := { s' with ahead := some (k, n, e) }
      match e with
      | some e => (.error e, s')
      | none => (.ok (k, n), s')

/-- `Bytes` (`/repo/rlp/decode.go:635-656`). -/
def Stream.bytes (s : Stream) : Except Err Bytes × Stream :=
  match s.kind with
  | (.error e, s) => (.error e, s)
  | (.ok (.byte, _), s) => (.ok [s.byteval], { s with ahead := none })
  | (.ok (.string, n), s) =>
    match s.readFull n with
    | (.error e, s) => (.error e, s)
    | (.ok b, s) => if n = 1 ∧ b.getD 0 0 < 128 then (.error .canonSize, s) else (.ok b, s)
  | (.ok (.list, _), s) => (.error .expectedString, s)

/-- `ReadBytes` into a slice of `len` bytes (`/repo/rlp/decode.go:660-687`); `decodeByteArray`
(`/repo/rlp/decode.go:369-402`) accepts the same. -/
def Stream.readBytes (s : Stream) (len : Nat) : Except Err Bytes × Stream :=
  match s.kind with
  | (.error e, s) => (.error e, s)
  | (.ok (.byte, _), s) => if len ≠ 1 then (.error .wrongSize, s) else (.ok [s.byteval], { s with ahead := none })
  | (.ok (.string, n), s) =>
    if len ≠ n then (.error .wrongSize, s)
    else match s.readFull n with
      | (.error e, s) => (.error e, s)
      | (.ok b, s) => if n = 1 ∧ b.getD 0 0 < 128 then (.error .canonSize, s) else (.ok b, s)
  | (.ok (.list, _), s) => (.error .expectedString, s)

/-- `Raw` (`/repo/rlp/decode.go:690-712`). -/
def Stream.raw (s : Stream) : Except Err Bytes × Stream :=
  match s.kind with
  | (.error e, s) => (.error e, s)
  | (.ok (.byte, _), s) => (.ok [s.byteval], { s with ahead := none })
  | (.ok (k, n), s) =>
    match s.readFull n with
    | (.error e, s) => (.error e, s)
    | (.ok b, s) =>
      (.ok ((if k = .string then puthead 0x80 0xB7 (UInt64.ofNat n) else puthead 0xC0 0xF7 (UInt64.ofNat n)) ++ b), s)

/-- `uint` (`/repo/rlp/decode.go:742-773`). -/
def Stream.uint (s : Stream) (maxbits : Nat) : Except Err Nat × Stream :=
  match s.kind with
  | (.error e, s) => (.error e, s)
  | (.ok (.byte, _), s) =>
    if s.byteval = 0 then (.error .canonInt, s) else (.ok s.byteval.toNat, { s with ahead := none })
  | (.ok (.string, n), s) =>
    if n > maxbits / 8 then (.error .uintOverflow, s)
    else match s.readUint n with
      | (.error .canonSize, s) => (.error .canonInt, s)
      | (.error e, s) => (.error e, s)
      | (.ok v, s) => if 0 < n ∧ v < 128 then (.error .canonSize, s) else (.ok v, s)
  | (.ok (.list, _), s) => (.error .expectedString, s)

/-- `Bool` (`/repo/rlp/decode.go:778-791`). -/
def Stream.bool (s : Stream) : Except Err Bool × Stream :=
  match s.uint 8 with
  | (.error e, s) => (.error e, s)
  | (.ok 0, s) => (.ok false, s)
  | (.ok 1, s) => (.ok true, s)
  | (.ok _, s) => (.error .badBool, s)

/-- The end of `decodeBigInt` and `ReadUint256` (`/repo/rlp/decode.go:882-888, 921-927`). -/
def noLeadingZero (b : Bytes) : Except Err Nat := if b ≠ [] ∧ b.getD 0 0 = 0 then .error .canonInt else .ok (beNat b)

/-- `decodeBigInt` (`/repo/rlp/decode.go:848-889`); `max` is the size that is refused in `ReadUint256`
(`/repo/rlp/decode.go:892-928`). -/
def Stream.bigInt (s : Stream) (max : Option Nat) : Except Err Nat × Stream :=
  match s.kind with
  | (.error e, s) => (.error e, s)
  | (.ok (.list, _), s) => (.error .expectedString, s)
  | (.ok (.byte, _), s) => (noLeadingZero [s.byteval], { s with ahead := none })
  | (.ok (.string, n), s) =>
    if n = 0 then (noLeadingZero [], { s with ahead := none })
    else if exceeds n max then (.error .uint256Large, s)
    else match s.readFull n with
      | (.error e, s) => (.error e, s)
      | (.ok b, s) => if n = 1 ∧ b.getD 0 0 < 128 then (.error .canonSize, s) else (noLeadingZero b, s)

/-- `List` (`/repo/rlp/decode.go:796-815`). -/
def Stream.list (s : Stream) : Except Err Nat × Stream :=
  match s.kind with
  | (.error e, s) => (.error e, s)
  | (.ok (k, n), s) =>
    if k ≠ .list then (.error .expectedList, s)
    else
      let st := match s.stack with
        | [] => []
        | l :: st => sub64 l n :: st
      (.ok n, { s with stack := n :: st, ahead := none })

/-- `ListEnd` (`/repo/rlp/decode.go:819-830`). -/
def Stream.listEnd (s : Stream) : Except Err Unit × Stream :=
  match s.stack with
  | [] => (.error .notInList, s)
  | l :: st => if l > 0 then (.error .notAtEOL, s) else (.ok (), { s with stack := st, ahead := none })

/-- `decodeSliceElems` (`/repo/rlp/decode.go:312-339`), for fewer than `f` elements. -/
def sliceElems {α : Type} (dec : Stream → Except Err α × Stream) : Nat → Stream → Except Err (List α) × Stream
  | 0, s => (.error .outOfFuel, s)
  | f + 1, s =>
    match dec s with
    | (.error .eol, s) => (.ok [], s)
    | (.error e, s) => (.error e, s)
    | (.ok v, s) =>
      match sliceElems dec f s with
      | (.error e, s) => (.error e, s)
      | (.ok l, s) => (.ok (v :: l), s)

/-- `decodeListSlice` (`/repo/rlp/decode.go:297-310`). -/
def listSlice {α : Type} (dec : Stream → Except Err α × Stream) (s : Stream) : Except Err (List α) × Stream :=
  match s.list with
  | (.error e, s) => (.error e, s)
  | (.ok n, s) =>
    if n = 0 then
      match s.listEnd with
      | (.error e, s) => (.error e, s)
      | (.ok _, s) => (.ok [], s)
    else
      match sliceElems dec (s.r.length + 1) s with
      | (.error e, s) => (.error e, s)
      | (.ok l, s) =>
        match s.listEnd with
        | (.error e, s) => (.error e, s)
        | (.ok _, s) => (.ok l, s)

/-- `decodeInterface` (`/repo/rlp/decode.go:517-539`), for nesting up to `f`. -/
def decodeIface : Nat → Stream → Except Err Item × Stream
  | 0, s => (.error .outOfFuel, s)
  | f + 1, s =>
    match s.kind with
    | (.error e, s) => (.error e, s)
    | (.ok (.list, _), s) =>
      match listSlice (decodeIface f) s with
      | (.error e, s) => (.error e, s)
      | (.ok l, s) => (.ok (.list l), s)
    | (.ok _, s) =>
      match s.bytes with
      | (.error e, s) => (.error e, s)
      | (.ok b, s) => (.ok (.str b), s)

/-- `Stream.Decode` into an empty interface. -/
def Stream.decode (s : Stream) : Except Err Item × Stream := decodeIface (s.r.length + 2) s

/-- `DecodeBytes` (`/repo/rlp/decode.go:92-106`) into an empty interface. -/
def decodeBytes (b : Bytes) : Except Err Item :=
  match (Stream.ofBytes b).decode with
  | (.error e, _) => .error e
  | (.ok v, s) => if 0 < s.r.length then .error .moreThanOne else .ok v

end Verif.Rlp

import Verif.Base

/-!
# Model of the integer functions of `/repo/math/big.go`

`*big.Int` values live in a heap of cells, because these functions update their receivers in place.  A pointer is
`none` (nil) or the index of a cell.  `big.Int` itself is given by its documentation: `And` is bitwise and of the
infinite two's complement forms, `Bits` the little-endian 64-bit words of the absolute value, `Bytes` its minimal
big-endian form, `Div` is Euclidean division.  A Go `uint64`/`big.Word` is a number below `2^64`.
-/

namespace Verif.BigMath
open Verif

/-- The cells that hold `big.Int` values. -/
abbrev Heap := List Int
/-- A `*big.Int` (or `*BigInt`). -/
abbrev Ptr := Option Nat

/-- The value in a cell. -/
def Heap.at (h : Heap) (i : Nat) : Int := h.getD i 0

/-- `new(big.Int).Set(v)`. -/
def alloc (h : Heap) (v : Int) : Heap × Ptr := (h ++ [v], some h.length)

/-- `x.And(_, y)` for a non-negative `y`: for negative `x` this is `y &^ (|x|-1)`. -/
def andNat (x : Int) (y : Nat) : Nat :=
  match x with
  | .ofNat a => a &&& y
  | .negSucc a => y ^^^ (y &&& a)

/-- `U256` (`/repo/math/big.go:230-232`), the value. -/
def u256 (x : Int) : Int := andNat x (2 ^ 256 - 1)

/-- `U256`, in place. -/
def u256H (h : Heap) (i : Nat) : Heap × Ptr := (h.set i (u256 (h.at i)), some i)

/-- `S256` (`/repo/math/big.go:247-252`): the argument itself, or a new number. -/
def s256H (h : Heap) (i : Nat) : Heap × Ptr :=
  if h.at i < 2 ^ 255 then (h, some i) else alloc h (h.at i - 2 ^ 256)

/-- `Bits()`: the 64-bit words, least significant first, without leading zeros. -/
def words (n : Nat) : List Nat := if _h : n = 0 then [] else n % 2 ^ 64 :: words (n / 2 ^ 64)
termination_by n
decreasing_by exact Nat.div_lt_self (by omega) (by decide)

/-- The inner loop of `ReadBits` (`/repo/math/big.go:221-225`): `j` bytes of the word are left, `i` is the position. -/
def putWord : Nat → Nat → Nat → Bytes → Nat × Bytes
  | 0, i, _, buf => (i, buf)
  | _ + 1, 0, _, buf => (0, buf)
  | j + 1, i + 1, d, buf => putWord j i (d >>> 8) (buf.set i (UInt8.ofNat d))

/-- The outer loop of `ReadBits` (`/repo/math/big.go:218-227`). -/
def readLoop : List Nat → Nat → Bytes → Bytes
  | [], _, buf => buf
  | w :: ws, i, buf => readLoop ws (putWord 8 i w buf).1 (putWord 8 i w buf).2

/-- `ReadBits` (`/repo/math/big.go:218-227`). -/
def readBits (x : Int) (buf : Bytes) : Bytes := readLoop (words x.natAbs) buf.length buf

/-- `BitLen`. -/
def bitLen (n : Nat) : Nat := if n = 0 then 0 else n.log2 + 1

/-- `PaddedBigBytes` (`/repo/math/big.go:179-186`). -/
def paddedBigBytes (x : Int) (n : Nat) : Bytes :=
  if bitLen x.natAbs / 8 ≥ n then natBytes x.natAbs else readBits x (List.replicate n 0)

/-- `U256Bytes` (`/repo/math/big.go:236-238`), the result. -/
def u256Bytes (x : Int) : Bytes := paddedBigBytes (u256 x) 32

/-- `bigEndianByteAt` (`/repo/math/big.go:191-203`). -/
def bigEndianByteAt (x : Int) (n : Nat) : UInt8 :=
  match (words x.natAbs)[n / 8]? with
  | none => 0
  | some w => UInt8.ofNat (w >>> (8 * (n % 8)))

/-- `Byte` (`/repo/math/big.go:209-214`), for a non-negative position. -/
def byteOf (x : Int) (padlength n : Nat) : UInt8 :=
  if n ≥ padlength then 0 else bigEndianByteAt x (padlength - 1 - n)

/-- The inner loop of `Exp` (`/repo/math/big.go:263-269`): `k` bits of the word are left. -/
def expBits : Nat → Nat → Int → Int → Int × Int
  | 0, _, r, b => (r, b)
  | k + 1, w, r, b => expBits k (w >>> 1) (if w &&& 1 = 1 then u256 (r * b) else r) (u256 (b * b))

/-- The outer loop of `Exp` (`/repo/math/big.go:262-270`). -/
def expWords : List Nat → Int → Int → Int × Int
  | [], r, b => (r, b)
  | w :: ws, r, b => expWords ws (expBits 64 w r b).1 (expBits 64 w r b).2

/-- `Exp` (`/repo/math/big.go:259-272`).  `base` is updated in place; the words of the exponent are read before any
update, and multiplication writes to new storage, so the two pointers may be equal. -/
def expH (h : Heap) (base exponent : Nat) : Heap × Ptr :=
  let p := expWords (words (h.at exponent).natAbs) 1 (h.at base)
  alloc (h.set base p.2) p.1

/-- `Cmp`. -/
def cmp (a b : Int) : Int := if a < b then -1 else if a = b then 0 else 1

/-- `CompareBigInt` (`/repo/math/big.go:429-440`). -/
def compareBigInt (h : Heap) (a b : Ptr) : Int :=
  if a = b then 0
  else match a, b with
    | none, _ => -1
    | _, none => 1
    | some i, some j => cmp (h.at i) (h.at j)

/-- `BigInt.IsZero` (`/repo/math/big.go:621-623`); also `Sign() == 0`. -/
def isZero (h : Heap) : Ptr → Bool
  | none => true
  | some i => h.at i == 0

/-- `BigInt.Compare` and `BigInt.CompareInt` (`/repo/math/big.go:625-630, 632-637`). -/
def compare (h : Heap) (a b : Ptr) : Int := if isZero h a && isZero h b then 0 else compareBigInt h a b

/-- `NewBigInt`, `Clone`, `CopyBigInt` (`/repo/math/big.go:357-362`, `457-463`, `477-479`). -/
def clone (h : Heap) : Ptr → Heap × Ptr
  | none => (h, none)
  | some i => alloc h (h.at i)

/-- `BigInt.AddInt` (`/repo/math/big.go:506-516`) and `AddBigInt` (`387-397`). -/
def addInt (h : Heap) (b a : Ptr) : Heap × Ptr :=
  match a with
  | none => (h, b)
  | some j =>
    match b with
    | none => alloc h (h.at j)
    | some i => (h.set i (h.at i + h.at j), some i)

/-- `BigInt.AddInts` (`/repo/math/big.go:518-534`). -/
def addInts : Heap → Ptr → List Ptr → Heap × Ptr
  | h, c, [] => (h, c)
  | h, c, i :: is => if isZero h i then addInts h c is else addInts (addInt h c i).1 (addInt h c i).2 is

/-- `BigInt.SubInt` (`/repo/math/big.go:540-552`). -/
def subInt (h : Heap) (b a : Ptr) : Heap × Ptr :=
  match a with
  | none => (h, b)
  | some j =>
    match b with
    | none => alloc h (0 - h.at j)
    | some i => (h.set i (h.at i - h.at j), some i)

/-- `Sign() <= 0`, nil included. -/
def notPositive (h : Heap) : Ptr → Bool
  | none => true
  | some i => h.at i ≤ 0

/-- `BigInt.SubIntNotLessZero` (`/repo/math/big.go:556-568`): heap, what is left, what was taken. -/
def subIntNotLessZero (h : Heap) (b s : Ptr) : Heap × Ptr × Ptr :=
  if notPositive h s then (h, b, none)
  else if notPositive h b then (h, b, none)
  else if compare h b s > 0 then
    let c := clone h b
    let l := subInt c.1 c.2 s
    let t := clone l.1 s
    (t.1, l.2, t.2)
  else
    let c := clone h b
    (c.1, none, c.2)

/-- `BigInt.MulInt` (`/repo/math/big.go:572-581`). -/
def mulInt (h : Heap) (b a : Ptr) : Heap × Ptr :=
  match b with
  | none => (h, none)
  | some i =>
    match a with
    | none => (h, none)
    | some j => if h.at j = 0 then (h, none) else (h.set i (h.at i * h.at j), some i)

/-- `BigInt.DivInt` (`/repo/math/big.go:587-596`). -/
def divInt (h : Heap) (b a : Ptr) : Res (Heap × Ptr) :=
  if isZero h a then .panic
  else match b, a with
    | some i, some j => .ok (h.set i (h.at i / h.at j), some i)
    | _, _ => .ok (h, none)

/-- `BigInt.MulRat` (`/repo/math/big.go:608-617`): the numerator and the (positive) denominator of the fraction are
cells of its own. -/
def mulRat (h : Heap) (b : Ptr) (r : Option (Int × Int)) : Res (Heap × Ptr) :=
  match b, r with
  | none, _ => .ok (h, none)
  | _, none => .ok (h, none)
  | some i, some (num, den) =>
    if num = 0 then .ok (h, none)
    else
      let h1 := h ++ [num, den]
      let m := mulInt h1 (some i) (some h.length)
      divInt m.1 m.2 (some (h.length + 1))

/-- `BigInt.ToUint64` (`/repo/math/big.go:660-666`). -/
def toUint64 (h : Heap) : Ptr → Option Nat
  | none => none
  | some i => if h.at i < 0 ∨ h.at i > 2 ^ 64 - 1 then none else some ((h.at i).toNat % 2 ^ 64)

/-- `FirstBitSet` (`/repo/math/big.go:168-175`): the loop with `k` bits left, from bit `i`. -/
def firstBitLoop (n : Nat) : Nat → Nat → Nat
  | 0, i => i
  | k + 1, i => if n.testBit i then i else firstBitLoop n k (i + 1)

/-- `FirstBitSet` of a non-negative number. -/
def firstBitSet (n : Nat) : Nat := firstBitLoop n (bitLen n) 0

end Verif.BigMath

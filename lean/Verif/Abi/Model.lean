import Verif.Abi.Spec
import Verif.BigMath.Props
import Verif.ByteOps.Model

/-!
# Packing and unpacking: the code of `/repo/abi`

Simplifications: Go values are trees (`Val`) of the shape that `Type.GetType` prescribes, so type checks are checks of shape and
length; the fields of a struct are in the order of the tuple's fields (the mapping of names is in `Abi/Fields.lean`); slices of bytes have
no capacity beyond their length; numbers derived from lengths do not overflow `int` (inputs are shorter than 2^58 bytes, array
sizes below 2^58).
-/

namespace Verif.Abi
open Verif

def Res.bind {α β : Type} (r : Res α) (f : α → Res β) : Res β :=
  match r with
  | .ok a => f a
  | .err => .err
  | .panic => .panic

mutual
/-- `isDynamicType` (`/repo/abi/type.go:361-371`). -/
def isDynamicType : Ty → Bool
  | .tuple l => anyDynamic l
  | .string => true
  | .bytes => true
  | .slice _ => true
  | .array _ e => isDynamicType e
  | .uint _ => false
  | .int _ => false
  | .bool => false
  | .address => false
  | .fixed _ => false
  | .function => false
/-- The loop over the fields. -/
def anyDynamic : List Ty → Bool
  | [] => false
  | t :: l => if isDynamicType t then true else anyDynamic l
end

/-- `t.Elem.T == ArrayTy || t.Elem.T == TupleTy`. -/
def Ty.nested : Ty → Bool
  | .array _ _ => true
  | .tuple _ => true
  | _ => false

mutual
/-- `getTypeSize` (`/repo/abi/type.go:381-396`). -/
def getTypeSize : Ty → Nat
  | .array n e =>
    if !isDynamicType e then (if e.nested then n * getTypeSize e else n * 32) else 32
  | .tuple l => if !isDynamicType (.tuple l) then sizeSum l else 32
  | .uint _ => 32
  | .int _ => 32
  | .bool => 32
  | .string => 32
  | .bytes => 32
  | .address => 32
  | .fixed _ => 32
  | .function => 32
  | .slice _ => 32
/-- The sum over the fields. -/
def sizeSum : List Ty → Nat
  | [] => 0
  | t :: l => getTypeSize t + sizeSum l
end

/-! ### Packing -/

/-- `packNum` (`/repo/abi/pack.go:76-87`). -/
def packNum (i : Int) : Bytes := BigMath.u256Bytes i

/-- `packBytesSlice` (`/repo/abi/pack.go:31-34`). -/
def packBytesSlice (b : Bytes) (l : Nat) : Bytes := packNum l ++ ByteOps.rightPad b ((l + 31) / 32 * 32)

/-- The loop over the elements of a slice or an array (`/repo/abi/type.go:279-293`); `p` packs an element. -/
def packElems (p : Val → Res Bytes) (offsetReq : Bool) : List Val → Nat → Bytes → Bytes → Res Bytes
  | [], _, ret, tl => .ok (ret ++ tl)
  | v :: vs, offset, ret, tl =>
    Res.bind (p v) fun val =>
      if !offsetReq then packElems p offsetReq vs offset (ret ++ val) tl
      else packElems p offsetReq vs (offset + val.length) (ret ++ packNum offset) (tl ++ val)

mutual
/-- `Type.pack`, `packElement`, `typeCheck` (`/repo/abi/type.go:256-340`, `/repo/abi/pack.go:38-73`,
`/repo/abi/error_handling.go:41-76`). -/
def pack : Ty → Val → Res Bytes
  | .uint _, v =>
    match v with
    | .num i => .ok (packNum i)
    | _ => .err
  | .int _, v =>
    match v with
    | .num i => .ok (packNum i)
    | _ => .err
  | .bool, v =>
    match v with
    | .bool b => .ok (if b then BigMath.paddedBigBytes 1 32 else BigMath.paddedBigBytes 0 32)
    | _ => .err
  | .string, v =>
    match v with
    | .bytes b => .ok (packBytesSlice b b.length)
    | _ => .err
  | .bytes, v =>
    match v with
    | .bytes b => .ok (packBytesSlice b b.length)
    | _ => .err
  | .address, v =>
    match v with
    | .bytes b => .ok (ByteOps.leftPad b 32)
    | _ => .err
  | .fixed n, v =>
    match v with
    | .bytes b => if n ≠ b.length then .err else .ok (ByteOps.rightPad b 32)
    | _ => .err
  | .function, v =>
    match v with
    | .bytes b => .ok (ByteOps.rightPad b 32)
    | _ => .err
  | .slice e, v =>
    match v with
    | .list vs =>
      packElems (pack e) (isDynamicType e) vs (if isDynamicType e then getTypeSize e * vs.length else 0) (packNum vs.length) []
    | _ => .err
  | .array n e, v =>
    match v with
    | .list vs =>
      if vs.length ≠ n then .err
      else packElems (pack e) (isDynamicType e) vs (if isDynamicType e then getTypeSize e * vs.length else 0) [] []
    | _ => .err
  | .tuple ts, v =>
    match v with
    | .list vs => if vs.length ≠ ts.length then .err else packFields ts vs (sizeSum ts) [] []
    | _ => .err
/-- The loop over the fields of a tuple (`/repo/abi/type.go:315-334`) or over the arguments (`/repo/abi/argument.go:247-265`). -/
def packFields : List Ty → List Val → Nat → Bytes → Bytes → Res Bytes
  | t :: ts, v :: vs, offset, ret, tl =>
    Res.bind (pack t v) fun val =>
      if isDynamicType t then packFields ts vs (offset + val.length) (ret ++ packNum offset) (tl ++ val)
      else packFields ts vs offset (ret ++ val) tl
  | _, _, _, ret, tl => .ok (ret ++ tl)
end

/-- `Arguments.Pack` (`/repo/abi/argument.go:233-273`). -/
def packArgs (ts : List Ty) (vs : List Val) : Res Bytes :=
  if vs.length ≠ ts.length then .err else packFields ts vs (sizeSum ts) [] []

/-! ### Unpacking -/

/-- `b[i:]`. -/
def sliceFrom (b : Bytes) (i : Nat) : Res Bytes := if i ≤ b.length then .ok (b.drop i) else .panic

/-- `b[i:j]`. -/
def sliceOf (b : Bytes) (i j : Nat) : Res Bytes := if i ≤ j ∧ j ≤ b.length then .ok ((b.drop i).take (j - i)) else .panic

/-- The value of `n` bits in two's complement: the conversions `int8(x)`, … -/
def signed (bits n : Nat) : Int := if n < 2 ^ (bits - 1) then n else (n : Int) - 2 ^ bits

/-- `ReadInteger` for `UintTy` (`/repo/abi/unpack.go:38-52`); the word has 32 bytes. -/
def readUint (bits : Nat) (w : Bytes) : Int :=
  if bits = 8 then (beNat (w.drop 31) : Nat)
  else if bits = 16 then (beNat (w.drop 30) : Nat)
  else if bits = 32 then (beNat (w.drop 28) : Nat)
  else if bits = 64 then (beNat (w.drop 24) : Nat)
  else (beNat w : Nat)

/-- `ReadInteger` for `IntTy` (`/repo/abi/unpack.go:53-75`). -/
def readInt (bits : Nat) (w : Bytes) : Int :=
  if bits = 8 then signed 8 (beNat (w.drop 31))
  else if bits = 16 then signed 16 (beNat (w.drop 30))
  else if bits = 32 then signed 32 (beNat (w.drop 28))
  else if bits = 64 then signed 64 (beNat (w.drop 24))
  else
    let ret : Int := (beNat w : Nat)
    if (beNat w).testBit 255 then -((2 ^ 256 - 1 + -ret) + 1) else ret

/-- `readBool` (`/repo/abi/unpack.go:78-92`). -/
def readBool (w : Bytes) : Res Bool :=
  if (w.take 31).any (· != 0) then .err
  else if w.getD 31 0 = 0 then .ok false
  else if w.getD 31 0 = 1 then .ok true
  else .err

/-- `readFunctionType` (`/repo/abi/unpack.go:97-108`). -/
def readFunction (w : Bytes) : Res Bytes :=
  if beNat ((w.drop 24).take 8) ≠ 0 then .err else .ok (w.take 24)

/-- `BytesToAddress` (`/repo/basic.go:1281-1286, 1553-1557`) of a word. -/
def readAddress (w : Bytes) : Bytes := ByteOps.bytesTo 20 w

/-- `lengthPrefixPointsTo` (`/repo/abi/unpack.go:257-284`). -/
def lengthPrefixPointsTo (i : Nat) (out : Bytes) : Res (Nat × Nat) :=
  Res.bind (sliceOf out i (i + 32)) fun w =>
    let offsetEnd := beNat w + 32
    if offsetEnd > out.length then .err
    else if offsetEnd ≥ 2 ^ 63 then .err
    else
      Res.bind (sliceOf out (offsetEnd - 32) offsetEnd) fun w =>
        let total := offsetEnd + beNat w
        if total ≥ 2 ^ 63 then .err
        else if total > out.length then .err
        else .ok (offsetEnd, beNat w)

/-- `tuplePointsTo` (`/repo/abi/unpack.go:287-298`). -/
def tuplePointsTo (i : Nat) (out : Bytes) : Res Nat :=
  Res.bind (sliceOf out i (i + 32)) fun w =>
    if beNat w > out.length then .err
    else if beNat w ≥ 2 ^ 63 then .err
    else .ok (beNat w)

/-- The loop of `forEachUnpack` (`/repo/abi/unpack.go:148-156`); `dec` decodes an element. -/
def forEachLoop (dec : Nat → Res Val) (elemSize : Nat) : Nat → Nat → Res (List Val)
  | 0, _ => .ok []
  | size + 1, i => Res.bind (dec i) fun v => Res.bind (forEachLoop dec elemSize size (i + elemSize)) fun l => .ok (v :: l)

/-- `forEachUnpack` (`/repo/abi/unpack.go:124-160`) from the start of `out`. -/
def forEachUnpack (dec : Nat → Res Val) (elemSize : Nat) (out : Bytes) (size : Nat) : Res Val :=
  if 32 * size > out.length then .err
  else Res.bind (forEachLoop dec elemSize size 0) fun l => .ok (.list l)

/-- The virtual arguments that a field adds (`/repo/abi/unpack.go:167-184`, `/repo/abi/argument.go:200-216`). -/
def virtual (t : Ty) : Int :=
  if t.nested && !isDynamicType t then ((getTypeSize t / 32 : Nat) : Int) - 1 else 0

mutual
/-- `toGoType` (`/repo/abi/unpack.go:194-247`). -/
def toGoType : Ty → Nat → Bytes → Res Val
  | .uint bits, i, out =>
    if i + 32 > out.length then .err
    else Res.bind (sliceOf out i (i + 32)) fun w => .ok (.num (readUint bits w))
  | .int bits, i, out =>
    if i + 32 > out.length then .err
    else Res.bind (sliceOf out i (i + 32)) fun w => .ok (.num (readInt bits w))
  | .bool, i, out =>
    if i + 32 > out.length then .err
    else Res.bind (sliceOf out i (i + 32)) fun w => Res.bind (readBool w) fun b => .ok (.bool b)
  | .address, i, out =>
    if i + 32 > out.length then .err
    else Res.bind (sliceOf out i (i + 32)) fun w => .ok (.bytes (readAddress w))
  | .fixed n, i, out =>
    if i + 32 > out.length then .err
    else Res.bind (sliceOf out i (i + n)) fun w => .ok (.bytes w)
  | .function, i, out =>
    if i + 32 > out.length then .err
    else Res.bind (sliceOf out i (i + 32)) fun w => Res.bind (readFunction w) fun b => .ok (.bytes b)
  | .string, i, out =>
    if i + 32 > out.length then .err
    else Res.bind (lengthPrefixPointsTo i out) fun p => Res.bind (sliceOf out p.1 (p.1 + p.2)) fun b => .ok (.bytes b)
  | .bytes, i, out =>
    if i + 32 > out.length then .err
    else Res.bind (lengthPrefixPointsTo i out) fun p => Res.bind (sliceOf out p.1 (p.1 + p.2)) fun b => .ok (.bytes b)
  | .slice e, i, out =>
    if i + 32 > out.length then .err
    else Res.bind (lengthPrefixPointsTo i out) fun p =>
      Res.bind (sliceFrom out p.1) fun o => forEachUnpack (fun j => toGoType e j o) (getTypeSize e) o p.2
  | .array n e, i, out =>
    if i + 32 > out.length then .err
    else Res.bind (sliceOf out i (i + 32)) fun w =>
      if isDynamicType e then
        if beNat (w.drop 24) > out.length then .err
        else Res.bind (sliceFrom out (beNat (w.drop 24))) fun o =>
          forEachUnpack (fun j => toGoType e j o) (getTypeSize e) o n
      else Res.bind (sliceFrom out i) fun o => forEachUnpack (fun j => toGoType e j o) (getTypeSize e) o n
  | .tuple ts, i, out =>
    if i + 32 > out.length then .err
    else if isDynamicType (.tuple ts) then
      Res.bind (tuplePointsTo i out) fun b => Res.bind (sliceFrom out b) fun o => Res.bind (unpackFields ts 0 0 o) fun l =>
        .ok (.list l)
    else Res.bind (sliceFrom out i) fun o => Res.bind (unpackFields ts 0 0 o) fun l => .ok (.list l)
/-- The loops of `forTupleUnpack` and `UnpackValues` (`/repo/abi/unpack.go:162-190`, `/repo/abi/argument.go:192-222`).  A negative
index panics in `toGoType`. -/
def unpackFields : List Ty → Nat → Int → Bytes → Res (List Val)
  | [], _, _, _ => .ok []
  | t :: ts, index, virt, out =>
    if (index : Int) + virt < 0 then .panic
    else Res.bind (toGoType t (((index : Int) + virt) * 32).toNat out) fun v =>
      Res.bind (unpackFields ts (index + 1) (virt + virtual t) out) fun l => .ok (v :: l)
end

/-- `Arguments.UnpackValues` (`/repo/abi/argument.go:195-224`); the arguments are those that are not indexed. -/
def unpackValues (ts : List Ty) (data : Bytes) : Res (List Val) := unpackFields ts 0 0 data

/-- `Arguments.Unpack` (`/repo/abi/argument.go:80-88`). -/
def unpackArgs (ts : List Ty) (data : Bytes) : Res (List Val) :=
  if data.length = 0 then (if ts.length ≠ 0 then .err else .ok []) else unpackValues ts data

end Verif.Abi

import Verif.Rlp.Model

/-!
# Typed values: the writers and decoders that `/repo/rlp` makes from Go types

A universe of Go types (`Ty`), their values (`Val`), the writer of a type (`wr`, `makeWriter`) and the decoder of a type
(`decTy`, `makeDecoder`).  Recursive types go through a table `Γ` of named struct types: `Ty.ref i` is the `i`-th of them.

Simplifications: the type cache is omitted (a writer or decoder is a function of type and tags, which is what the key of the
cache says); types that implement `Encoder` or `Decoder` are not in the universe; a struct has only exported fields that are
not ignored; the dynamic value of an interface is made of `[]byte` and `[]interface{}`; decoding is into a zero value; a
`big.Int` held by value is the zero value of its type when it is 0.
-/

namespace Verif.Rlp
open Verif

/-! ### Types and values -/

/-- `NilKind` (`/repo/rlp/internal/rlpstruct/rlpstruct.go:55-61`). -/
inductive NilKind where
  | string
  | list
  deriving DecidableEq

/-- `Tags` (`/repo/rlp/internal/rlpstruct/rlpstruct.go:64-80`), without `Ignored`. -/
structure Tags where
  nilOK : Bool := false
  nilKind : NilKind := .string
  optional : Bool := false
  tail : Bool := false
  deriving DecidableEq

mutual
/-- Go types. -/
inductive Ty where
  /-- `bool` -/
  | bool
  /-- `uint8`, …, `uint64` -/
  | uint (bits : Nat)
  /-- `big.Int` -/
  | big
  /-- `uint256.Int` -/
  | u256
  /-- `string` -/
  | str
  /-- `[]byte` -/
  | bytes
  /-- `[n]byte` -/
  | byteArr (n : Nat)
  /-- `rlp.RawValue` -/
  | raw
  /-- `interface{}` -/
  | any
  /-- `*t` -/
  | ptr (t : Ty)
  /-- `[]t`, not of bytes -/
  | slice (t : Ty)
  /-- `[n]t`, not of bytes -/
  | array (n : Nat) (t : Ty)
  /-- `struct { … }` -/
  | struct (fs : Flds)
  /-- The named struct type number `i`. -/
  | ref (i : Nat)
/-- The fields of a struct with their tags. -/
inductive Flds where
  | nil
  | cons (g : Tags) (t : Ty) (fs : Flds)
end

/-- Go values: `bytes` for strings, byte slices, byte arrays and raw values; `list` for slices, arrays and structs; `nil` for
pointers, slices and interfaces. -/
inductive Val where
  | bool (b : Bool)
  | num (n : Int)
  | bytes (b : Bytes)
  | nil
  | ptr (v : Val)
  | list (l : List Val)
  | any (i : Item)

/-- `*big.Int`, `*uint256.Int` have their own writers and decoders (`/repo/rlp/encode.go:144-151`). -/
def Ty.isNum : Ty → Bool
  | .big => true
  | .u256 => true
  | _ => false

/-- `DefaultNilValue` (`/repo/rlp/internal/rlpstruct/rlpstruct.go:47-53`). -/
def Ty.defaultNil : Ty → NilKind
  | .bool => .string
  | .uint _ => .string
  | .str => .string
  | .bytes => .string
  | .byteArr _ => .string
  | .raw => .string
  | _ => .list

/-- `typeNilKind` (`/repo/rlp/typecache.go:215-232`). -/
def typeNilKind (t : Ty) (g : Tags) : NilKind := if g.nilOK then g.nilKind else t.defaultNil

mutual
/-- `reflect.Zero` of a type. -/
def Ty.zero : Ty → Val
  | .bool => .bool false
  | .uint _ => .num 0
  | .big => .num 0
  | .u256 => .num 0
  | .str => .bytes []
  | .bytes => .nil
  | .byteArr n => .bytes (List.replicate n 0)
  | .raw => .nil
  | .any => .nil
  | .ptr _ => .nil
  | .slice _ => .nil
  | .array n t => .list (List.replicate n t.zero)
  | .struct fs => .list fs.zeros
  | .ref _ => .nil
/-- The fields. -/
def Flds.zeros : Flds → List Val
  | .nil => []
  | .cons _ t fs => t.zero :: fs.zeros
end

/-! ### Writers -/

section
variable (Γ : Nat → Flds)

mutual
/-- `Value.IsZero`. -/
def isZero : Ty → Val → Bool
  | .bool, .bool b => !b
  | .uint _, .num n => n == 0
  | .big, .num n => n == 0
  | .u256, .num n => n == 0
  | .str, .bytes b => b.isEmpty
  | .byteArr _, .bytes b => b.all (· == 0)
  | .array _ t, .list l => allZero t l
  | .struct fs, .list l => fldsZero fs l
  | .ref i, .list l => fldsZero (Γ i) l
  | _, .nil => true
  | _, _ => false
/-- All elements. -/
def allZero : Ty → List Val → Bool
  | _, [] => true
  | t, v :: l => isZero t v && allZero t l
/-- All fields. -/
def fldsZero : Flds → List Val → Bool
  | .cons _ t fs, v :: l => isZero t v && fldsZero fs l
  | _, _ => true
end

/-- `firstOptionalField` (`/repo/rlp/typecache.go:163-170`). -/
def firstOptional : Flds → Nat
  | .nil => 0
  | .cons g _ fs => if g.optional then 0 else firstOptional fs + 1

/-- Which fields are zero. -/
def zeroFlags : Flds → List Val → List Bool
  | .cons _ t fs, v :: l => isZero Γ t v :: zeroFlags fs l
  | _, _ => []

/-- The loop over `lastField` (`/repo/rlp/encode.go:369-374`): the number of fields written. -/
def lastLoop (zs : List Bool) (first : Nat) : Nat → Nat
  | 0 => 0
  | k + 1 => if first ≤ k ∧ zs.getD k false = true then lastLoop zs first k else k + 1

/-- The number of fields (`len(fields)`). -/
def Flds.len : Flds → Nat
  | .nil => 0
  | .cons _ _ fs => fs.len + 1

/-- The number of fields the writer of a struct writes (`/repo/rlp/encode.go:349-386`). -/
def keep (fs : Flds) (l : List Val) : Nat :=
  if firstOptional fs = fs.len then fs.len else lastLoop (zeroFlags Γ fs l) (firstOptional fs) fs.len

/-- The writer of byte arrays (`/repo/rlp/encode.go:235-272`). -/
def Buf.writeByteArray (b : Buf) (n : Nat) (x : Bytes) : Buf :=
  if n = 0 then b.write [0x80]
  else if n = 1 then
    if x.getD 0 0 ≤ 0x7f then b.write [x.getD 0 0] else b.write [0x81, x.getD 0 0]
  else (b.encodeStringHeader x.length).write x

/-- The word number `k` of a `uint256.Int`. -/
def wordOf (n : Int) (k : Nat) : UInt64 := UInt64.ofNat (n.toNat / 2 ^ (64 * k))

/-- The byte written for a nil pointer (`/repo/rlp/encode.go:190-194, 214-218, 393-396`). -/
def nilByte (g : Tags) (t : Ty) : UInt8 :=
  if t.isNum then 0x80 else if typeNilKind t g = .string then 0x80 else 0xC0

mutual
/-- The writer made by `makeWriter` for a type and the tags of the field (`/repo/rlp/encode.go:139-412`). -/
def wr (g : Tags) : Ty → Val → Buf → Res Buf
  | .bool, .bool x, b => .ok (b.writeBool x)
  | .uint _, .num n, b => .ok (b.writeUint64 (UInt64.ofNat n.toNat))
  | .big, .num n, b => if n < 0 then .err else .ok (b.writeBigInt n.toNat)
  | .u256, .num n, b => .ok (b.writeUint256 (wordOf n 0) (wordOf n 1) (wordOf n 2) (wordOf n 3))
  | .str, .bytes x, b => .ok (b.writeBytes x)
  | .bytes, .bytes x, b => .ok (b.writeBytes x)
  | .bytes, .nil, b => .ok (b.writeBytes [])
  | .byteArr n, .bytes x, b => .ok (b.writeByteArray n x)
  | .raw, .bytes x, b => .ok (b.write x)
  | .raw, .nil, b => .ok (b.write [])
  | .any, .nil, b => .ok (b.write [0xC0])
  | .any, .any i, b => .ok (b.item i)
  | .ptr t, .nil, b => .ok (b.write [nilByte g t])
  | .ptr t, .ptr v, b => wr {} t v b
  | .slice _, .nil, b => if g.tail then .ok b else .ok (b.write [0xC0])
  | .slice t, .list l, b =>
    if g.tail then wrL t l b
    else if l.length = 0 then .ok (b.write [0xC0])
    else match wrL t l b.list.1 with
      | .ok c => .ok (c.listEnd b.list.2)
      | r => r
  | .array _ t, .list l, b =>
    if l.length = 0 then .ok (b.write [0xC0])
    else match wrL t l b.list.1 with
      | .ok c => .ok (c.listEnd b.list.2)
      | r => r
  | .struct fs, .list l, b =>
    match wrF (keep Γ fs l) fs l b.list.1 with
    | .ok c => .ok (c.listEnd b.list.2)
    | r => r
  | .ref i, .list l, b =>
    match wrF (keep Γ (Γ i) l) (Γ i) l b.list.1 with
    | .ok c => .ok (c.listEnd b.list.2)
    | r => r
  | _, _, _ => .panic
/-- The elements. -/
def wrL : Ty → List Val → Buf → Res Buf
  | _, [], b => .ok b
  | t, v :: l, b =>
    match wr {} t v b with
    | .ok c => wrL t l c
    | r => r
/-- The first so many fields. -/
def wrF : Nat → Flds → List Val → Buf → Res Buf
  | k + 1, .cons g t fs, v :: l, b =>
    match wr g t v b with
    | .ok c => wrF k fs l c
    | r => r
  | _, _, _, b => .ok b
end

/-- `EncodeToBytes` of a value of a type (`/repo/rlp/encode.go:77-85`). -/
def encodeTy (t : Ty) (v : Val) : Res Bytes :=
  match wr Γ {} t v Buf.empty with
  | .ok b => b.makeBytes
  | .err => .err
  | .panic => .panic

/-! ### Decoders -/

/-- A decoder into a fresh value. -/
abbrev Dec := Stream → Except Err Val × Stream

/-- What a reader of the stream gives, as a value. -/
def lift {α : Type} (f : α → Val) (dec : Stream → Except Err α × Stream) : Dec := fun s =>
  match dec s with
  | (.error e, s) => (.error e, s)
  | (.ok v, s) => (.ok (f v), s)

/-- The loop of `decodeListArray` (`/repo/rlp/decode.go:347-356`). -/
def arrElems (dec : Dec) : Nat → Stream → Except Err (List Val) × Stream
  | 0, s => (.ok [], s)
  | n + 1, s =>
    match dec s with
    | (.error .eol, s) => (.error .tooFew, s)
    | (.error e, s) => (.error e, s)
    | (.ok v, s) =>
      match arrElems dec n s with
      | (.error e, s) => (.error e, s)
      | (.ok l, s) => (.ok (v :: l), s)

/-- `List`, the elements or fields, `ListEnd` (`/repo/rlp/decode.go:341-358, 414-435`). -/
def inList (elems : Stream → Except Err (List Val) × Stream) (s : Stream) : Except Err (List Val) × Stream :=
  match s.list with
  | (.error e, s) => (.error e, s)
  | (.ok _, s) =>
    match elems s with
    | (.error e, s) => (.error e, s)
    | (.ok l, s) =>
      match s.listEnd with
      | (.error e, s) => (.error e, s)
      | (.ok _, s) => (.ok l, s)

/-- The kind of the empty value that stands for nil (`/repo/rlp/typecache.go:224-231`). -/
def NilKind.kind : NilKind → Kind
  | .string => .string
  | .list => .list

/-- `makeNilPtrDecoder` (`/repo/rlp/decode.go:478-514`). -/
def nilPtr (k : NilKind) (dec : Dec) : Dec := fun s =>
  match s.kind with
  | (.error e, s) => (.error e, s)
  | (.ok (kd, n), s) =>
    if kd ≠ .byte ∧ n = 0 then
      if kd ≠ k.kind then (.error .wrongNil, s)
      else (.ok .nil, { s with ahead := none })
    else lift .ptr dec s

mutual
/-- The decoder made by `makeDecoder` for a type and the tags of the field (`/repo/rlp/decode.go:153-539`), given the decoders
of the named types; `F` bounds the nesting of the values of interfaces. -/
def decTy (F : Nat) (named : Nat → Dec) (g : Tags) : Ty → Dec
  | .bool => lift .bool Stream.bool
  | .uint bits => lift (fun n : Nat => .num n) (Stream.uint · bits)
  | .big => lift (fun n : Nat => .num n) (Stream.bigInt · none)
  | .u256 => lift (fun n : Nat => .num n) (Stream.bigInt · (some 32))
  | .str => lift .bytes Stream.bytes
  | .bytes => lift .bytes Stream.bytes
  | .byteArr n => lift .bytes (Stream.readBytes · n)
  | .raw => lift .bytes Stream.raw
  | .any => lift .any (decodeIface F)
  | .ptr t =>
    if t.isNum = false ∧ g.nilOK = true then nilPtr (typeNilKind t g) (decTy F named {} t) else lift .ptr (decTy F named {} t)
  | .slice t =>
    if g.tail then lift .list (fun s => sliceElems (decTy F named {} t) (s.r.length + 1) s)
    else lift .list (listSlice (decTy F named {} t))
  | .array n t => lift .list (inList (arrElems (decTy F named {} t) n))
  | .struct fs => lift .list (inList (decFlds F named fs))
  | .ref i => named i
/-- The loop over the fields (`/repo/rlp/decode.go:418-433`). -/
def decFlds (F : Nat) (named : Nat → Dec) : Flds → Stream → Except Err (List Val) × Stream
  | .nil, s => (.ok [], s)
  | .cons g t fs, s =>
    match decTy F named g t s with
    | (.error .eol, s) => if g.optional then (.ok (t.zero :: fs.zeros), s) else (.error .tooFew, s)
    | (.error e, s) => (.error e, s)
    | (.ok v, s) =>
      match decFlds F named fs s with
      | (.error e, s) => (.error e, s)
      | (.ok l, s) => (.ok (v :: l), s)
end

/-- The decoders of the named types, for nesting up to `f`. -/
def named (F : Nat) : Nat → Nat → Dec
  | 0, _ => fun s => (.error .outOfFuel, s)
  | f + 1, i => decTy F (named F f) {} (.struct (Γ i))

/-- `Stream.Decode` into a value of a type (`/repo/rlp/decode.go:933-957`). -/
def Stream.decodeTy (t : Ty) (s : Stream) : Except Err Val × Stream := 
  decTy (s.r.length + 2) (named Γ (s.r.length + 2) (s.r.length + 1)) {} t s

/-- `DecodeBytes` into a value of a type (`/repo/rlp/decode.go:92-106`). -/
def decodeBytesTy (t : Ty) (b : Bytes) : Except Err Val :=
  match (Stream.ofBytes b).decodeTy Γ t with
  | (.error e, _) => .error e
  | (.ok v, s) => if 0 < s.r.length then .error .moreThanOne else .ok v

end

end Verif.Rlp

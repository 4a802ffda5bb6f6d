import Verif.Rlp.TypedThms

/-!
# The code that `rlpgen` writes

`makeOp` (what `rlpgen` makes of a type), `gw` and `gd` (what the generated `EncodeRLP` and `DecodeRLP` do), against `wr` and
`decTy` (what the package does by reflection with the same type).

Simplifications: the generated text is modelled by what it does when compiled; `Op.compiles` says which texts are Go programs, as
far as types and unused variables are concerned; recursive types are left out (`rlpgen` unfolds them without end, unless they
implement the interfaces), as are types that implement `Encoder` and `Decoder`.
-/

namespace Verif.Rlp
open Verif

/-! ### What is generated -/

mutual
/-- The operations (`/repo/rlp/rlpgen/gen.go:148-671`). -/
inductive Op where
  /-- `basicOp` of `bool` -/
  | bool
  /-- `basicOp` of `uint8`, …, `uint64` -/
  | uint (bits : Nat)
  /-- `basicOp` of `string` -/
  | str
  /-- `makeByteSliceOp` -/
  | bytes
  /-- `makeRawValueOp` -/
  | raw
  /-- `byteArrayOp` -/
  | byteArr (n : Nat)
  /-- `bigIntOp` -/
  | big (pointer : Bool)
  /-- `uint256Op` -/
  | u256 (pointer : Bool)
  /-- `ptrOp` -/
  | ptr (elem : Op) (nilOK : Bool) (nilValue : NilKind)
  /-- `sliceOp` -/
  | slice (elem : Op)
  /-- `structOp` -/
  | struct (fields optionals : OpFlds)
/-- `[]*structField` (`/repo/rlp/rlpgen/gen.go:490-494`). -/
inductive OpFlds where
  | nil
  | cons (typ : Ty) (elem : Op) (fs : OpFlds)
end

mutual
/-- `makeOp` (`/repo/rlp/rlpgen/gen.go:675-730`) with `makeBasicOp`, `makePtrOp`, `makeSliceOp`
(`/repo/rlp/rlpgen/gen.go:168-217, 265-271, 407-423, 636-642`); `none`: the type is refused. -/
def makeOp (g : Tags) : Ty → Option Op
  | .bool => some .bool
  | .uint bits => some (.uint bits)
  | .str => some .str
  | .bytes => some .bytes
  | .byteArr n => some (.byteArr n)
  | .raw => some .raw
  | .big => some (.big false)
  | .u256 => some (.u256 false)
  | .ptr .big => some (.big true)
  | .ptr .u256 => some (.u256 true)
  | .ptr t => (makeOp {} t).map fun o => .ptr o g.nilOK (if g.nilOK then g.nilKind else t.defaultNil)
  | .slice t => (makeOp {} t).map .slice
  | .struct fs => (makeFlds fs).map fun p => .struct p.1 p.2
  | .any => none
  | .array _ _ => none
  | .ref _ => none
/-- The loop of `makeStructOp` (`/repo/rlp/rlpgen/gen.go:496-544`): the fields, and the optional ones. -/
def makeFlds : Flds → Option (OpFlds × OpFlds)
  | .nil => some (.nil, .nil)
  | .cons g t fs =>
    if g.tail then none
    else match makeOp g t, makeFlds fs with
      | some o, some (a, b) => some (if g.optional then (a, .cons t o b) else (.cons t o a, b))
      | _, _ => none
end

mutual
/-- Types with `==` (the Go specification, comparison operators). -/
def Ty.comparable : Ty → Bool
  | .big => false
  | .bytes => false
  | .raw => false
  | .slice _ => false
  | .array _ t => t.comparable
  | .struct fs => fs.comparable
  | _ => true
def Flds.comparable : Flds → Bool
  | .nil => true
  | .cons _ t fs => t.comparable && fs.comparable
end

mutual
/-- `v == (T{})` of Go for the comparable types. -/
def eqZero : Ty → Val → Bool
  | .bool, .bool b => !b
  | .uint _, .num n => n == 0
  | .u256, .num n => n == 0
  | .str, .bytes b => b.isEmpty
  | .byteArr _, .bytes b => b.all (· == 0)
  | .array _ t, .list l => eqZeros t l
  | .struct fs, .list l => eqZeroF fs l
  | _, .nil => true
  | _, _ => false
def eqZeros : Ty → List Val → Bool
  | _, [] => true
  | t, v :: l => eqZero t v && eqZeros t l
def eqZeroF : Flds → List Val → Bool
  | .cons _ t fs, v :: l => eqZero t v && eqZeroF fs l
  | _, _ => true
end

/-- The expression of `nonZeroCheck` (`/repo/rlp/rlpgen/types.go:63-88`). -/
def nonZero : Ty → Val → Bool
  | .bytes, .bytes x => decide (0 < x.length)
  | .raw, .bytes x => decide (0 < x.length)
  | .slice _, .list l => decide (0 < l.length)
  | t, v => !eqZero t v

/-! ### Which texts are programs -/

/-- The kinds of expressions that the generated decoders assign: a name, `(*name)`, `&…`. -/
inductive Expr where
  | name
  | deref
  | addr
  deriving DecidableEq

mutual
/-- The expression for the result of a decoder (the first result of the methods `genDecode`,
`/repo/rlp/rlpgen/gen.go:234-671`); `none`: some part of the text has `&&`, which is not an expression. -/
def Op.result : Op → Option Expr
  | .big false => some .deref
  | .u256 true => some .addr
  | .ptr o nilOK _ =>
    match o.result with
    | none => none
    | some .addr => none
    | some _ => some (if nilOK then .name else .addr)
  | .slice o => o.result.map fun _ => .name
  | .struct a b => if a.results && b.results then some .name else none
  | _ => some .name
def OpFlds.results : OpFlds → Bool
  | .nil => true
  | .cons _ o fs => o.result.isSome && fs.results
end

/-- The writer mentions the value: that of a struct without fields does not. -/
def Op.usesValue : Op → Bool
  | .struct .nil .nil => false
  | _ => true

/-- A check by `len` or by `==` with a type that has it. -/
def Ty.checkable (t : Ty) : Bool :=
  match t with
  | .bytes => true
  | .raw => true
  | .slice _ => true
  | t => t.comparable

mutual
/-- No unused iteration variable, no `!=` between values that cannot be compared. -/
def Op.writable : Op → Bool
  | .ptr o _ _ => o.writable
  | .slice o => o.usesValue && o.writable
  | .struct a b => a.writable false && b.writable true
  | _ => true
def OpFlds.writable (optional : Bool) : OpFlds → Bool
  | .nil => true
  | .cons t o fs => o.writable && (!optional || t.checkable) && fs.writable optional
end

/-- The generated methods compile. -/
def Op.compiles (o : Op) : Bool := o.writable && o.result.isSome

/-! ### The generated encoder -/

/-- Some optional field is not zero: the condition of a field and those after it (`/repo/rlp/rlpgen/gen.go:571-580`). -/
def OpFlds.anyNonZero : OpFlds → List Val → Bool
  | .cons t _ fs, v :: l => nonZero t v || fs.anyNonZero l
  | _, _ => false

/-- The number of fields. -/
def OpFlds.len : OpFlds → Nat
  | .nil => 0
  | .cons _ _ fs => fs.len + 1

mutual
/-- The code of `genWrite` (`/repo/rlp/rlpgen/gen.go:227-232, 273-275, 293-317, 338-359, 425-448, 546-557, 644-658`). -/
def gw : Op → Val → Buf → Res Buf
  | .bool, .bool x, b => .ok (b.writeBool x)
  | .uint _, .num n, b => .ok (b.writeUint64 (UInt64.ofNat n.toNat))
  | .str, .bytes x, b => .ok (b.writeBytes x)
  | .bytes, .bytes x, b => .ok (b.writeBytes x)
  | .bytes, .nil, b => .ok (b.writeBytes [])
  | .raw, .bytes x, b => .ok (b.write x)
  | .raw, .nil, b => .ok (b.write [])
  | .byteArr _, .bytes x, b => .ok (b.writeBytes x)
  | .big false, .num n, b => if n < 0 then .err else .ok (b.writeBigInt n.toNat)
  | .big true, .nil, b => .ok (b.write [0x80])
  | .big true, .ptr (.num n), b => if n < 0 then .err else .ok (b.writeBigInt n.toNat)
  | .u256 false, .num n, b => .ok (b.writeUint256 (wordOf n 0) (wordOf n 1) (wordOf n 2) (wordOf n 3))
  | .u256 true, .nil, b => .ok (b.write [0x80])
  | .u256 true, .ptr (.num n), b => .ok (b.writeUint256 (wordOf n 0) (wordOf n 1) (wordOf n 2) (wordOf n 3))
  | .ptr _ _ k, .nil, b => .ok (b.write [if k = .string then 0x80 else 0xC0])
  | .ptr o _ _, .ptr v, b => gw o v b
  | .slice _, .nil, b => .ok (b.list.1.listEnd b.list.2)
  | .slice o, .list l, b =>
    match gwL o l b.list.1 with
    | .ok c => .ok (c.listEnd b.list.2)
    | r => r
  | .struct x y, .list l, b =>
    match gwF x l b.list.1 with
    | .ok c =>
      match gwO y (l.drop x.len) c with
      | .ok c => .ok (c.listEnd b.list.2)
      | r => r
    | r => r
  | _, _, _ => .panic
/-- The loop over the elements. -/
def gwL : Op → List Val → Buf → Res Buf
  | _, [], b => .ok b
  | o, v :: l, b =>
    match gw o v b with
    | .ok c => gwL o l c
    | r => r
/-- The fields that are not optional. -/
def gwF : OpFlds → List Val → Buf → Res Buf
  | .cons _ o fs, v :: l, b =>
    match gw o v b with
    | .ok c => gwF fs l c
    | r => r
  | _, _, b => .ok b
/-- `writeOptionalFields` (`/repo/rlp/rlpgen/gen.go:559-584`). -/
def gwO : OpFlds → List Val → Buf → Res Buf
  | .cons t o fs, v :: l, b =>
    if nonZero t v || fs.anyNonZero l then
      match gw o v b with
      | .ok c => gwO fs l c
      | r => r
    else gwO fs l b
  | _, _, b => .ok b
end

/-- `EncodeToBytes` of a value whose type has the generated method (`/repo/rlp/rlpgen/gen.go:748-760`): it writes to the buffer
of the encoder. -/
def genEncode (o : Op) (v : Val) : Res Bytes :=
  match gw o v Buf.empty with
  | .ok b => b.makeBytes
  | .err => .err
  | .panic => .panic

/-! ### The generated decoder -/

/-- `MoreDataInList` (`/repo/rlp/decode.go:834-837`). -/
def Stream.moreDataInList (s : Stream) : Bool :=
  match s.stack with
  | [] => false
  | l :: _ => decide (0 < l)

/-- `ptrOp.genDecode` where nil is allowed (`/repo/rlp/rlpgen/gen.go:457-480`). -/
def genNilPtr (k : NilKind) (dec : Dec) : Dec := fun s =>
  match s.kind with
  | (.error e, s) => (.error e, s)
  | (.ok (kd, n), s) => if n ≠ 0 ∨ kd ≠ k.kind then lift .ptr dec s else (.ok .nil, s)

/-- The loop `for dec.MoreDataInList()` (`/repo/rlp/rlpgen/gen.go:660-673`), for fewer than `f` elements. -/
def moreElems (dec : Dec) : Nat → Stream → Except Err (List Val) × Stream
  | 0, s => (.error .outOfFuel, s)
  | f + 1, s =>
    if s.moreDataInList then
      match dec s with
      | (.error e, s) => (.error e, s)
      | (.ok v, s) =>
        match moreElems dec f s with
        | (.error e, s) => (.error e, s)
        | (.ok l, s) => (.ok (v :: l), s)
    else (.ok [], s)

/-- A slice that starts as nil and is appended to. -/
def appended : List Val → Val
  | [] => .nil
  | l => .list l

/-- The zero values of fields. -/
def OpFlds.zeros : OpFlds → List Val
  | .nil => []
  | .cons t _ fs => t.zero :: fs.zeros

mutual
/-- The code of `genDecode` (`/repo/rlp/rlpgen/gen.go:234-257, 277-284, 319-331, 361-375, 450-480, 586-615, 660-673`). -/
def gd : Op → Dec
  | .bool => lift .bool Stream.bool
  | .uint bits => lift (fun n : Nat => .num n) (Stream.uint · bits)
  | .str => lift .bytes Stream.bytes
  | .bytes => lift .bytes Stream.bytes
  | .raw => lift .bytes Stream.raw
  | .byteArr n => lift .bytes (Stream.readBytes · n)
  | .big false => lift (fun n : Nat => .num n) (Stream.bigInt · none)
  | .big true => lift (fun n : Nat => .ptr (.num n)) (Stream.bigInt · none)
  | .u256 false => lift (fun n : Nat => .num n) (Stream.bigInt · (some 32))
  | .u256 true => lift (fun n : Nat => .ptr (.num n)) (Stream.bigInt · (some 32))
  | .ptr o nilOK k => if nilOK then genNilPtr k (gd o) else lift .ptr (gd o)
  | .slice o => lift appended (inList fun s => moreElems (gd o) (s.r.length + 1) s)
  | .struct a b => lift .list (inList fun s =>
      match gdF a s with
      | (.error e, s) => (.error e, s)
      | (.ok l, s) =>
        match gdO b s with
        | (.error e, s) => (.error e, s)
        | (.ok m, s) => (.ok (l ++ m), s))
/-- The fields that are not optional. -/
def gdF : OpFlds → Stream → Except Err (List Val) × Stream
  | .nil, s => (.ok [], s)
  | .cons _ o fs, s =>
    match gd o s with
    | (.error e, s) => (.error e, s)
    | (.ok v, s) =>
      match gdF fs s with
      | (.error e, s) => (.error e, s)
      | (.ok l, s) => (.ok (v :: l), s)
/-- `decodeOptionalFields` (`/repo/rlp/rlpgen/gen.go:617-628`): the conditions are nested. -/
def gdO : OpFlds → Stream → Except Err (List Val) × Stream
  | .nil, s => (.ok [], s)
  | .cons t o fs, s =>
    if s.moreDataInList then
      match gd o s with
      | (.error e, s) => (.error e, s)
      | (.ok v, s) =>
        match gdO fs s with
        | (.error e, s) => (.error e, s)
        | (.ok l, s) => (.ok (v :: l), s)
    else (.ok (t.zero :: fs.zeros), s)
end

/-- `DecodeBytes` into a value whose type has a decoder (`/repo/rlp/decode.go:92-106, 541-543`,
`/repo/rlp/rlpgen/gen.go:733-745`). -/
def decodeWith (dec : Dec) (b : Bytes) : Except Err Val :=
  match dec (Stream.ofBytes b) with
  | (.error e, _) => .error e
  | (.ok v, s) => if 0 < s.r.length then .error .moreThanOne else .ok v

/-- `DecodeBytes` into a value whose type has the generated method. -/
def genDecode (o : Op) : Bytes → Except Err Val := decodeWith (gd o)

/-- `DecodeBytes` by reflection into a slice of values whose type has the generated method: `decodeListSlice`
(`/repo/rlp/decode.go:297-339`) calls it for the elements. -/
def genDecodeSlice (o : Op) : Bytes → Except Err Val := decodeWith (lift .list (listSlice (gd o)))

/-! ### What the two should agree on -/

/-- A slice that is empty but not nil. -/
def emptyNotNil : Ty → Val → Bool
  | .bytes, .bytes [] => true
  | .raw, .bytes [] => true
  | .slice _, .list [] => true
  | _, _ => false

mutual
/-- No optional field holds a slice that is empty but not nil. -/
def optOk : Ty → Val → Bool
  | .ptr t, .ptr v => optOk t v
  | .slice t, .list l => optOks t l
  | .struct fs, .list l => optOkF fs l
  | _, _ => true
def optOks : Ty → List Val → Bool
  | _, [] => true
  | t, v :: l => optOk t v && optOks t l
def optOkF : Flds → List Val → Bool
  | .cons g t fs, v :: l => optOk t v && (!g.optional || !emptyNotNil t v) && optOkF fs l
  | _, _ => true
end

mutual
/-- No field has one of the tags for nil. -/
def Ty.noNilTag : Ty → Bool
  | .ptr t => t.noNilTag
  | .slice t => t.noNilTag
  | .array _ t => t.noNilTag
  | .struct fs => fs.noNilTag
  | _ => true
def Flds.noNilTag : Flds → Bool
  | .nil => true
  | .cons g t fs => (!g.nilOK || (match t with | .ptr t => t.isNum | _ => false)) && t.noNilTag && fs.noNilTag
end

mutual
/-- The value with nil for the empty slices (not of bytes). -/
def nilEmpty : Ty → Val → Val
  | .ptr t, .ptr v => .ptr (nilEmpty t v)
  | .slice t, .list l => appended (nilEmpties t l)
  | .struct fs, .list l => .list (nilEmptyF fs l)
  | _, v => v
def nilEmpties : Ty → List Val → List Val
  | _, [] => []
  | t, v :: l => nilEmpty t v :: nilEmpties t l
def nilEmptyF : Flds → List Val → List Val
  | .cons _ t fs, v :: l => nilEmpty t v :: nilEmptyF fs l
  | _, l => l
end

/-! ### The encoder -/

section
variable {Γ : Nat → Flds}

mutual
theorem eqZero_isZero : ∀ {t : Ty} {v : Val}, HasTy Γ t v → t.comparable = true → (∃ g o, makeOp g t = some o) → eqZero t v = isZero Γ t v
  | _, _, .bool _, _, _ => by simp [eqZero, isZero]
  | _, _, .uint _ _ _, _, _ => by simp [eqZero, isZero]
  | _, _, .big _, h, _ => by simp [Ty.comparable] at h
  | _, _, .u256 _ _, _, _ => by simp [eqZero, isZero]
  | _, _, .str _, _, _ => by simp [eqZero, isZero]
  | _, _, .bytes _, h, _ => by simp [Ty.comparable] at h
  | _, _, .bytesNil, h, _ => by simp [Ty.comparable] at h
  | _, _, .byteArr _, _, _ => by simp [eqZero, isZero]
  | _, _, .raw _, h, _ => by simp [Ty.comparable] at h
  | _, _, .rawNil, h, _ => by simp [Ty.comparable] at h
  | _, _, .any _, _, ⟨_, _, h⟩ => by simp [makeOp] at h
  | _, _, .anyNil, _, ⟨_, _, h⟩ => by simp [makeOp] at h
  | _, _, .ptr _, _, _ => by simp [eqZero, isZero]
  | _, _, .ptrNil, _, _ => by simp [eqZero, isZero]
  | _, _, .slice _, h, _ => by simp [Ty.comparable] at h
  | _, _, .sliceNil, h, _ => by simp [Ty.comparable] at h
  | _, _, .array _, _, ⟨_, _, h⟩ => by simp [makeOp] at h
  | _, _, .struct h, hc, ⟨_, o, ho⟩ => by
    rw [eqZero, isZero]
    simp only [makeOp, Option.map_eq_some_iff] at ho
    obtain ⟨p, hp, _⟩ := ho
    exact eqZeroF_isZero h hc hp
  | _, _, .ref _, _, ⟨_, _, h⟩ => by simp [makeOp] at h
theorem eqZeroF_isZero : ∀ {fs : Flds} {l : List Val} {p : OpFlds × OpFlds}, HasTyF Γ fs l → fs.comparable = true →
    makeFlds fs = some p → eqZeroF fs l = fldsZero Γ fs l
  | _, _, _, .nil, _, _ => by simp [eqZeroF, fldsZero]
  | _, _, p, .cons (g := g) (t := t) (fs := fs) h hl, hc, hp => by
    simp only [Flds.comparable, Bool.and_eq_true] at hc
    rw [makeFlds] at hp
    split at hp
    · simp at hp
    · split at hp
      · next o a b e1 e2 =>
        rw [eqZeroF, fldsZero, eqZero_isZero h hc.1 ⟨_, _, e1⟩, eqZeroF_isZero hl hc.2 e2]
      · simp at hp
end

theorem nonZero_isZero {g : Tags} {t : Ty} {v : Val} {o : Op} (h : HasTy Γ t v) (ho : makeOp g t = some o) (hc : t.checkable = true)
    (he : emptyNotNil t v = false) : nonZero t v = !isZero Γ t v := by
  have hz := fun hc => eqZero_isZero (Γ := Γ) h hc ⟨g, o, ho⟩
  cases h with
  | bytes b => cases b <;> simp [emptyNotNil, nonZero, isZero] at he ⊢
  | raw b => cases b <;> simp [emptyNotNil, nonZero, isZero] at he ⊢
  | slice h => rename_i l; cases l <;> simp [emptyNotNil, nonZero, isZero] at he ⊢
  | bytesNil => simp [nonZero, eqZero, isZero]
  | rawNil => simp [nonZero, eqZero, isZero]
  | sliceNil => simp [nonZero, eqZero, isZero]
  | big n => simp [Ty.checkable, Ty.comparable] at hc
  | bool b => rw [nonZero, hz hc] <;> simp
  | uint bits n h => rw [nonZero, hz hc] <;> simp
  | u256 n h => rw [nonZero, hz hc] <;> simp
  | str b => rw [nonZero, hz hc] <;> simp
  | byteArr b => rw [nonZero, hz hc] <;> simp
  | any i => rw [nonZero, hz hc] <;> simp
  | anyNil => rw [nonZero, hz hc] <;> simp
  | ptr h => rw [nonZero, hz hc] <;> simp
  | ptrNil => rw [nonZero, hz hc] <;> simp
  | array h => rw [nonZero, hz hc] <;> simp
  | struct h => rw [nonZero, hz hc] <;> simp
  | ref h => rw [nonZero, hz hc] <;> simp

theorem makeOp_ptr {g : Tags} {t : Ty} (h : t.isNum = false) :
    makeOp g (.ptr t) = (makeOp {} t).map fun o => .ptr o g.nilOK (typeNilKind t g) := by
  cases t <;> simp [makeOp, Ty.isNum, typeNilKind] at h ⊢

/-- A field of the two lists. -/
theorem makeFlds_cons {g : Tags} {t : Ty} {fs : Flds} {p : OpFlds × OpFlds} (h : makeFlds (.cons g t fs) = some p) :
    g.tail = false ∧ ∃ o a b, makeOp g t = some o ∧ makeFlds fs = some (a, b) ∧
      p = if g.optional then (a, .cons t o b) else (.cons t o a, b) := by
  rw [makeFlds] at h
  split at h
  · simp at h
  · next hg =>
    split at h
    · next o a b e1 e2 =>
      simp only [Option.some.injEq] at h
      exact ⟨by simpa using hg, o, a, b, e1, e2, h.symm⟩
    · simp at h

theorem optionals_nil : ∀ {fs : Flds} {a b : OpFlds}, makeFlds fs = some (a, b) → fs.optionals = true → a = .nil
  | .nil, a, b, h, _ => by simp [makeFlds] at h; exact h.1.symm
  | .cons g t fs, a, b, h, ho => by
    obtain ⟨hg, o, a', b', e1, e2, e3⟩ := makeFlds_cons h
    simp only [Flds.optionals, hg, Bool.or_false, Bool.and_eq_true] at ho
    rw [if_pos ho.1] at e3
    simp only [Prod.mk.injEq] at e3
    rw [e3.1]
    exact optionals_nil e2 ho.2

theorem anyNonZero_iff : ∀ {fs : Flds} {l : List Val} {a b : OpFlds}, HasTyF Γ fs l → makeFlds fs = some (a, b) → fs.optionals = true →
    b.writable true = true → optOkF fs l = true → b.anyNonZero l = !fldsZero Γ fs l
  | _, _, a, b, .nil, hm, _, _, _ => by
    simp only [makeFlds, Option.some.injEq, Prod.mk.injEq] at hm
    rw [← hm.2]; simp [OpFlds.anyNonZero, fldsZero]
  | _, _, a, b, .cons h hl, hm, ho, hw, hk => by
    obtain ⟨hg, o, a', b', e1, e2, e3⟩ := makeFlds_cons hm
    simp only [Flds.optionals, hg, Bool.or_false, Bool.and_eq_true] at ho
    rw [if_pos ho.1, Prod.mk.injEq] at e3
    rw [e3.2] at hw ⊢
    simp only [OpFlds.writable, Bool.not_true, Bool.false_or, Bool.and_eq_true] at hw
    simp only [optOkF, ho.1, Bool.not_true, Bool.false_or, Bool.and_eq_true, Bool.not_eq_true'] at hk
    rw [OpFlds.anyNonZero, nonZero_isZero h e1 hw.1.2 hk.1.2, anyNonZero_iff hl e2 ho.2 hw.2 hk.2, fldsZero, Bool.not_and]

/-- One writer after another. -/
theorem writes_seq {f k : Buf → Res Buf} {n m : Bool} {x y : Bytes} (h1 : Writes f n x) (h2 : Writes k m y) :
    Writes (fun b => match f b with | .ok c => k c | r => r) (n || m) (x ++ y) := by
  intro b
  obtain ⟨a1, a2⟩ := h1 b
  cases hn : n
  · obtain ⟨c, e1, e2⟩ := a2 hn
    obtain ⟨b1, b2⟩ := h2 c
    simp only [e1, Bool.false_or]
    refine ⟨b1, fun hl => ?_⟩
    obtain ⟨c', f1, f2⟩ := b2 hl
    refine ⟨c', f1, fun hx => ?_⟩
    rw [List.length_append] at hx
    exact adds_trans (e2 (by omega)) (f2 (by omega))
  · simp only [a1 hn, Bool.true_or]
    exact ⟨fun _ => trivial, by simp⟩

theorem writes_of {f k : Buf → Res Buf} {n : Bool} {x : Bytes} (h : ∀ b, f b = k b) (hk : Writes k n x) : Writes f n x := by
  rw [show f = k from funext h]; exact hk

theorem writes_nothing : Writes (fun b => .ok b) false [] := fun b => ⟨by simp, fun _ => ⟨b, rfl, fun _ => adds_nil b⟩⟩

theorem list_end_empty (b : Buf) : Adds b (b.list.1.listEnd b.list.2) [0xC0] := by
  have := writes_list writes_nothing b
  obtain ⟨c, e1, e2⟩ := this.2 rfl
  simp only [Res.ok.injEq] at e1
  rw [e1]
  exact e2 (by decide)

mutual
theorem gw_writes : ∀ {d : Bool} {g : Tags} {t : Ty} {v : Val} {o : Op}, HasTy Γ t v → t.ok d = true → g.tail = false →
    makeOp g t = some o → o.writable = true → optOk t v = true → Writes (gw o v) v.neg (bytesOf Γ g t v)
  | d, g, _, _, o, .bool b, _, _, hm, _, _ => by
    simp only [makeOp, Option.some.injEq] at hm; subst hm
    simp only [Val.neg, bytesOf]
    exact writes_of (fun c => by simp only [gw]) (writes_ok fun c _ => writeBool_eq c b)
  | d, g, _, _, o, .uint bits n h, ho, _, hm, _, _ => by
    have hb := ok_bits ho
    have hn : n < 2 ^ 64 := Nat.lt_of_lt_of_le h (Nat.pow_le_pow_right (by omega) (by omega))
    simp only [makeOp, Option.some.injEq] at hm; subst hm
    simp only [Val.neg, bytesOf]
    rw [show decide ((n : Int) < 0) = false from by simp]
    refine writes_of (k := fun c => .ok (c.writeUint64 (UInt64.ofNat (n : Int).toNat))) (fun c => by simp only [gw]) (writes_ok fun c _ => ?_)
    rw [writeUint64_eq, Int.toNat_natCast, u64of hn]
  | d, g, _, _, o, .big n, _, _, hm, _, _ => by
    simp only [makeOp, Option.some.injEq] at hm; subst hm
    simp only [Val.neg, bytesOf]
    intro b
    simp only [gw, decide_eq_true_eq, decide_eq_false_iff_not]
    refine ⟨fun hn => by rw [if_pos hn], fun hn => ⟨_, by rw [if_neg hn], fun hx => ?_⟩⟩
    rw [writeBigInt_eq _ _ (encStr_lt hx)]
    exact adds_write _ _
  | d, g, _, _, o, .u256 n h, _, _, hm, _, _ => by
    simp only [makeOp, Option.some.injEq] at hm; subst hm
    simp only [Val.neg, bytesOf]
    rw [show decide ((n : Int) < 0) = false from by simp]
    refine writes_of (k := fun c => .ok (c.writeUint256 (wordOf n 0) (wordOf n 1) (wordOf n 2) (wordOf n 3)))
      (fun c => by simp only [gw]) (writes_ok fun c _ => ?_)
    rw [writeUint256_eq, words_of n h, Int.toNat_natCast]
  | d, g, _, _, o, .str b, _, _, hm, _, _ => by
    simp only [makeOp, Option.some.injEq] at hm; subst hm
    simp only [Val.neg, bytesOf]; exact writes_of (fun c => by simp only [gw]) (writes_ok fun c hx => writeBytes_eq c b (encStr_lt hx))
  | d, g, _, _, o, .bytes b, _, _, hm, _, _ => by
    simp only [makeOp, Option.some.injEq] at hm; subst hm
    simp only [Val.neg, bytesOf]; exact writes_of (fun c => by simp only [gw]) (writes_ok fun c hx => writeBytes_eq c b (encStr_lt hx))
  | d, g, _, _, o, .bytesNil, _, _, hm, _, _ => by
    simp only [makeOp, Option.some.injEq] at hm; subst hm
    simp only [Val.neg, bytesOf]; exact writes_of (fun c => by simp only [gw]) (writes_ok fun c hx => writeBytes_eq c [] (encStr_lt hx))
  | d, g, _, _, o, .byteArr b, _, _, hm, _, _ => by
    simp only [makeOp, Option.some.injEq] at hm; subst hm
    simp only [Val.neg, bytesOf]; exact writes_of (fun c => by simp only [gw]) (writes_ok fun c hx => writeBytes_eq c b (encStr_lt hx))
  | d, g, _, _, o, .raw b, _, _, hm, _, _ => by
    simp only [makeOp, Option.some.injEq] at hm; subst hm
    simp only [Val.neg, bytesOf]; exact writes_of (fun c => by simp only [gw]) (writes_ok fun c _ => rfl)
  | d, g, _, _, o, .rawNil, _, _, hm, _, _ => by
    simp only [makeOp, Option.some.injEq] at hm; subst hm
    simp only [Val.neg, bytesOf]; exact writes_of (fun c => by simp only [gw]) (writes_ok fun c _ => rfl)
  | d, g, _, _, o, .any _, _, _, hm, _, _ => by simp [makeOp] at hm
  | d, g, _, _, o, .anyNil, _, _, hm, _, _ => by simp [makeOp] at hm
  | d, g, _, _, o, .ptr (t := t) (v := v) h, ho, _, hm, hw, hk => by
    rw [Ty.ok] at ho
    by_cases hn : t.isNum = true
    · cases t <;> simp [Ty.isNum] at hn
      · have := gw_writes (g := {}) h ho rfl (by rw [makeOp]) (by simp [Op.writable]) (by simp [optOk])
        simp only [makeOp, Option.some.injEq] at hm; subst hm
        cases h
        simp only [Val.neg, bytesOf] at this ⊢
        exact writes_of (fun c => by simp only [gw]) this
      · have := gw_writes (g := {}) h ho rfl (by rw [makeOp]) (by simp [Op.writable]) (by simp [optOk])
        simp only [makeOp, Option.some.injEq] at hm; subst hm
        cases h
        simp only [Val.neg, bytesOf] at this ⊢
        exact writes_of (fun c => by simp only [gw]) this
    · rw [makeOp_ptr (by simpa using hn), Option.map_eq_some_iff] at hm
      obtain ⟨o', hm, rfl⟩ := hm
      simp only [Op.writable] at hw
      simp only [optOk] at hk
      simp only [Val.neg, bytesOf]
      exact writes_of (fun c => by simp only [gw]) (gw_writes h ho rfl hm hw hk)
  | d, g, _, _, o, .ptrNil (t := t), _, _, hm, _, _ => by
    simp only [Val.neg, bytesOf, nilByte]
    by_cases hn : t.isNum = true
    · cases t <;> simp [Ty.isNum] at hn
      · simp only [makeOp, Option.some.injEq] at hm; subst hm
        exact writes_of (fun c => by simp only [gw]; rfl) (writes_ok fun c _ => rfl)
      · simp only [makeOp, Option.some.injEq] at hm; subst hm
        exact writes_of (fun c => by simp only [gw]; rfl) (writes_ok fun c _ => rfl)
    · rw [makeOp_ptr (by simpa using hn), Option.map_eq_some_iff] at hm
      obtain ⟨o', hm, rfl⟩ := hm
      rw [if_neg hn]
      exact writes_of (fun c => by simp only [gw]) (writes_ok fun c _ => rfl)
  | d, g, _, _, o, .slice (t := t) (l := l) h, ho, hg, hm, hw, hk => by
    rw [Ty.ok, Bool.and_eq_true] at ho
    simp only [makeOp, Option.map_eq_some_iff] at hm
    obtain ⟨o', hm, rfl⟩ := hm
    simp only [Op.writable, Bool.and_eq_true] at hw
    simp only [optOk] at hk
    have hl := writes_list (gwL_writes h ho.2 hm hw.2 hk)
    simp only [Val.neg, bytesOf, hg, Bool.false_eq_true, if_false]
    intro b
    simp only [gw]
    exact hl b
  | d, g, _, _, o, .sliceNil, _, hg, hm, _, _ => by
    simp only [makeOp, Option.map_eq_some_iff] at hm
    obtain ⟨o', hm, rfl⟩ := hm
    simp only [Val.neg, bytesOf, hg, Bool.false_eq_true, if_false]
    intro b
    simp only [gw]
    exact ⟨by simp, fun _ => ⟨_, rfl, fun _ => list_end_empty b⟩⟩
  | d, g, _, _, o, .array _, _, _, hm, _, _ => by simp [makeOp] at hm
  | d, g, _, _, o, .struct (fs := fs) (l := l) h, ho, _, hm, hw, hk => by
    rw [Ty.ok] at ho
    simp only [makeOp, Option.map_eq_some_iff] at hm
    obtain ⟨⟨a, c⟩, hm, rfl⟩ := hm
    simp only [Op.writable, Bool.and_eq_true] at hw
    simp only [optOk] at hk
    have hl := writes_list (gwF_writes h ho hm hw.1 hw.2 hk)
    simp only [Val.neg, bytesOf]
    intro b
    have := hl b
    simp only [gw]
    cases hf : gwF a l b.list.1 with
    | ok c => simp only [hf] at this ⊢; exact this
    | err => simp only [hf] at this ⊢; exact this
    | panic => simp only [hf] at this ⊢; exact this
  | d, g, _, _, o, .ref _, _, _, hm, _, _ => by simp [makeOp] at hm
theorem gwL_writes : ∀ {d : Bool} {t : Ty} {l : List Val} {o : Op}, HasTyL Γ t l → t.ok d = true →
    makeOp {} t = some o → o.writable = true → optOks t l = true → Writes (gwL o l) (negs l) (bytesL Γ t l)
  | d, _, _, o, .nil, _, _, _, _ => by
    simp only [negs, bytesL]
    exact writes_of (fun c => by simp only [gwL]) writes_nothing
  | d, _, _, o, .cons h hl, ho, hm, hw, hk => by
    simp only [optOks, Bool.and_eq_true] at hk
    simp only [negs, bytesL]
    refine writes_of (fun c => ?_) (writes_seq (gw_writes h ho rfl hm hw hk.1) (gwL_writes hl ho hm hw hk.2))
    rw [gwL]
theorem gwF_writes : ∀ {fs : Flds} {l : List Val} {a b : OpFlds}, HasTyF Γ fs l → fs.ok = true → makeFlds fs = some (a, b) →
    a.writable false = true → b.writable true = true → optOkF fs l = true →
    Writes (fun x => match gwF a l x with | .ok c => gwO b (l.drop a.len) c | r => r) (negs l) (bytesF Γ fs l)
  | _, _, a, b, .nil, _, hm, _, _, _ => by
    simp only [makeFlds, Option.some.injEq, Prod.mk.injEq] at hm
    obtain ⟨rfl, rfl⟩ := hm
    simp only [gwF, gwO, List.drop_nil, negs, bytesF]
    exact writes_nothing
  | _, _, a, b, .cons (g := g) (t := t) (fs := fs) (v := v) (l := l) h hl, ho, hm, hwa, hwb, hk => by
    obtain ⟨hg, o, a', b', e1, e2, e3⟩ := makeFlds_cons hm
    simp only [Flds.ok, Bool.and_eq_true] at ho
    obtain ⟨⟨⟨⟨ho1, _⟩, _⟩, ho4⟩, ho5⟩ := ho
    simp only [optOkF, Bool.and_eq_true] at hk
    by_cases hopt : g.optional = true
    · have hos : fs.optionals = true := by simpa [hopt] using ho4
      rw [if_pos hopt, Prod.mk.injEq] at e3
      obtain ⟨ea, eb⟩ := e3
      have hnil := optionals_nil e2 hos
      subst hnil
      subst ea eb
      simp only [OpFlds.writable, Bool.not_true, Bool.false_or, Bool.and_eq_true] at hwb
      have hne : emptyNotNil t v = false := by simpa [hopt] using hk.1.2
      have h1 := gw_writes h ho1 hg e1 hwb.1.1 hk.1.1
      have h2 := gwF_writes hl ho5 e2 rfl hwb.2 hk.2
      simp only [gwF, OpFlds.len, List.drop_zero] at h2 ⊢
      simp only [gwO]
      rw [nonZero_isZero h e1 hwb.1.2 hne, anyNonZero_iff hl e2 hos hwb.2 hk.2, negs]
      by_cases hz : isZero Γ t v = true ∧ fldsZero Γ fs l = true
      · have hneg : (v.neg || negs l) = false := by
          rw [(isZero_iff h ho1).mp hz.1, (fldsZero_iff hl ho5).mp hz.2, zero_neg, zeros_neg]; rfl
        rw [bytesF, if_pos ⟨hopt, hz⟩, hneg]
        have hb : bytesF Γ fs l = [] := by
          cases hl with
          | nil => simp [bytesF]
          | cons h' hl' =>
            simp only [Flds.optionals, Bool.and_eq_true] at hos
            obtain ⟨hg', _⟩ := makeFlds_cons e2
            simp only [hg', Bool.or_false] at hos
            have hz2 := hz.2
            rw [fldsZero, Bool.and_eq_true] at hz2
            rw [bytesF, if_pos ⟨hos.1, hz2⟩]
        have hn2 : negs l = false := by rw [(fldsZero_iff hl ho5).mp hz.2, zeros_neg]
        rw [hb, hn2] at h2
        simp only [hz.1, hz.2, Bool.not_true, Bool.or_false, Bool.false_eq_true, if_false]
        exact h2
      · rw [bytesF, if_neg (fun hh => hz hh.2)]
        have : (!isZero Γ t v || !fldsZero Γ fs l) = true := by
          cases hi : isZero Γ t v <;> cases hj : fldsZero Γ fs l <;> simp [hi, hj] at hz ⊢
        simp only [this, if_true]
        exact writes_seq h1 h2
    · rw [if_neg hopt, Prod.mk.injEq] at e3
      obtain ⟨rfl, rfl⟩ := e3
      simp only [OpFlds.writable, Bool.not_false, Bool.true_or, Bool.and_true, Bool.and_eq_true] at hwa
      have h1 := gw_writes h ho1 hg e1 hwa.1 hk.1.1
      have h2 := gwF_writes hl ho5 e2 hwa.2 hwb hk.2
      have := writes_seq h1 h2
      rw [negs, bytesF, if_neg (fun hh => hopt hh.1)]
      intro x
      have hx := this x
      simp only [gwF, OpFlds.len, List.drop_succ_cons]
      cases hf : gw o v x with
      | ok c => simp only [hf] at hx ⊢; exact hx
      | err => simp only [hf] at hx ⊢; exact hx
      | panic => simp only [hf] at hx ⊢; exact hx
end

/-! ### The decoder -/

/-- The generated decoder of a type does as the other: it accepts the same, up to nil for empty, and consumes the same. -/
def SimR (t : Ty) (gen ref : Dec) (N : Nat) : Prop := ∀ s : Stream, s.wf → s.ahead = none → s.r.length < N →
  (∀ v s', ref s = (.ok v, s') → gen s = (.ok (nilEmpty t v), s')) ∧
  (∀ e s', ref s = (.error e, s') → ∃ e' s'', gen s = (.error e', s''))

/-- The same for what is inside a list. -/
def SimL (f : List Val → List Val) (gen ref : Stream → Except Err (List Val) × Stream) (N : Nat) : Prop := ∀ s : Stream, s.wf →
  s.ahead = none → s.r.length < N → s.stack ≠ [] →
  (∀ l s', ref s = (.ok l, s') → gen s = (.ok (f l), s')) ∧
  (∀ e s', ref s = (.error e, s') → ∃ e' s'', gen s = (.error e', s''))

theorem sim_self {t : Ty} {dec : Dec} {N : Nat} (h : ∀ v, nilEmpty t v = v) : SimR t dec dec N := fun s _ _ _ =>
  ⟨fun v s' hd => by rw [h, hd], fun e s' hd => ⟨e, s', hd⟩⟩

theorem lift_lift {α : Type} (f : Val → Val) (g : α → Val) (dec : Stream → Except Err α × Stream) :
    lift f (lift g dec) = lift (fun a => f (g a)) dec := by
  funext s
  unfold lift
  rcases dec s with ⟨_ | _, _⟩ <;> rfl

theorem inList_sim {f : List Val → List Val} {gen ref : Stream → Except Err (List Val) × Stream} {N : Nat} (h : SimL f gen ref N)
    {s : Stream} (hw : s.wf) (ha : s.ahead = none) (hlen : s.r.length < N) :
    (∀ l s', inList ref s = (.ok l, s') → inList gen s = (.ok (f l), s')) ∧
    (∀ e s', inList ref s = (.error e, s') → ∃ e' s'', inList gen s = (.error e', s'')) := by
  unfold inList
  cases hl : s.list with
  | mk o t =>
    cases o with
    | error e => exact ⟨by simp, fun _ _ _ => ⟨e, t, rfl⟩⟩
    | ok n =>
      obtain ⟨s1, hA, rfl, hn⟩ := list_ok hw ha hl
      have hw2 := push_wf (hA.wf hw) hn
      have hrl := hA.cons.r_length
      simp only at hrl
      obtain ⟨h1, h2⟩ := h { s1 with stack := n :: s1.stack.modifyHead (sub64 · n), ahead := none } hw2 rfl (by simp only; omega) (by simp)
      simp only
      cases hs : ref { s1 with stack := n :: s1.stack.modifyHead (sub64 · n), ahead := none } with
      | mk o t2 =>
        cases o with
        | error e =>
          obtain ⟨e', s'', he⟩ := h2 _ _ hs
          rw [he]
          exact ⟨by simp, fun _ _ _ => ⟨e', s'', rfl⟩⟩
        | ok l =>
          rw [h1 _ _ hs]
          simp only
          cases he : t2.listEnd with
          | mk o t3 =>
            cases o with
            | error e => exact ⟨by simp, fun _ _ _ => ⟨e, t3, rfl⟩⟩
            | ok u =>
              simp only [Prod.mk.injEq, Except.ok.injEq]
              refine ⟨?_, by simp⟩
              rintro l' s' ⟨rfl, rfl⟩
              exact ⟨rfl, rfl⟩

theorem listSlice_inList {dec : Dec} {N : Nat} (heol : AtEolR dec N) {s : Stream} (hw : s.wf) (ha : s.ahead = none)
    (hlen : s.r.length < N) : listSlice dec s = inList (fun s => sliceElems dec (s.r.length + 1) s) s := by
  unfold listSlice inList
  cases hl : s.list with
  | mk o t =>
    cases o with
    | error e => rfl
    | ok n =>
      obtain ⟨s1, hA, rfl, hn⟩ := list_ok hw ha hl
      have hrl := hA.cons.r_length
      simp only at hrl
      simp only
      split
      · next h0 =>
        rw [sliceElems, heol _ rfl (by simp only; omega) (by simp [h0])]
        simp only
        split <;> simp_all
      · split
        · next e => rw [e]
        · next e =>
          rw [e]
          simp only
          split <;> simp_all

/-- **C123.** `MoreDataInList` is false outside of lists; inside it says whether bytes of the innermost list are left. -/
theorem C123_more (s : Stream) : s.moreDataInList = true ↔ ∃ n l, s.stack = n :: l ∧ n ≠ 0 := by
  unfold Stream.moreDataInList
  cases h : s.stack with
  | nil => simp
  | cons n l => simp [Nat.pos_iff_ne_zero]

example : (Stream.ofBytes [0xC1, 0x80]).moreDataInList = false ∧ (Stream.ofBytes [0xC1, 0x80]).list.2.moreDataInList = true ∧
    (Stream.ofBytes [0xC0]).list.2.moreDataInList = false := by decide +kernel

theorem more_iff {s : Stream} (h : s.stack ≠ []) : s.moreDataInList = false ↔ s.stack.head? = some 0 := by
  unfold Stream.moreDataInList
  cases hs : s.stack with
  | nil => exact absurd hs h
  | cons l st => simp

theorem Cons.stack_ne {s s' : Stream} {x : Bytes} (hc : Cons s x s') (h : s.stack ≠ []) : s'.stack ≠ [] := by
  rw [hc.stack]
  cases hs : s.stack with
  | nil => exact absurd hs h
  | cons l st => simp

theorem moreElems_sim {t : Ty} {gen ref : Dec} {N : Nat} (hs : SimR t gen ref N) (hd : SoundR (Enc Γ {} t) ref N) (heol : AtEolR ref N)
    (f : Nat) : SimL (nilEmpties t) (moreElems gen f) (sliceElems ref f) N := by
  induction f with
  | zero => exact fun s _ _ _ _ => ⟨by simp [sliceElems], fun _ _ _ => ⟨_, _, rfl⟩⟩
  | succ f ih =>
    intro s hw ha hlen hne
    obtain ⟨h1, h2⟩ := hs s hw ha hlen
    rw [sliceElems, moreElems]
    by_cases hm : s.moreDataInList = true
    · rw [if_pos hm]
      cases hr : ref s with
      | mk o u =>
        cases o with
        | error e =>
          have he : e ≠ .eol := by
            rintro rfl
            rcases hd.err hw ha hlen hr with ⟨_, _, h0⟩ | hh
            · rw [(more_iff hne).mpr h0] at hm; simp at hm
            · exact hh.1 rfl
          obtain ⟨e', s'', hg⟩ := h2 _ _ hr
          rw [hg]
          refine ⟨?_, fun _ _ _ => ⟨e', s'', rfl⟩⟩
          intro l s' hh
          cases e <;> simp at hh he
        | ok v =>
          rw [h1 _ _ hr]
          simp only
          obtain ⟨x, _, hc⟩ := hd.ok hw ha hlen hr
          obtain ⟨i1, i2⟩ := ih u (hc.wf hw) hc.ahead (by have := hc.r_length; omega) (hc.stack_ne hne)
          cases hl : sliceElems ref f u with
          | mk o w =>
            cases o with
            | error e =>
              obtain ⟨e', s'', hg⟩ := i2 _ _ hl
              rw [hg]
              exact ⟨by simp, fun _ _ _ => ⟨e', s'', rfl⟩⟩
            | ok l =>
              rw [i1 _ _ hl]
              simp only [Prod.mk.injEq, Except.ok.injEq]
              refine ⟨?_, by simp⟩
              rintro l' s' ⟨rfl, rfl⟩
              exact ⟨by rw [nilEmpties], rfl⟩
    · have hm' : s.moreDataInList = false := by simpa using hm
      rw [if_neg hm, heol s ha hlen ((more_iff hne).mp hm')]
      simp only [Prod.mk.injEq, Except.ok.injEq]
      refine ⟨?_, by simp⟩
      rintro l' s' ⟨rfl, rfl⟩
      exact ⟨by rw [nilEmpties], rfl⟩

/-- The fields, then the optional ones. -/
def body (a b : OpFlds) (s : Stream) : Except Err (List Val) × Stream :=
  match gdF a s with
  | (.error e, s) => (.error e, s)
  | (.ok l, s) =>
    match gdO b s with
    | (.error e, s) => (.error e, s)
    | (.ok m, s) => (.ok (l ++ m), s)

theorem body_cons (t : Ty) (o : Op) (a b : OpFlds) (s : Stream) : body (.cons t o a) b s =
    match gd o s with
    | (.error e, s) => (.error e, s)
    | (.ok v, s) =>
      match body a b s with
      | (.error e, s) => (.error e, s)
      | (.ok l, s) => (.ok (v :: l), s) := by
  unfold body
  rw [gdF]
  rcases gd o s with ⟨_ | v, s1⟩
  · rfl
  · simp only
    rcases gdF a s1 with ⟨_ | l, s2⟩
    · rfl
    · simp only
      rcases gdO b s2 with ⟨_ | m, s3⟩ <;> rfl

theorem body_nil (b : OpFlds) (s : Stream) : body .nil b s = gdO b s := by
  unfold body
  rw [gdF]
  simp only
  rcases gdO b s with ⟨_ | m, s3⟩ <;> rfl

mutual
theorem nilEmpty_zero : ∀ (t : Ty), nilEmpty t t.zero = t.zero
  | .bool => by simp [nilEmpty]
  | .uint _ => by simp [nilEmpty]
  | .big => by simp [nilEmpty]
  | .u256 => by simp [nilEmpty]
  | .str => by simp [nilEmpty]
  | .bytes => by simp [nilEmpty]
  | .byteArr _ => by simp [nilEmpty]
  | .raw => by simp [nilEmpty]
  | .any => by simp [nilEmpty]
  | .ptr _ => by simp [nilEmpty, Ty.zero]
  | .slice _ => by simp [nilEmpty, Ty.zero]
  | .array _ _ => by simp [nilEmpty]
  | .struct fs => by rw [Ty.zero, nilEmpty, nilEmptyF_zeros fs]
  | .ref _ => by simp [nilEmpty]
theorem nilEmptyF_zeros : ∀ (fs : Flds), nilEmptyF fs fs.zeros = fs.zeros
  | .nil => by simp [nilEmptyF]
  | .cons g t fs => by rw [Flds.zeros, nilEmptyF, nilEmpty_zero t, nilEmptyF_zeros fs]
end

theorem optionals_zeros : ∀ {fs : Flds} {a b : OpFlds}, makeFlds fs = some (a, b) → fs.optionals = true → b.zeros = fs.zeros
  | .nil, a, b, h, _ => by simp [makeFlds] at h; rw [← h.2]; rfl
  | .cons g t fs, a, b, h, ho => by
    obtain ⟨hg, o, a', b', e1, e2, e3⟩ := makeFlds_cons h
    simp only [Flds.optionals, hg, Bool.or_false, Bool.and_eq_true] at ho
    rw [if_pos ho.1, Prod.mk.injEq] at e3
    rw [e3.2, OpFlds.zeros, Flds.zeros, optionals_zeros e2 ho.2]

variable {F N : Nat} {nm : Nat → Dec}

mutual
theorem gd_sim (hF : N ≤ F) (hF63 : F < 2 ^ 63) (hn : NamedOk Γ nm N) : ∀ (t : Ty) (g : Tags) (o : Op), t.ok true = true →
    t.noNilTag = true → g.tail = false → (g.nilOK = true → ∃ u, t = .ptr u ∧ u.isNum = true) → makeOp g t = some o →
    SimR t (gd o) (decTy F nm g t) N
  | .bool, g, o, _, _, _, _, hm => by
    simp only [makeOp, Option.some.injEq] at hm; subst hm
    rw [gd, decTy]; exact sim_self (by simp [nilEmpty])
  | .uint bits, g, o, _, _, _, _, hm => by
    simp only [makeOp, Option.some.injEq] at hm; subst hm
    rw [gd, decTy]; exact sim_self (by simp [nilEmpty])
  | .big, g, o, _, _, _, _, hm => by
    simp only [makeOp, Option.some.injEq] at hm; subst hm
    rw [gd, decTy]; exact sim_self (by simp [nilEmpty])
  | .u256, g, o, _, _, _, _, hm => by
    simp only [makeOp, Option.some.injEq] at hm; subst hm
    rw [gd, decTy]; exact sim_self (by simp [nilEmpty])
  | .str, g, o, _, _, _, _, hm => by
    simp only [makeOp, Option.some.injEq] at hm; subst hm
    rw [gd, decTy]; exact sim_self (by simp [nilEmpty])
  | .bytes, g, o, _, _, _, _, hm => by
    simp only [makeOp, Option.some.injEq] at hm; subst hm
    rw [gd, decTy]; exact sim_self (by simp [nilEmpty])
  | .byteArr n, g, o, _, _, _, _, hm => by
    simp only [makeOp, Option.some.injEq] at hm; subst hm
    rw [gd, decTy]; exact sim_self (by simp [nilEmpty])
  | .raw, g, o, _, _, _, _, hm => by
    simp only [makeOp, Option.some.injEq] at hm; subst hm
    rw [gd, decTy]; exact sim_self (by simp [nilEmpty])
  | .any, g, o, _, _, _, _, hm => by simp [makeOp] at hm
  | .array _ _, g, o, _, _, _, _, hm => by simp [makeOp] at hm
  | .ref _, g, o, _, _, _, _, hm => by simp [makeOp] at hm
  | .ptr t, g, o, hok, hnt, _, hg, hm => by
    rw [Ty.ok] at hok
    rw [Ty.noNilTag] at hnt
    by_cases hnum : t.isNum = true
    · have hself : ∀ v, nilEmpty (.ptr t) v = v := by
        intro v
        cases t <;> simp [Ty.isNum] at hnum <;> cases v <;> simp [nilEmpty]
      rw [decTy, if_neg (by simp [hnum])]
      have hgd : gd o = lift .ptr (decTy F nm {} t) := by
        cases t <;> simp [Ty.isNum] at hnum
        · simp only [makeOp, Option.some.injEq] at hm; subst hm
          rw [gd, decTy, lift_lift]
        · simp only [makeOp, Option.some.injEq] at hm; subst hm
          rw [gd, decTy, lift_lift]
      rw [hgd]
      exact sim_self hself
    · have hnil : g.nilOK = false := by
        cases h : g.nilOK with
        | false => rfl
        | true =>
          obtain ⟨u, hu, hun⟩ := hg h
          cases hu
          exact absurd hun hnum
      rw [makeOp_ptr (by simpa using hnum), Option.map_eq_some_iff] at hm
      obtain ⟨o', hm, rfl⟩ := hm
      rw [decTy, if_neg (by simp [hnil]), gd, if_neg (by simp [hnil])]
      have ih := gd_sim hF hF63 hn t {} o' hok hnt rfl (by simp) hm
      intro s hw ha hl
      obtain ⟨h1, h2⟩ := ih s hw ha hl
      refine ⟨fun v s' h => ?_, fun e s' h => ?_⟩
      · obtain ⟨a, e1, rfl⟩ := lift_ok h
        rw [lift_of (h1 _ _ e1), nilEmpty]
      · obtain ⟨e', s'', hh⟩ := h2 _ _ (lift_err h)
        exact ⟨e', s'', lift_of_err hh⟩
  | .slice t, g, o, hok, hnt, hg, _, hm => by
    simp only [Ty.ok, Bool.and_eq_true] at hok
    rw [Ty.noNilTag] at hnt
    simp only [makeOp, Option.map_eq_some_iff] at hm
    obtain ⟨o', hm, rfl⟩ := hm
    have ih := gd_sim hF hF63 hn t {} o' hok.2 hnt rfl (by simp) hm
    have heol : AtEolR _ _ := decTy_atEol hF hn.eol t {} rfl
    have hsl : SimL (nilEmpties t) (fun s => moreElems (gd o') (s.r.length + 1) s)
        (fun s => sliceElems (decTy F nm {} t) (s.r.length + 1) s) N := fun s =>
      moreElems_sim ih (decTy_sound hF hF63 hn t {} hok.2) heol (s.r.length + 1) s
    rw [decTy, if_neg (by simp [hg]), gd]
    intro s hw ha hl
    obtain ⟨h1, h2⟩ := inList_sim hsl hw ha hl
    have hls := listSlice_inList heol hw ha hl
    refine ⟨fun v s' h => ?_, fun e s' h => ?_⟩
    · obtain ⟨a, e1, rfl⟩ := lift_ok h
      rw [hls] at e1
      rw [lift_of (h1 _ _ e1), nilEmpty]
    · have h := lift_err h
      rw [hls] at h
      obtain ⟨e', s'', hh⟩ := h2 _ _ h
      exact ⟨e', s'', lift_of_err hh⟩
  | .struct fs, g, o, hok, hnt, _, _, hm => by
    simp only [Ty.ok] at hok
    rw [Ty.noNilTag] at hnt
    simp only [makeOp, Option.map_eq_some_iff] at hm
    obtain ⟨⟨a, b⟩, hm, rfl⟩ := hm
    have hsl := body_sim hF hF63 hn fs a b hok hnt hm
    rw [decTy, gd]
    intro s hw ha hl
    obtain ⟨h1, h2⟩ := inList_sim hsl hw ha hl
    refine ⟨fun v s' h => ?_, fun e s' h => ?_⟩
    · obtain ⟨a, e1, rfl⟩ := lift_ok h
      have := lift_of (f := Val.list) (h1 _ _ e1)
      rw [nilEmpty]
      exact this
    · obtain ⟨e', s'', hh⟩ := h2 _ _ (lift_err h)
      exact ⟨e', s'', lift_of_err (f := Val.list) hh⟩
theorem body_sim (hF : N ≤ F) (hF63 : F < 2 ^ 63) (hn : NamedOk Γ nm N) : ∀ (fs : Flds) (a b : OpFlds), fs.ok = true →
    fs.noNilTag = true → makeFlds fs = some (a, b) → SimL (nilEmptyF fs) (body a b) (decFlds F nm fs) N
  | .nil, a, b, _, _, hm => by
    simp only [makeFlds, Option.some.injEq, Prod.mk.injEq] at hm
    obtain ⟨rfl, rfl⟩ := hm
    intro s _ _ _ _
    rw [body_nil, gdO, decFlds]
    simp only [Prod.mk.injEq, Except.ok.injEq]
    refine ⟨?_, by simp⟩
    rintro l s' ⟨rfl, rfl⟩
    exact ⟨by simp [nilEmptyF], rfl⟩
  | .cons g t fs, a, b, hok, hnt, hm => by
    obtain ⟨htail, o, a', b', e1, e2, e3⟩ := makeFlds_cons hm
    simp only [Flds.ok, Bool.and_eq_true] at hok
    obtain ⟨⟨⟨⟨ho1, _⟩, _⟩, ho4⟩, ho5⟩ := hok
    have hokt := ty_ok_mono ho1
    simp only [Flds.noNilTag, Bool.and_eq_true] at hnt
    obtain ⟨⟨hn1, hn2⟩, hn3⟩ := hnt
    have hg : g.nilOK = true → ∃ u, t = .ptr u ∧ u.isNum = true := by
      intro h
      rw [h] at hn1
      cases t <;> simp at hn1 ⊢
      exact hn1
    have hst : (g.tail && t.isSlice) = false := by rw [htail]; rfl
    have ih := gd_sim hF hF63 hn t g o hokt hn2 htail hg e1
    have hd := decTy_sound hF hF63 hn t g hokt
    have ihf := body_sim hF hF63 hn fs a' b' ho5 hn3 e2
    intro s hw ha hl hne
    obtain ⟨h1, h2⟩ := ih s hw ha hl
    /- A field that is there, or an error in it. -/
    have step : ∀ k : Stream → Except Err (List Val) × Stream, k = body a' b' →
        (g.optional = true → s.moreDataInList = true) →
        (∀ l s', decFlds F nm (.cons g t fs) s = (.ok l, s') → (match gd o s with
          | (.error e, s) => (.error e, s)
          | (.ok v, s) => match k s with
            | (.error e, s) => (.error e, s)
            | (.ok l, s) => (.ok (v :: l), s)) = ((.ok (nilEmptyF (.cons g t fs) l), s') : Except Err (List Val) × Stream)) ∧
        (∀ e s', decFlds F nm (.cons g t fs) s = (.error e, s') → ∃ e' s'', (match gd o s with
          | (.error e, s) => (.error e, s)
          | (.ok v, s) => match k s with
            | (.error e, s) => (.error e, s)
            | (.ok l, s) => (.ok (v :: l), s)) = ((.error e', s'') : Except Err (List Val) × Stream)) := by
      intro k hk hmo
      subst hk
      rw [decFlds]
      cases hr : decTy F nm g t s with
      | mk q u =>
        cases q with
        | error e =>
          obtain ⟨e', s'', hgd⟩ := h2 _ _ hr
          rw [hgd]
          refine ⟨?_, fun _ _ _ => ⟨e', s'', rfl⟩⟩
          intro l s' hh
          by_cases he : e = .eol
          · subst he
            simp only at hh
            split at hh
            · next hopt =>
              rcases hd.err hw ha hl hr with ⟨_, _, h0⟩ | hx
              · have := hmo hopt
                rw [(more_iff hne).mpr h0] at this; simp at this
              · exact absurd rfl hx.1
            · simp at hh
          · cases e <;> simp at hh he
        | ok v =>
          rw [h1 _ _ hr]
          simp only
          obtain ⟨x, _, hc⟩ := hd.ok hw ha hl hr
          obtain ⟨i1, i2⟩ := ihf u (hc.wf hw) hc.ahead (by have := hc.r_length; omega) (hc.stack_ne hne)
          cases hs : decFlds F nm fs u with
          | mk q w =>
            cases q with
            | error e =>
              obtain ⟨e', s'', hgd⟩ := i2 _ _ hs
              rw [hgd]
              exact ⟨by simp, fun _ _ _ => ⟨e', s'', rfl⟩⟩
            | ok l =>
              rw [i1 _ _ hs]
              simp only [Prod.mk.injEq, Except.ok.injEq]
              refine ⟨?_, by simp⟩
              rintro l' s' ⟨rfl, rfl⟩
              exact ⟨by rw [nilEmptyF], rfl⟩
    by_cases hopt : g.optional = true
    · have hos : fs.optionals = true := by simpa [hopt] using ho4
      rw [if_pos hopt, Prod.mk.injEq] at e3
      obtain ⟨ea, eb⟩ := e3
      have hnil := optionals_nil e2 hos
      subst hnil
      subst ea eb
      rw [body_nil, gdO]
      by_cases hm' : s.moreDataInList = true
      · rw [if_pos hm']
        exact step (gdO b') (funext fun s => (body_nil b' s).symm) (fun _ => hm')
      · have hm2 : s.moreDataInList = false := by simpa using hm'
        have h0 := decTy_atEol hF hn.eol t g hst s ha hl ((more_iff hne).mp hm2)
        rw [if_neg hm', decFlds, h0]
        simp only [hopt, if_true, Prod.mk.injEq, Except.ok.injEq]
        refine ⟨?_, by simp⟩
        rintro l s' ⟨rfl, rfl⟩
        exact ⟨by rw [nilEmptyF, nilEmpty_zero, nilEmptyF_zeros, optionals_zeros e2 hos], rfl⟩
    · rw [if_neg hopt, Prod.mk.injEq] at e3
      obtain ⟨rfl, rfl⟩ := e3
      rw [body_cons]
      exact step _ rfl (fun h => absurd h hopt)
end

/-! ### C123 -/

/-- **C123.**  The generated encoder writes what the encoder by reflection writes, and fails when it fails, for every type that
`rlpgen` accepts and every value without an optional slice that is empty but not nil. -/
theorem C123_encode_partial (hΓ : ∀ i, (Γ i).ok = true) {t : Ty} {v : Val} {o : Op} (ho : t.ok true = true) (hm : makeOp {} t = some o)
    (hw : o.compiles = true) (hv : HasTy Γ t v) (hk : optOk t v = true) (hx : (bytesOf Γ {} t v).length < 2 ^ 64) :
    genEncode o v = encodeTy Γ t v := by
  rw [Op.compiles, Bool.and_eq_true] at hw
  obtain ⟨h1, h2⟩ := gw_writes hv ho rfl hm hw.1 hk Buf.empty
  cases hn : v.neg
  · rw [C110_encode hΓ hv ho hn hx]
    obtain ⟨c, e1, e2⟩ := h2 hn
    unfold genEncode
    rw [e1]
    exact (adds_empty (e2 hx)).2.2
  · rw [((C110_negative hΓ hv ho hx).1).mp hn]
    unfold genEncode
    rw [h1 hn]

/-- C123: the generated decoder accepts what the decoder by reflection accepts, with the same value up to nil for empty slices,
for every type that `rlpgen` accepts and that has no field with a tag for nil. -/
theorem C123_decode_partial (hΓ : ∀ i, (Γ i).ok = true) {t : Ty} {o : Op} (ho : t.ok true = true) (hm : makeOp {} t = some o)
    (hn : t.noNilTag = true) {b : Bytes} (hb : b.length < maxInput) :
    (∀ v, decodeBytesTy Γ t b = .ok v → genDecode o b = .ok (nilEmpty t v)) ∧
    (∀ e, decodeBytesTy Γ t b = .error e → ∃ e', genDecode o b = .error e') := by
  have hb' := hb
  unfold maxInput at hb
  have hlen : (Stream.ofBytes b).r.length = b.length := rfl
  have hs := gd_sim (Γ := Γ) (N := b.length + 1) (F := b.length + 2) (by omega) (by omega)
    (nm := named Γ (b.length + 2) (b.length + 1)) (named_ok hΓ (by omega) _ (by omega)) t {} o ho hn rfl (by simp) hm (Stream.ofBytes b) (by intro l hl; simp [Stream.ofBytes] at hl) rfl
    (by rw [hlen]; omega)
  obtain ⟨h1, h2⟩ := hs
  unfold decodeBytesTy genDecode decodeWith Stream.decodeTy
  rw [hlen]
  cases hd : decTy (b.length + 2) (named Γ (b.length + 2) (b.length + 1)) {} t (Stream.ofBytes b) with
  | mk q s =>
    cases q with
    | error e =>
      obtain ⟨e', s', hg⟩ := h2 _ _ hd
      rw [hg]
      exact ⟨by simp, fun _ _ => ⟨e', rfl⟩⟩
    | ok v =>
      rw [h1 _ _ hd]
      simp only
      split
      · exact ⟨by simp, fun _ _ => ⟨_, rfl⟩⟩
      · refine ⟨?_, by simp⟩
        intro w hw
        rw [Except.ok.injEq] at hw
        rw [hw]

/-- C123: what the generated encoder writes, the generated decoder reads, up to nil for empty slices. -/
theorem C123_roundtrip_partial (hΓ : ∀ i, (Γ i).ok = true) {t : Ty} {v : Val} {o : Op} (ho : t.ok true = true)
    (hm : makeOp {} t = some o) (hw : o.compiles = true) (hn : t.noNilTag = true) (hv : HasTy Γ t v) (hp : Plain Γ t v)
    (hk : optOk t v = true) (hx : (bytesOf Γ {} t v).length < maxInput) :
    ∃ b, genEncode o v = .ok b ∧ genDecode o b = .ok (nilEmpty t v) := by
  obtain ⟨b, h1, h2⟩ := C110_plain hΓ ho hp hx
  have hx' := hx
  unfold maxInput at hx
  refine ⟨b, by rw [C123_encode_partial hΓ ho hm hw hv hk (by omega)]; exact h1, ?_⟩
  have hb : b = bytesOf Γ {} t v := by
    rw [C110_encode hΓ hv ho (by
      cases hneg : v.neg
      · rfl
      · rw [((C110_negative hΓ hv ho (by omega)).1).mp hneg] at h1; simp at h1) (by omega)] at h1
    simpa using h1.symm
  exact (C123_decode_partial hΓ ho hm hn (by rw [hb]; exact hx')).1 _ h2

/-! ### Where they differ -/

/-- `struct { A *uint64 "nil"; B uint64 }`. -/
def nilFirst : Ty := .struct (.cons { nilOK := true } (.ptr (.uint 64)) (.cons {} (.uint 64) .nil))

def nilFirstOp : Op := .struct (.cons (.ptr (.uint 64)) (.ptr (.uint 64) true .string) (.cons (.uint 64) (.uint 64) .nil)) .nil

/-- C123 fails for the tags for nil: the generated decoder does not take the empty value for nil from the stream.  It refuses what
the generated encoder wrote, … -/
theorem C123_nil_refuted : nilFirst.ok true = true ∧ makeOp {} nilFirst = some nilFirstOp ∧ nilFirstOp.compiles = true ∧
    genEncode nilFirstOp (.list [.nil, .num 5]) = .ok [0xC2, 0x80, 0x05] ∧
    decodeBytesTy noTypes nilFirst [0xC2, 0x80, 0x05] = .ok (.list [.nil, .num 5]) ∧
    genDecode nilFirstOp [0xC2, 0x80, 0x05] = .error .notAtEOL :=
  ⟨rfl, rfl, rfl, by simp only [genEncode, nilFirstOp, gw, gwF, gwO]; decide +kernel, of_isOk (by decide +kernel),
    of_isErr (by decide +kernel)⟩

/-- … and it accepts lists that are too short, reading the value for nil again as the next field. -/
theorem C123_short_refuted : decodeBytesTy noTypes nilFirst [0xC1, 0x80] = .error .tooFew ∧
    genDecode nilFirstOp [0xC1, 0x80] = .ok (.list [.nil, .num 0]) := ⟨of_isErr (by decide +kernel), of_isOk (by decide +kernel)⟩

/-- `struct { A *[]uint64 "nilString" }`. -/
def nilSlice : Ty := .struct (.cons { nilOK := true } (.ptr (.slice (.uint 64))) .nil)

def nilSliceOp : Op := .struct (.cons (.ptr (.slice (.uint 64))) (.ptr (.slice (.uint 64)) true .string) .nil) .nil

/-- An empty value of the wrong kind is refused by reflection and decoded by the generated code. -/
theorem C123_wrongKind_refuted : makeOp {} nilSlice = some nilSliceOp ∧ nilSliceOp.compiles = true ∧
    decodeBytesTy noTypes nilSlice [0xC1, 0xC0] = .error .wrongNil ∧
    genDecode nilSliceOp [0xC1, 0xC0] = .ok (.list [.ptr .nil]) := ⟨rfl, rfl, of_isErr (by decide +kernel), of_isOk (by decide +kernel)⟩

/-- `struct { A uint64; B []byte "optional" }`. -/
def optSlice : Ty := .struct (.cons {} (.uint 64) (.cons { optional := true } .bytes .nil))

def optSliceOp : Op := .struct (.cons (.uint 64) (.uint 64) .nil) (.cons .bytes .bytes .nil)

/-- An optional slice that is empty but not nil is written by reflection and left out by the generated code. -/
theorem C123_optional_refuted : makeOp {} optSlice = some optSliceOp ∧ optSliceOp.compiles = true ∧
    HasTy noTypes optSlice (.list [.num 1, .bytes []]) ∧
    encodeTy noTypes optSlice (.list [.num 1, .bytes []]) = .ok [0xC2, 0x01, 0x80] ∧
    genEncode optSliceOp (.list [.num 1, .bytes []]) = .ok [0xC1, 0x01] :=
  ⟨rfl, rfl, .struct (.cons (.uint 64 1 (by decide)) (.cons (.bytes _) .nil)), by decide +kernel,
    by simp [genEncode, optSliceOp, gw, gwF, gwO, OpFlds.len, OpFlds.anyNonZero, nonZero]; decide +kernel⟩

/-- `struct { A uint64; B uint64 "optional"; C rlp.RawValue "optional" }`. -/
def optRaw : Ty := .struct (.cons {} (.uint 64) (.cons { optional := true } (.uint 64) (.cons { optional := true } .raw .nil)))

def optRawOp : Op := .struct (.cons (.uint 64) (.uint 64) .nil) (.cons (.uint 64) (.uint 64) (.cons .raw .raw .nil))

/-- The same for an optional raw value that is empty but not nil: nothing is written for it, but reflection writes the optional
fields before it. -/
theorem C123_optional_raw_refuted : makeOp {} optRaw = some optRawOp ∧ optRawOp.compiles = true ∧
    HasTy noTypes optRaw (.list [.num 1, .num 0, .bytes []]) ∧
    encodeTy noTypes optRaw (.list [.num 1, .num 0, .bytes []]) = .ok [0xC2, 0x01, 0x80] ∧
    genEncode optRawOp (.list [.num 1, .num 0, .bytes []]) = .ok [0xC1, 0x01] :=
  ⟨rfl, rfl, .struct (.cons (.uint 64 1 (by decide)) (.cons (.uint 64 0 (by decide)) (.cons (.raw _) .nil))), by decide +kernel,
    by simp [genEncode, optRawOp, gw, gwF, gwO, OpFlds.len, OpFlds.anyNonZero, nonZero, eqZero]; decide +kernel⟩

/-- `struct { A, B uint64 }`. -/
def two : Ty := .struct (.cons {} (.uint 64) (.cons {} (.uint 64) .nil))

def twoOp : Op := .struct (.cons (.uint 64) (.uint 64) (.cons (.uint 64) (.uint 64) .nil)) .nil

/-- The generated decoder reports a missing field as the end of a list, which the decoder of slices by reflection takes for the end
of its own list: `[[1]]` is accepted as a slice without elements. -/
theorem C123_endOfList_refuted : makeOp {} two = some twoOp ∧ twoOp.compiles = true ∧
    genDecode twoOp [0xC1, 0x01] = .error .eol ∧ decodeBytesTy noTypes two [0xC1, 0x01] = .error .tooFew ∧
    decodeBytesTy noTypes (.slice two) [0xC2, 0xC1, 0x01] = .error .tooFew ∧
    genDecodeSlice twoOp [0xC2, 0xC1, 0x01] = .ok (.list []) :=
  ⟨rfl, rfl, of_isErr (by decide +kernel), of_isErr (by decide +kernel), of_isErr (by decide +kernel), of_isOk (by decide +kernel)⟩

/-- Types for which `rlpgen` writes a text that is not a program: `struct { A **uint64 }`, `struct { A []struct{} }`,
`struct { A big.Int "optional" }`. -/
theorem C123_text_refuted : ∀ t ∈ [Ty.struct (.cons {} (.ptr (.ptr (.uint 64))) .nil), .struct (.cons {} (.slice (.struct .nil)) .nil),
    .struct (.cons { optional := true } .big .nil)], t.ok true = true ∧ ∃ o, makeOp {} t = some o ∧ o.compiles = false := by
  intro t ht
  simp only [List.mem_cons, List.not_mem_nil, or_false] at ht
  rcases ht with rfl | rfl | rfl <;> exact ⟨rfl, _, rfl, rfl⟩

/-! ### Cases -/

/-- `struct { A uint16; B []string; C *struct { D [2]byte; E *big.Int }; F bool "optional"; G *uint8 "optional" }`. -/
def mixed : Ty := .struct (.cons {} (.uint 16) (.cons {} (.slice .str)
  (.cons {} (.ptr (.struct (.cons {} (.byteArr 2) (.cons {} (.ptr .big) .nil))))
  (.cons { optional := true } .bool (.cons { optional := true } (.ptr (.uint 8)) .nil)))))

def mixedVal : Val := .list [.num 300, .list [], .ptr (.list [.bytes [1, 2], .ptr (.num 5)]), .bool true, .nil]

def mixedOp : Op := .struct (.cons (.uint 16) (.uint 16) (.cons (.slice .str) (.slice .str)
  (.cons (.ptr (.struct (.cons {} (.byteArr 2) (.cons {} (.ptr .big) .nil))))
    (.ptr (.struct (.cons (.byteArr 2) (.byteArr 2) (.cons (.ptr .big) (.big true) .nil)) .nil) false .list) .nil)))
  (.cons .bool .bool (.cons (.ptr (.uint 8)) (.ptr (.uint 8) false .string) .nil))

/-- The hypotheses hold for a type with slices, pointers and optional fields; the optional fields up to the last that is not zero
are written, an empty slice is read as nil. -/
example : mixed.ok true = true ∧ mixed.noNilTag = true ∧ makeOp {} mixed = some mixedOp ∧ mixedOp.compiles = true ∧
    optOk mixed mixedVal = true := ⟨rfl, rfl, rfl, rfl, by decide +kernel⟩

example : genEncode mixedOp mixedVal = .ok [0xCA, 0x82, 0x01, 0x2C, 0xC0, 0xC4, 0x82, 0x01, 0x02, 0x05, 0x01] := by
  simp [genEncode, mixedOp, mixedVal, gw, gwL, gwF, gwO, OpFlds.len, OpFlds.anyNonZero, nonZero]; decide +kernel

example : genDecode mixedOp [0xCA, 0x82, 0x01, 0x2C, 0xC0, 0xC4, 0x82, 0x01, 0x02, 0x05, 0x01] =
    .ok (.list [.num 300, .nil, .ptr (.list [.bytes [1, 2], .ptr (.num 5)]), .bool true, .nil]) := of_isOk (by decide +kernel)

/-- Types that are refused. -/
example : makeOp {} (.array 2 (.uint 64)) = none ∧ makeOp {} .any = none ∧
    makeOp {} (.struct (.cons { tail := true } (.slice (.uint 64)) .nil)) = none := ⟨rfl, rfl, rfl⟩

end
end Verif.Rlp

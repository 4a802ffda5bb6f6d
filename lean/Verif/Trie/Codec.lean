import Verif.Trie.Model

/-!
# Model of the key codecs and of the node header (`/repo/trie/utils.go`, `/repo/trie/node.go`)

Here nibbles are bytes, as in the code; a nil slice and an empty slice are the same list.
-/

namespace Verif.Trie

/-- `keyToPrefix` (`/repo/trie/utils.go:78-89`) on bytes. -/
def keyToPrefixB (key : Bytes) : Bytes := key.flatMap fun (b : UInt8) => [b >>> 4, b &&& 0x0F]

/-- Pairs of nibbles to bytes: `r[i] = (p[i*2]&0xF)<<4 | (p[i*2+1] & 0xF)`, for `i < len(p)/2`
(`/repo/trie/utils.go:45-48`). -/
def packNibbles : Bytes → Bytes
  | a :: b :: r => (((a &&& 0xF) <<< 4) ||| (b &&& 0xF)) :: packNibbles r
  | _ => []

/-- `prefixToKeystring` (`/repo/trie/utils.go:37-50`): of an odd number of nibbles the first is dropped. -/
def prefixToKeystring (p : Bytes) : Bytes :=
  if p.length = 0 then [] else if p.length % 2 = 1 then packNibbles (p.drop 1) else packNibbles p

/-- The loop of `prefixToKey` (`/repo/trie/utils.go:101-105`): every byte is shifted left by four for each nibble
that goes into it. -/
def packShift : Bytes → Bytes
  | a :: b :: r => (((((0 : UInt8) <<< 4) ||| (a &&& 0xF)) <<< 4) ||| (b &&& 0xF)) :: packShift r
  | [a] => [((0 : UInt8) <<< 4) ||| (a &&& 0xF)]
  | [] => []

/-- `prefixToKey` (`/repo/trie/utils.go:91-107`). -/
def prefixToKey (p : Bytes) : Bytes :=
  if p.length % 2 = 1 then
    match p with
    | a :: r => (a &&& 0xF) :: packShift r
    | [] => []
  else packShift p

/-- `NodeType` bits (`/repo/trie/node.go:41-59`). -/
def ntHasPrefix (t : UInt8) : Bool := (t &&& 0x80) > 0
@[inherit_doc ntHasPrefix] def ntOdd (t : UInt8) : Bool := (t &&& 0x10) > 0
@[inherit_doc ntHasPrefix] def ntFirst (t : UInt8) : UInt8 := t &&& 0x0F
@[inherit_doc ntHasPrefix] def ntHasChildren (t : UInt8) : Bool := (t &&& 0x40) > 0
@[inherit_doc ntHasPrefix] def ntHasValue (t : UInt8) : Bool := (t &&& 0x20) > 0

/-- `keystringToPrefix` (`/repo/trie/utils.go:52-76`). -/
def keystringToPrefix (nt : UInt8) (encoded : Bytes) : Bytes :=
  if ntHasPrefix nt = false then []
  else if ntOdd nt = false ∧ encoded.length = 0 then []
  else (if ntOdd nt then [ntFirst nt] else []) ++ encoded.flatMap fun (b : UInt8) => [b >>> 4, b &&& 0x0F]

/-- `hexbyteToValuebyte` (`/repo/trie/utils.go:109-119`). -/
def hexbyteToValuebyte (h : UInt8) : UInt8 :=
  if 0x30 ≤ h ∧ h ≤ 0x39 then h - 0x30
  else if 0x61 ≤ h ∧ h ≤ 0x66 then h - 0x61 + 10
  else if 0x41 ≤ h ∧ h ≤ 0x46 then h - 0x41 + 10
  else 16

/-- `valuebyteToHexbyteArray` (`/repo/trie/utils.go:121-123`). -/
def hexDigits : List UInt8 :=
  [0x30, 0x31, 0x32, 0x33, 0x34, 0x35, 0x36, 0x37, 0x38, 0x39, 0x41, 0x42, 0x43, 0x44, 0x45, 0x46]

/-- `valuebyteToHexbyte` (`/repo/trie/utils.go:125-127`). -/
def valuebyteToHexbyte (v : UInt8) : UInt8 := hexDigits.getD (v &&& 0xF).toNat 0

/-- `prefixToHexstring` (`/repo/trie/utils.go:129-139`). -/
def prefixToHexstring (p : Bytes) : Bytes := p.map valuebyteToHexbyte

/-- `hexstringToPrefix` (`/repo/trie/utils.go:141-151`). -/
def hexstringToPrefix (s : Bytes) : Bytes := s.map hexbyteToValuebyte

/-- `NodeHeader` (`/repo/trie/node.go:123-127`). -/
structure Header where
  nt : UInt8
  keyString : Bytes
  flag0 : UInt8
  flag1 : UInt8
  deriving DecidableEq

/-- The parts of go-rtl the trie uses for byte strings (not part of `/repo`): `rtl.Encode(b, w)` and
`rtl.Decode(r, &b)`, the latter returning the unread rest. -/
structure Rtl where
  enc : Bytes → Bytes
  dec : Bytes → Option (Bytes × Bytes)

/-- What is assumed of go-rtl: a string is read back and nothing more is consumed. -/
def Rtl.Lawful (R : Rtl) : Prop := ∀ b r, R.dec (R.enc b ++ r) = some (b, r)

/-- `NodeHeader.Serialization` (`/repo/trie/node.go:196-213`). -/
def Header.ser (R : Rtl) (h : Header) : Bytes :=
  [h.nt] ++ (if ntHasPrefix h.nt then R.enc h.keyString else []) ++
    (if ntHasChildren h.nt then [h.flag0, h.flag1] else [])

/-- `NodeHeader.Deserialization` into a zero header (`/repo/trie/node.go:215-237`), with the unread rest. -/
def Header.deser (R : Rtl) (bs : Bytes) : Option (Header × Bytes) :=
  match bs with
  | [] => none
  | nt :: r =>
    match (if ntHasPrefix nt then R.dec r else some ([], r)) with
    | none => none
    | some (ks, r2) =>
      if ntHasChildren nt then
        match r2 with
        | f0 :: f1 :: r3 => some (⟨nt, ks, f0, f1⟩, r3)
        | _ => none
      else some (⟨nt, ks, 0, 0⟩, r2)

/-- `HasChild` (`/repo/trie/node.go:184-186`). -/
def Header.hasChild (h : Header) (i : Nib) : Bool :=
  ntHasChildren h.nt && (((if i.val / 8 = 0 then h.flag0 else h.flag1) &&& ((1 : UInt8) <<< UInt8.ofNat (i.val % 8))) > 0)

/-- A nibble as the byte the code uses. -/
def nibByte (i : Nib) : UInt8 := UInt8.ofNat i.val

/-- A byte below 16 as a nibble (other bytes cannot occur). -/
def byteNib (b : UInt8) : Nib := ⟨b.toNat % 16, by omega⟩

variable {V : Type}

/-- `ntype` (`/repo/trie/node.go:519-535`). `hv` is `hasValue()`. -/
def ntype (p : List Nib) (hc hv : Bool) : UInt8 :=
  (match p with
   | [] => 0
   | a :: _ => if p.length % 2 = 1 then 0x80 ||| 0x10 ||| (nibByte a &&& 0x0F) else 0x80)
  ||| (if hc then 0x40 else 0) ||| (if hv then 0x20 else 0)

/-- One byte of the children flag: `ChildrenFlag[i/8] |= 1 << (i%8)` for the non-nil children
(`/repo/trie/node.go:148-152`). `base` is 0 or 8. -/
def childFlag (has : Nib → Bool) (base : Nat) : UInt8 :=
  (List.range 8).foldl
    (fun acc i => if has (Fin.ofNat 16 (base + i)) then acc ||| ((1 : UInt8) <<< UInt8.ofNat i) else acc) 0

/-- `newNodeHeader` (`/repo/trie/node.go:141-155`). -/
def newHeader (p : List Nib) (has : Nib → Bool) (hv : Bool) : Header :=
  let nt := ntype p (nibbles.any has) hv
  { nt := nt
    keyString := if ntHasPrefix nt then prefixToKeystring (p.map nibByte) else []
    flag0 := if ntHasChildren nt then childFlag has 0 else 0
    flag1 := if ntHasChildren nt then childFlag has 8 else 0 }

/-- `KeyToPrefix` (`/repo/trie/node.go:180-182`), as nibbles. -/
def Header.prefix (h : Header) : List Nib := (keystringToPrefix h.nt h.keyString).map byteNib

end Verif.Trie

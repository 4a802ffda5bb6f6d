import Verif.Rlp.Typed

/-!
# Typed values: what the encodings should be

`HasTy`: the values of a type.  `bytesOf`: the encoding of a value.  `Enc`: the values an input may stand for.  `Reads`: what a
value is after encoding and decoding, where the format cannot tell nil from empty.
-/

namespace Verif.Rlp
open Verif

/-! ### Well-formed types -/

/-- The type of bytes: slices and arrays of it are in the universe under their own names. -/
def Ty.isByte : Ty → Bool
  | .uint 8 => true
  | _ => false

def Ty.isPtr : Ty → Bool
  | .ptr _ => true
  | _ => false

def Ty.isSlice : Ty → Bool
  | .slice _ => true
  | _ => false

/-- Every field may be absent. -/
def Flds.optionals : Flds → Bool
  | .nil => true
  | .cons g _ fs => (g.optional || g.tail) && fs.optionals

mutual
/-- A type that Go and `ProcessFields` admit; `d`: at a place where a recursive type may occur directly. -/
def Ty.ok (d : Bool) : Ty → Bool
  | .uint bits => bits == 8 || bits == 16 || bits == 32 || bits == 64
  | .ptr t => t.ok true
  | .slice t => !t.isByte && t.ok true
  | .array _ t => !t.isByte && t.ok d
  | .struct fs => fs.ok
  | .ref _ => d
  | _ => true
/-- Fields: tags `nil` on pointers, `tail` on the last field, a slice; what follows an optional field is optional. -/
def Flds.ok : Flds → Bool
  | .nil => true
  | .cons g t fs => t.ok false && (!g.nilOK || t.isPtr) && (!g.tail || (t.isSlice && !g.optional && fs.len == 0)) &&
      (!g.optional || fs.optionals) && fs.ok
end

/-- The types whose values are strings of the format, apart from the big integers. -/
inductive Ty.Text : Ty → Prop
  | bool : Ty.Text .bool
  | uint (bits) : Ty.Text (.uint bits)
  | str : Ty.Text .str
  | bytes : Ty.Text .bytes
  | byteArr (n) : Ty.Text (.byteArr n)
  | raw : Ty.Text .raw

/-- The big integers, whose values are strings of the format, too. -/
inductive Ty.Number : Ty → Prop
  | big : Ty.Number .big
  | u256 : Ty.Number .u256

/-! ### Values of a type -/

section
variable (Γ : Nat → Flds)

mutual
/-- The values of a type. -/
inductive HasTy : Ty → Val → Prop
  | bool (b) : HasTy .bool (.bool b)
  | uint (bits n : Nat) (h : n < 2 ^ bits) : HasTy (.uint bits) (.num n)
  | big (n : Int) : HasTy .big (.num n)
  | u256 (n : Nat) (h : n < 2 ^ 256) : HasTy .u256 (.num n)
  | str (b) : HasTy .str (.bytes b)
  | bytes (b) : HasTy .bytes (.bytes b)
  | bytesNil : HasTy .bytes .nil
  | byteArr (b : Bytes) : HasTy (.byteArr b.length) (.bytes b)
  | raw (b) : HasTy .raw (.bytes b)
  | rawNil : HasTy .raw .nil
  | any (i) : HasTy .any (.any i)
  | anyNil : HasTy .any .nil
  | ptr {t v} (h : HasTy t v) : HasTy (.ptr t) (.ptr v)
  | ptrNil {t} : HasTy (.ptr t) .nil
  | slice {t l} (h : HasTyL t l) : HasTy (.slice t) (.list l)
  | sliceNil {t} : HasTy (.slice t) .nil
  | array {t l} (h : HasTyL t l) : HasTy (.array l.length t) (.list l)
  | struct {fs l} (h : HasTyF fs l) : HasTy (.struct fs) (.list l)
  | ref {i l} (h : HasTyF (Γ i) l) : HasTy (.ref i) (.list l)
inductive HasTyL : Ty → List Val → Prop
  | nil {t} : HasTyL t []
  | cons {t v l} (h : HasTy t v) (hl : HasTyL t l) : HasTyL t (v :: l)
inductive HasTyF : Flds → List Val → Prop
  | nil : HasTyF .nil []
  | cons {g t fs v l} (h : HasTy t v) (hl : HasTyF fs l) : HasTyF (.cons g t fs) (v :: l)
end

/-! ### The encoding -/

mutual
/-- The encoding of a value: numbers as strings of bytes without leading zeros, slices, arrays and structs as lists. -/
def bytesOf (g : Tags) : Ty → Val → Bytes
  | _, .bool x => encNat (if x then 1 else 0)
  | _, .num n => encNat n.toNat
  | .raw, .bytes x => x
  | _, .bytes x => encStr x
  | _, .any i => enc i
  | .bytes, .nil => encStr []
  | .any, .nil => encList []
  | .ptr t, .nil => [nilByte g t]
  | .slice _, .nil => if g.tail then [] else encList []
  | _, .nil => []
  | .ptr t, .ptr v => bytesOf {} t v
  | .slice t, .list l => if g.tail then bytesL t l else encList (bytesL t l)
  | .array _ t, .list l => encList (bytesL t l)
  | .struct fs, .list l => encList (bytesF fs l)
  | .ref i, .list l => encList (bytesF (Γ i) l)
  | _, _ => []
def bytesL : Ty → List Val → Bytes
  | _, [] => []
  | t, v :: l => bytesOf {} t v ++ bytesL t l
/-- The fields, up to an optional one from which on all are zero. -/
def bytesF : Flds → List Val → Bytes
  | .cons g t fs, v :: l =>
    if g.optional = true ∧ isZero Γ t v = true ∧ fldsZero Γ fs l = true then [] else bytesOf g t v ++ bytesF fs l
  | _, _ => []
end

/-! ### What an input may stand for -/

/-- One value, with a header of minimal length. -/
def RawOk (x : Bytes) : Prop :=
  (∃ b, b < 0x80 ∧ x = [b]) ∨ (∃ c : Bytes, x = head 0x80 c.length ++ c) ∨ ∃ c, x = encList c

mutual
/-- `Enc g t v x`: as a value of the type, in a field with these tags, the bytes mean the value. -/
inductive Enc : Tags → Ty → Val → Bytes → Prop
  | bool (g) (b : Bool) : Enc g .bool (.bool b) (encNat (if b then 1 else 0))
  | uint (g) (bits n : Nat) (h : n < 2 ^ bits) : Enc g (.uint bits) (.num n) (encNat n)
  | big (g) (n : Nat) : Enc g .big (.num n) (encNat n)
  | u256 (g) (n : Nat) (h : n < 2 ^ 256) : Enc g .u256 (.num n) (encNat n)
  | str (g b) : Enc g .str (.bytes b) (encStr b)
  | bytes (g b) : Enc g .bytes (.bytes b) (encStr b)
  | byteArr (g) (n : Nat) (b : Bytes) (h : b.length = n) : Enc g (.byteArr n) (.bytes b) (encStr b)
  | raw (g) {x} (h : RawOk x) : Enc g .raw (.bytes x) x
  | any (g i) : Enc g .any (.any i) (enc i)
  | ptr {g t v x} (hg : t.isNum = true ∨ g.nilOK = false) (h : Enc {} t v x) : Enc g (.ptr t) (.ptr v) x
  | ptrNil {g t} (hn : t.isNum = false) (hg : g.nilOK = true) : Enc g (.ptr t) .nil [nilByte g t]
  | ptrSome {g t v x} (hn : t.isNum = false) (hg : g.nilOK = true) (h1 : x ≠ [0x80]) (h2 : x ≠ [0xC0]) (h : Enc {} t v x) :
      Enc g (.ptr t) (.ptr v) x
  | slice {g t l x} (hg : g.tail = false) (h : EncL t l x) : Enc g (.slice t) (.list l) (encList x)
  | tail {g t l x} (hg : g.tail = true) (h : EncL t l x) : Enc g (.slice t) (.list l) x
  | array {g t l x} (n : Nat) (hn : l.length = n) (h : EncL t l x) : Enc g (.array n t) (.list l) (encList x)
  | struct {g fs l x} (h : EncF fs l x) : Enc g (.struct fs) (.list l) (encList x)
  | ref {g i l x} (h : EncF (Γ i) l x) : Enc g (.ref i) (.list l) (encList x)
/-- The elements, one after the other. -/
inductive EncL : Ty → List Val → Bytes → Prop
  | nil {t} : EncL t [] []
  | cons {t v l x y} (h : Enc {} t v x) (hl : EncL t l y) : EncL t (v :: l) (x ++ y)
/-- The fields; from an optional one on, they may be missing. -/
inductive EncF : Flds → List Val → Bytes → Prop
  | nil : EncF .nil [] []
  | cons {g t fs v l x y} (h : Enc g t v x) (hl : EncF fs l y) : EncF (.cons g t fs) (v :: l) (x ++ y)
  | missing {g t fs} (h : g.optional = true) : EncF (.cons g t fs) (t.zero :: fs.zeros) []
end

/-! ### What is read back -/

mutual
/-- `Reads g t v w`: the value is read back as `w`, where nil and empty have the same encoding. -/
inductive Reads : Tags → Ty → Val → Val → Prop
  | bool (g b) : Reads g .bool (.bool b) (.bool b)
  | uint (g) (bits n : Nat) (h : n < 2 ^ bits) : Reads g (.uint bits) (.num n) (.num n)
  | big (g) (n : Nat) : Reads g .big (.num n) (.num n)
  | u256 (g) (n : Nat) (h : n < 2 ^ 256) : Reads g .u256 (.num n) (.num n)
  | str (g b) : Reads g .str (.bytes b) (.bytes b)
  | bytes (g b) : Reads g .bytes (.bytes b) (.bytes b)
  | bytesNil (g) : Reads g .bytes .nil (.bytes [])
  | byteArr (g) (n : Nat) (b : Bytes) (h : b.length = n) : Reads g (.byteArr n) (.bytes b) (.bytes b)
  | raw (g) {x} (h : RawOk x) : Reads g .raw (.bytes x) (.bytes x)
  | any (g i) : Reads g .any (.any i) (.any i)
  | anyNil (g) : Reads g .any .nil (.any (.list []))
  | ptr {g t v w} (hg : t.isNum = true ∨ g.nilOK = false) (h : Reads {} t v w) : Reads g (.ptr t) (.ptr v) (.ptr w)
  /-- A nil pointer is read back as a pointer to what the empty encoding stands for, if to anything. -/
  | ptrNil {g t w} (hg : t.isNum = true ∨ g.nilOK = false) (h : Enc Γ {} t w [nilByte g t]) : Reads g (.ptr t) .nil (.ptr w)
  | tagNil {g t} (hn : t.isNum = false) (hg : g.nilOK = true) : Reads g (.ptr t) .nil .nil
  | tagSome {g t v w} (hn : t.isNum = false) (hg : g.nilOK = true) (h1 : bytesOf Γ {} t v ≠ [0x80])
      (h2 : bytesOf Γ {} t v ≠ [0xC0]) (h : Reads {} t v w) : Reads g (.ptr t) (.ptr v) (.ptr w)
  | tagEmpty {g t v} (hn : t.isNum = false) (hg : g.nilOK = true) (h : bytesOf Γ {} t v = [nilByte g t]) :
      Reads g (.ptr t) (.ptr v) .nil
  | slice {g t l m} (h : ReadsL t l m) : Reads g (.slice t) (.list l) (.list m)
  | sliceNil (g t) : Reads g (.slice t) .nil (.list [])
  | array {g t l m} (n : Nat) (hn : l.length = n) (h : ReadsL t l m) : Reads g (.array n t) (.list l) (.list m)
  | struct {g fs l m} (h : ReadsF fs l m) : Reads g (.struct fs) (.list l) (.list m)
  | ref {g i l m} (h : ReadsF (Γ i) l m) : Reads g (.ref i) (.list l) (.list m)
inductive ReadsL : Ty → List Val → List Val → Prop
  | nil {t} : ReadsL t [] []
  | cons {t v w l m} (h : Reads {} t v w) (hl : ReadsL t l m) : ReadsL t (v :: l) (w :: m)
inductive ReadsF : Flds → List Val → List Val → Prop
  | nil : ReadsF .nil [] []
  | cons {g t fs v w l m} (hz : g.optional = false ∨ v :: l ≠ t.zero :: fs.zeros) (h : Reads g t v w) (hl : ReadsF fs l m) :
      ReadsF (.cons g t fs) (v :: l) (w :: m)
  | dropped {g t fs} (h : g.optional = true) : ReadsF (.cons g t fs) (t.zero :: fs.zeros) (t.zero :: fs.zeros)
end

mutual
/-- Values without nil and without negative numbers, of types without `nil` tags. -/
inductive Plain : Ty → Val → Prop
  | bool (b) : Plain .bool (.bool b)
  | uint (bits n : Nat) (h : n < 2 ^ bits) : Plain (.uint bits) (.num n)
  | big (n : Nat) : Plain .big (.num n)
  | u256 (n : Nat) (h : n < 2 ^ 256) : Plain .u256 (.num n)
  | str (b) : Plain .str (.bytes b)
  | bytes (b) : Plain .bytes (.bytes b)
  | byteArr (n : Nat) (b : Bytes) (h : b.length = n) : Plain (.byteArr n) (.bytes b)
  | raw {x} (h : RawOk x) : Plain .raw (.bytes x)
  | any (i) : Plain .any (.any i)
  | ptr {t v} (h : Plain t v) : Plain (.ptr t) (.ptr v)
  | slice {t l} (h : PlainL t l) : Plain (.slice t) (.list l)
  | array {t l} (n : Nat) (hn : l.length = n) (h : PlainL t l) : Plain (.array n t) (.list l)
  | struct {fs l} (h : PlainF fs l) : Plain (.struct fs) (.list l)
  | ref {i l} (h : PlainF (Γ i) l) : Plain (.ref i) (.list l)
inductive PlainL : Ty → List Val → Prop
  | nil {t} : PlainL t []
  | cons {t v l} (h : Plain t v) (hl : PlainL t l) : PlainL t (v :: l)
inductive PlainF : Flds → List Val → Prop
  | nil : PlainF .nil []
  | cons {g t fs v l} (hg : g.nilOK = false) (h : Plain t v) (hl : PlainF fs l) : PlainF (.cons g t fs) (v :: l)
  | zero {g t fs} (h : g.optional = true) : PlainF (.cons g t fs) (t.zero :: fs.zeros)
end

end

end Verif.Rlp

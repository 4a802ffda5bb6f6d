import Verif.Base

/-!
# The contract ABI encoding

A small description of the encoding, independent of the code: the one in the comment of `/repo/abi/type.go:296-304` and in the
Solidity documentation.  A sequence of components is encoded as all heads followed by all tails; the head of a dynamic component
is the position of its tail, counted from the start of the sequence.
-/

namespace Verif.Abi
open Verif

/-- The types that `NewType` builds. -/
inductive Ty where
  | uint (bits : Nat)
  | int (bits : Nat)
  | bool
  | string
  | bytes
  | address
  | fixed (n : Nat)
  | function
  | slice (e : Ty)
  | array (n : Nat) (e : Ty)
  | tuple (l : List Ty)

/-- The Go values of those types: numbers of any width; byte strings, byte arrays, addresses and strings; slices, arrays and
structs. -/
inductive Val where
  | num (i : Int)
  | bool (b : Bool)
  | bytes (b : Bytes)
  | list (l : List Val)

def Val.int : Val → Int
  | .num i => i
  | _ => 0

def Val.truth : Val → Bool
  | .bool b => b
  | _ => false

def Val.raw : Val → Bytes
  | .bytes b => b
  | _ => []

def Val.items : Val → List Val
  | .list l => l
  | _ => []

mutual
/-- Types whose values vary in size. -/
def Ty.dyn : Ty → Bool
  | .string => true
  | .bytes => true
  | .slice _ => true
  | .array _ e => e.dyn
  | .tuple l => anyDyn l
  | _ => false
def anyDyn : List Ty → Bool
  | [] => false
  | t :: l => t.dyn || anyDyn l
end

/-- Two's complement in 32 bytes. -/
def word (i : Int) : Bytes := natBE 32 (i % 2 ^ 256).toNat

/-- Zeros up to a multiple of 32 bytes. -/
def pad32 (b : Bytes) : Bytes := b ++ List.replicate ((32 - b.length % 32) % 32) 0

/-- A component: whether its type is dynamic, and its encoding. -/
abbrev Comp := Bool × Bytes

def headLen (c : Comp) : Nat := if c.1 then 32 else c.2.length

def tail (c : Comp) : Bytes := if c.1 then c.2 else []

/-- The head of the `i`-th component. -/
def head (cs : List Comp) (i : Nat) (c : Comp) : Bytes :=
  if c.1 then word (((cs.map headLen).sum + ((cs.take i).flatMap tail).length : Nat) : Int) else c.2

/-- The encoding of a sequence. -/
def encSeq (cs : List Comp) : Bytes := (cs.mapIdx (head cs)).flatten ++ cs.flatMap tail

mutual
/-- The encoding of a value. -/
def enc : Ty → Val → Bytes
  | .uint _, v => word v.int
  | .int _, v => word v.int
  | .bool, v => word (if v.truth then 1 else 0)
  | .string, v => word v.raw.length ++ pad32 v.raw
  | .bytes, v => word v.raw.length ++ pad32 v.raw
  | .address, v => List.replicate (32 - v.raw.length) 0 ++ v.raw
  | .fixed _, v => v.raw ++ List.replicate (32 - v.raw.length) 0
  | .function, v => v.raw ++ List.replicate (32 - v.raw.length) 0
  | .slice e, v => word v.items.length ++ encSeq (v.items.map fun x => (e.dyn, enc e x))
  | .array _ e, v => encSeq (v.items.map fun x => (e.dyn, enc e x))
  | .tuple l, v => encSeq (encFields l v.items)
/-- The components of a tuple. -/
def encFields : List Ty → List Val → List Comp
  | t :: ts, v :: vs => (t.dyn, enc t v) :: encFields ts vs
  | _, _ => []
end

/-- The number of bits of the Go type of an integer: the types of 8, 16, 32 and 64 bits have their own, all others are
`*big.Int`. -/
def width (bits : Nat) : Nat := if bits = 8 ∨ bits = 16 ∨ bits = 32 ∨ bits = 64 then bits else 256

mutual
/-- Values of the type. -/
def Wt : Ty → Val → Prop
  | .uint n, v => ∃ i : Int, v = .num i ∧ 0 ≤ i ∧ i < 2 ^ width n
  | .int n, v => ∃ i : Int, v = .num i ∧ -2 ^ (width n - 1) ≤ i ∧ i < 2 ^ (width n - 1)
  | .bool, v => ∃ b, v = .bool b
  | .string, v => ∃ b, v = .bytes b
  | .bytes, v => ∃ b, v = .bytes b
  | .address, v => ∃ b, v = .bytes b ∧ b.length = 20
  | .fixed n, v => ∃ b, v = .bytes b ∧ b.length = n
  | .function, v => ∃ b, v = .bytes b ∧ b.length = 24
  | .slice e, v => ∃ l, v = .list l ∧ ∀ x ∈ l, Wt e x
  | .array n e, v => ∃ l, v = .list l ∧ l.length = n ∧ ∀ x ∈ l, Wt e x
  | .tuple ts, v => ∃ l, v = .list l ∧ WtL ts l
def WtL : List Ty → List Val → Prop
  | [], vs => vs = []
  | t :: ts, vs => ∃ v l, vs = v :: l ∧ Wt t v ∧ WtL ts l
end

mutual
/-- Fixed byte arrays have at most 32 bytes. -/
def Ty.Sane : Ty → Prop
  | .fixed n => n ≤ 32
  | .slice e => e.Sane
  | .array _ e => e.Sane
  | .tuple l => SaneL l
  | _ => True
def SaneL : List Ty → Prop
  | [] => True
  | t :: l => t.Sane ∧ SaneL l
end

mutual
/-- No type without any bytes occurs: arrays of no static elements, tuples without fields. -/
def Ty.Full : Ty → Prop
  | .slice e => e.Full
  | .array n e => e.Full ∧ (e.dyn = false → 0 < n)
  | .tuple l => l ≠ [] ∧ FullL l
  | _ => True
def FullL : List Ty → Prop
  | [] => True
  | t :: l => t.Full ∧ FullL l
end

end Verif.Abi

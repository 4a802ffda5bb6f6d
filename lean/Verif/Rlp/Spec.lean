import Verif.Base

/-!
# RLP, as specified

Recursive length prefix encoding of nested lists of byte strings, stated without reference to the code: a byte below 0x80 is
its own encoding; any other string has a header with offset 0x80, a list one with offset 0xC0 followed by the encodings of its
elements.
-/

namespace Verif.Rlp
open Verif

/-- A nested list of byte strings. -/
inductive Item where
  | str (b : Bytes)
  | list (l : List Item)

/-- The header of a payload of `n` bytes. -/
def head (off n : Nat) : Bytes :=
  if n < 56 then [UInt8.ofNat (off + n)] else UInt8.ofNat (off + 55 + (natBytes n).length) :: natBytes n

/-- The encoding of a string. -/
def encStr (b : Bytes) : Bytes :=
  match b with
  | [x] => if x < 0x80 then [x] else head 0x80 1 ++ [x]
  | b => head 0x80 b.length ++ b

/-- The encoding of a list with this payload. -/
def encList (c : Bytes) : Bytes := head 0xC0 c.length ++ c

mutual
/-- The encoding. -/
def enc : Item → Bytes
  | .str b => encStr b
  | .list l => encList (encs l)
/-- The payload of a list. -/
def encs : List Item → Bytes
  | [] => []
  | v :: l => enc v ++ encs l
end

/-- A number is the string of its big-endian bytes without leading zeros. -/
def encNat (n : Nat) : Bytes := encStr (natBytes n)

example : enc (.list [.str [0x63, 0x61, 0x74], .list [], .str [5], .str [0x85], .str []]) =
    [0xC9, 0x83, 0x63, 0x61, 0x74, 0xC0, 0x05, 0x81, 0x85, 0x80] := by decide +kernel

example : (enc (.str (List.replicate 60 7))).take 3 = [0xB8, 60, 7] := by decide +kernel

theorem head_ne_nil (off n : Nat) : head off n ≠ [] := by
  unfold head; split <;> simp

theorem encStr_ne_nil (b : Bytes) : encStr b ≠ [] := by
  unfold encStr
  split
  · split
    · simp
    · simp [head]
  · simp [head_ne_nil]

theorem enc_ne_nil (v : Item) : enc v ≠ [] := by
  cases v with
  | str b => rw [enc]; exact encStr_ne_nil b
  | list l => rw [enc, encList]; simp [head_ne_nil]

theorem enc_pos (v : Item) : 0 < (enc v).length := List.length_pos_iff.mpr (enc_ne_nil v)

end Verif.Rlp

import Verif.Base

/-!
# Model of `/repo/hexutil/hexutil.go`, the text codecs of `/repo/hexutil/json.go` and `FromHex` of `/repo/bytes.go`

A Go string is a list of bytes.  `none` is a returned error (the error values are not distinguished).
`encoding/hex` and `strconv.ParseUint`/`AppendUint` are given by their documentation.
-/

namespace Verif.Hex
open Verif

/-- `decodeNibble` (`/repo/hexutil/hexutil.go:211-222`); `none` stands for `badNibble`. -/
def decodeNibble (c : UInt8) : Option Nat :=
  if 48 ≤ c ∧ c ≤ 57 then some (c - 48).toNat
  else if 65 ≤ c ∧ c ≤ 70 then some (c - 65 + 10).toNat
  else if 97 ≤ c ∧ c ≤ 102 then some (c - 97 + 10).toNat
  else none

/-- The digits `0123456789abcdef` of `encoding/hex` and `strconv`. -/
def hexChar (n : Nat) : UInt8 := if n < 10 then UInt8.ofNat (48 + n) else UInt8.ofNat (87 + n)

/-- `hex.Encode` (package `encoding/hex`). -/
def hexEncode (b : Bytes) : Bytes := b.flatMap fun x => [hexChar (x.toNat / 16), hexChar (x.toNat % 16)]

/-- `hex.Decode` (package `encoding/hex`): the bytes decoded before the first error, and whether there was none. -/
def hexDecode : Bytes → Bytes × Bool
  | [] => ([], true)
  | [_] => ([], false)
  | a :: b :: r =>
    match decodeNibble a, decodeNibble b with
    | some x, some y => let (t, ok) := hexDecode r; (UInt8.ofNat (16 * x + y) :: t, ok)
    | _, _ => ([], false)

/-- `has0xPrefix` (`/repo/hexutil/hexutil.go:187-189`) and `bytesHave0xPrefix` (`/repo/hexutil/json.go:275-277`). -/
def has0x : Bytes → Bool
  | a :: b :: _ => a == 48 && (b == 120 || b == 88)
  | _ => false

/-- `Encode` (`/repo/hexutil/hexutil.go:84-89`) and `Bytes.MarshalText` (`/repo/hexutil/json.go:39-44`). -/
def encode (b : Bytes) : Bytes := goCopyAt (goCopy (List.replicate (b.length * 2 + 2) 0) [48, 120]) 2 (hexEncode b)

/-- `Decode` (`/repo/hexutil/hexutil.go:60-72`). -/
def decode (s : Bytes) : Option Bytes :=
  if s.length = 0 then none
  else if !has0x s then none
  else match hexDecode (s.drop 2) with
    | (b, true) => some b
    | (_, false) => none

/-- `checkNumber` (`/repo/hexutil/hexutil.go:191-206`). -/
def checkNumber (s : Bytes) : Option Bytes :=
  if s.length = 0 then none
  else if !has0x s then none
  else
    let s := s.drop 2
    if s.length = 0 then none
    else if s.length > 1 ∧ s.head? = some 48 then none
    else some s

/-- `strconv.ParseUint(raw, 16, 64)`: one or more hexadecimal digits whose value fits. -/
def parseUint16 (raw : Bytes) : Option Nat :=
  if raw = [] then none
  else match raw.mapM decodeNibble with
    | none => none
    | some ds => let n := ds.foldl (fun a d => a * 16 + d) 0; if n < 2 ^ 64 then some n else none

/-- `DecodeUint64` (`/repo/hexutil/hexutil.go:92-102`). -/
def decodeUint64 (s : Bytes) : Option Nat := (checkNumber s).bind parseUint16

/-- `strconv.AppendUint(_, i, 16)`: the digits without leading zeros. -/
def hexDigits (n : Nat) : Bytes :=
  if n < 16 then [hexChar n] else hexDigits (n / 16) ++ [hexChar (n % 16)]
termination_by n

/-- `EncodeUint64` (`/repo/hexutil/hexutil.go:115-119`). -/
def encodeUint64 (n : Nat) : Bytes := [48, 120] ++ hexDigits n

/-- The inner loop of `DecodeBig` (`/repo/hexutil/hexutil.go:153-160`) on a 64-bit word. -/
def wordLoop : Bytes → Nat → Option Nat
  | [], w => some w
  | c :: cs, w =>
    match decodeNibble c with
    | none => none
    | some nib => wordLoop cs ((w * 16 % 2 ^ 64 + nib) % 2 ^ 64)

/-- The word that ends at `stop` (`/repo/hexutil/hexutil.go:149-160`). -/
def wordAt (raw : Bytes) (stop : Nat) : Option Nat := wordLoop ((raw.take stop).drop (stop - 16)) 0

/-- The outer loop of `DecodeBig` (`/repo/hexutil/hexutil.go:148-162`): `k` words are left, `stop` is `end`. -/
def wordsLoop (raw : Bytes) : Nat → Nat → Option (List Nat)
  | 0, _ => some []
  | k + 1, stop => (wordAt raw stop).bind fun w => (wordsLoop raw k (stop - 16)).map (w :: ·)

/-- `big.Int.SetBits`: little-endian 64-bit words. -/
def setBits : List Nat → Nat
  | [] => 0
  | w :: ws => w + 2 ^ 64 * setBits ws

/-- The common part of `DecodeBig` (`/repo/hexutil/hexutil.go:143-164`) and `Big.UnmarshalText`
(`/repo/hexutil/json.go:145-168`); a word has 16 nibbles. -/
def bigOfRaw (raw : Bytes) : Option Nat :=
  if raw.length > 64 then none else (wordsLoop raw (raw.length / 16 + 1) raw.length).map setBits

/-- `DecodeBig` (`/repo/hexutil/hexutil.go:139-166`). -/
def decodeBig (s : Bytes) : Option Nat := (checkNumber s).bind bigOfRaw

/-- `EncodeBig` (`/repo/hexutil/hexutil.go:178-185`): `%#x` puts the sign in front of the prefix. -/
def encodeBig (n : Int) : Bytes :=
  if n = 0 then [48, 120, 48] else (if n < 0 then [45] else []) ++ [48, 120] ++ hexDigits n.natAbs

/-- `checkText` (`/repo/hexutil/json.go:279-292`). -/
def checkText (s : Bytes) (wantPrefix : Bool) : Option Bytes :=
  if s.length = 0 then some []
  else
    let rest := if has0x s then some (s.drop 2) else if wantPrefix then none else some s
    match rest with
    | none => none
    | some r => if r.length % 2 ≠ 0 then none else some r

/-- `Bytes.UnmarshalText` (`/repo/hexutil/json.go:55-67`). -/
def unmarshalBytes (s : Bytes) : Option Bytes :=
  match checkText s true with
  | none => none
  | some raw =>
    match hexDecode raw with
    | (b, true) => some b
    | (_, false) => none

/-- `UnmarshalFixedText` (`/repo/hexutil/json.go:87-103`) for `n` bytes, `UnmarshalFixedUnprefixedText` (`109-125`) with
`wantPrefix = false`. -/
def unmarshalFixed (n : Nat) (wantPrefix : Bool) (s : Bytes) : Option Bytes :=
  match checkText s wantPrefix with
  | none => none
  | some raw =>
    if raw.length / 2 ≠ n then none
    else if raw.any (fun c => (decodeNibble c).isNone) then none
    else some (hexDecode raw).1

/-- `checkNumberText` (`/repo/hexutil/json.go:294-309`). -/
def checkNumberText (s : Bytes) : Option Bytes := if s.length = 0 then some [] else checkNumber s

/-- `Uint64.UnmarshalText` (`/repo/hexutil/json.go:211-230`). -/
def unmarshalUint64 (s : Bytes) : Option Nat :=
  match checkNumberText s with
  | none => none
  | some raw => if raw.length > 16 then none else wordLoop raw 0

/-- `Big.UnmarshalText` (`/repo/hexutil/json.go:149-178`). -/
def unmarshalBig (s : Bytes) : Option Nat := (checkNumberText s).bind bigOfRaw

/-- `FromHex` (`/repo/bytes.go:134-144`); errors are ignored. -/
def fromHex (s : Bytes) : Bytes :=
  let s := if has0x s then s.drop 2 else s
  let s := if s.length % 2 = 1 then 48 :: s else s
  (hexDecode s).1

end Verif.Hex

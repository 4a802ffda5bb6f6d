import Verif.Hex.Props
import Verif.ByteOps.Model

/-!
# Property C93: the checksummed text of an address (`Address.Hex`, `HexToAddress`)

The digest `H` is a parameter; only the length of its result is used.
-/

namespace Verif.Hex
open Verif

/-- /repo/basic.go:1259-1269: the loop of `Address.Hex` from position `i`; `i/2` past the digest would panic (it does not
happen with a 32-byte digest, see `C93`). -/
def checksumLoop (hash : Bytes) : Nat → Bytes → Bytes
  | _, [] => []
  | i, c :: cs =>
    (if c > 57 ∧ (if i % 2 = 0 then (hash.getD (i / 2) 0).toNat / 16 else (hash.getD (i / 2) 0).toNat % 16) > 7
      then c - 32 else c) :: checksumLoop hash (i + 1) cs

/-- /repo/basic.go:1250-1271 `Address.Hex`. -/
def addressHex (H : Bytes → Bytes) (a : Bytes) : Bytes := [48, 120] ++ checksumLoop (H (hexEncode a)) 0 (hexEncode a)

/-- /repo/basic.go:1581 `HexToAddress`: `BytesToAddress(FromHex(s))`. -/
def hexToAddress (s : Bytes) : Bytes := ByteOps.bytesTo 20 (fromHex s)

/-! ### Specification -/

/-- The `i`-th hexadecimal digit of a byte string. -/
def digitAt (b : Bytes) (i : Nat) : Nat := (byteDigits b).getD i 0

/-- EIP-55: a letter is in upper case exactly if the digit of the digest at the same place is 8 or more. -/
def eip55Char (d h : Nat) : UInt8 :=
  if d < 10 then UInt8.ofNat (48 + d) else if 8 ≤ h then UInt8.ofNat (55 + d) else UInt8.ofNat (87 + d)

theorem byteDigits_get (b : Bytes) (i : Nat) :
    digitAt b i = if i % 2 = 0 then (b.getD (i / 2) 0).toNat / 16 else (b.getD (i / 2) 0).toNat % 16 := by
  unfold digitAt
  induction b generalizing i with
  | nil => simp [byteDigits]
  | cons x b ih =>
    have e : byteDigits (x :: b) = x.toNat / 16 :: x.toNat % 16 :: byteDigits b := by simp [byteDigits]
    rw [e]
    match i with
    | 0 => simp
    | 1 => simp
    | i + 2 =>
      have h1 : (i + 2) / 2 = i / 2 + 1 := by omega
      have h2 : (i + 2) % 2 = i % 2 := by omega
      rw [h1, h2]
      simp only [List.getD_cons_succ]
      exact ih i

theorem hexEncode_eq_map (b : Bytes) : hexEncode b = (byteDigits b).map hexChar := by
  induction b with
  | nil => rfl
  | cons x b ih => simp only [hexEncode, byteDigits, List.flatMap_cons, List.map_append] at ih ⊢; rw [ih]; rfl

theorem byteDigits_lt (b : Bytes) : ∀ d ∈ byteDigits b, d < 16 := by
  intro d hd
  simp only [byteDigits, List.mem_flatMap, List.mem_cons, List.not_mem_nil, or_false] at hd
  obtain ⟨x, -, rfl | rfl⟩ := hd
  · have := x.toNat_lt; omega
  · omega

theorem checksum_char (d h : Nat) (hd : d < 16) (hh : h < 16) :
    (if hexChar d > 57 ∧ h > 7 then hexChar d - 32 else hexChar d) = eip55Char d h := by
  have : ∀ d h : Fin 16, (if hexChar d.1 > 57 ∧ h.1 > 7 then hexChar d.1 - 32 else hexChar d.1) = eip55Char d.1 h.1 := by
    decide +kernel
  exact this ⟨d, hd⟩ ⟨h, hh⟩

theorem digit_eip55 (d h : Nat) (hd : d < 16) : Digit (eip55Char d h) d := by
  unfold eip55Char
  split
  · exact Digit.num d ‹_›
  · split
    · have := Digit.upper (d - 10) (by omega)
      rwa [show 65 + (d - 10) = 55 + d by omega, show 10 + (d - 10) = d by omega] at this
    · have := Digit.lower (d - 10) (by omega)
      rwa [show 97 + (d - 10) = 87 + d by omega, show 10 + (d - 10) = d by omega] at this

theorem checksumLoop_eq (hash : Bytes) : ∀ (ds : List Nat) (i : Nat), (∀ d ∈ ds, d < 16) →
    checksumLoop hash i (ds.map hexChar) = ds.mapIdx fun j d => eip55Char d (digitAt hash (i + j)) := by
  intro ds
  induction ds with
  | nil => intro i _; rfl
  | cons d ds ih =>
    intro i h
    rw [List.map_cons, checksumLoop, List.mapIdx_cons, ih (i + 1) (fun x hx => h x (List.mem_cons_of_mem _ hx))]
    congr 1
    · have hlt : digitAt hash i < 16 := by
        rw [byteDigits_get]
        split
        · have := (hash.getD (i / 2) 0).toNat_lt; omega
        · omega
      rw [← byteDigits_get, checksum_char d _ (h d (List.mem_cons_self ..)) hlt]
      rfl
    · congr 1
      funext j d
      congr 2
      omega

theorem forall2_checksum : ∀ (ds : List Nat) (g : Nat → Nat), (∀ d ∈ ds, d < 16) →
    List.Forall₂ Digit (ds.mapIdx fun j d => eip55Char d (g j)) ds := by
  intro ds
  induction ds with
  | nil => intro g _; exact .nil
  | cons d ds ih =>
    intro g h
    rw [List.mapIdx_cons]
    exact .cons (digit_eip55 d _ (h d (List.mem_cons_self ..)))
      (ih (fun j => g (j + 1)) fun x hx => h x (List.mem_cons_of_mem _ hx))

/-- C93: the text is `0x` followed by one character per digit, letters in upper case exactly where the digest of the
lower-case text has a digit of 8 or more. -/
theorem C93_text (H : Bytes → Bytes) (a : Bytes) :
    addressHex H a = [48, 120] ++ (byteDigits a).mapIdx fun i d => eip55Char d (digitAt (H (hexEncode a)) i) := by
  unfold addressHex
  congr 1
  have := checksumLoop_eq (H (hexEncode a)) (byteDigits a) 0 (byteDigits_lt a)
  rw [← hexEncode_eq_map] at this
  rw [this]
  congr 1
  funext j d
  rw [Nat.zero_add]

/-- C93: no place outside the digest is read (which would panic): every position of the text has its digit in a 32-byte
digest. -/
theorem C93_in_bounds (H : Bytes → Bytes) (hH : ∀ b, (H b).length = 32) (a : Bytes) (ha : a.length = 20) (i : Nat)
    (hi : i < (hexEncode a).length) : i / 2 < (H (hexEncode a)).length := by
  rw [hexEncode_eq_map, List.length_map, byteDigits_len, ha] at hi
  rw [hH]
  omega

/-- C93: whatever the digest, the text spells the address (`Decode` accepts it). -/
theorem C93_decode (H : Bytes → Bytes) (a : Bytes) : decode (addressHex H a) = some a := by
  rw [C54_decode, C93_text]
  exact ⟨_, _, rfl, Or.inl rfl, forall2_checksum _ _ (byteDigits_lt a)⟩

/-- C93: `HexToAddress` reads it back. -/
theorem C93_roundtrip (H : Bytes → Bytes) (a : Bytes) (ha : a.length = 20) : hexToAddress (addressHex H a) = a := by
  have hf : List.Forall₂ Digit ((byteDigits a).mapIdx fun i d => eip55Char d (digitAt (H (hexEncode a)) i)) (byteDigits a) :=
    forall2_checksum _ _ (byteDigits_lt a)
  have h2 := prefix_drop (cs := (byteDigits a).mapIdx fun i d => eip55Char d (digitAt (H (hexEncode a)) i))
    (Or.inl rfl : IsPrefix0x [48, 120])
  have he : ((byteDigits a).mapIdx fun i d => eip55Char d (digitAt (H (hexEncode a)) i)).length % 2 ≠ 1 := by
    rw [hf.length_eq, byteDigits_len]; omega
  have hd := (hexDecode_spec _ _).2 hf
  unfold hexToAddress
  rw [fromHex, C93_text]
  simp only [h2.1, h2.2, if_true, if_neg he, hd]
  unfold ByteOps.bytesTo ByteOps.setBytes
  simp only [ha]
  simp [goCopyAt, goCopy, ha, List.take_of_length_le (show a.length ≤ 20 by omega)]

/-- C93: different addresses have different texts. -/
theorem C93_injective (H : Bytes → Bytes) (a b : Bytes) (h : addressHex H a = addressHex H b) : a = b := by
  have h1 := C93_decode H a
  rw [h, C93_decode] at h1
  exact (Option.some.inj h1).symm

example : addressHex (fun _ => List.replicate 32 0x80) [0xab, 0x1c] = [48, 120, 65, 98, 49, 99] ∧
    decode [48, 120, 65, 98, 49, 99] = some [0xab, 0x1c] := by decide +kernel

end Verif.Hex

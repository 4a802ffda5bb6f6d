import Verif.Hex.Checksum
import Verif.ByteOps.Props
import Verif.Rlp.Decode
import Verif.Nodes.Infos

/-!
# Property C133: addresses of contracts, texts and numbers of addresses, the registers of addresses (/repo/basic.go, /repo/bytes.go, /repo/forrlp.go)

The digest `H` is `Hash256s`, which hashes its arguments one after the other (/repo/hash.go:719-721); a nil pointer is `none`.
-/

namespace Verif.Hex
open Verif ByteOps

/-- /repo/basic.go:1536-1544 `CreateAddress`: the address is an array and so written as a string, the nonce as a number. -/
def createData (b : Bytes) (nonce : UInt64) : Res Bytes := (Rlp.Buf.empty.runs [.list [.bytes b, .uint64 nonce]]).makeBytes

/-- /repo/basic.go:1536-1544 `CreateAddress`; the encoder does not fail (`createData_eq`). -/
def createAddress (H : Bytes → Bytes) (b : Bytes) (nonce : UInt64) : Bytes :=
  match createData b nonce with
  | .ok d => bytesTo 20 ((H d).drop 12)
  | _ => []

/-- /repo/basic.go:1546-1549 `CreateAddress2`. -/
def createAddress2 (H : Bytes → Bytes) (b salt inithash : Bytes) : Bytes := bytesTo 20 ((H ([0xff] ++ b ++ salt ++ inithash)).drop 12)

/-- /repo/bytes.go:160-162 `HasHexPrefix`. -/
def hasHexPrefix (s : Bytes) : Bool := s.length ≥ 2 && s.getD 0 0 == 48 && (s.getD 1 0 == 120 || s.getD 1 0 == 88)

/-- /repo/bytes.go:165-167 `IsHexCharacter`. -/
def isHexCharacter (c : UInt8) : Bool := (48 ≤ c && c ≤ 57) || (97 ≤ c && c ≤ 102) || (65 ≤ c && c ≤ 70)

/-- /repo/bytes.go:170-180 `IsHex`. -/
def isHex (s : Bytes) : Bool := if s.length % 2 ≠ 0 then false else s.all isHexCharacter

/-- /repo/basic.go:1585-1590 `IsHexAddress`. -/
def isHexAddress (s : Bytes) : Bool :=
  let s := if hasHexPrefix s then s.drop 2 else s
  s.length == 40 && isHex s

/-- /repo/basic.go:1564-1573 `StringsToAddresses`. -/
def stringsToAddresses (l : List Bytes) : List Bytes := l.map (bytesTo 20)

/-- /repo/basic.go:1244, 1417 `Big`. -/
def bigOf (a : Bytes) : Nat := beNat a

/-- /repo/basic.go:1577, 1608 `BigToAddress`, `BigToHash`, with the length; `Bytes` of a big number leaves out the sign. -/
def bigTo (n : Nat) (i : Int) : Bytes := bytesTo n (natBytes i.natAbs)

/-- /repo/basic.go:1185-1192, 1394-1400 `ForRLP` of addresses (20 bytes) and hashes (32). -/
def forRLP (n : Nat) (a : Option Bytes) : Bytes := a.getD (List.replicate n 0)

/-- /repo/basic.go:1194-1203, 1402-1411 `FromRLP`. -/
def fromRLP (n : Nat) (a : Option Bytes) : Option Bytes :=
  match a with
  | none => none
  | some x => if x = List.replicate n 0 then none else some x

/-- /repo/basic.go:1102-1108: the four registers. -/
structure Registers where
  reserved : List Bytes
  system : List Bytes
  noCheck : List Bytes
  noGas : List Bytes

/-- A call that registers addresses. -/
inductive Registration where
  | reserved (as : List Bytes)
  | system (noGas : Bool) (as : List Bytes)
  | noCheck (as : List Bytes)

/-- Setting a key of a map. -/
def put (m : List Bytes) (a : Bytes) : List Bytes := if a ∈ m then m else a :: m

/-- /repo/basic.go:1110-1140 `RegisterReservedAddress`, `RegisterSystemContract`, `RegisterNoCheckAddress`. -/
def Registers.register (r : Registers) : Registration → Registers
  | .reserved as => as.foldl (fun r a => { r with reserved := put r.reserved a }) r
  | .system noGas as => as.foldl (fun r a =>
      let r := { r with system := put r.system a, reserved := put r.reserved a }
      if noGas then { r with noGas := put r.noGas a } else r) r
  | .noCheck as => as.foldl (fun r a => { r with noCheck := put r.noCheck a, reserved := put r.reserved a }) r

/-- /repo/basic.go:1142-1168 `IsReserved`, `NoCheck`, `IsSystemContract`, `IsNoGas`. -/
def Registers.isReserved (r : Registers) (a : Bytes) : Bool := r.reserved.contains a
@[inherit_doc Registers.isReserved] def Registers.isNoCheck (r : Registers) (a : Bytes) : Bool := r.noCheck.contains a
@[inherit_doc Registers.isReserved] def Registers.isSystem (r : Registers) (a : Bytes) : Bool := r.system.contains a
@[inherit_doc Registers.isReserved] def Registers.isNoGas (r : Registers) (a : Bytes) : Bool := r.noGas.contains a

/-! ### Addresses of contracts -/

/-- Two different inputs with the same last 20 bytes of the digest. -/
def AddrCollision (H : Bytes → Bytes) (x y : Bytes) : Prop := x ≠ y ∧ (H x).drop 12 = (H y).drop 12

/-- The input for the contract of an account. -/
def createItem (b : Bytes) (nonce : UInt64) : Rlp.Item := .list [.str b, .str (natBytes nonce.toNat)]

theorem encs_eq (b : Bytes) (nonce : UInt64) : Rlp.Wr.encs [.list [.bytes b, .uint64 nonce]] = Rlp.enc (createItem b nonce) := by
  simp [Rlp.Wr.encs, Rlp.Wr.enc, createItem, Rlp.enc, Rlp.encs, Rlp.encNat]

theorem item_shape (b : Bytes) (hb : b.length = 20) (nonce : UInt64) : ∃ c r, Rlp.enc (createItem b nonce) = c :: r ∧ c ≠ 0xff ∧ r.length ≤ 30 := by
  have h8 := Rlp.natBytes_len_u64 nonce
  have hs : ∀ x : Bytes, x.length ≤ 20 → (Rlp.encStr x).length ≤ x.length + 1 := by
    intro x hx
    unfold Rlp.encStr
    split
    · split
      · simp
      · rw [Rlp.head_small (by omega)]; simp
    · rw [Rlp.head_small (by omega)]; simp
  have h1 := hs b (by omega)
  have h2 := hs (natBytes nonce.toNat) (by omega)
  have hl : (Rlp.encs [.str b, .str (natBytes nonce.toNat)]).length ≤ 30 := by
    simp only [Rlp.encs, Rlp.enc, List.length_append, List.length_nil]; omega
  refine ⟨UInt8.ofNat (0xC0 + (Rlp.encs [.str b, .str (natBytes nonce.toNat)]).length), Rlp.encs [.str b, .str (natBytes nonce.toNat)], ?_, ?_, hl⟩
  · rw [createItem, Rlp.enc, Rlp.encList, Rlp.head_small (by omega)]; rfl
  · intro e
    have := congrArg UInt8.toNat e
    rw [UInt8.toNat_ofNat', Nat.mod_eq_of_lt (by omega)] at this
    simp at this
    omega

theorem createData_eq (b : Bytes) (hb : b.length = 20) (nonce : UInt64) : createData b nonce = .ok (Rlp.enc (createItem b nonce)) := by
  unfold createData
  obtain ⟨c, r, h, _, hr⟩ := item_shape b hb nonce
  have := (Rlp.C70_buffer [.list [.bytes b, .uint64 nonce]] (by rw [encs_eq, h]; simp; omega)).1
  rw [this, encs_eq]

theorem bytesTo_drop12 (H : Bytes → Bytes) (hH : ∀ b, (H b).length = 32) (x : Bytes) : bytesTo 20 ((H x).drop 12) = (H x).drop 12 :=
  (C52_fixed_size 20 _).2.2.1 (by rw [List.length_drop, hH])

theorem createAddress_eq (H : Bytes → Bytes) (hH : ∀ b, (H b).length = 32) (b : Bytes) (hb : b.length = 20) (nonce : UInt64) :
    createAddress H b nonce = (H (Rlp.enc (createItem b nonce))).drop 12 := by
  unfold createAddress
  rw [createData_eq b hb]
  exact bytesTo_drop12 H hH _

theorem createAddress2_eq (H : Bytes → Bytes) (hH : ∀ b, (H b).length = 32) (b salt i : Bytes) :
    createAddress2 H b salt i = (H (0xff :: (b ++ salt ++ i))).drop 12 := by
  unfold createAddress2
  rw [bytesTo_drop12 H hH]; simp

/-- **C133, contracts:** an account creates contracts with different addresses for different nonces, and different accounts never create
the same one. -/
theorem C133_create (H : Bytes → Bytes) (hH : ∀ b, (H b).length = 32) (b b' : Bytes) (hb : b.length = 20) (hb' : b'.length = 20)
    (n n' : UInt64) (h : createAddress H b n = createAddress H b' n') :
    (b = b' ∧ n = n') ∨ AddrCollision H (Rlp.enc (createItem b n)) (Rlp.enc (createItem b' n')) := by
  rw [createAddress_eq H hH b hb, createAddress_eq H hH b' hb'] at h
  by_cases e : Rlp.enc (createItem b n) = Rlp.enc (createItem b' n')
  · left
    obtain ⟨c, r, h1, _, hr⟩ := item_shape b hb n
    have := Rlp.C68_injective (by rw [h1]; simp; omega) e
    simp only [createItem, Rlp.Item.list.injEq, List.cons.injEq, Rlp.Item.str.injEq, and_true] at this
    exact ⟨this.1, UInt64.toNat_inj.1 (natBytes_inj this.2)⟩
  · exact Or.inr ⟨e, h⟩

/-- **C133, contracts with salt:** likewise for account, salt and code. -/
theorem C133_create2 (H : Bytes → Bytes) (hH : ∀ b, (H b).length = 32) (b b' s s' i i' : Bytes) (hb : b.length = 20) (hb' : b'.length = 20)
    (hs : s.length = 32) (hs' : s'.length = 32) (h : createAddress2 H b s i = createAddress2 H b' s' i') :
    (b = b' ∧ s = s' ∧ i = i') ∨ AddrCollision H (0xff :: (b ++ s ++ i)) (0xff :: (b' ++ s' ++ i')) := by
  rw [createAddress2_eq H hH, createAddress2_eq H hH] at h
  by_cases e : (0xff : UInt8) :: (b ++ s ++ i) = 0xff :: (b' ++ s' ++ i')
  · left
    have e := (List.cons.inj e).2
    obtain ⟨e1, e3⟩ := List.append_inj e (by simp [hb, hb', hs, hs'])
    obtain ⟨e1, e2⟩ := List.append_inj e1 (by simp [hb, hb'])
    exact ⟨e1, e2, e3⟩
  · exact Or.inr ⟨e, h⟩

/-- **C133, kinds of addresses:** the addresses of contracts with and without salt (for a code hash of 32 bytes) and of keys (64 bytes
after the mark) are different. -/
theorem C133_kinds (H : Bytes → Bytes) (hH : ∀ b, (H b).length = 32) (b c s i k : Bytes) (hb : b.length = 20) (hc : c.length = 20)
    (hs : s.length = 32) (hi : i.length = 32) (hk : k.length = 64) (n : UInt64) (a : Bytes) :
    (createAddress H b n = a → createAddress2 H c s i = a → AddrCollision H (Rlp.enc (createItem b n)) (0xff :: (c ++ s ++ i))) ∧
    (createAddress H b n = a → Nodes.addressFromPub H (4 :: k) = some a → AddrCollision H (Rlp.enc (createItem b n)) k) ∧
    (createAddress2 H c s i = a → Nodes.addressFromPub H (4 :: k) = some a → AddrCollision H (0xff :: (c ++ s ++ i)) k) := by
  obtain ⟨d, r, h1, h2, h3⟩ := item_shape b hb n
  rw [createAddress_eq H hH b hb, createAddress2_eq H hH]
  have hp : Nodes.addressFromPub H (4 :: k) = some ((H k).drop 12) := by simp [Nodes.addressFromPub]
  rw [hp, Option.some.injEq]
  refine ⟨fun e e' => ⟨?_, e.trans e'.symm⟩, fun e e' => ⟨?_, e.trans e'.symm⟩, fun e e' => ⟨?_, e.trans e'.symm⟩⟩
  · rw [h1]; intro hc; exact h2 (List.cons.inj hc).1
  · rw [h1]; intro hc; have := congrArg List.length hc; simp at this; omega
  · intro hc; have := congrArg List.length hc; simp at this; omega

/-! ### Texts and numbers -/

theorem isHexCharacter_iff (c : UInt8) : isHexCharacter c = (decodeNibble c).isSome := by
  have : ∀ n : Fin 256, isHexCharacter (UInt8.ofNat n.val) = (decodeNibble (UInt8.ofNat n.val)).isSome := by decide +kernel
  have h := this ⟨c.toNat, c.toNat_lt⟩
  simpa using h

theorem hasHexPrefix_eq (s : Bytes) : hasHexPrefix s = has0x s := by
  match s with
  | [] => rfl
  | [_] => rfl
  | a :: b :: r => simp [hasHexPrefix, has0x]

theorem not_prefix_digits {b r : Bytes} (h : List.Forall₂ Digit r (byteDigits b)) : has0x r = false := by
  match r, h with
  | [], _ => rfl
  | [_], _ => rfl
  | x :: y :: r, h =>
    cases hd : byteDigits b with
    | nil => rw [hd] at h; cases h
    | cons d ds =>
      rw [hd] at h
      cases h with
      | cons _ h =>
        cases h with
        | cons h _ =>
          have hy := (decodeNibble_spec _ _).2 h
          have : y ≠ 120 ∧ y ≠ 88 := by
            constructor <;> rintro rfl <;> have hn := congrArg Option.isSome hy <;> rw [Option.isSome_some] at hn <;>
              exact absurd hn (by decide +kernel)
          simp [has0x, this.1, this.2]

/-- **C133, texts:** `IsHexAddress` holds exactly for the texts of addresses: 40 digits in either case, after `0x`, `0X` or nothing; and
`HexToAddress` of such a text is the address. -/
theorem C133_text (s : Bytes) : (isHexAddress s = true ↔ ∃ a p r, a.length = 20 ∧ (p = [] ∨ IsPrefix0x p) ∧ s = p ++ r ∧
      List.Forall₂ Digit r (byteDigits a)) ∧
    ∀ a p r, a.length = 20 → (p = [] ∨ IsPrefix0x p) → s = p ++ r → List.Forall₂ Digit r (byteDigits a) → hexToAddress s = a := by
  have hstrip : ∀ p r a, (p = [] ∨ IsPrefix0x p) → List.Forall₂ Digit r (byteDigits a) →
      (if has0x (p ++ r) then (p ++ r).drop 2 else p ++ r) = r := by
    intro p r a hp hr
    rcases hp with rfl | hp
    · simp [not_prefix_digits hr]
    · obtain ⟨h1, h2⟩ := prefix_drop (cs := r) hp
      rw [if_pos h1, h2]
  constructor
  · constructor
    · intro h
      unfold isHexAddress at h
      simp only [hasHexPrefix_eq, Bool.and_eq_true, beq_iff_eq] at h
      generalize hr : (if has0x s then s.drop 2 else s) = r at h
      obtain ⟨hl, hh⟩ := h
      unfold isHex at hh
      rw [if_neg (by omega), List.all_eq_true] at hh
      have hok := all_digits (cs := r) (by
        rw [Bool.eq_false_iff, Ne, List.any_eq_true]
        rintro ⟨c, hc, hn⟩
        have := hh c hc
        rw [isHexCharacter_iff] at this
        cases hd : decodeNibble c <;> simp_all) (by omega)
      generalize ha : (hexDecode r).1 = a
      have hf := (hexDecode_spec r a).1 (by rw [← ha, ← hok])
      have hla : a.length = 20 := by
        have := hf.length_eq
        rw [byteDigits_len] at this
        omega
      by_cases hx : has0x s = true
      · rw [if_pos hx] at hr
        obtain ⟨p, hp, hs⟩ := (has0x_iff s).1 hx
        exact ⟨a, p, r, hla, Or.inr hp, by rw [← hr]; exact hs, hf⟩
      · rw [if_neg hx] at hr
        exact ⟨a, [], r, hla, Or.inl rfl, by simp [hr], hf⟩
    · rintro ⟨a, p, r, ha, hp, rfl, hf⟩
      unfold isHexAddress
      simp only [hasHexPrefix_eq, hstrip p r a hp hf]
      have hl : r.length = 40 := by rw [hf.length_eq, byteDigits_len]; omega
      unfold isHex
      rw [hl]
      simp only [beq_self_eq_true, Bool.true_and]
      rw [if_neg (by omega), List.all_eq_true]
      intro c hc
      rw [isHexCharacter_iff]
      obtain ⟨i, hi, rfl⟩ := List.getElem_of_mem hc
      have := (List.forall₂_iff_get.1 hf).2 i hi (by rw [← hf.length_eq]; exact hi)
      rw [← decodeNibble_spec] at this
      simp only [List.get_eq_getElem] at this
      rw [this]; rfl
  · intro a p r ha hp hs hf
    subst hs
    unfold hexToAddress fromHex
    simp only [hstrip p r a hp hf]
    have hl : r.length = 40 := by rw [hf.length_eq, byteDigits_len]; omega
    rw [if_neg (by omega), (hexDecode_spec r a).2 hf]
    exact (C52_fixed_size 20 a).2.2.1 ha

/-- **C133, own texts:** the texts of `Address.Hex` are accepted. -/
theorem C133_hex (H : Bytes → Bytes) (a : Bytes) (ha : a.length = 20) : isHexAddress (addressHex H a) = true := by
  rw [(C133_text _).1]
  exact ⟨a, [48, 120], _, ha, Or.inr (Or.inl rfl), C93_text H a, forall2_checksum _ _ (byteDigits_lt a)⟩

/-- **C133.** What `StringsToAddresses` gives for a text of any length: the last twenty characters, with zeros in front. -/
theorem C133_strings (l : List Bytes) : (stringsToAddresses l).length = l.length ∧ ∀ i (h : i < (stringsToAddresses l).length) (h' : i < l.length),
    (stringsToAddresses l)[i].length = 20 ∧
    (l[i].length ≤ 20 → (stringsToAddresses l)[i] = List.replicate (20 - l[i].length) 0 ++ l[i]) ∧
    (20 ≤ l[i].length → ∃ p, l[i] = p ++ (stringsToAddresses l)[i]) := by
  refine ⟨by simp [stringsToAddresses], fun i h h' => ?_⟩
  have e : (stringsToAddresses l)[i] = bytesTo 20 l[i] := by simp [stringsToAddresses]
  rw [e, (C52_fixed_size 20 l[i]).1, cropPad]
  refine ⟨?_, ?_, ?_⟩
  · simp; omega
  · intro hl
    rw [show l[i].length - 20 = 0 by omega, List.drop_zero]
  · intro hl
    rw [show 20 - l[i].length = 0 by omega, List.replicate_zero, List.nil_append]
    exact ⟨_, (List.take_append_drop _ _).symm⟩

example : stringsToAddresses [[1, 2]] = [List.replicate 18 0 ++ [1, 2]] := by decide +kernel

/-- C133 fails for `StringsToAddresses`: it takes the characters themselves for the bytes. -/
theorem C133_strings_refuted (H : Bytes → Bytes) : ∃ a : Bytes, a.length = 20 ∧ stringsToAddresses [addressHex H a] ≠ [a] ∧
    stringsToAddresses [encode a] ≠ [a] := by
  refine ⟨List.replicate 20 0, rfl, ?_, by decide +kernel⟩
  have h : addressHex H (List.replicate 20 0) = [48, 120] ++ List.replicate 40 48 := by
    rw [C93_text, show byteDigits (List.replicate 20 0) = List.replicate 40 0 from by decide +kernel]
    refine congrArg (fun l => [48, 120] ++ l) ?_
    apply List.ext_getElem
    · simp
    · intro i h1 h2
      simp only [List.getElem_mapIdx, List.getElem_replicate]
      rfl
  rw [h]
  decide +kernel

/-- **C133, numbers:** an address (or hash) is given back by its number. -/
theorem C133_big (n : Nat) (a : Bytes) (ha : a.length = n) : bigTo n (bigOf a) = a := by
  unfold bigTo bigOf
  apply beNat_inj
  · rw [(C52_fixed_size n _).2.1, ha]
  · rw [(C52_fixed_size n _).2.2.2]
    rw [Int.natAbs_natCast, beNat_natBytes]
    exact Nat.mod_eq_of_lt (by rw [← ha]; exact beNat_lt a)

/-- **C133, wire form:** what `ForRLP` makes of a pointer `FromRLP` turns back, unless it points to zeros. -/
theorem C133_wire_partial (n : Nat) (a : Option Bytes) (h : a ≠ some (List.replicate n 0)) : fromRLP n (some (forRLP n a)) = a := by
  cases a with
  | none => simp [fromRLP, forRLP]
  | some x =>
    have : x ≠ List.replicate n 0 := fun e => h (by rw [e])
    simp [fromRLP, forRLP, this]

/-- C133 fails for the pointer to zeros, which comes back as nil. -/
theorem C133_wire_refuted (n : Nat) : fromRLP n (some (forRLP n (some (List.replicate n 0)))) = none := by
  simp [fromRLP, forRLP]

/-! ### Registers -/

/-- No address is registered. -/
def Registers.empty : Registers := ⟨[], [], [], []⟩

/-- The addresses of a registration. -/
def Registration.addrs : Registration → List Bytes
  | .reserved as => as
  | .system _ as => as
  | .noCheck as => as

theorem mem_put (m : List Bytes) (a x : Bytes) : x ∈ put m a ↔ x ∈ m ∨ x = a := by
  unfold put
  split
  · rename_i h
    constructor
    · exact Or.inl
    · rintro (h' | rfl)
      · exact h'
      · exact h
  · rw [List.mem_cons]; tauto

theorem register_mem (r : Registers) (g : Registration) (x : Bytes) :
    (x ∈ (r.register g).reserved ↔ x ∈ r.reserved ∨ x ∈ g.addrs) ∧
    (x ∈ (r.register g).system ↔ x ∈ r.system ∨ ∃ b as, g = .system b as ∧ x ∈ as) ∧
    (x ∈ (r.register g).noCheck ↔ x ∈ r.noCheck ∨ ∃ as, g = .noCheck as ∧ x ∈ as) ∧
    (x ∈ (r.register g).noGas ↔ x ∈ r.noGas ∨ ∃ as, g = .system true as ∧ x ∈ as) := by
  cases g with
  | reserved as =>
    simp only [Registers.register, Registration.addrs, reduceCtorEq, false_and, exists_false, or_false]
    induction as generalizing r with
    | nil => simp
    | cons a as ih =>
      rw [List.foldl_cons]
      obtain ⟨h1, h2, h3, h4⟩ := ih { r with reserved := put r.reserved a }
      refine ⟨?_, h2, h3, h4⟩
      rw [h1, mem_put, List.mem_cons, or_assoc]
  | system b as =>
    simp only [Registers.register, Registration.addrs, reduceCtorEq, false_and, exists_false, or_false, Registration.system.injEq]
    induction as generalizing r with
    | nil => simp
    | cons a as ih =>
      rw [List.foldl_cons]
      cases b with
      | true =>
        obtain ⟨h1, h2, h3, h4⟩ := ih { r with system := put r.system a, reserved := put r.reserved a, noGas := put r.noGas a }
        refine ⟨?_, ?_, h3, ?_⟩
        · refine h1.trans ?_; rw [mem_put, List.mem_cons, or_assoc]
        · refine h2.trans ?_; rw [mem_put, or_assoc]; simp
        · refine h4.trans ?_; rw [mem_put, or_assoc]; simp
      | false =>
        obtain ⟨h1, h2, h3, h4⟩ := ih { r with system := put r.system a, reserved := put r.reserved a }
        refine ⟨?_, ?_, h3, ?_⟩
        · refine h1.trans ?_; rw [mem_put, List.mem_cons, or_assoc]
        · refine h2.trans ?_; rw [mem_put, or_assoc]; simp
        · refine h4.trans ?_; simp
  | noCheck as =>
    simp only [Registers.register, Registration.addrs, reduceCtorEq, false_and, exists_false, or_false, Registration.noCheck.injEq]
    induction as generalizing r with
    | nil => simp
    | cons a as ih =>
      rw [List.foldl_cons]
      obtain ⟨h1, h2, h3, h4⟩ := ih { r with noCheck := put r.noCheck a, reserved := put r.reserved a }
      refine ⟨?_, h2, ?_, h4⟩
      · rw [h1, mem_put, List.mem_cons, or_assoc]
      · rw [h3, mem_put, or_assoc]; simp

/-- **C133, registers:** after any registrations an address is reserved exactly if one of them named it, a system contract, free of gas or
unchecked exactly if one of that kind did; so system contracts and unchecked addresses are reserved, and only system contracts are free of
gas. -/
theorem C133_registers (gs : List Registration) (a : Bytes) :
    let r := gs.foldl Registers.register Registers.empty
    (r.isReserved a = true ↔ ∃ g ∈ gs, a ∈ g.addrs) ∧ (r.isSystem a = true ↔ ∃ b as, .system b as ∈ gs ∧ a ∈ as) ∧
    (r.isNoCheck a = true ↔ ∃ as, .noCheck as ∈ gs ∧ a ∈ as) ∧ (r.isNoGas a = true ↔ ∃ as, .system true as ∈ gs ∧ a ∈ as) ∧
    (r.isSystem a = true → r.isReserved a = true) ∧ (r.isNoCheck a = true → r.isReserved a = true) ∧
    (r.isNoGas a = true → r.isSystem a = true) := by
  intro r
  have key : ∀ (gs : List Registration) (r : Registers),
      (a ∈ (gs.foldl Registers.register r).reserved ↔ a ∈ r.reserved ∨ ∃ g ∈ gs, a ∈ g.addrs) ∧
      (a ∈ (gs.foldl Registers.register r).system ↔ a ∈ r.system ∨ ∃ b as, .system b as ∈ gs ∧ a ∈ as) ∧
      (a ∈ (gs.foldl Registers.register r).noCheck ↔ a ∈ r.noCheck ∨ ∃ as, .noCheck as ∈ gs ∧ a ∈ as) ∧
      (a ∈ (gs.foldl Registers.register r).noGas ↔ a ∈ r.noGas ∨ ∃ as, .system true as ∈ gs ∧ a ∈ as) := by
    intro gs
    induction gs with
    | nil => intro r; simp
    | cons g gs ih =>
      intro r
      obtain ⟨h1, h2, h3, h4⟩ := ih (r.register g)
      obtain ⟨g1, g2, g3, g4⟩ := register_mem r g a
      rw [List.foldl_cons]
      refine ⟨?_, ?_, ?_, ?_⟩
      · rw [h1, g1]; simp only [List.exists_mem_cons_iff, or_assoc]
      · rw [h2, g2]
        simp only [List.mem_cons]
        constructor
        · rintro ((h | ⟨b, as, rfl, h⟩) | ⟨b, as, h, h'⟩)
          · exact Or.inl h
          · exact Or.inr ⟨b, as, Or.inl rfl, h⟩
          · exact Or.inr ⟨b, as, Or.inr h, h'⟩
        · rintro (h | ⟨b, as, h | h, h'⟩)
          · exact Or.inl (Or.inl h)
          · exact Or.inl (Or.inr ⟨b, as, h.symm, h'⟩)
          · exact Or.inr ⟨b, as, h, h'⟩
      · rw [h3, g3]
        simp only [List.mem_cons]
        constructor
        · rintro ((h | ⟨as, rfl, h⟩) | ⟨as, h, h'⟩)
          · exact Or.inl h
          · exact Or.inr ⟨as, Or.inl rfl, h⟩
          · exact Or.inr ⟨as, Or.inr h, h'⟩
        · rintro (h | ⟨as, h | h, h'⟩)
          · exact Or.inl (Or.inl h)
          · exact Or.inl (Or.inr ⟨as, h.symm, h'⟩)
          · exact Or.inr ⟨as, h, h'⟩
      · rw [h4, g4]
        simp only [List.mem_cons]
        constructor
        · rintro ((h | ⟨as, rfl, h⟩) | ⟨as, h, h'⟩)
          · exact Or.inl h
          · exact Or.inr ⟨as, Or.inl rfl, h⟩
          · exact Or.inr ⟨as, Or.inr h, h'⟩
        · rintro (h | ⟨as, h | h, h'⟩)
          · exact Or.inl (Or.inl h)
          · exact Or.inl (Or.inr ⟨as, h.symm, h'⟩)
          · exact Or.inr ⟨as, h, h'⟩
  have k := key gs Registers.empty
  clear key
  obtain ⟨k1, k2, k3, k4⟩ := k
  have hr : r = gs.foldl Registers.register Registers.empty := rfl
  clear_value r
  rw [← hr] at k1 k2 k3 k4
  have m1 : r.isReserved a = true ↔ ∃ g ∈ gs, a ∈ g.addrs := by
    rw [Registers.isReserved, List.contains_iff_mem, k1]; simp [Registers.empty]
  have m2 : r.isSystem a = true ↔ ∃ b as, .system b as ∈ gs ∧ a ∈ as := by
    rw [Registers.isSystem, List.contains_iff_mem, k2]; simp [Registers.empty]
  have m3 : r.isNoCheck a = true ↔ ∃ as, .noCheck as ∈ gs ∧ a ∈ as := by
    rw [Registers.isNoCheck, List.contains_iff_mem, k3]; simp [Registers.empty]
  have m4 : r.isNoGas a = true ↔ ∃ as, .system true as ∈ gs ∧ a ∈ as := by
    rw [Registers.isNoGas, List.contains_iff_mem, k4]; simp [Registers.empty]
  refine ⟨m1, m2, m3, m4, ?_, ?_, ?_⟩
  · rw [m1, m2]; rintro ⟨b, as, h, h'⟩; exact ⟨_, h, h'⟩
  · rw [m1, m3]; rintro ⟨as, h, h'⟩; exact ⟨_, h, h'⟩
  · rw [m2, m4]; rintro ⟨as, h, h'⟩; exact ⟨_, _, h, h'⟩

/-! Concrete cases. -/
example : createAddress (fun b => b ++ List.replicate (32 - b.length) 0) (List.replicate 20 7) 128 =
    [7, 7, 7, 7, 7, 7, 7, 7, 7, 7, 0x81, 128, 0, 0, 0, 0, 0, 0, 0, 0] := by decide +kernel
example : isHexAddress ([48, 88] ++ List.replicate 40 65) = true ∧ isHexAddress (List.replicate 40 65) = true ∧
    isHexAddress (List.replicate 40 71) = false ∧ hexToAddress ([48, 88] ++ List.replicate 40 65) = List.replicate 20 0xaa ∧
    bigTo 20 (-5) = List.replicate 19 0 ++ [5] := by decide +kernel
example : let r := Registers.empty.register (.system true [[1], [2]]) |>.register (.noCheck [[3]])
    r.isReserved [3] = true ∧ r.isNoGas [1] = true ∧ r.isSystem [3] = false ∧ r.isReserved [4] = false := by decide +kernel

end Verif.Hex

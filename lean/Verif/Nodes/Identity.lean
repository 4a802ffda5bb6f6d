import Verif.Nodes.Small
import Verif.Nodes.Props
import Verif.Num.Props
import Verif.Merkle.Objects
import Verif.Hex.Shown

/-!
# Property C165: classes of chain ids, digests of numbers, names of attributes, addresses of a node

`/repo/basic.go`, `/repo/chaininfo.go`, `/repo/bytes.go`, `/repo/shardinfo.go`, `/repo/hexutil/json.go`.  Pointers to values are
`Option`s, as in `Verif.Nodes.Small`.  The map of addresses of a `NetInfo` is a pointer into a memory of maps, because copies of the
structure share it.  `strings.ToUpper` is a parameter that is the usual one for ASCII texts.
-/

namespace Verif.Identity
open Verif Verif.Num Verif.Nodes Verif.Merkle

/-! ### Model -/

/-- /repo/chaininfo.go:454-456 `IsReserved`. -/
def isReserved (id : UInt32) : Bool := id < nilChainID

/-- /repo/chaininfo.go:458-460 `IsNil`. -/
def isNil (id : UInt32) : Bool := id == nilChainID

/-- /repo/chaininfo.go:462-464 `IsMain`. -/
def isMain (id : UInt32) : Bool := id == 0

/-- /repo/chaininfo.go:466-468 `IsSub`. -/
def isSub (id : UInt32) : Bool := id != nilChainID && decide (id > 0)

/-- /repo/chaininfo.go:470-472 `IsUserDefined`. -/
def isUserDefined (id : UInt32) : Bool := decide (id > nilChainID)

/-- /repo/basic.go:977-982 `UsefulEpoch`. -/
def usefulEpoch (bie h : UInt64) : UInt64 := if h == nilU64 then 0 else h / bie

/-- /repo/basic.go:991-996 `UsefulBlock`. -/
def usefulBlock (bie h : UInt64) : UInt32 := if h == nilU64 then 0 else (h % bie).toUInt32

/-- /repo/basic.go:1090-1101 `HashValue` and `Hash` of heights: `HashObject` calls `HashValue`. -/
def heightHash (H : Bytes → Bytes) : Option UInt64 → Bytes
  | none => nilHash H
  | some h =>
    match hashObject H (fun (_ : Unit) => none) (.own (.ok (H (heightBytes h)))) with
    | .ok b => toHash b
    | _ => toHash []

/-- /repo/basic.go:696-702 `EraNum.Hash`: there is no `HashValue`, the number is encoded by go-rtl (`enc`). -/
def eraHash (H : Bytes → Bytes) (enc : UInt64 → Option Bytes) : Option UInt64 → Bytes
  | none => nilHash H
  | some e =>
    match hashObject H enc (.plain e) with
    | .ok b => toHash b
    | _ => toHash []

/-- /repo/basic.go:1717-1723 `Seed.Hash`. -/
def seedHash (H : Bytes → Bytes) : Option Bytes → Bytes
  | none => nilHash H
  | some s => toHash (H s)

/-- /repo/basic.go:1247 `Address.Hash`: no digest, the address with zeros in front. -/
def addressHash (a : Bytes) : Bytes := toHash a

/-- What may be given to `Seed.Equals`: nothing, a pointer to a seed, something else. -/
inductive Any where
  | nothing
  | seed (p : Option Bytes)
  | other

/-- /repo/basic.go:1685-1701 `Seed.Equals`. -/
def seedEquals (s : Option Bytes) : Any → Bool
  | .nothing => false
  | .other => false
  | .seed o =>
    match s, o with
    | none, none => true
    | some a, some b => decide (a = b)
    | _, _ => false

/-- /repo/basic.go:1668-1673 `Seed.IsZero`. -/
def seedIsZero : Option Bytes → Bool
  | none => false
  | some s => decide (s = List.replicate 32 0)

/-- /repo/basic.go:1424-1426 `Hash.TerminalString`: the first and the last three bytes, with an ellipsis (UTF-8) in between. -/
def terminalString (h : Bytes) : Bytes := Hex.hexEncode (h.take 3) ++ [0xE2, 0x80, 0xA6] ++ Hex.hexEncode (h.drop 29)

/-- /repo/basic.go:1434-1439 `Hash.PrintString`, and 385-387 `NodeID.String`: the first five bytes. -/
def printString : Option Bytes → Bytes
  | none => []
  | some h => Hex.hexEncode (h.take 5)

/-- /repo/shardinfo.go:94-99 `Bits.Byte`. -/
def bitsByte (bs : Bytes) (i : Int) : UInt8 × Bool :=
  if i < 0 ∨ (bs.length : Int) ≤ i then (0, false) else (bs.getD i.toNat 0, true)

/-- /repo/chaininfo.go:307-313 `AddByName`; `up` is `strings.ToUpper`. -/
def addByName (up : Bytes → Bytes) (l : List Bytes) (names : List Bytes) : Res (List Bytes) := attrAdd l (names.map up)

/-- /repo/chaininfo.go:315-324 `ToStringSlice`. -/
def toStringSlice : Option (List Bytes) → Option (List Bytes)
  | none => none
  | some l => some (l.map id)

/-- The loop of /repo/bytes.go:285-291: the keys of the map `rm`. -/
def interMapLoop (a : List Bytes) : List Bytes → List Bytes → List Bytes
  | rm, [] => rm
  | rm, b :: bs => interMapLoop a (if b ∈ a then (if b ∈ rm then rm else rm ++ [b]) else rm) bs

/-- /repo/bytes.go:285-297 `BytesIntersectionMap`; `order` is the order in which the map is visited. -/
def bytesIntersectionMap (order : List Bytes → List Bytes) (a b : List Bytes) : List Bytes := order (interMapLoop a [] b)

/-- The maps of addresses by number; an address is a pointer to an `Endpoint`, `none` for nil. -/
abbrev Maps := Nat → List (UInt8 × Option Bytes)

/-- /repo/chaininfo.go:356-359 `NetInfo`: the id of the node and the map, `none` for a nil map. -/
structure NetInfo where
  id : Bytes
  addrs : Option Nat

/-- /repo/chaininfo.go:400-406 `GetAddr`. -/
def getAddr (m : Maps) (n : NetInfo) (t : UInt8) : Option Bytes :=
  match n.addrs with
  | none => none
  | some p => (((m p).find? fun e => e.1 == t).map (·.2)).getD none

/-- /repo/chaininfo.go:408-410 `AddAddr`: writing into a nil map panics. -/
def addAddr (m : Maps) (n : NetInfo) (t : UInt8) (a : Option Bytes) : Res Maps :=
  match n.addrs with
  | none => .panic
  | some p => .ok fun q => if q = p then (t, a) :: m p else m q

/-! ### Chain ids -/

/-- **C165, classes of chain ids.**  Every id is in exactly one class: main chain, reserved sub-chain, nil, defined by a user; the five
questions are answered according to the class. -/
theorem C165_classes (id : UInt32) :
    (isMain id = true ↔ id.toNat = 0) ∧
    (isReserved id = true ↔ id.toNat < 2 ^ 20) ∧
    (isNil id = true ↔ id.toNat = 2 ^ 20) ∧
    (isUserDefined id = true ↔ 2 ^ 20 < id.toNat) ∧
    (isSub id = true ↔ isMain id = false ∧ isNil id = false) := by
  have hn : nilChainID.toNat = 2 ^ 20 := by decide
  have h0 : (0 : UInt32).toNat = 0 := rfl
  refine ⟨?_, ?_, ?_, ?_, ?_⟩
  · unfold isMain; rw [beq_iff_eq, ← UInt32.toNat_inj]; rfl
  · unfold isReserved; rw [decide_eq_true_eq, UInt32.lt_iff_toNat_lt, hn]
  · unfold isNil; rw [beq_iff_eq, ← UInt32.toNat_inj, hn]
  · unfold isUserDefined; rw [decide_eq_true_eq, gt_iff_lt, UInt32.lt_iff_toNat_lt, hn]
  · unfold isSub isMain isNil
    rw [Bool.and_eq_true, decide_eq_true_eq, bne_iff_ne, beq_eq_false_iff_ne, beq_eq_false_iff_ne, gt_iff_lt, UInt32.lt_iff_toNat_lt, h0,
      ne_eq, ne_eq, ← UInt32.toNat_inj (a := id) (b := 0), h0]
    constructor
    · rintro ⟨a, b⟩; exact ⟨by omega, a⟩
    · rintro ⟨a, b⟩; exact ⟨b, by omega⟩

example : isSub 1 = true ∧ isReserved 1 = true ∧ isSub 0x100000 = false ∧ isUserDefined 0x100001 = true := by decide

/-! ### Heights -/

/-- **C165, useful numbers.**  `UsefulEpoch` and `UsefulBlock` give back the height, and are those of height 0 for nil. -/
theorem C165_useful (bie h : UInt64) (h0 : 0 < bie.toNat) (h1 : bie.toNat ≤ 2 ^ 32) :
    (h ≠ nilU64 → (usefulEpoch bie h).toNat * bie.toNat + (usefulBlock bie h).toNat = h.toNat ∧ (usefulBlock bie h).toNat < bie.toNat ∧
      usefulEpoch bie h = epochNum bie h ∧ usefulBlock bie h = blockNum bie h) ∧
    usefulEpoch bie nilU64 = usefulEpoch bie 0 ∧ usefulBlock bie nilU64 = usefulBlock bie 0 := by
  refine ⟨?_, ?_, ?_⟩
  · intro hn
    have hb : (h == nilU64) = false := by simpa using hn
    have hlt : h.toNat % bie.toNat < bie.toNat := Nat.mod_lt _ h0
    have e2 : ((h % bie).toUInt32).toNat = h.toNat % bie.toNat := by
      rw [UInt64.toNat_toUInt32, UInt64.toNat_mod, Nat.mod_eq_of_lt (by omega)]
    simp only [usefulEpoch, usefulBlock, epochNum, blockNum, hb, Bool.false_eq_true, if_false, UInt64.toNat_div, e2, and_self, and_true]
    exact ⟨by rw [Nat.mul_comm]; exact Nat.div_add_mod _ _, hlt⟩
  · have : ((0 : UInt64) == nilU64) = false := by decide
    simp only [usefulEpoch, beq_self_eq_true, this, if_true, Bool.false_eq_true, if_false]
    apply UInt64.toNat_inj.1; simp
  · have : ((0 : UInt64) == nilU64) = false := by decide
    simp only [usefulBlock, beq_self_eq_true, this, if_true, Bool.false_eq_true, if_false]
    apply UInt32.toNat_inj.1; simp

example : usefulEpoch 1000 2007 = 2 ∧ usefulBlock 1000 2007 = 7 ∧ usefulEpoch 1000 nilU64 = 0 := by decide

/-! ### Digests -/

theorem toHash_self (b : Bytes) (h : b.length = 32) : toHash b = b := by
  unfold toHash; rw [h]; simp

/-- **C165, digests.**  The digest of a height is the digest of its eight bytes, that of an era number is the digest of its encoding, that of
a seed the digest of the seed, and nil has the digest of nothing.  So two that have the same digest are the same, nil included, or two
different texts with the same digest are at hand. -/
theorem C165_digests (H : Bytes → Bytes) (hH : ∀ b, (H b).length = 32) (enc : UInt64 → Option Bytes)
    (henc : ∀ e, ∃ b, enc e = some b ∧ b ≠ []) (hinj : ∀ a b, enc a = enc b → a = b) :
    (∀ a b : Option UInt64, heightHash H a = heightHash H b → a = b ∨
      ((a.map heightBytes).getD [] ≠ (b.map heightBytes).getD [] ∧ H ((a.map heightBytes).getD []) = H ((b.map heightBytes).getD []))) ∧
    (∀ a b : Option UInt64, eraHash H enc a = eraHash H enc b → a = b ∨
      ((a.bind enc).getD [] ≠ (b.bind enc).getD [] ∧ H ((a.bind enc).getD []) = H ((b.bind enc).getD []))) ∧
    (∀ a b : Option Bytes, (∀ x, a = some x → x.length = 32) → (∀ x, b = some x → x.length = 32) → seedHash H a = seedHash H b → a = b ∨
      (a.getD [] ≠ b.getD [] ∧ H (a.getD []) = H (b.getD []))) := by
  have eh : ∀ a, heightHash H a = H ((a.map heightBytes).getD []) := by
    intro a; cases a with
    | none => rfl
    | some h => simp [heightHash, hashObject, toHash_self _ (hH _)]
  have ee : ∀ a, eraHash H enc a = H ((a.bind enc).getD []) := by
    intro a; cases a with
    | none => rfl
    | some e =>
      obtain ⟨b, hb, -⟩ := henc e
      simp [eraHash, hashObject, encodeAndHash, hb, Hasher.write, Hasher.sum, toHash_self _ (hH _)]
  have es : ∀ a, seedHash H a = H (a.getD []) := by
    intro a; cases a with
    | none => rfl
    | some h => simp [seedHash, toHash_self _ (hH _)]
  have hb8 : ∀ h, (heightBytes h).length = 8 := fun h => (C53_height_roundtrip h).2
  refine ⟨?_, ?_, ?_⟩
  · intro a b h
    rw [eh, eh] at h
    by_cases hab : (a.map heightBytes).getD [] = (b.map heightBytes).getD []
    · left
      cases a with
      | none =>
        cases b with
        | none => rfl
        | some y => simp at hab; have := hb8 y; rw [hab] at this; simp at this
      | some x =>
        cases b with
        | none => simp at hab; have := hb8 x; rw [hab] at this; simp at this
        | some y =>
          simp at hab
          have h1 := (C53_height_roundtrip x).1
          rw [hab, (C53_height_roundtrip y).1] at h1
          rw [h1]
    · exact .inr ⟨hab, h⟩
  · intro a b h
    rw [ee, ee] at h
    by_cases hab : (a.bind enc).getD [] = (b.bind enc).getD []
    · left
      cases a with
      | none =>
        cases b with
        | none => rfl
        | some y => obtain ⟨t, ht, h0⟩ := henc y; simp [ht] at hab; exact absurd hab h0
      | some x =>
        obtain ⟨s, hs, h0⟩ := henc x
        cases b with
        | none => simp [hs] at hab; exact absurd hab h0
        | some y =>
          obtain ⟨t, ht, -⟩ := henc y
          simp [hs, ht] at hab
          rw [hinj x y (by rw [hs, ht, hab])]
    · exact .inr ⟨hab, h⟩
  · intro a b ha hb h
    rw [es, es] at h
    by_cases hab : a.getD [] = b.getD []
    · left
      cases a with
      | none =>
        cases b with
        | none => rfl
        | some y => have := hb y rfl; simp at hab; rw [hab] at this; simp at this
      | some x =>
        have hx := ha x rfl
        cases b with
        | none => simp at hab; rw [hab] at hx; simp at hx
        | some y => simp at hab; rw [hab]
    · exact .inr ⟨hab, h⟩

example : ∃ (H : Bytes → Bytes) (enc : UInt64 → Option Bytes), (∀ b, (H b).length = 32) ∧ (∀ e, ∃ b, enc e = some b ∧ b ≠ []) ∧
    (∀ a b, enc a = enc b → a = b) ∧ heightHash H (some 5) ≠ heightHash H none ∧ seedHash H (some (List.replicate 32 1)) ≠ seedHash H none := by
  refine ⟨fun b => toHash b, fun e => some (heightBytes e), ?_, ?_, ?_, ?_, ?_⟩
  · intro b; show (toHash b).length = 32; unfold toHash; split <;> simp <;> omega
  · intro e
    have := (C53_height_roundtrip e).2
    exact ⟨_, rfl, by intro h; rw [h] at this; simp at this⟩
  · intro a b h
    rw [← (C53_height_roundtrip a).1, Option.some.inj h, (C53_height_roundtrip b).1]
  · decide +kernel
  · decide +kernel

/-- **C165, addresses as hashes.**  The hash of an address is 32 bytes long, begins with twelve zeros and ends with the address. -/
theorem C165_addressHash (a : Bytes) (h : a.length = 20) :
    addressHash a = List.replicate 12 0 ++ a ∧ (addressHash a).length = 32 := by
  have e : addressHash a = List.replicate 12 0 ++ a := by unfold addressHash toHash; rw [h]; simp
  exact ⟨e, by rw [e]; simp [h]⟩

/-- **C165, seeds.**  `Equals` holds exactly for a pointer to an equal seed, nil to nil; `IsZero` exactly for the zero seed, not for nil. -/
theorem C165_seeds (s : Option Bytes) (v : Any) (hs : ∀ x, s = some x → x.length = 32) :
    (seedEquals s v = true ↔ v = .seed s) ∧ (seedIsZero s = true ↔ ∃ x, s = some x ∧ ∀ b ∈ x, b = 0) := by
  constructor
  · cases v with
    | nothing => simp [seedEquals]
    | other => simp [seedEquals]
    | seed o => cases s <;> cases o <;> simp [seedEquals, eq_comm]
  · cases s with
    | none => simp [seedIsZero]
    | some x =>
      have := hs x rfl
      simp only [seedIsZero, decide_eq_true_eq, Option.some.injEq, exists_eq_left', List.eq_replicate_iff, this, true_and]

example : seedEquals (some [1]) (.seed (some [1])) = true ∧ seedEquals none .nothing = false ∧ seedEquals none (.seed none) = true := by decide

/-! ### Short texts -/

/-- **C165, short texts of hashes.**  They say no more than the bytes shown: `TerminalString` the first and the last three, `PrintString` the
first five and whether there is a hash. -/
theorem C165_short (a b : Bytes) (ha : a.length = 32) (hb : b.length = 32) :
    (terminalString a = terminalString b ↔ a.take 3 = b.take 3 ∧ a.drop 29 = b.drop 29) ∧
    (printString (some a) = printString (some b) ↔ a.take 5 = b.take 5) ∧ printString (some a) ≠ printString none := by
  have hl : ∀ x : Bytes, (Hex.hexEncode x).length = 2 * x.length := by
    intro x; induction x with
    | nil => rfl
    | cons c x ih => rw [Hex.hexEncode, List.flatMap_cons, List.length_append, ← Hex.hexEncode, ih]; simp; omega
  refine ⟨⟨?_, ?_⟩, ⟨?_, ?_⟩, ?_⟩
  · intro h
    unfold terminalString at h
    have h1 := List.append_inj h (by simp [hl, ha, hb])
    have h2 := List.append_inj h1.1 (by simp [hl, ha, hb])
    exact ⟨Small.hexEncode_inj _ _ h2.1, Small.hexEncode_inj _ _ h1.2⟩
  · rintro ⟨h1, h2⟩; unfold terminalString; rw [h1, h2]
  · intro h; exact Small.hexEncode_inj _ _ h
  · intro h; simp only [printString, h]
  · intro h
    have := congrArg List.length h
    simp [printString, hl, ha] at this

/-- C165: short texts do not tell hashes apart. -/
theorem C165_short_refuted : ∃ a b : Bytes, a.length = 32 ∧ b.length = 32 ∧ a ≠ b ∧ terminalString a = terminalString b ∧
    printString (some a) = printString (some b) :=
  ⟨List.replicate 32 0, List.replicate 10 0 ++ [1] ++ List.replicate 21 0, by decide +kernel⟩

/-- **C165, bytes of bits.**  `Byte` gives the byte at an index in range and reports all others. -/
theorem C165_bits (bs : Bytes) (i : Int) :
    ((bitsByte bs i).2 = true ↔ ∃ b, 0 ≤ i ∧ bs[i.toNat]? = some b ∧ (bitsByte bs i).1 = b) := by
  unfold bitsByte
  by_cases h : i < 0 ∨ (bs.length : Int) ≤ i
  · rw [if_pos h]
    simp only [Bool.false_eq_true, false_iff, not_exists, not_and]
    intro b h0 h1
    have := (List.getElem?_eq_some_iff.1 h1).1
    omega
  · rw [if_neg h]
    have hlt : i.toNat < bs.length := by omega
    simp only [true_iff]
    exact ⟨bs[i.toNat], by omega, List.getElem?_eq_getElem hlt, by rw [List.getD_eq_getElem?_getD, List.getElem?_eq_getElem hlt]; rfl⟩

example : bitsByte [7, 8] 1 = (8, true) ∧ bitsByte [7, 8] 2 = (0, false) ∧ bitsByte [7, 8] (-1) = (0, false) := by decide

/-! ### Names of attributes -/

/-- The upper case letter of an ASCII character. -/
def upByte (b : UInt8) : UInt8 := if 97 ≤ b ∧ b ≤ 122 then b - 32 else b

/-- **C165, attributes by name.**  `AddByName` accepts exactly if all the names in upper case are names of attributes, and then does what
`Add` does with these; names that are equal but for the case of their letters have the same effect. -/
theorem C165_byName (up : Bytes → Bytes) (hup : ∀ n : Bytes, (∀ b ∈ n, b < 128) → up n = n.map upByte) (l names : List Bytes) :
    (addByName up l names = .err ↔ ∃ n ∈ names, ¬ ValidAttr (up n)) ∧
    (∀ other : List Bytes, (∀ n ∈ names, ∀ b ∈ n, b < 128) → (∀ n ∈ other, ∀ b ∈ n, b < 128) →
      names.map (List.map upByte) = other.map (List.map upByte) → addByName up l names = addByName up l other) ∧
    toStringSlice (some l) = some l := by
  refine ⟨?_, ?_, ?_⟩
  · unfold addByName
    rw [C66_error_iff]
    constructor
    · rintro ⟨a, ha, hn⟩
      obtain ⟨n, hm, rfl⟩ := List.mem_map.1 ha
      exact ⟨n, hm, hn⟩
    · rintro ⟨n, hm, hn⟩
      exact ⟨up n, List.mem_map.2 ⟨n, hm, rfl⟩, hn⟩
  · intro other h1 h2 h
    unfold addByName
    congr 1
    have e : ∀ l : List Bytes, (∀ n ∈ l, ∀ b ∈ n, b < 128) → l.map up = l.map (List.map upByte) := fun l hl =>
      List.map_congr_left fun n hn => hup n (hl n hn)
    rw [e _ h1, e _ h2, h]
  · simp [toStringSlice]

example : addByName (List.map upByte) [] [[112, 111, 99]] = .ok [[80, 79, 67]] := by decide +kernel

/-! ### Intersection with a map -/

theorem interMapLoop_spec (a : List Bytes) : ∀ (bs rm : List Bytes), rm.Nodup →
    (interMapLoop a rm bs).Nodup ∧ ∀ x, x ∈ interMapLoop a rm bs ↔ x ∈ rm ∨ x ∈ a ∧ x ∈ bs
  | [], rm, h => by simp [interMapLoop, h]
  | b :: bs, rm, h => by
    rw [interMapLoop]
    have hn : (if b ∈ a then (if b ∈ rm then rm else rm ++ [b]) else rm).Nodup := by
      split
      · split
        · exact h
        · rename_i hb; exact List.nodup_append.2 ⟨h, by simp, by
            intro x hx y hy e
            rw [List.mem_singleton.1 hy] at e
            exact hb (e ▸ hx)⟩
      · exact h
    obtain ⟨h1, h2⟩ := interMapLoop_spec a bs _ hn
    refine ⟨h1, fun x => ?_⟩
    rw [h2]
    by_cases hba : b ∈ a
    · by_cases hbr : b ∈ rm
      · simp only [hba, hbr, if_true, List.mem_cons]
        constructor
        · rintro (h | ⟨h, h'⟩); exacts [.inl h, .inr ⟨h, .inr h'⟩]
        · rintro (h | ⟨h, rfl | h'⟩); exacts [.inl h, .inl hbr, .inr ⟨h, h'⟩]
      · simp only [hba, hbr, if_true, if_false, List.mem_cons, List.mem_append, List.not_mem_nil, or_false]
        constructor
        · rintro ((h | rfl) | ⟨h, h'⟩); exacts [.inl h, .inr ⟨hba, .inl rfl⟩, .inr ⟨h, .inr h'⟩]
        · rintro (h | ⟨h, rfl | h'⟩); exacts [.inl (.inl h), .inl (.inr rfl), .inr ⟨h, h'⟩]
    · simp only [hba, if_false, List.mem_cons]
      constructor
      · rintro (h | ⟨h, h'⟩); exacts [.inl h, .inr ⟨h, .inr h'⟩]
      · rintro (h | ⟨h, rfl | h'⟩); exacts [.inl h, absurd h hba, .inr ⟨h, h'⟩]

/-- **C165, intersection with a map.**  In whatever order the map is visited, the result has each common element once and nothing else. -/
theorem C165_intersection (order : List Bytes → List Bytes) (ho : ∀ l, (order l).Perm l) (a b : List Bytes) :
    (bytesIntersectionMap order a b).Nodup ∧ ∀ x, x ∈ bytesIntersectionMap order a b ↔ x ∈ a ∧ x ∈ b := by
  obtain ⟨h1, h2⟩ := interMapLoop_spec a b [] List.nodup_nil
  refine ⟨(ho _).nodup_iff.2 h1, fun x => ?_⟩
  unfold bytesIntersectionMap
  rw [(ho _).mem_iff, h2]
  simp

example : bytesIntersectionMap List.reverse [[1], [2]] [[2], [1], [2], [3]] = [[1], [2]] := by decide

/-! ### Addresses of a node -/

/-- Calls of `AddAddr` on some `NetInfo`s; a panic ends the program. -/
def addAll (m : Maps) : List (NetInfo × UInt8 × Option Bytes) → Res Maps
  | [] => .ok m
  | (n, t, a) :: cs =>
    match addAddr m n t a with
    | .ok m' => addAll m' cs
    | .err => .err
    | .panic => .panic

/-- The last address given for a net through any structure with the same map. -/
def lastGiven (n : NetInfo) (t : UInt8) : List (NetInfo × UInt8 × Option Bytes) → Option (Option Bytes)
  | [] => none
  | (n', t', a) :: cs => (lastGiven n t cs).or (if n'.addrs = n.addrs ∧ t' = t then some a else none)

/-- **C165, addresses of a node.**  After any calls of `AddAddr` on structures made by `NewNetInfo`, `GetAddr` gives the address added last for
the net, through this structure or through a copy of it, and otherwise what it gave before; structures with other maps do not change. -/
theorem C165_addresses (n : NetInfo) (t : UInt8) (hn : n.addrs.isSome = true) :
    ∀ (cs : List (NetInfo × UInt8 × Option Bytes)) (m m' : Maps), addAll m cs = .ok m' →
      getAddr m' n t = (lastGiven n t cs).getD (getAddr m n t)
  | [], m, m', h => by simp only [addAll, Res.ok.injEq] at h; subst h; rfl
  | (n', t', a) :: cs, m, m', h => by
    rw [addAll] at h
    cases hp : n'.addrs with
    | none => simp [addAddr, hp] at h
    | some p =>
      simp only [addAddr, hp] at h
      rw [C165_addresses n t hn cs _ _ h, lastGiven]
      cases hl : lastGiven n t cs with
      | some x => simp
      | none =>
        obtain ⟨q, hq⟩ := Option.isSome_iff_exists.1 hn
        simp only [Option.getD_none, Option.none_or, getAddr, hq, hp]
        by_cases hqp : q = p
        · subst hqp
          by_cases ht : t' = t
          · subst ht; simp
          · simp [ht]
        · rw [if_neg hqp, if_neg (by rintro ⟨h, -⟩; exact hqp (Option.some.inj h).symm)]
          rfl

/-- **C165, no panic.**  `AddAddr` panics exactly if a structure without map is among those it is called on; `GetAddr` of such a structure
gives nil. -/
theorem C165_noMap (cs : List (NetInfo × UInt8 × Option Bytes)) (m : Maps) :
    (addAll m cs = .panic ↔ ∃ c ∈ cs, c.1.addrs = none) ∧ ∀ n t, n.addrs = none → getAddr m n t = none := by
  constructor
  · induction cs generalizing m with
    | nil => simp [addAll]
    | cons c cs ih =>
      obtain ⟨n, t, a⟩ := c
      rw [addAll]
      cases hp : n.addrs with
      | none => simp [addAddr, hp]
      | some p => simp only [addAddr, hp, List.mem_cons, exists_eq_or_imp, reduceCtorEq, false_or]; exact ih _
  · intro n t h; simp [getAddr, h]

/-- C165: a copy of a `NetInfo` is not independent: what is added to the one is seen in the other. -/
theorem C165_copy_refuted : ∃ (m m' : Maps) (n copy : NetInfo) (t : UInt8) (a : Bytes), copy = n ∧ addAddr m copy t (some a) = .ok m' ∧
    getAddr m n t = none ∧ getAddr m' n t = some a :=
  ⟨fun _ => [], fun q => if q = 0 then [(1, some [7])] else [], ⟨[], some 0⟩, ⟨[], some 0⟩, 1, [7], rfl, rfl, rfl, rfl⟩

example : ∃ m', addAll (fun _ => []) [(⟨[1], some 0⟩, 2, some [9]), (⟨[1], some 1⟩, 2, some [8])] = .ok m' ∧
    getAddr m' ⟨[1], some 0⟩ 2 = some [9] := ⟨_, rfl, rfl⟩

/-! ### Texts without prefix -/

open Hex in
/-- **C165, texts with or without prefix.**  `UnmarshalFixedUnprefixedText` accepts exactly the texts of the right number of bytes: two digits
for each byte, with `0x` in front or without, and the empty text if no bytes are wanted. -/
theorem C165_unprefixed (n : Nat) (s b : Bytes) :
    unmarshalFixed n false s = some b ↔ (Data s b ∨ List.Forall₂ Digit s (byteDigits b)) ∧ b.length = n := by
  have noX : ∀ c, (c = 120 ∨ c = 88) → ∀ d, ¬ Digit c d := by
    rintro c (rfl | rfl) d h
    · have := (decodeNibble_spec _ _).2 h; revert this; simp [show decodeNibble 120 = none by decide]
    · have := (decodeNibble_spec _ _).2 h; revert this; simp [show decodeNibble 88 = none by decide]
  have pre : ∀ r : Bytes, Data (48 :: 120 :: r) b ↔ List.Forall₂ Digit r (byteDigits b) := by
    intro r
    constructor
    · rintro ⟨p, cs, h1, rfl | rfl, h3⟩
      · simp only [List.cons_append, List.nil_append, List.cons.injEq, true_and] at h1; rw [h1]; exact h3
      · simp at h1
    · intro h; exact ⟨[48, 120], r, rfl, .inl rfl, h⟩
  by_cases h0 : has0x s = true
  · -- with prefix both functions do the same
    have hne : s ≠ [] := by rintro rfl; simp [has0x] at h0
    have e : unmarshalFixed n false s = unmarshalFixed n true s := by
      unfold unmarshalFixed checkText; simp [h0]
    rw [e, C54_unmarshalFixed]
    constructor
    · rintro ⟨⟨h, -⟩ | h, hl⟩
      · exact absurd h hne
      · exact ⟨.inl h, hl⟩
    · rintro ⟨h | h, hl⟩
      · exact ⟨.inr h, hl⟩
      · exfalso
        obtain ⟨p, hp, hs⟩ := (has0x_iff s).1 h0
        rw [hs] at h
        generalize byteDigits b = ds at h
        rcases hp with rfl | rfl <;> cases h with
        | cons _ h => cases h with
          | cons h _ => exact noX _ (by decide) _ h
  · have nd : ¬ Data s b := by
      rintro ⟨p, cs, rfl, hp, -⟩
      exact h0 (prefix_drop hp).1
    by_cases hs : s = []
    · subst hs
      have hb : List.Forall₂ Digit [] (byteDigits b) ↔ b = [] := by
        cases b with
        | nil => simp [byteDigits]
        | cons x b => simp [byteDigits]
      rw [hb]
      unfold unmarshalFixed checkText
      simp only [List.length_nil, if_true, Nat.zero_div, nd, false_or]
      constructor
      · intro h
        split at h
        · cases h
        · rename_i hn
          simp [hexDecode] at h
          subst h
          exact ⟨rfl, by simpa using hn⟩
      · rintro ⟨rfl, hl⟩
        simp at hl
        subst hl
        simp [hexDecode]
    · have e : unmarshalFixed n false s = unmarshalFixed n true (48 :: 120 :: s) := by
        have : s.length ≠ 0 := fun h => hs (List.length_eq_zero_iff.1 h)
        have hx : has0x (48 :: 120 :: s) = true := by simp [has0x]
        have c : checkText s false = checkText (48 :: 120 :: s) true := by
          unfold checkText
          rw [if_neg this, hx]
          rw [Bool.not_eq_true] at h0; rw [h0]; simp
        unfold unmarshalFixed
        rw [c]
      rw [e, C54_unmarshalFixed, pre]
      simp [nd]

open Hex in
example : unmarshalFixed 1 false [65, 98] = some [0xAB] ∧ unmarshalFixed 1 false [48, 120, 65, 98] = some [0xAB] ∧
    unmarshalFixed 1 true [65, 98] = none := by decide

end Verif.Identity

import Verif.Trie.Codec
import Verif.Trie.History

/-!
# Key codecs and node headers: C14, C15
-/

namespace Verif.Trie

/-- A statement about all bytes, checked on all of them. -/
theorem forall_uint8 {P : UInt8 → Prop} (h : ∀ n : Fin 256, P (UInt8.ofNat n)) (b : UInt8) : P b := by
  have := h ⟨b.toNat, b.toNat_lt⟩
  simpa using this

/-- A statement about all nibbles held in bytes. -/
theorem forall_nib {P : UInt8 → Prop} (h : ∀ n : Fin 16, P (UInt8.ofNat n)) {b : UInt8} (hb : b < 16) : P b := by
  have hb' : b.toNat < 16 := by simpa using UInt8.lt_iff_toNat_lt.1 hb
  have := h ⟨b.toNat, hb'⟩
  simpa using this

theorem pack_unpack (b : UInt8) : (((b >>> 4) &&& 0xF) <<< 4) ||| ((b &&& 0x0F) &&& 0xF) = b := by
  revert b
  exact forall_uint8 (by decide +kernel)

theorem packShift_unpack (b : UInt8) :
    (((((0 : UInt8) <<< 4) ||| ((b >>> 4) &&& 0xF)) <<< 4) ||| ((b &&& 0x0F) &&& 0xF)) = b := by
  revert b
  exact forall_uint8 (by decide +kernel)

theorem unpack_hi {a b : UInt8} (ha : a < 16) (hb : b < 16) : (((a &&& 0xF) <<< 4) ||| (b &&& 0xF)) >>> 4 = a := by
  revert b
  refine fun {b} hb => forall_nib (P := fun a => (((a &&& 0xF) <<< 4) ||| (b &&& 0xF)) >>> 4 = a) (fun n => ?_) ha
  exact forall_nib (P := fun b => (((UInt8.ofNat n &&& 0xF) <<< 4) ||| (b &&& 0xF)) >>> 4 = UInt8.ofNat n)
    (fun m => by revert n m; decide +kernel) hb

theorem unpack_lo {a b : UInt8} (ha : a < 16) (hb : b < 16) : (((a &&& 0xF) <<< 4) ||| (b &&& 0xF)) &&& 0x0F = b := by
  revert b
  refine fun {b} hb => forall_nib (P := fun a => (((a &&& 0xF) <<< 4) ||| (b &&& 0xF)) &&& 0x0F = b) (fun n => ?_) ha
  exact forall_nib (P := fun b => (((UInt8.ofNat n &&& 0xF) <<< 4) ||| (b &&& 0xF)) &&& 0x0F = b)
    (fun m => by revert n m; decide +kernel) hb

theorem packNibbles_unpack (k : Bytes) : packNibbles (keyToPrefixB k) = k := by
  induction k with
  | nil => rfl
  | cons b k ih =>
    have : keyToPrefixB (b :: k) = (b >>> 4) :: (b &&& 0x0F) :: keyToPrefixB k := by simp [keyToPrefixB]
    rw [this, packNibbles, ih, pack_unpack]

theorem keyToPrefixB_length (k : Bytes) : (keyToPrefixB k).length = 2 * k.length := by
  induction k with
  | nil => rfl
  | cons b k ih =>
    have : keyToPrefixB (b :: k) = (b >>> 4) :: (b &&& 0x0F) :: keyToPrefixB k := by simp [keyToPrefixB]
    rw [this]; simp [ih]; omega

theorem packShift_even (p : Bytes) (h : p.length % 2 = 0) : packShift p = packNibbles p := by
  match p with
  | [] => rfl
  | [a] => simp at h
  | a :: b :: r =>
    rw [packShift, packNibbles, packShift_even r (by simp at h; omega)]
    simp

theorem unpack_packNibbles (p : Bytes) (h : p.length % 2 = 0) (hp : ∀ b ∈ p, b < 16) :
    keyToPrefixB (packNibbles p) = p := by
  match p with
  | [] => rfl
  | [a] => simp at h
  | a :: b :: r =>
    have ha := hp a (by simp)
    have hb := hp b (by simp)
    have ih := unpack_packNibbles r (by simp at h; omega) (fun x hx => hp x (by simp [hx]))
    rw [packNibbles]
    have : ∀ (x : UInt8) (k : Bytes), keyToPrefixB (x :: k) = (x >>> 4) :: (x &&& 0x0F) :: keyToPrefixB k := by
      intro x k; simp [keyToPrefixB]
    rw [this, ih, unpack_hi ha hb, unpack_lo ha hb]

/-! ## C14 -/

/-- **C14.** A key turned into nibbles and back is the key. -/
theorem C14_key_roundtrip (k : Bytes) :
    prefixToKey (keyToPrefixB k) = k ∧ prefixToKeystring (keyToPrefixB k) = k := by
  have hl := keyToPrefixB_length k
  constructor
  · rw [prefixToKey.eq_def, if_neg (by omega), packShift_even _ (by omega), packNibbles_unpack]
  · rw [prefixToKeystring]
    split
    · have : k.length = 0 := by omega
      rw [List.length_eq_zero_iff.1 this]
    · rw [if_neg (by omega), packNibbles_unpack]

/-- **C14.** The nibbles of a key are below 16, two per byte, and different keys have different nibbles. -/
theorem C14_key_nibbles (k : Bytes) : (∀ b ∈ keyToPrefixB k, b < 16) ∧ (keyToPrefixB k).length = 2 * k.length ∧
    ∀ k', keyToPrefixB k' = keyToPrefixB k → k' = k := by
  refine ⟨?_, keyToPrefixB_length k, ?_⟩
  · intro b hb
    simp only [keyToPrefixB, List.mem_flatMap] at hb
    obtain ⟨x, -, hx⟩ := hb
    simp at hx
    rcases hx with rfl | rfl
    · revert x; exact forall_uint8 (by decide +kernel)
    · revert x; exact forall_uint8 (by decide +kernel)
  · intro k' h
    rw [← packNibbles_unpack k', h, packNibbles_unpack]

/-- The node type of a node with prefix `p` of nibbles held in bytes; `c` and `v` are the other two flags. -/
def ntOf (p : Bytes) (c v : Bool) : UInt8 :=
  (match p with
   | [] => 0
   | a :: _ => if p.length % 2 = 1 then 0x80 ||| 0x10 ||| (a &&& 0x0F) else 0x80)
  ||| (if c then 0x40 else 0) ||| (if v then 0x20 else 0)

theorem nt_odd {a : UInt8} (ha : a < 16) (c v : Bool) :
    let t := (0x80 ||| 0x10 ||| (a &&& 0x0F)) ||| (if c then 0x40 else 0) ||| (if v then 0x20 else (0 : UInt8))
    ntHasPrefix t = true ∧ ntOdd t = true ∧ ntFirst t = a ∧ ntHasChildren t = c ∧ ntHasValue t = v := by
  apply forall_nib (P := fun a =>
    let t := (0x80 ||| 0x10 ||| (a &&& 0x0F)) ||| (if c then 0x40 else 0) ||| (if v then 0x20 else (0 : UInt8))
    ntHasPrefix t = true ∧ ntOdd t = true ∧ ntFirst t = a ∧ ntHasChildren t = c ∧ ntHasValue t = v) _ ha
  revert c v
  decide +kernel

theorem nt_even (c v : Bool) :
    let t := 0x80 ||| (if c then 0x40 else 0) ||| (if v then 0x20 else (0 : UInt8))
    ntHasPrefix t = true ∧ ntOdd t = false ∧ ntHasChildren t = c ∧ ntHasValue t = v := by
  revert c v
  decide +kernel

theorem nt_none (c v : Bool) :
    let t := 0 ||| (if c then 0x40 else 0) ||| (if v then 0x20 else (0 : UInt8))
    ntHasPrefix t = false ∧ ntHasChildren t = c ∧ ntHasValue t = v := by
  revert c v
  decide +kernel

/-- **C14.** A nibble string of any parity packed into a node's key part is recovered with the help of the node's
type byte, whatever the other flags of the node. -/
theorem C14_keystring_roundtrip (p : Bytes) (hp : ∀ b ∈ p, b < 16) (c v : Bool) :
    keystringToPrefix (ntOf p c v) (prefixToKeystring p) = p := by
  cases p with
  | nil =>
    have := nt_none c v
    simp only at this
    have ht : ntOf [] c v = 0 ||| (if c then 0x40 else 0) ||| (if v then 0x20 else (0 : UInt8)) := rfl
    rw [← ht] at this
    rw [keystringToPrefix, if_pos this.1]
  | cons a r =>
    by_cases ho : (a :: r).length % 2 = 1
    · obtain ⟨h1, h2, h3, -, -⟩ := nt_odd (hp a (by simp)) c v
      have ht : ntOf (a :: r) c v =
        (0x80 ||| 0x10 ||| (a &&& 0x0F)) ||| (if c then 0x40 else 0) ||| (if v then 0x20 else (0 : UInt8)) := by
        simp only [ntOf]
        rw [if_pos ho]
      rw [ht]
      generalize (0x80 ||| 0x10 ||| (a &&& 0x0F)) ||| (if c then 0x40 else 0) ||| (if v then 0x20 else (0 : UInt8)) = t at *
      have e : prefixToKeystring (a :: r) = packNibbles r := by
        rw [prefixToKeystring, if_neg (by simp), if_pos ho]; rfl
      rw [e, keystringToPrefix, if_neg (by simp [h1]), if_neg (by simp [h2]), if_pos h2, h3]
      have := unpack_packNibbles r (by simp at ho; omega) (fun x hx => hp x (by simp [hx]))
      rw [keyToPrefixB] at this
      rw [this]; rfl
    · obtain ⟨h1, h2, -, -⟩ := nt_even c v
      have ht : ntOf (a :: r) c v = 0x80 ||| (if c then 0x40 else 0) ||| (if v then 0x20 else (0 : UInt8)) := by
        simp only [ntOf]
        rw [if_neg ho]
      rw [ht]
      generalize 0x80 ||| (if c then 0x40 else 0) ||| (if v then 0x20 else (0 : UInt8)) = t at *
      have e : prefixToKeystring (a :: r) = packNibbles (a :: r) := by
        rw [prefixToKeystring, if_neg (by simp), if_neg ho]
      have hne : (packNibbles (a :: r)).length ≠ 0 := by
        cases r with
        | nil => simp at ho
        | cons b r => simp [packNibbles]
      rw [e, keystringToPrefix, if_neg (by simp [h1]), if_neg (fun h => hne h.2), if_neg (by simp [h2])]
      have := unpack_packNibbles (a :: r) (by omega) hp
      rw [keyToPrefixB] at this
      rw [this]; rfl

/-- **C14.** Hex strings of nibbles convert back. -/
theorem C14_hex_roundtrip (p : Bytes) (hp : ∀ b ∈ p, b < 16) : hexstringToPrefix (prefixToHexstring p) = p := by
  induction p with
  | nil => rfl
  | cons a r ih =>
    have h1 : hexbyteToValuebyte (valuebyteToHexbyte a) = a :=
      forall_nib (P := fun a => hexbyteToValuebyte (valuebyteToHexbyte a) = a) (by decide +kernel) (hp a (by simp))
    have h2 := ih (fun x hx => hp x (by simp [hx]))
    simp only [hexstringToPrefix, prefixToHexstring, List.map_cons, h1] at h2 ⊢
    rw [h2]

/-- **C14.** Lower-case hex digits mean the same nibbles as upper-case ones, and every other character is marked by
the out-of-range value 16. -/
theorem C14_hex_digits (h : UInt8) :
    hexbyteToValuebyte h =
      (if 0x30 ≤ h ∧ h ≤ 0x39 then h - 0x30
       else if 0x41 ≤ h ∧ h ≤ 0x46 then h - 55
       else if 0x61 ≤ h ∧ h ≤ 0x66 then h - 87 else 16) := by
  revert h
  exact forall_uint8 (by decide +kernel)

example : keyToPrefixB [0x12, 0xAF] = [1, 2, 0xA, 0xF] ∧ prefixToKey [1, 2, 0xA, 0xF] = [0x12, 0xAF] ∧
    prefixToKeystring [7, 1, 2] = [0x12] ∧ keystringToPrefix (ntOf [7, 1, 2] true false) [0x12] = [7, 1, 2] ∧
    prefixToHexstring [7, 0xA] = [0x37, 0x41] := by decide +kernel

/-! ## C15 -/

/-- A header as `newNodeHeader` and `Deserialization` produce them: absent sections are zero. -/
def Header.Normal (h : Header) : Prop :=
  (ntHasPrefix h.nt = false → h.keyString = []) ∧ (ntHasChildren h.nt = false → h.flag0 = 0 ∧ h.flag1 = 0)

/-- **C15.** A serialised header is read back, and exactly its bytes are consumed. -/
theorem C15_roundtrip (R : Rtl) (hR : R.Lawful) (h : Header) (hn : h.Normal) (rest : Bytes) :
    Header.deser R (h.ser R ++ rest) = some (h, rest) := by
  obtain ⟨nt, ks, f0, f1⟩ := h
  obtain ⟨h1, h2⟩ := hn
  simp only at h1 h2
  rw [Header.ser, Header.deser.eq_def]
  cases hp : ntHasPrefix nt <;> cases hc : ntHasChildren nt <;> simp only [hp, hc, List.append_assoc,
    List.cons_append, List.nil_append, if_true, if_false, Bool.false_eq_true, hR _ _]
  · rw [h1 hp, (h2 hc).1, (h2 hc).2]
  · rw [h1 hp]
  · rw [(h2 hc).1, (h2 hc).2]

/-- **C15.** Two headers with the same serialisation, even followed by other data, are equal. -/
theorem C15_injective (R : Rtl) (hR : R.Lawful) (h1 h2 : Header) (n1 : h1.Normal) (n2 : h2.Normal) (r1 r2 : Bytes)
    (h : h1.ser R ++ r1 = h2.ser R ++ r2) : h1 = h2 ∧ r1 = r2 := by
  have e1 := C15_roundtrip R hR h1 n1 r1
  rw [h, C15_roundtrip R hR h2 n2 r2] at e1
  simp at e1
  exact ⟨e1.1.symm, e1.2.symm⟩

theorem nibByte_lt (i : Nib) : nibByte i < 16 := by
  revert i; decide +kernel

theorem byteNib_nibByte (i : Nib) : byteNib (nibByte i) = i := by
  revert i; decide +kernel

theorem ntype_eq (p : List Nib) (c v : Bool) : ntype p c v = ntOf (p.map nibByte) c v := by
  cases p <;> simp [ntype, ntOf]

theorem ntype_spec (p : List Nib) (c v : Bool) :
    ntHasPrefix (ntype p c v) = !p.isEmpty ∧ ntHasChildren (ntype p c v) = c ∧ ntHasValue (ntype p c v) = v := by
  cases p with
  | nil => simpa [ntype] using nt_none c v
  | cons a r =>
    simp only [ntype]
    split
    · obtain ⟨h1, -, -, h2, h3⟩ := nt_odd (nibByte_lt a) c v
      exact ⟨h1, h2, h3⟩
    · obtain ⟨h1, -, h2, h3⟩ := nt_even c v
      exact ⟨h1, h2, h3⟩

theorem childFlag_bit (has : Nib → Bool) (base : Nat) (j : Nat) (hj : j < 8) :
    decide ((childFlag has base &&& ((1 : UInt8) <<< UInt8.ofNat j)) > 0) = has (Fin.ofNat 16 (base + j)) := by
  have key : ∀ b0 b1 b2 b3 b4 b5 b6 b7 : Bool, ∀ j : Fin 8,
      let x : UInt8 := [b0, b1, b2, b3, b4, b5, b6, b7].zipIdx.foldl
        (fun acc bi => if bi.1 then acc ||| ((1 : UInt8) <<< UInt8.ofNat bi.2) else acc) 0
      decide ((x &&& ((1 : UInt8) <<< UInt8.ofNat j)) > 0) = [b0, b1, b2, b3, b4, b5, b6, b7][j] := by
    decide +kernel
  have := key (has (Fin.ofNat 16 (base + 0))) (has (Fin.ofNat 16 (base + 1))) (has (Fin.ofNat 16 (base + 2)))
    (has (Fin.ofNat 16 (base + 3))) (has (Fin.ofNat 16 (base + 4))) (has (Fin.ofNat 16 (base + 5)))
    (has (Fin.ofNat 16 (base + 6))) (has (Fin.ofNat 16 (base + 7))) ⟨j, hj⟩
  have hx : childFlag has base = [has (Fin.ofNat 16 (base + 0)), has (Fin.ofNat 16 (base + 1)),
      has (Fin.ofNat 16 (base + 2)), has (Fin.ofNat 16 (base + 3)), has (Fin.ofNat 16 (base + 4)),
      has (Fin.ofNat 16 (base + 5)), has (Fin.ofNat 16 (base + 6)), has (Fin.ofNat 16 (base + 7))].zipIdx.foldl
        (fun acc bi => if bi.1 then acc ||| ((1 : UInt8) <<< UInt8.ofNat bi.2) else acc) 0 := rfl
  rw [hx, this]
  have : j = 0 ∨ j = 1 ∨ j = 2 ∨ j = 3 ∨ j = 4 ∨ j = 5 ∨ j = 6 ∨ j = 7 := by omega
  rcases this with rfl | rfl | rfl | rfl | rfl | rfl | rfl | rfl <;> rfl

/-- **C15.** The header made for a node says everything about its shape: the prefix, which children exist, and
whether it has children or a value. -/
theorem C15_header_describes_node (p : List Nib) (has : Nib → Bool) (hv : Bool) :
    let h := newHeader p has hv
    h.Normal ∧ h.prefix = p ∧ (∀ i, h.hasChild i = has i) ∧ ntHasValue h.nt = hv ∧
      (ntHasChildren h.nt = true ↔ ∃ i, has i = true) := by
  obtain ⟨t1, t2, t3⟩ := ntype_spec p (nibbles.any has) hv
  have hany : nibbles.any has = true ↔ ∃ i, has i = true := by
    simp [mem_nibbles]
  have hN : (newHeader p has hv).Normal := by
    constructor
    · intro h; simp only [newHeader] at h ⊢; simp [h]
    · intro h; simp only [newHeader] at h ⊢; simp [h]
  refine ⟨hN, ?_, ?_, t3, ?_⟩
  · have hp : ∀ b ∈ p.map nibByte, b < 16 := by
      intro b hb
      simp at hb
      obtain ⟨a, -, rfl⟩ := hb
      exact nibByte_lt a
    have := C14_keystring_roundtrip (p.map nibByte) hp (nibbles.any has) hv
    rw [← ntype_eq] at this
    simp only [Header.prefix, newHeader]
    cases p with
    | nil => simp [t1, keystringToPrefix]
    | cons a r =>
      rw [if_pos (by rw [t1]; rfl), this, List.map_map]
      have : byteNib ∘ nibByte = id := funext byteNib_nibByte
      rw [this, List.map_id]
  · intro i
    have e0 : (newHeader p has hv).flag0 = if nibbles.any has then childFlag has 0 else 0 := by
      simp only [newHeader, t2]
    have e1 : (newHeader p has hv).flag1 = if nibbles.any has then childFlag has 8 else 0 := by
      simp only [newHeader, t2]
    have e2 : ntHasChildren (newHeader p has hv).nt = nibbles.any has := t2
    rw [Header.hasChild, e0, e1, e2]
    cases hc : nibbles.any has with
    | false =>
      have : ¬ ∃ i, has i = true := by rw [← hany, hc]; simp
      simp only [not_exists, Bool.not_eq_true] at this
      simp [this i]
    | true =>
      simp only [if_true, Bool.true_and]
      have hlt := i.isLt
      by_cases hi : i.val / 8 = 0
      · rw [if_pos hi, childFlag_bit has 0 (i.val % 8) (by omega)]
        congr 1
        apply Fin.ext
        simp [Fin.ofNat]
        omega
      · rw [if_neg hi, childFlag_bit has 8 (i.val % 8) (by omega)]
        congr 1
        apply Fin.ext
        simp [Fin.ofNat]
        omega
  · rw [← hany]
    simp only [newHeader]
    rw [t2]

/-- A length-prefixed string codec, to show that the assumption on go-rtl is satisfiable: the length in unary
followed by the bytes. -/
def toyRtl : Rtl where
  enc b := List.replicate b.length 1 ++ 0 :: b
  dec bs :=
    let n := (bs.takeWhile (· = 1)).length
    match bs.drop n with
    | 0 :: r => if n ≤ r.length then some (r.take n, r.drop n) else none
    | _ => none

theorem toyRtl_lawful : toyRtl.Lawful := by
  intro b r
  have h1 : ∀ n, ((List.replicate n (1 : UInt8) ++ 0 :: (b ++ r)).takeWhile (· = 1)).length = n := by
    intro n
    induction n with
    | zero => simp
    | succ n ih => simp [List.replicate_succ]
  simp only [toyRtl, List.append_assoc, List.cons_append, h1]
  rw [List.drop_append_of_le_length (by simp)]
  simp

example : (newHeader [3, 1, 2] (fun i => i = 0 ∨ i = 9) true).ser toyRtl = [0xF3, 1, 0, 0x12, 0x01, 0x02] := by
  decide +kernel

end Verif.Trie

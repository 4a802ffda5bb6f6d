import Verif.HTree.Spec
import Verif.Trie.CodecProps
import Verif.Trie.IteratorProps

/-!
# C22: heights and their paths
-/

namespace Verif.HTree
open Verif Verif.Merkle Verif.Trie

theorem undigits_lt (ds : List Nib) : undigits ds < 16 ^ ds.length := by
  induction ds with
  | nil => simp [undigits]
  | cons d ds ih =>
    rw [undigits, List.length_cons, Nat.pow_succ]
    have := d.isLt
    have h2 : (d.val + 1) * 16 ^ ds.length ≤ 16 * 16 ^ ds.length := Nat.mul_le_mul_right _ this
    rw [Nat.add_mul, Nat.one_mul] at h2
    rw [Nat.mul_comm _ 16]
    omega

theorem digits_undigits (ds : List Nib) : digits ds.length (undigits ds) = ds := by
  induction ds with
  | nil => rfl
  | cons d ds ih =>
    have h := undigits_lt ds
    rw [List.length_cons, digits, undigits]
    have h1 : (d.val * 16 ^ ds.length + undigits ds) / 16 ^ ds.length = d.val := by
      rw [Nat.add_comm, Nat.add_mul_div_right _ _ (by positivity), Nat.div_eq_of_lt h, Nat.zero_add]
    have h2 : (d.val * 16 ^ ds.length + undigits ds) % 16 ^ ds.length = undigits ds := by
      rw [Nat.add_comm, Nat.add_mul_mod_self_right, Nat.mod_eq_of_lt h]
    rw [h2, ih]
    simp only [h1, Nat.mod_eq_of_lt d.isLt]

theorem undigits_append (a b : List Nib) : undigits (a ++ b) = undigits a * 16 ^ b.length + undigits b := by
  induction a with
  | nil => simp [undigits]
  | cons d a ih =>
    rw [List.cons_append, undigits, undigits, ih, List.length_append, Nat.pow_add]
    ring

theorem undigits_keyToPrefix (bs : Bytes) : undigits (keyToPrefix bs) = beNat bs := by
  induction bs with
  | nil => rfl
  | cons b bs ih =>
    rw [keyToPrefix_cons, undigits, undigits, ih, beNat_cons, List.length_cons, keyToPrefix_length]
    simp only
    rw [show 16 ^ (2 * bs.length + 1) = 256 ^ bs.length * 16 by rw [Nat.pow_succ, Nat.pow_mul],
      show 16 ^ (2 * bs.length) = 256 ^ bs.length by rw [Nat.pow_mul]]
    generalize 256 ^ bs.length = B
    have := Nat.div_add_mod b.toNat 16
    calc b.toNat / 16 * (B * 16) + (b.toNat % 16 * B + beNat bs) = (16 * (b.toNat / 16) + b.toNat % 16) * B + beNat bs := by ring
      _ = _ := by rw [this]

theorem heightToPrefix_length (k : UInt64) : (heightToPrefix k).length = 16 := by
  rw [heightToPrefix, keyToPrefix_length, natBE_length]

theorem undigits_heightToPrefix (k : UInt64) : undigits (heightToPrefix k) = k.toNat := by
  rw [heightToPrefix, undigits_keyToPrefix, beNat_natBE_of_lt]
  have := k.toNat_lt
  norm_num at this ⊢
  omega

theorem heightToPrefix_eq (k : UInt64) : heightToPrefix k = digits 16 k.toNat := by
  have := digits_undigits (heightToPrefix k)
  rw [heightToPrefix_length, undigits_heightToPrefix] at this
  exact this.symm

theorem prefixToHeight_heightToPrefix (k : UInt64) : prefixToHeight ((heightToPrefix k).map nibByte) = some k := by
  rw [prefixToHeight, List.length_map, heightToPrefix_length, heightToPrefix, Verif.Trie.Store.nibBytes_key,
    (C14_key_roundtrip _).1, List.take_of_length_le (by rw [natBE_length]), beNat_natBE_of_lt]
  · simp
  · have := k.toNat_lt
    norm_num at this ⊢
    omega

theorem digits_lt (n a b : Nat) (ha : a < 16 ^ n) (hb : b < 16 ^ n) : digits n a < digits n b ↔ a < b := by
  induction n generalizing a b with
  | zero => simp [digits] at *; omega
  | succ n ih =>
    have hp : 0 < 16 ^ n := by positivity
    rw [digits, digits, List.cons_lt_cons_iff, ih _ _ (Nat.mod_lt _ hp) (Nat.mod_lt _ hp), Fin.lt_def, Fin.ext_iff]
    have h1 : a / 16 ^ n < 16 := by rw [Nat.div_lt_iff_lt_mul hp]; rw [Nat.pow_succ] at ha; omega
    have h2 : b / 16 ^ n < 16 := by rw [Nat.div_lt_iff_lt_mul hp]; rw [Nat.pow_succ] at hb; omega
    simp only [Nat.mod_eq_of_lt h1, Nat.mod_eq_of_lt h2]
    have ea := Nat.div_add_mod a (16 ^ n)
    have eb := Nat.div_add_mod b (16 ^ n)
    have ma := Nat.mod_lt a hp
    have mb := Nat.mod_lt b hp
    generalize 16 ^ n = B at *
    constructor
    · rintro (h | ⟨h, h'⟩)
      · have : B * (a / B + 1) ≤ B * (b / B) := Nat.mul_le_mul_left _ h
        rw [Nat.mul_add] at this
        omega
      · rw [h] at ea; omega
    · intro h
      rcases Nat.lt_trichotomy (a / B) (b / B) with h3 | h3 | h3
      · exact .inl h3
      · right; refine ⟨h3, ?_⟩; rw [h3] at ea; omega
      · have : B * (b / B + 1) ≤ B * (a / B) := Nat.mul_le_mul_left _ h3
        rw [Nat.mul_add] at this
        omega

theorem u64_lt (k : UInt64) : k.toNat < 16 ^ 16 := by
  have := k.toNat_lt
  norm_num at this ⊢
  omega

/-- **C22.** The path of a height has 16 nibbles, reassembling it gives the height. -/
theorem C22_roundtrip (k : UInt64) :
    (heightToPrefix k).length = 16 ∧ prefixToHeight ((heightToPrefix k).map nibByte) = some k :=
  ⟨heightToPrefix_length k, prefixToHeight_heightToPrefix k⟩

/-- **C22.** The path is the list of hexadecimal digits, most significant first: the value of the digits is the height. -/
theorem C22_positional (k : UInt64) :
    (heightToPrefix k).foldl (fun n d => n * 16 + d.val) 0 = k.toNat := by
  have key : ∀ (ds : List Nib) (a : Nat), ds.foldl (fun n d => n * 16 + d.val) a = a * 16 ^ ds.length + undigits ds := by
    intro ds
    induction ds with
    | nil => simp [undigits]
    | cons d ds ih => intro a; rw [List.foldl_cons, ih, undigits, List.length_cons, Nat.pow_succ]; ring
  rw [key, undigits_heightToPrefix]; simp

/-- **C22.** Different heights have different paths. -/
theorem C22_injective {k k' : UInt64} (h : heightToPrefix k = heightToPrefix k') : k = k' := by
  have := congrArg undigits h
  rw [undigits_heightToPrefix, undigits_heightToPrefix] at this
  exact UInt64.toNat_inj.mp this

/-- **C22.** Every list of 16 nibbles is the path of the height it is reassembled to; lists of another length are
rejected. -/
theorem C22_surjective (q : List Nib) :
    (q.length = 16 → ∃ k, prefixToHeight (q.map nibByte) = some k ∧ heightToPrefix k = q) ∧
    (q.length ≠ 16 → prefixToHeight (q.map nibByte) = none) := by
  constructor
  · intro hq
    have hlt := undigits_lt q
    rw [hq] at hlt
    have e : heightToPrefix (UInt64.ofNat (undigits q)) = q := by
      rw [heightToPrefix_eq, UInt64.toNat_ofNat_of_lt' (by norm_num at hlt ⊢; simpa [UInt64.size] using hlt), ← hq, digits_undigits]
    refine ⟨UInt64.ofNat (undigits q), ?_, e⟩
    have := prefixToHeight_heightToPrefix (UInt64.ofNat (undigits q))
    rwa [e] at this
  · intro hq
    rw [prefixToHeight, List.length_map, if_pos hq]

/-- **C22.** Path order (lexicographic) is height order. -/
theorem C22_order (k k' : UInt64) : heightToPrefix k < heightToPrefix k' ↔ k < k' := by
  rw [heightToPrefix_eq, heightToPrefix_eq, digits_lt 16 _ _ (u64_lt k) (u64_lt k'), UInt64.lt_iff_toNat_lt]

/-- **C22.** `ToByte` undoes `ToBinary` for the four bits of an index, and conversely. -/
theorem C22_bits (j : Nib) (p : List Bool) (hp : p.length = 4) :
    (bits4 j).length = 4 ∧ ofBits (bits4 j) = j.val ∧ bits4 (nibOf p) = p :=
  ⟨rfl, ofBits_bits4 j, bits4_nibOf hp⟩

example : heightToPrefix 0x1234 = [0, 0, 0, 0, 0, 0, 0, 0, 0, 0, 0, 0, 1, 2, 3, 4] := by decide +kernel
example : prefixToHeight [0, 0, 0, 0, 0, 0, 0, 0, 0, 0, 0, 0, 1, 2, 3, 4] = some 0x1234 := by decide +kernel

end Verif.HTree

import Verif.Trie.CodecProps

/-!
# Nibble strings of any length as bytes: C14

`prefixToKey` is used for strings of any parity. What it gives is stated by the number the string stands for.
-/

namespace Verif.Trie.PrefixKey

/-- The number a string of nibbles stands for, most significant first. -/
def nibNat (p : Bytes) : Nat := p.foldl (fun a b => a * 16 + b.toNat) 0

/-- The two nibbles of a byte. -/
theorem pack_toNat {a b : UInt8} (ha : a < 16) (hb : b < 16) :
    (((((0 : UInt8) <<< 4) ||| (a &&& 0xF)) <<< 4) ||| (b &&& 0xF)).toNat = a.toNat * 16 + b.toNat := by
  revert hb
  apply forall_nib (P := fun a => b < 16 →
    (((((0 : UInt8) <<< 4) ||| (a &&& 0xF)) <<< 4) ||| (b &&& 0xF)).toNat = a.toNat * 16 + b.toNat) _ ha
  intro n hb
  revert n
  apply forall_nib (P := fun b => ∀ n : Fin 16,
    (((((0 : UInt8) <<< 4) ||| (UInt8.ofNat n &&& 0xF)) <<< 4) ||| (b &&& 0xF)).toNat = (UInt8.ofNat n).toNat * 16 + b.toNat) _ hb
  decide +kernel

theorem low_toNat {a : UInt8} (ha : a < 16) : (a &&& 0xF) = a := by
  apply forall_nib (P := fun a => (a &&& 0xF) = a) _ ha
  decide +kernel

theorem shift_nat (p : Bytes) (h : p.length % 2 = 0) (hp : ∀ b ∈ p, b < 16) (s : Nat) :
    (packShift p).foldl (fun a b => a * 256 + b.toNat) s = p.foldl (fun a b => a * 16 + b.toNat) s := by
  match p with
  | [] => rfl
  | [a] => simp at h
  | a :: b :: r =>
    have ih := shift_nat r (by simp at h; omega) (fun x hx => hp x (by simp [hx]))
    have e := pack_toNat (hp a (by simp)) (hp b (by simp))
    rw [packShift, List.foldl_cons, ih, List.foldl_cons, List.foldl_cons, e]
    congr 1
    omega

theorem shift_len (p : Bytes) (h : p.length % 2 = 0) : (packShift p).length = p.length / 2 := by
  match p with
  | [] => rfl
  | [a] => simp at h
  | a :: b :: r =>
    have ih := shift_len r (by simp at h; omega)
    simp only [packShift, List.length_cons, ih]
    omega

/-- **C14.** The bytes of a nibble string of either parity are as few as hold it and stand for the same number. -/
theorem C14_bytes (p : Bytes) (hp : ∀ b ∈ p, b < 16) :
    beNat (prefixToKey p) = nibNat p ∧ (prefixToKey p).length = (p.length + 1) / 2 := by
  by_cases h : p.length % 2 = 1
  · match p with
    | [] => simp at h
    | a :: r =>
      have hr : r.length % 2 = 0 := by simp at h; omega
      rw [prefixToKey, if_pos h]
      refine ⟨?_, ?_⟩
      · show List.foldl _ _ (_ :: _) = _
        rw [List.foldl_cons, shift_nat r hr (fun x hx => hp x (by simp [hx])), low_toNat (hp a (by simp)), nibNat, List.foldl_cons]
      · simp only [List.length_cons, shift_len r hr]
        omega
  · have hr : p.length % 2 = 0 := by omega
    rw [prefixToKey.eq_def, if_neg h]
    exact ⟨shift_nat p hr hp 0, by rw [shift_len p hr]; omega⟩

/-- Three nibbles. -/
example : prefixToKey [1, 2, 3] = [0x01, 0x23] ∧ nibNat [1, 2, 3] = 0x123 ∧ prefixToKey [0xA] = [0x0A] := by decide +kernel

end Verif.Trie.PrefixKey

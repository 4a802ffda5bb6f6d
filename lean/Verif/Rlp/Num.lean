import Verif.Rlp.Model
import Verif.BigMath.Props

/-!
# RLP: integers and headers
-/

namespace Verif.Rlp
open Verif

theorem byteAt_eq (i : UInt64) (k : Nat) (hk : k < 8) : byteAt i k = UInt8.ofNat (i.toNat / 256 ^ k % 256) := by
  apply UInt8.toNat_inj.mp
  have h : (256 : Nat) ^ k = 2 ^ (8 * k) := by rw [Nat.pow_mul]
  have h8 : 8 * k % 64 = 8 * k := by omega
  have h9 : 8 * k % 18446744073709551616 % 64 = 8 * k := by omega
  simp [byteAt, UInt64.toNat_shiftRight, Nat.shiftRight_eq_div_pow, h, h9]

theorem toUInt8_eq (i : UInt64) : i.toUInt8 = byteAt i 0 := by
  simp [byteAt]

theorem natBytes_eq_natBE (k n : Nat) (h1 : 256 ^ k ≤ n) (h2 : n < 256 ^ (k + 1)) : natBytes n = natBE (k + 1) n := by
  induction k generalizing n with
  | zero =>
    have hn : n ≠ 0 := by simp at h1; omega
    have h0 : n / 256 = 0 := by simp at h2; omega
    rw [natBytes_pos hn, h0, natBytes_zero]; simp [natBE]
  | succ k ih =>
    have hp : 0 < 256 ^ k := Nat.pow_pos (by omega)
    have hn : n ≠ 0 := by rw [Nat.pow_succ] at h1; omega
    rw [natBytes_pos hn, natBE, ih (n / 256)]
    · rw [Nat.le_div_iff_mul_le (by omega)]; rw [Nat.pow_succ] at h1; exact h1
    · rw [Nat.div_lt_iff_lt_mul (by omega)]; rw [Nat.pow_succ 256 (k+1)] at h2; exact h2

theorem natBE_byteAt (i : UInt64) (k : Nat) (hk : k ≤ 8) :
    natBE k i.toNat = (List.range k).reverse.map (byteAt i) := by
  have key : ∀ k n, natBE k n = (List.range k).reverse.map fun j => UInt8.ofNat (n / 256 ^ j % 256) := by
    intro k
    induction k with
    | zero => intro n; simp [natBE]
    | succ k ih =>
      intro n
      rw [natBE, ih, List.range_succ_eq_map]
      simp [List.map_map, Function.comp_def, Nat.div_div_eq_div_mul, Nat.pow_succ, Nat.mul_comm]
  rw [key]
  apply List.map_congr_left
  intro j hj
  rw [byteAt_eq i j (by simp at hj; omega)]

private theorem u64lt (i : UInt64) (n : Nat) (h : n < 2 ^ 64) : i < UInt64.ofNat n ↔ i.toNat < n := by
  rw [UInt64.lt_iff_toNat_lt, UInt64.toNat_ofNat_of_lt' h]

theorem putint_eq (i : UInt64) (h0 : i ≠ 0) : putint i = natBytes i.toNat := by
  have hi := i.toNat_lt
  have h0' : i.toNat ≠ 0 := fun h => h0 (UInt64.toNat_inj.mp (by simpa using h))
  have hlt : ∀ n : Nat, n < 2 ^ 64 → (i < UInt64.ofNat n ↔ i.toNat < n) := u64lt i
  have l1 := hlt 0x100 (by decide)
  have l2 := hlt 0x10000 (by decide)
  have l3 := hlt 0x1000000 (by decide)
  have l4 := hlt 0x100000000 (by decide)
  have l5 := hlt 0x10000000000 (by decide)
  have l6 := hlt 0x1000000000000 (by decide)
  have l7 := hlt 0x100000000000000 (by decide)
  have e : ∀ k, k < 8 → 256 ^ k ≤ i.toNat → i.toNat < 256 ^ (k + 1) →
      natBytes i.toNat = (List.range (k + 1)).reverse.map (byteAt i) := by
    intro k hk h1 h2
    rw [natBytes_eq_natBE k _ h1 h2, natBE_byteAt i _ (by omega)]
  unfold putint
  simp only [show (0x100 : UInt64) = UInt64.ofNat 0x100 from rfl, show (0x10000 : UInt64) = UInt64.ofNat 0x10000 from rfl,
    show (0x1000000 : UInt64) = UInt64.ofNat 0x1000000 from rfl, show (0x100000000 : UInt64) = UInt64.ofNat 0x100000000 from rfl,
    show (0x10000000000 : UInt64) = UInt64.ofNat 0x10000000000 from rfl,
    show (0x1000000000000 : UInt64) = UInt64.ofNat 0x1000000000000 from rfl,
    show (0x100000000000000 : UInt64) = UInt64.ofNat 0x100000000000000 from rfl, l1, l2, l3, l4, l5, l6, l7]
  split
  · rw [e 0 (by omega) (by omega) (by omega)]; rfl
  split
  · rw [e 1 (by omega) (by omega) (by omega)]; rfl
  split
  · rw [e 2 (by omega) (by omega) (by omega)]; rfl
  split
  · rw [e 3 (by omega) (by omega) (by omega)]; rfl
  split
  · rw [e 4 (by omega) (by omega) (by omega)]; rfl
  split
  · rw [e 5 (by omega) (by omega) (by omega)]; rfl
  split
  · rw [e 6 (by omega) (by omega) (by omega)]; rfl
  · rw [e 7 (by omega) (by omega) (by omega)]; rfl

theorem intsizeLoop_eq (f : Nat) (i : UInt64) (size : Nat) (h : i.toNat < 256 ^ (f + 1)) :
    intsizeLoop f i size = size + (natBytes (i.toNat / 256)).length := by
  induction f generalizing i size with
  | zero =>
    have : i.toNat / 256 = 0 := by simp at h; omega
    rw [this, natBytes_zero]; rfl
  | succ f ih =>
    have hs : (i >>> 8).toNat = i.toNat / 256 := by
      rw [UInt64.toNat_shiftRight]; simp [Nat.shiftRight_eq_div_pow]
    rw [intsizeLoop]
    by_cases h0 : i >>> 8 = 0
    · rw [if_pos h0]
      rw [h0] at hs
      rw [← hs]; simp [natBytes_zero]
    · rw [if_neg h0, ih]
      · rw [hs]
        have : i.toNat / 256 ≠ 0 := by rw [← hs]; intro hh; exact h0 (UInt64.toNat_inj.mp (by simpa using hh))
        rw [natBytes_pos this, List.length_append]; simp; omega
      · rw [hs, Nat.div_lt_iff_lt_mul (by omega)]; rw [Nat.pow_succ] at h; exact h

theorem intsize_eq (i : UInt64) (h0 : i ≠ 0) : intsize i = (natBytes i.toNat).length := by
  have hi := i.toNat_lt
  have h0' : i.toNat ≠ 0 := fun h => h0 (UInt64.toNat_inj.mp (by simpa using h))
  rw [intsize, intsizeLoop_eq _ _ _ (by omega), natBytes_pos h0', List.length_append]
  simp; omega

theorem u64_ne_zero {i : UInt64} {n : Nat} (h : n < i.toNat ∨ n + 1 ≤ i.toNat) : i ≠ 0 := by
  rintro rfl; simp at h

theorem lt56 (i : UInt64) : i < 56 ↔ i.toNat < 56 := by
  simp [UInt64.lt_iff_toNat_lt]

theorem headsize_eq (off : Nat) (i : UInt64) : headsize i = (head off i.toNat).length := by
  unfold headsize head
  simp only [lt56]
  split
  · rfl
  · next h => rw [intsize_eq i (u64_ne_zero (n := 55) (by omega))]; simp; omega

theorem ofNat_add (a b : Nat) : UInt8.ofNat a + UInt8.ofNat b = UInt8.ofNat (a + b) := by simp

theorem puthead_eq (off : Nat) (i : UInt64) :
    puthead (UInt8.ofNat off) (UInt8.ofNat (off + 55)) i = head off i.toNat := by
  unfold puthead head
  simp only [lt56]
  split
  · have : i.toUInt8 = UInt8.ofNat i.toNat := by apply UInt8.toNat_inj.mp; simp
    rw [this, ofNat_add]
  · next h => rw [putint_eq i (u64_ne_zero (n := 55) (by omega)), ofNat_add]

theorem puthead_str (i : UInt64) : puthead 0x80 0xB7 i = head 0x80 i.toNat := puthead_eq 0x80 i
theorem puthead_list (i : UInt64) : puthead 0xC0 0xF7 i = head 0xC0 i.toNat := puthead_eq 0xC0 i

theorem or_add (x y : UInt64) (k : Nat) (hy : y.toNat < 2 ^ k) (hx : x.toNat % 2 ^ k = 0) :
    (x ||| y).toNat = x.toNat + y.toNat := by
  rw [UInt64.toNat_or]
  have h : x.toNat = 2 ^ k * (x.toNat / 2 ^ k) := by
    have := Nat.div_add_mod x.toNat (2 ^ k); omega
  rw [h, ← Nat.two_pow_add_eq_or_of_lt hy]

theorem shl_toNat (b : Bytes) (j k : Nat) (hk : k < 8) : (shl b j k).toNat = (b.getD j 0).toNat * 2 ^ (8 * k) := by
  have h := (b.getD j 0).toNat_lt
  have h9 : 8 * k % 18446744073709551616 % 64 = 8 * k := by omega
  unfold shl
  rw [UInt64.toNat_shiftLeft]
  simp only [UInt64.toNat_ofNat', UInt8.toNat_toUInt64, Nat.shiftLeft_eq]
  rw [h9]
  apply Nat.mod_eq_of_lt
  have h1 : 2 ^ (8 * k) ≤ 2 ^ 56 := Nat.pow_le_pow_right (by omega) (by omega)
  calc _ < 2 ^ 8 * 2 ^ (8 * k) := Nat.mul_lt_mul_of_pos_right h (Nat.pow_pos (by omega))
    _ ≤ 2 ^ 8 * 2 ^ 56 := Nat.mul_le_mul_left _ h1
    _ = 2 ^ 64 := by decide

theorem sizeOf_eq (b : Bytes) (slen : Nat) (h : b.length = slen) (h8 : slen ≤ 8) : (sizeOf b slen).toNat = beNat b := by
  match b, h with
  | [], h => subst h; rfl
  | [b0], h =>
    subst h; simp [sizeOf, beNat]
  | [b0, b1], h =>
    subst h
    have g0 := b0.toNat_lt; have g1 := b1.toNat_lt
    simp only [sizeOf, List.length_cons, List.length_nil]
    rw [or_add _ _ 8 (by simpa using g1) (by rw [shl_toNat _ _ _ (by omega)]; omega), shl_toNat _ _ _ (by omega)]
    simp [beNat]
  | [b0, b1, b2], h =>
    subst h
    have g0 := b0.toNat_lt; have g1 := b1.toNat_lt; have g2 := b2.toNat_lt
    have s0 := shl_toNat [b0, b1, b2] 0 2 (by omega)
    have s1 := shl_toNat [b0, b1, b2] 1 1 (by omega)
    simp only [List.getD_cons_zero, List.getD_cons_succ] at s0 s1
    have e1 := or_add (shl [b0, b1, b2] 0 2) (shl [b0, b1, b2] 1 1) 16 (by omega) (by omega)
    have e2 := or_add (shl [b0, b1, b2] 0 2 ||| shl [b0, b1, b2] 1 1) b2.toUInt64 8 (by simpa using g2) (by omega)
    simp only [sizeOf, List.length_cons, List.length_nil, List.getD_cons_zero, List.getD_cons_succ]
    rw [e2, e1, s0, s1]
    simp [beNat]; omega
  | [b0, b1, b2, b3], h =>
    subst h
    have g0 := b0.toNat_lt; have g1 := b1.toNat_lt; have g2 := b2.toNat_lt; have g3 := b3.toNat_lt
    have s0 := shl_toNat [b0, b1, b2, b3] 0 3 (by omega)
    have s1 := shl_toNat [b0, b1, b2, b3] 1 2 (by omega)
    have s2 := shl_toNat [b0, b1, b2, b3] 2 1 (by omega)
    simp only [List.getD_cons_zero, List.getD_cons_succ] at s0 s1 s2
    generalize hx0 : shl [b0, b1, b2, b3] 0 3 = x0 at s0
    generalize hx1 : shl [b0, b1, b2, b3] 1 2 = x1 at s1
    generalize hx2 : shl [b0, b1, b2, b3] 2 1 = x2 at s2
    have e1 := or_add (x0) x1 24 (by omega) (by omega)
    have e2 := or_add (x0 ||| x1) x2 16 (by omega) (by omega)
    have e3 := or_add (x0 ||| x1 ||| x2) b3.toUInt64 8 (by simpa using g3) (by omega)
    simp only [sizeOf, List.length_cons, List.length_nil, List.getD_cons_zero, List.getD_cons_succ, hx0, hx1, hx2]
    rw [e3, e2, e1, s0, s1, s2]
    simp [beNat]; omega
  | [b0, b1, b2, b3, b4], h =>
    subst h
    have g0 := b0.toNat_lt; have g1 := b1.toNat_lt; have g2 := b2.toNat_lt; have g3 := b3.toNat_lt; have g4 := b4.toNat_lt
    have s0 := shl_toNat [b0, b1, b2, b3, b4] 0 4 (by omega)
    have s1 := shl_toNat [b0, b1, b2, b3, b4] 1 3 (by omega)
    have s2 := shl_toNat [b0, b1, b2, b3, b4] 2 2 (by omega)
    have s3 := shl_toNat [b0, b1, b2, b3, b4] 3 1 (by omega)
    simp only [List.getD_cons_zero, List.getD_cons_succ] at s0 s1 s2 s3
    generalize hx0 : shl [b0, b1, b2, b3, b4] 0 4 = x0 at s0
    generalize hx1 : shl [b0, b1, b2, b3, b4] 1 3 = x1 at s1
    generalize hx2 : shl [b0, b1, b2, b3, b4] 2 2 = x2 at s2
    generalize hx3 : shl [b0, b1, b2, b3, b4] 3 1 = x3 at s3
    have e1 := or_add (x0) x1 32 (by omega) (by omega)
    have e2 := or_add (x0 ||| x1) x2 24 (by omega) (by omega)
    have e3 := or_add (x0 ||| x1 ||| x2) x3 16 (by omega) (by omega)
    have e4 := or_add (x0 ||| x1 ||| x2 ||| x3) b4.toUInt64 8 (by simpa using g4) (by omega)
    simp only [sizeOf, List.length_cons, List.length_nil, List.getD_cons_zero, List.getD_cons_succ, hx0, hx1, hx2, hx3]
    rw [e4, e3, e2, e1, s0, s1, s2, s3]
    simp [beNat]; omega
  | [b0, b1, b2, b3, b4, b5], h =>
    subst h
    have g0 := b0.toNat_lt; have g1 := b1.toNat_lt; have g2 := b2.toNat_lt; have g3 := b3.toNat_lt; have g4 := b4.toNat_lt; have g5 := b5.toNat_lt
    have s0 := shl_toNat [b0, b1, b2, b3, b4, b5] 0 5 (by omega)
    have s1 := shl_toNat [b0, b1, b2, b3, b4, b5] 1 4 (by omega)
    have s2 := shl_toNat [b0, b1, b2, b3, b4, b5] 2 3 (by omega)
    have s3 := shl_toNat [b0, b1, b2, b3, b4, b5] 3 2 (by omega)
    have s4 := shl_toNat [b0, b1, b2, b3, b4, b5] 4 1 (by omega)
    simp only [List.getD_cons_zero, List.getD_cons_succ] at s0 s1 s2 s3 s4
    generalize hx0 : shl [b0, b1, b2, b3, b4, b5] 0 5 = x0 at s0
    generalize hx1 : shl [b0, b1, b2, b3, b4, b5] 1 4 = x1 at s1
    generalize hx2 : shl [b0, b1, b2, b3, b4, b5] 2 3 = x2 at s2
    generalize hx3 : shl [b0, b1, b2, b3, b4, b5] 3 2 = x3 at s3
    generalize hx4 : shl [b0, b1, b2, b3, b4, b5] 4 1 = x4 at s4
    have e1 := or_add (x0) x1 40 (by omega) (by omega)
    have e2 := or_add (x0 ||| x1) x2 32 (by omega) (by omega)
    have e3 := or_add (x0 ||| x1 ||| x2) x3 24 (by omega) (by omega)
    have e4 := or_add (x0 ||| x1 ||| x2 ||| x3) x4 16 (by omega) (by omega)
    have e5 := or_add (x0 ||| x1 ||| x2 ||| x3 ||| x4) b5.toUInt64 8 (by simpa using g5) (by omega)
    simp only [sizeOf, List.length_cons, List.length_nil, List.getD_cons_zero, List.getD_cons_succ, hx0, hx1, hx2, hx3, hx4]
    rw [e5, e4, e3, e2, e1, s0, s1, s2, s3, s4]
    simp [beNat]; omega
  | [b0, b1, b2, b3, b4, b5, b6], h =>
    subst h
    have g0 := b0.toNat_lt; have g1 := b1.toNat_lt; have g2 := b2.toNat_lt; have g3 := b3.toNat_lt; have g4 := b4.toNat_lt; have g5 := b5.toNat_lt; have g6 := b6.toNat_lt
    have s0 := shl_toNat [b0, b1, b2, b3, b4, b5, b6] 0 6 (by omega)
    have s1 := shl_toNat [b0, b1, b2, b3, b4, b5, b6] 1 5 (by omega)
    have s2 := shl_toNat [b0, b1, b2, b3, b4, b5, b6] 2 4 (by omega)
    have s3 := shl_toNat [b0, b1, b2, b3, b4, b5, b6] 3 3 (by omega)
    have s4 := shl_toNat [b0, b1, b2, b3, b4, b5, b6] 4 2 (by omega)
    have s5 := shl_toNat [b0, b1, b2, b3, b4, b5, b6] 5 1 (by omega)
    simp only [List.getD_cons_zero, List.getD_cons_succ] at s0 s1 s2 s3 s4 s5
    generalize hx0 : shl [b0, b1, b2, b3, b4, b5, b6] 0 6 = x0 at s0
    generalize hx1 : shl [b0, b1, b2, b3, b4, b5, b6] 1 5 = x1 at s1
    generalize hx2 : shl [b0, b1, b2, b3, b4, b5, b6] 2 4 = x2 at s2
    generalize hx3 : shl [b0, b1, b2, b3, b4, b5, b6] 3 3 = x3 at s3
    generalize hx4 : shl [b0, b1, b2, b3, b4, b5, b6] 4 2 = x4 at s4
    generalize hx5 : shl [b0, b1, b2, b3, b4, b5, b6] 5 1 = x5 at s5
    have e1 := or_add (x0) x1 48 (by omega) (by omega)
    have e2 := or_add (x0 ||| x1) x2 40 (by omega) (by omega)
    have e3 := or_add (x0 ||| x1 ||| x2) x3 32 (by omega) (by omega)
    have e4 := or_add (x0 ||| x1 ||| x2 ||| x3) x4 24 (by omega) (by omega)
    have e5 := or_add (x0 ||| x1 ||| x2 ||| x3 ||| x4) x5 16 (by omega) (by omega)
    have e6 := or_add (x0 ||| x1 ||| x2 ||| x3 ||| x4 ||| x5) b6.toUInt64 8 (by simpa using g6) (by omega)
    simp only [sizeOf, List.length_cons, List.length_nil, List.getD_cons_zero, List.getD_cons_succ, hx0, hx1, hx2, hx3, hx4, hx5]
    rw [e6, e5, e4, e3, e2, e1, s0, s1, s2, s3, s4, s5]
    simp [beNat]; omega
  | [b0, b1, b2, b3, b4, b5, b6, b7], h =>
    subst h
    have g0 := b0.toNat_lt; have g1 := b1.toNat_lt; have g2 := b2.toNat_lt; have g3 := b3.toNat_lt; have g4 := b4.toNat_lt; have g5 := b5.toNat_lt; have g6 := b6.toNat_lt; have g7 := b7.toNat_lt
    have s0 := shl_toNat [b0, b1, b2, b3, b4, b5, b6, b7] 0 7 (by omega)
    have s1 := shl_toNat [b0, b1, b2, b3, b4, b5, b6, b7] 1 6 (by omega)
    have s2 := shl_toNat [b0, b1, b2, b3, b4, b5, b6, b7] 2 5 (by omega)
    have s3 := shl_toNat [b0, b1, b2, b3, b4, b5, b6, b7] 3 4 (by omega)
    have s4 := shl_toNat [b0, b1, b2, b3, b4, b5, b6, b7] 4 3 (by omega)
    have s5 := shl_toNat [b0, b1, b2, b3, b4, b5, b6, b7] 5 2 (by omega)
    have s6 := shl_toNat [b0, b1, b2, b3, b4, b5, b6, b7] 6 1 (by omega)
    simp only [List.getD_cons_zero, List.getD_cons_succ] at s0 s1 s2 s3 s4 s5 s6
    generalize hx0 : shl [b0, b1, b2, b3, b4, b5, b6, b7] 0 7 = x0 at s0
    generalize hx1 : shl [b0, b1, b2, b3, b4, b5, b6, b7] 1 6 = x1 at s1
    generalize hx2 : shl [b0, b1, b2, b3, b4, b5, b6, b7] 2 5 = x2 at s2
    generalize hx3 : shl [b0, b1, b2, b3, b4, b5, b6, b7] 3 4 = x3 at s3
    generalize hx4 : shl [b0, b1, b2, b3, b4, b5, b6, b7] 4 3 = x4 at s4
    generalize hx5 : shl [b0, b1, b2, b3, b4, b5, b6, b7] 5 2 = x5 at s5
    generalize hx6 : shl [b0, b1, b2, b3, b4, b5, b6, b7] 6 1 = x6 at s6
    have e1 := or_add (x0) x1 56 (by omega) (by omega)
    have e2 := or_add (x0 ||| x1) x2 48 (by omega) (by omega)
    have e3 := or_add (x0 ||| x1 ||| x2) x3 40 (by omega) (by omega)
    have e4 := or_add (x0 ||| x1 ||| x2 ||| x3) x4 32 (by omega) (by omega)
    have e5 := or_add (x0 ||| x1 ||| x2 ||| x3 ||| x4) x5 24 (by omega) (by omega)
    have e6 := or_add (x0 ||| x1 ||| x2 ||| x3 ||| x4 ||| x5) x6 16 (by omega) (by omega)
    have e7 := or_add (x0 ||| x1 ||| x2 ||| x3 ||| x4 ||| x5 ||| x6) b7.toUInt64 8 (by simpa using g7) (by omega)
    simp only [sizeOf, List.length_cons, List.length_nil, List.getD_cons_zero, List.getD_cons_succ, hx0, hx1, hx2, hx3, hx4, hx5, hx6]
    rw [e7, e6, e5, e4, e3, e2, e1, s0, s1, s2, s3, s4, s5, s6]
    simp [beNat]; omega
  | _ :: _ :: _ :: _ :: _ :: _ :: _ :: _ :: _ :: _, h => simp at h; omega

end Verif.Rlp

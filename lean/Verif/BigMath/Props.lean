import Verif.BigMath.Model
import Mathlib.Tactic.Ring
import Mathlib.Tactic.NormNum
import Mathlib.Data.Int.ModEq

/-!
# Properties C41 – C44 and C87: 256-bit and nil-aware big integers
-/

namespace Verif.BigMath
open Verif

/-! ### Reduction modulo 2^256 -/

theorem andNat_mod (x : Int) (k : Nat) : (andNat x (2 ^ k - 1) : Int) = x % 2 ^ k := by
  match x with
  | .ofNat a =>
    rw [andNat, Nat.and_two_pow_sub_one_eq_mod]
    simp
  | .negSucc a =>
    rw [andNat]
    have hpos : 0 < 2 ^ k := Nat.two_pow_pos k
    have h1 : (2 ^ k - 1) ^^^ ((2 ^ k - 1) &&& a) = 2 ^ k - (a % 2 ^ k + 1) := by
      have hlt : a % 2 ^ k < 2 ^ k := Nat.mod_lt _ hpos
      apply Nat.eq_of_testBit_eq
      intro i
      rw [Nat.testBit_two_pow_sub_succ hlt, Nat.testBit_xor, Nat.testBit_and, Nat.testBit_two_pow_sub_one,
        Nat.testBit_mod_two_pow]
      by_cases hi : i < k <;> simp [hi]
    rw [h1]
    have hlt : a % 2 ^ k < 2 ^ k := Nat.mod_lt _ hpos
    have hneg : Int.negSucc a = (2 ^ k - 1 - ((a % 2 ^ k : Nat) : Int)) + 2 ^ k * (- ((a / 2 ^ k : Nat) : Int) - 1) := by
      have := Nat.div_add_mod a (2 ^ k)
      have e : (a : Int) = 2 ^ k * ((a / 2 ^ k : Nat) : Int) + ((a % 2 ^ k : Nat) : Int) := by
        exact_mod_cast this.symm
      rw [Int.negSucc_eq]
      conv_lhs => rw [e]
      ring
    rw [hneg, Int.add_mul_emod_self_left, Int.emod_eq_of_lt]
    · have hc : ((2 ^ k : Nat) : Int) = (2 : Int) ^ k := by push_cast; rfl
      omega
    · have hc : ((2 ^ k : Nat) : Int) = (2 : Int) ^ k := by push_cast; rfl
      omega
    · have hc : ((2 ^ k : Nat) : Int) = (2 : Int) ^ k := by push_cast; rfl
      omega

/-- **C41, U256.** Reduction modulo 2^256, for negative numbers as well. -/
theorem C41_u256 (x : Int) : u256 x = x % 2 ^ 256 := andNat_mod x 256

/-- `U256` changes its argument and nothing else. -/
theorem C41_u256_inplace (h : Heap) (i : Nat) (hi : i < h.length) :
    (u256H h i).2 = some i ∧ (u256H h i).1.at i = h.at i % 2 ^ 256 ∧ ∀ j, j ≠ i → (u256H h i).1.at j = h.at j := by
  refine ⟨rfl, ?_, ?_⟩
  · simp [u256H, Heap.at, hi, C41_u256]
  · intro j hj
    simp [u256H, Heap.at, hj.symm]

/-- `v` is the two's complement value of the word `x`. -/
def TwosComplement (x v : Int) : Prop := -2 ^ 255 ≤ v ∧ v < 2 ^ 255 ∧ v % 2 ^ 256 = x

theorem at_append_lt {h : Heap} {l : List Int} {j : Nat} (hj : j < h.length) : Heap.at (h ++ l) j = h.at j := by
  simp only [Heap.at, List.getD_eq_getElem?_getD]
  rw [List.getElem?_append_left hj]

theorem at_append_new (h : Heap) (v : Int) : Heap.at (h ++ [v]) h.length = v := by simp [Heap.at]

/-- **C41, S256.** The two's complement value; no existing number changes. -/
theorem C41_s256 (h : Heap) (i : Nat) (h0 : 0 ≤ h.at i) (h1 : h.at i < 2 ^ 256) :
    ∃ j, (s256H h i).2 = some j ∧ TwosComplement (h.at i) ((s256H h i).1.at j) ∧
      u256 ((s256H h i).1.at j) = h.at i ∧ ∀ k < h.length, (s256H h i).1.at k = h.at k := by
  rw [s256H]
  split
  · rename_i hlt
    refine ⟨i, rfl, ⟨(show -2 ^ 255 ≤ h.at i by omega), hlt, Int.emod_eq_of_lt h0 h1⟩, ?_, fun _ _ => rfl⟩
    rw [C41_u256]
    exact Int.emod_eq_of_lt h0 h1
  · rename_i hlt
    have hv : (h.at i - 2 ^ 256) % 2 ^ 256 = h.at i := by
      rw [Int.sub_emod_right]
      exact Int.emod_eq_of_lt h0 h1
    refine ⟨h.length, rfl, ?_, ?_, ?_⟩
    · simp only [alloc]
      rw [at_append_new]
      exact ⟨by omega, by omega, hv⟩
    · simp only [alloc]
      rw [at_append_new, C41_u256, hv]
    · intro k hk
      exact at_append_lt hk

/-! ### Byte forms -/

theorem natBE_add (a b n : Nat) : natBE (a + b) n = natBE a (n / 256 ^ b) ++ natBE b n := by
  induction b generalizing n with
  | zero => simp [natBE]
  | succ b ih =>
    rw [← Nat.add_assoc, natBE, ih, natBE, ← List.append_assoc, Nat.div_div_eq_div_mul, ← Nat.pow_succ']

theorem natBE_mod (b c n : Nat) (h : b ≤ c) : natBE b (n % 256 ^ c) = natBE b n := by
  apply beNat_inj
  · rw [natBE_length, natBE_length]
  · rw [beNat_natBE, beNat_natBE, Nat.mod_mod_of_dvd _ (Nat.pow_dvd_pow 256 h)]

theorem natBE_zero (a : Nat) : natBE a 0 = List.replicate a 0 := by
  induction a with
  | zero => rfl
  | succ a ih => rw [natBE, ih, List.replicate_succ']; rfl

theorem putWord_spec (j : Nat) : ∀ (i d : Nat) (buf : Bytes), i ≤ buf.length →
    putWord j i d buf = (i - j, buf.take (i - j) ++ natBE (min i j) d ++ buf.drop i) := by
  induction j with
  | zero =>
    intro i d buf hi
    simp [putWord, natBE]
  | succ j ih =>
    intro i d buf hi
    match i with
    | 0 => simp [putWord, natBE]
    | i + 1 =>
      have hx : UInt8.ofNat d = UInt8.ofNat (d % 256) := by
        apply UInt8.toNat_inj.1
        simp [UInt8.toNat_ofNat']
      rw [putWord, ih i _ _ (by simp; omega), Nat.add_sub_add_right, Nat.add_min_add_right, natBE,
        Nat.shiftRight_eq_div_pow, show (2 : Nat) ^ 8 = 256 from rfl]
      refine congrArg (Prod.mk _) ?_
      have h1 : (buf.set i (UInt8.ofNat d)).take (i - j) = buf.take (i - j) := by
        rw [List.take_set_of_le (by omega)]
      have h2 : (buf.set i (UInt8.ofNat d)).drop i = UInt8.ofNat (d % 256) :: buf.drop (i + 1) := by
        rw [List.drop_set, if_neg (by omega), Nat.sub_self, hx, List.drop_eq_getElem_cons (by omega)]
        rfl
      rw [h1, h2]
      simp


theorem readLoop_spec (n : Nat) : ∀ (i : Nat) (buf : Bytes), i ≤ buf.length → buf.take i = List.replicate i 0 →
    readLoop (words n) i buf = natBE i n ++ buf.drop i := by
  induction n using Nat.strongRecOn with
  | _ n ih =>
    intro i buf hi hz
    rw [words]
    by_cases hn : n = 0
    · subst hn
      simp only [dif_pos, readLoop]
      rw [natBE_zero, ← hz, List.take_append_drop]
    · rw [dif_neg hn, readLoop, putWord_spec 8 i _ buf hi]
      simp only
      have hlen : (buf.take (i - 8)).length = i - 8 := by rw [List.length_take]; omega
      have ht : (buf.take (i - 8) ++ natBE (min i 8) (n % 2 ^ 64) ++ buf.drop i).take (i - 8) = buf.take (i - 8) := by
        rw [List.append_assoc, List.take_append_of_le_length (by omega), List.take_of_length_le (by omega)]
      have hd : (buf.take (i - 8) ++ natBE (min i 8) (n % 2 ^ 64) ++ buf.drop i).drop (i - 8) =
          natBE (min i 8) (n % 2 ^ 64) ++ buf.drop i := by
        rw [List.append_assoc, List.drop_append_of_le_length (by omega), List.drop_of_length_le (by omega),
          List.nil_append]
      rw [ih (n / 2 ^ 64) (Nat.div_lt_self (by omega) (by decide)), hd, ← List.append_assoc]
      · refine congrArg (· ++ buf.drop i) ?_
        rw [show (2 : Nat) ^ 64 = 256 ^ 8 by norm_num, natBE_mod _ 8 _ (Nat.min_le_right _ _)]
        by_cases h8 : 8 ≤ i
        · rw [Nat.min_eq_right h8, ← natBE_add, Nat.sub_add_cancel h8]
        · rw [Nat.min_eq_left (by omega), show i - 8 = 0 by omega, natBE, List.nil_append]
      · simp only [List.length_append, hlen]; omega
      · rw [ht]
        have : buf.take (i - 8) = (buf.take i).take (i - 8) := by rw [List.take_take, Nat.min_eq_left (by omega)]
        rw [this, hz, List.take_replicate, Nat.min_eq_left (by omega)]

theorem readBits_zero (x : Int) (n : Nat) : readBits x (List.replicate n 0) = natBE n x.natAbs := by
  rw [readBits, List.length_replicate, readLoop_spec _ _ _ (by simp) (by simp)]
  simp

theorem natBytes_len_le (n k : Nat) (h : n < 256 ^ k) : (natBytes n).length ≤ k := by
  induction k generalizing n with
  | zero => have : n = 0 := by simpa using h
            subst this; rw [natBytes_zero]; simp
  | succ k ih =>
    by_cases hn : n = 0
    · subst hn; rw [natBytes_zero]; simp
    · rw [natBytes_pos hn, List.length_append]
      have := ih (n / 256) (by rw [Nat.div_lt_iff_lt_mul (by decide)]; rw [Nat.pow_succ] at h; exact h)
      simp only [List.length_singleton]
      omega

theorem bitLen_spec (n : Nat) : n < 2 ^ bitLen n ∧ (n ≠ 0 → 2 ^ (bitLen n - 1) ≤ n) := by
  rw [bitLen]
  split
  · rename_i h; subst h; simp
  · rename_i h
    refine ⟨Nat.lt_log2_self, fun _ => ?_⟩
    rw [Nat.add_sub_cancel]
    exact Nat.log2_self_le h

/-- Zeros in front of the minimal form, at least `n` bytes in all. -/
def leftPadded (x : Nat) (n : Nat) : Bytes := List.replicate (n - (natBytes x).length) 0 ++ natBytes x

/-- **C41, padded form.** `PaddedBigBytes` is the minimal big-endian form of the absolute value, padded with zeros on the
left to at least `n` bytes; it decodes to the absolute value. -/
theorem C41_padded (x : Int) (n : Nat) :
    paddedBigBytes x n = leftPadded x.natAbs n ∧ beNat (paddedBigBytes x n) = x.natAbs := by
  have hr : ∀ k, beNat (List.replicate k 0) = 0 := by
    intro k
    rw [← natBE_zero, beNat_natBE, Nat.zero_mod]
  have hval : beNat (leftPadded x.natAbs n) = x.natAbs := by
    rw [leftPadded, beNat_append, hr, beNat_natBytes]; simp
  suffices h : paddedBigBytes x n = leftPadded x.natAbs n by exact ⟨h, by rw [h, hval]⟩
  obtain ⟨hb1, hb2⟩ := bitLen_spec x.natAbs
  rw [paddedBigBytes]
  split
  · rename_i h
    have : n - (natBytes x.natAbs).length = 0 := by
      by_cases hn : n = 0
      · omega
      · have hx : x.natAbs ≠ 0 := by
          intro h0
          rw [h0] at h
          simp [bitLen] at h
          omega
        have h1 := hb2 hx
        have h2 := beNat_lt (natBytes x.natAbs)
        rw [beNat_natBytes] at h2
        by_contra hc
        have h3 : (natBytes x.natAbs).length ≤ n - 1 := by omega
        have h4 : (256 : Nat) ^ (natBytes x.natAbs).length ≤ 256 ^ (n - 1) := Nat.pow_le_pow_right (by decide) h3
        have h5 : (256 : Nat) ^ (n - 1) ≤ 2 ^ (bitLen x.natAbs - 1) := by
          rw [show (256 : Nat) = 2 ^ 8 by norm_num, ← Nat.pow_mul]
          exact Nat.pow_le_pow_right (by decide) (by omega)
        omega
    rw [leftPadded, this]
    rfl
  · rename_i h
    rw [readBits_zero]
    have hlt : x.natAbs < 256 ^ n := by
      refine Nat.lt_of_lt_of_le hb1 ?_
      rw [show (256 : Nat) = 2 ^ 8 by norm_num, ← Nat.pow_mul]
      exact Nat.pow_le_pow_right (by decide) (by omega)
    have hl := natBytes_len_le _ _ hlt
    apply beNat_inj
    · rw [natBE_length, leftPadded, List.length_append, List.length_replicate]; omega
    · rw [beNat_natBE_of_lt hlt, hval]

/-- **C41, words as bytes.** `U256Bytes` is the 32-byte big-endian form of the number modulo 2^256. -/
theorem C41_u256Bytes (x : Int) : u256Bytes x = natBE 32 (x % 2 ^ 256).toNat := by
  have h1 := (C41_padded (u256 x) 32).2
  have h2 := (C41_padded (u256 x) 32).1
  have h0 : 0 ≤ x % 2 ^ 256 := Int.emod_nonneg _ (by norm_num)
  have hm : x % 2 ^ 256 < 2 ^ 256 := Int.emod_lt_of_pos _ (by norm_num)
  have hlt : (x % 2 ^ 256).toNat < 256 ^ 32 := by
    rw [show (256 : Nat) ^ 32 = 2 ^ 256 by norm_num]; omega
  have hn : (u256 x).natAbs = (x % 2 ^ 256).toNat := by rw [C41_u256]; omega
  rw [hn] at h1 h2
  apply beNat_inj
  · rw [u256Bytes, h2, natBE_length, leftPadded, List.length_append, List.length_replicate]
    have := natBytes_len_le _ _ hlt
    omega
  · rw [u256Bytes, h1, beNat_natBE_of_lt hlt]

theorem words_get (n : Nat) : ∀ k, (words n)[k]?.getD 0 = n / 2 ^ (64 * k) % 2 ^ 64 := by
  induction n using Nat.strongRecOn with
  | _ n ih =>
    intro k
    rw [words]
    by_cases hn : n = 0
    · subst hn; simp
    · rw [dif_neg hn]
      cases k with
      | zero => simp
      | succ k =>
        rw [List.getElem?_cons_succ, ih _ (Nat.div_lt_self (by omega) (by decide)), Nat.div_div_eq_div_mul, ← Nat.pow_add]
        congr 3
        omega

theorem byteAt_spec (x : Int) (k : Nat) : (bigEndianByteAt x k).toNat = x.natAbs / 256 ^ k % 256 := by
  have hw := words_get x.natAbs (k / 8)
  have main : ∀ w, w = x.natAbs / 2 ^ (64 * (k / 8)) % 2 ^ 64 →
      (UInt8.ofNat (w >>> (8 * (k % 8)))).toNat = x.natAbs / 256 ^ k % 256 := by
    rintro w rfl
    rw [UInt8.toNat_ofNat', Nat.shiftRight_eq_div_pow, show (2 : Nat) ^ 64 = 2 ^ (8 * (k % 8)) * 2 ^ (64 - 8 * (k % 8)) by
      rw [← Nat.pow_add]; congr 1; omega, Nat.mod_mul_right_div_self, Nat.div_div_eq_div_mul, ← Nat.pow_add,
      show (256 : Nat) ^ k = 2 ^ (8 * k) by rw [show (256 : Nat) = 2 ^ 8 by norm_num, ← Nat.pow_mul],
      show 64 * (k / 8) + 8 * (k % 8) = 8 * k by omega]
    rw [Nat.mod_mod_of_dvd]
    rw [show (2 : Nat) ^ 8 = 2 ^ 8 from rfl]
    exact Nat.pow_dvd_pow 2 (by omega)
  rw [bigEndianByteAt]
  cases hg : (words x.natAbs)[k / 8]? with
  | none =>
    rw [hg] at hw
    have := main 0 hw
    rw [← this]
    simp
  | some w =>
    rw [hg] at hw
    exact main w hw

theorem natBE_get (len n i : Nat) (hi : i < len) : ((natBE len n)[i]?.getD 0).toNat = n / 256 ^ (len - 1 - i) % 256 := by
  induction len generalizing n i with
  | zero => omega
  | succ k ih =>
    rw [natBE]
    by_cases h : i < k
    · rw [List.getElem?_append_left (by rw [natBE_length]; exact h), ih _ _ h, Nat.div_div_eq_div_mul, ← Nat.pow_succ']
      congr 3
      omega
    · have : i = k := by omega
      subst this
      rw [List.getElem?_append_right (by rw [natBE_length]), natBE_length]
      simp

/-- **C41, single bytes.** `Byte(x, pad, i)` is byte `i` of the `pad`-byte big-endian form of the absolute value, zero
beyond its end. -/
theorem C41_byte (x : Int) (pad i : Nat) : byteOf x pad i = (natBE pad x.natAbs)[i]?.getD 0 := by
  rw [byteOf]
  split
  · rename_i h
    rw [List.getElem?_eq_none (by rw [natBE_length]; exact h)]
    rfl
  · rename_i h
    apply UInt8.toNat_inj.1
    rw [byteAt_spec, natBE_get _ _ _ (by omega)]

example : u256 (-1) = 2 ^ 256 - 1 ∧ (s256H [2 ^ 256 - 1] 0) = ([2 ^ 256 - 1, -1], some 1) ∧
    paddedBigBytes 258 4 = [0, 0, 1, 2] ∧ byteOf 258 4 2 = 1 ∧ u256Bytes (-2) = List.replicate 31 255 ++ [254] := by
  decide +kernel

/-! ### Exponentiation -/

theorem u256_modEq (x : Int) : u256 x ≡ x [ZMOD 2 ^ 256] := by rw [C41_u256]; exact Int.mod_modEq _ _

theorem u256_range (x : Int) : 0 ≤ u256 x ∧ u256 x < 2 ^ 256 := by
  rw [C41_u256]; exact ⟨Int.emod_nonneg _ (by norm_num), Int.emod_lt_of_pos _ (by norm_num)⟩

theorem expBits_spec (k : Nat) : ∀ (w : Nat) (r b : Int), (expBits k w r b).1 ≡ r * b ^ (w % 2 ^ k) [ZMOD 2 ^ 256] ∧
    (expBits k w r b).2 ≡ b ^ (2 ^ k) [ZMOD 2 ^ 256] ∧
    (0 ≤ r ∧ r < 2 ^ 256 → 0 ≤ (expBits k w r b).1 ∧ (expBits k w r b).1 < 2 ^ 256) ∧
    (0 < k ∨ (0 ≤ b ∧ b < 2 ^ 256) → 0 ≤ (expBits k w r b).2 ∧ (expBits k w r b).2 < 2 ^ 256) := by
  induction k with
  | zero =>
    intro w r b
    refine ⟨?_, ?_, id, ?_⟩
    · simp [expBits, Nat.mod_one]
    · simp [expBits]
    · rintro (h | h)
      · omega
      · exact h
  | succ k ih =>
    intro w r b
    rw [expBits]
    obtain ⟨h1, h2, h3, h4⟩ := ih (w >>> 1) (if w &&& 1 = 1 then u256 (r * b) else r) (u256 (b * b))
    have hw1 : w &&& 1 = w % 2 := Nat.and_one_is_mod w
    have hw2 : w >>> 1 = w / 2 := by rw [Nat.shiftRight_eq_div_pow]
    have hb : u256 (b * b) ≡ b ^ 2 [ZMOD 2 ^ 256] := by rw [pow_two]; exact u256_modEq _
    refine ⟨?_, ?_, ?_, ?_⟩
    · refine h1.trans ?_
      have hr : (if w &&& 1 = 1 then u256 (r * b) else r) ≡ r * b ^ (w % 2) [ZMOD 2 ^ 256] := by
        rw [hw1]
        split
        · rename_i h; rw [h, pow_one]; exact u256_modEq _
        · rename_i h; rw [show w % 2 = 0 by omega, pow_zero, mul_one]
      refine (hr.mul (hb.pow _)).trans ?_
      rw [hw2, mul_assoc, ← pow_mul, ← pow_add]
      rw [show w % 2 + 2 * (w / 2 % 2 ^ k) = w % 2 ^ (k + 1) by rw [Nat.pow_succ', Nat.mod_mul]]
    · refine h2.trans ((hb.pow _).trans ?_)
      rw [← pow_mul, ← pow_succ']
    · intro hr
      apply h3
      split
      · exact u256_range _
      · exact hr
    · intro _
      exact h4 (Or.inr (u256_range _))

/-- The number with the given words. -/
def ofWords : List Nat → Nat
  | [] => 0
  | w :: ws => w + 2 ^ 64 * ofWords ws

theorem ofWords_words (n : Nat) : ofWords (words n) = n ∧ ∀ w ∈ words n, w < 2 ^ 64 := by
  induction n using Nat.strongRecOn with
  | _ n ih =>
    rw [words]
    by_cases hn : n = 0
    · subst hn; simp [ofWords]
    · rw [dif_neg hn]
      obtain ⟨h1, h2⟩ := ih (n / 2 ^ 64) (Nat.div_lt_self (by omega) (by decide))
      constructor
      · rw [ofWords, h1]; exact Nat.mod_add_div n _
      · intro w hw
        rw [List.mem_cons] at hw
        rcases hw with rfl | hw
        · exact Nat.mod_lt _ (by decide)
        · exact h2 w hw

theorem expWords_spec (ws : List Nat) (hws : ∀ w ∈ ws, w < 2 ^ 64) : ∀ (r b : Int),
    (expWords ws r b).1 ≡ r * b ^ ofWords ws [ZMOD 2 ^ 256] ∧
    (expWords ws r b).2 ≡ b ^ (2 ^ (64 * ws.length)) [ZMOD 2 ^ 256] ∧
    (0 ≤ r ∧ r < 2 ^ 256 → 0 ≤ (expWords ws r b).1 ∧ (expWords ws r b).1 < 2 ^ 256) ∧
    (ws ≠ [] ∨ (0 ≤ b ∧ b < 2 ^ 256) → 0 ≤ (expWords ws r b).2 ∧ (expWords ws r b).2 < 2 ^ 256) := by
  induction ws with
  | nil =>
    intro r b
    refine ⟨by simp [expWords, ofWords], by simp [expWords], id, ?_⟩
    rintro (h | h)
    · exact absurd rfl h
    · exact h
  | cons w ws ih =>
    intro r b
    rw [expWords]
    obtain ⟨a1, a2, a3, a4⟩ := expBits_spec 64 w r b
    rw [Nat.mod_eq_of_lt (hws w (by simp))] at a1
    generalize expBits 64 w r b = p at a1 a2 a3 a4
    obtain ⟨h1, h2, h3, h4⟩ := ih (fun x hx => hws x (by simp [hx])) p.1 p.2
    refine ⟨?_, ?_, fun hr => h3 (a3 hr), fun _ => h4 (Or.inr (a4 (Or.inl (by decide))))⟩
    · refine h1.trans ((a1.mul (a2.pow _)).trans ?_)
      rw [mul_assoc, ← pow_mul, ← pow_add]
      rfl
    · refine h2.trans ((a2.pow _).trans ?_)
      rw [← pow_mul, ← pow_add, List.length_cons]
      rw [show 64 + 64 * ws.length = 64 * (ws.length + 1) by ring]

theorem modEq_range {a b m : Int} (h : a ≡ b [ZMOD m]) (h0 : 0 ≤ a) (h1 : a < m) : a = b % m := by
  have := h.eq
  rw [Int.emod_eq_of_lt h0 h1] at this
  exact this

/-- **C42, value (partial).** `Exp` returns `base ^ |exponent|` modulo 2^256 in a new number, and every number other than
the base keeps its value.  Missing: the base keeps its value, which is refuted by `C42_base_changed_refuted`; and the sign
of the exponent is ignored. -/
theorem C42_exp_partial (h : Heap) (base e : Nat) :
    ∃ j, (expH h base e).2 = some j ∧ h.length ≤ j ∧ (expH h base e).1.at j = h.at base ^ (h.at e).natAbs % 2 ^ 256 ∧
      ∀ k < h.length, k ≠ base → (expH h base e).1.at k = h.at k := by
  obtain ⟨hw, hl⟩ := ofWords_words (h.at e).natAbs
  obtain ⟨h1, -, h3, -⟩ := expWords_spec _ hl 1 (h.at base)
  rw [hw, one_mul] at h1
  rw [expH]
  generalize expWords (words (h.at e).natAbs) 1 (h.at base) = p at h1 h3
  refine ⟨(h.set base p.2).length, rfl, by simp, ?_, ?_⟩
  · simp only [alloc]
    rw [at_append_new]
    have := h3 ⟨by norm_num, by norm_num⟩
    exact modEq_range h1 this.1 this.2
  · intro k hk hne
    simp only [alloc]
    rw [at_append_lt (by simpa using hk)]
    simp [Heap.at, hne.symm]

/-- What becomes of the base: for a non-zero exponent of `w` words it is `base ^ (2 ^ (64 w))` modulo 2^256. -/
theorem C42_base_after (h : Heap) (base e : Nat) (hb : base < h.length) (he : h.at e ≠ 0) :
    (expH h base e).1.at base = h.at base ^ (2 ^ (64 * (words (h.at e).natAbs).length)) % 2 ^ 256 := by
  obtain ⟨hw, hl⟩ := ofWords_words (h.at e).natAbs
  obtain ⟨-, h2, -, h4⟩ := expWords_spec _ hl 1 (h.at base)
  have hne : words (h.at e).natAbs ≠ [] := by
    intro h0
    rw [h0] at hw
    simp only [ofWords] at hw
    omega
  have hr := h4 (Or.inl hne)
  rw [expH]
  generalize expWords (words (h.at e).natAbs) 1 (h.at base) = p at h2 hr
  simp only [alloc]
  rw [at_append_lt (by simpa using hb)]
  have : Heap.at (h.set base p.2) base = p.2 := by simp [Heap.at, hb]
  rw [this]
  exact modEq_range h2 hr.1 hr.2

/-- **C42, refutation.** `Exp` changes its base: `Exp(2, 1)` leaves zero in the base. -/
theorem C42_base_changed_refuted : ¬ ∀ (h : Heap) (b e : Nat), b < h.length → (expH h b e).1.at b = h.at b := by
  intro hall
  have := hall [2, 1] 0 1 (by decide)
  revert this
  decide +kernel

example : (expH [3, 5] 0 1).1.at 2 = 243 ∧ (expH [-1, 3] 0 1).1.at 2 = 2 ^ 256 - 1 ∧ (expH [7, 0] 0 1).1 = [7, 0, 1] ∧
    (expH [3] 0 0).1.at 1 = 27 := by decide +kernel

/-! ### Comparison -/

/-- The value behind a pointer; nil is `none`. -/
def val? (h : Heap) : Ptr → Option Int
  | none => none
  | some i => some (h.at i)

/-- nil counts as zero. -/
def val (h : Heap) (p : Ptr) : Int := (val? h p).getD 0

/-- Order on possibly missing numbers: a missing one is the smallest. -/
def LeOpt : Option Int → Option Int → Prop
  | none, _ => True
  | some _, none => False
  | some a, some b => a ≤ b

theorem cmp_cases (a b : Int) : (a < b ∧ cmp a b = -1) ∨ (a = b ∧ cmp a b = 0) ∨ (b < a ∧ cmp a b = 1) := by
  unfold cmp
  split
  · left; exact ⟨by assumption, rfl⟩
  · split
    · right; left; exact ⟨by assumption, rfl⟩
    · right; right; exact ⟨by omega, rfl⟩

/-- **C43, CompareBigInt.** It compares the values, with nil below every number; so it is a total order on values. -/
theorem C43_compareBigInt (h : Heap) (a b : Ptr) :
    (compareBigInt h a b ≤ 0 ↔ LeOpt (val? h a) (val? h b)) ∧ (compareBigInt h a b = 0 ↔ val? h a = val? h b) ∧
      compareBigInt h b a = - compareBigInt h a b := by
  unfold compareBigInt
  by_cases hab : a = b
  · subst hab
    simp only [if_true]
    refine ⟨?_, by simp, by simp⟩
    cases a <;> simp [val?, LeOpt]
  · rw [if_neg hab, if_neg (Ne.symm hab)]
    cases a with
    | none =>
      cases b with
      | none => exact absurd rfl hab
      | some j => simp [val?, LeOpt]
    | some i =>
      cases b with
      | none => simp [val?, LeOpt]
      | some j =>
        simp only [val?, LeOpt, Option.some.injEq]
        rcases cmp_cases (h.at i) (h.at j) with ⟨h1, h2⟩ | ⟨h1, h2⟩ | ⟨h1, h2⟩ <;>
        rcases cmp_cases (h.at j) (h.at i) with ⟨g1, g2⟩ | ⟨g1, g2⟩ | ⟨g1, g2⟩ <;>
        omega

theorem C43_order (h : Heap) : (∀ a, compareBigInt h a a = 0) ∧
    (∀ a b c, compareBigInt h a b ≤ 0 → compareBigInt h b c ≤ 0 → compareBigInt h a c ≤ 0) := by
  constructor
  · intro a; simp [compareBigInt]
  · intro a b c h1 h2
    rw [(C43_compareBigInt h _ _).1] at *
    cases ha : val? h a <;> cases hb : val? h b <;> cases hc : val? h c <;> simp_all [LeOpt]
    omega

/-- **C43, BigInt.Compare (partial).** It is reflexive and antisymmetric in sign for all operands, and on nil and
non-negative numbers it compares the values with nil as zero, hence is transitive there.  Missing: transitivity with
negative numbers, refuted by `C43_transitivity_refuted`. -/
theorem C43_compare_partial (h : Heap) (a b : Ptr) : compare h a a = 0 ∧ compare h b a = - compare h a b ∧
    (0 ≤ val h a → 0 ≤ val h b → compare h a b = cmp (val h a) (val h b)) := by
  have hz : ∀ p, isZero h p = true ↔ val h p = 0 := by
    intro p; cases p <;> simp [isZero, val, val?]
  refine ⟨?_, ?_, ?_⟩
  · simp [compare, compareBigInt]
  · unfold compare
    rw [Bool.and_comm]
    split
    · rfl
    · exact (C43_compareBigInt h a b).2.2
  · intro ha hb
    unfold compare
    split
    · rename_i hc
      rw [Bool.and_eq_true, hz, hz] at hc
      rw [hc.1, hc.2]; rfl
    · rename_i hc
      rw [Bool.and_eq_true, hz, hz] at hc
      unfold compareBigInt
      by_cases hab : a = b
      · subst hab
        simp [cmp]
      · rw [if_neg hab]
        cases a with
        | none =>
          cases b with
          | none => exact absurd rfl hab
          | some j =>
            have e1 : val h none = 0 := rfl
            have e2 : val h (some j) = h.at j := rfl
            rw [e1, e2] at hc ⊢
            rw [e2] at hb
            unfold cmp
            rw [if_pos (by omega)]
        | some i =>
          cases b with
          | none =>
            have e1 : val h none = 0 := rfl
            have e2 : val h (some i) = h.at i := rfl
            rw [e1, e2] at hc ⊢
            rw [e2] at ha
            unfold cmp
            rw [if_neg (by omega), if_neg (by omega)]
          | some j => rfl

/-- **C43, refutation.** nil is below −1, −1 is below 0, and yet nil equals 0. -/
theorem C43_transitivity_refuted : ¬ ∀ (h : Heap) (a b c : Ptr), compare h a b < 0 → compare h b c < 0 → compare h a c < 0 := by
  intro hall
  have := hall [-1, 0] none (some 0) (some 1) (by decide) (by decide)
  revert this
  decide

example : compare [3, 5, 3] (some 0) (some 2) = 0 ∧ compare [3, 5, 0] none (some 2) = 0 ∧
    compare [3, 5] none (some 1) = -1 := by decide

/-! ### In-place arithmetic -/

/-- A pointer into the heap. -/
def InHeap (h : Heap) (p : Ptr) : Prop := ∀ i, p = some i → i < h.length

/-- No number of `h` other than the one behind `p` has another value in `h'`. -/
def OnlyChanges (h h' : Heap) (p : Ptr) : Prop :=
  h.length ≤ h'.length ∧ ∀ k < h.length, p ≠ some k → h'.at k = h.at k

theorem at_set (h : Heap) (i : Nat) (v : Int) (hi : i < h.length) : Heap.at (h.set i v) i = v := by
  simp [Heap.at, hi]

theorem at_set_ne (h : Heap) {i k : Nat} (v : Int) (hk : i ≠ k) : Heap.at (h.set i v) k = h.at k := by
  simp [Heap.at, hk]

theorem onlyChanges_refl (h : Heap) (p : Ptr) : OnlyChanges h h p := ⟨Nat.le_refl _, fun _ _ _ => rfl⟩

theorem onlyChanges_set (h : Heap) (i : Nat) (v : Int) : OnlyChanges h (h.set i v) (some i) :=
  ⟨by simp, fun k _ hne => at_set_ne h v (by simpa using hne)⟩

theorem onlyChanges_append (h : Heap) (l : List Int) (p : Ptr) : OnlyChanges h (h ++ l) p :=
  ⟨by simp, fun _ hk _ => at_append_lt hk⟩

/-- What an in-place operation must do: return `v`, touch only the receiver. -/
def Computes (h : Heap) (b : Ptr) (r : Heap × Ptr) (v : Int) : Prop :=
  val r.1 r.2 = v ∧ OnlyChanges h r.1 b ∧ InHeap r.1 r.2

theorem computes_alloc (h : Heap) (p : Ptr) (v : Int) : Computes h p (alloc h v) v := by
  refine ⟨?_, onlyChanges_append _ _ _, ?_⟩
  · simp only [val, val?, alloc, Option.getD_some]; exact at_append_new h v
  · intro i hi; simp [alloc] at hi ⊢; omega

theorem computes_set (h : Heap) (i : Nat) (v : Int) (hi : i < h.length) : Computes h (some i) (h.set i v, some i) v := by
  refine ⟨?_, onlyChanges_set h i v, ?_⟩
  · simp only [val, val?, Option.getD_some]; exact at_set h i v hi
  · intro j hj; cases hj; simpa using hi

/-- **C87, addition and subtraction.** The result is the sum (difference) with nil as zero, and no number but the receiver
changes. -/
theorem C87_add_sub (h : Heap) (b a : Ptr) (hb : InHeap h b) :
    Computes h b (addInt h b a) (val h b + val h a) ∧ Computes h b (subInt h b a) (val h b - val h a) := by
  cases a with
  | none => exact ⟨⟨by simp [addInt, val, val?], onlyChanges_refl _ _, hb⟩, ⟨by simp [subInt, val, val?], onlyChanges_refl _ _, hb⟩⟩
  | some j =>
    cases b with
    | none =>
      refine ⟨?_, ?_⟩
      · have := computes_alloc h none (h.at j); simpa [addInt, val, val?] using this
      · have := computes_alloc h none (0 - h.at j); simpa [subInt, val, val?] using this
    | some i => exact ⟨computes_set h i _ (hb i rfl), computes_set h i _ (hb i rfl)⟩

/-- **C87, multiplication.** The product with nil as zero; a zero argument gives nil and leaves the receiver alone. -/
theorem C87_mul (h : Heap) (b a : Ptr) (hb : InHeap h b) : Computes h b (mulInt h b a) (val h b * val h a) := by
  cases b with
  | none => exact ⟨by simp [mulInt, val, val?], onlyChanges_refl _ _, by intro i hi; cases hi⟩
  | some i =>
    cases a with
    | none => exact ⟨by simp [mulInt, val, val?], onlyChanges_refl _ _, by intro i hi; cases hi⟩
    | some j =>
      simp only [mulInt]
      split
      · rename_i h0
        exact ⟨by simp [val, val?, h0], onlyChanges_refl _ _, by intro i hi; cases hi⟩
      · exact computes_set h i _ (hb i rfl)

/-- **C87, division.** Division by zero or nil panics; otherwise the Euclidean quotient. -/
theorem C87_div (h : Heap) (b a : Ptr) (hb : InHeap h b) :
    (divInt h b a = .panic ↔ val h a = 0) ∧
      ∀ r, divInt h b a = .ok r → ∃ q m, Computes h b r q ∧ val h b = val h a * q + m ∧ 0 ≤ m ∧ m < |val h a| := by
  have hz : isZero h a = true ↔ val h a = 0 := by cases a <;> simp [isZero, val, val?]
  by_cases h0 : isZero h a = true
  · have hp : divInt h b a = .panic := by rw [divInt.eq_def, if_pos h0]
    rw [hp]
    exact ⟨by simp [hz.1 h0], by intro r hr; cases hr⟩
  · have hne : val h a ≠ 0 := fun hc => h0 (hz.2 hc)
    rw [divInt.eq_def, if_neg h0]
    cases a with
    | none => exact absurd rfl hne
    | some j =>
      cases b with
      | none =>
        refine ⟨by simp [hne], ?_⟩
        rintro r hr
        cases hr
        refine ⟨0, 0, ⟨by simp [val, val?], onlyChanges_refl _ _, by intro i hi; cases hi⟩, by simp [val, val?], le_refl _, ?_⟩
        exact abs_pos.2 hne
      | some i =>
        refine ⟨by simp [hne], ?_⟩
        rintro r hr
        cases hr
        refine ⟨_, val h (some i) % val h (some j), computes_set h i _ (hb i rfl), ?_, Int.emod_nonneg _ hne, ?_⟩
        · exact (Int.mul_ediv_add_emod _ _).symm
        · exact Int.emod_lt_abs _ hne

/-- **C87, multiplication by a fraction.** The receiver times a fraction, rounded down. -/
theorem C87_mulRat (h : Heap) (b : Ptr) (num den : Int) (hb : InHeap h b) (hd : 0 < den) :
    ∃ r, mulRat h b (some (num, den)) = .ok r ∧ OnlyChanges h r.1 b ∧
      den * val r.1 r.2 ≤ val h b * num ∧ val h b * num < den * (val r.1 r.2 + 1) := by
  cases b with
  | none => exact ⟨_, rfl, onlyChanges_refl _ _, by simp [val, val?], by simp [val, val?, hd]⟩
  | some i =>
    have hi := hb i rfl
    simp only [mulRat]
    split
    · rename_i h0
      exact ⟨_, rfl, onlyChanges_refl _ _, by simp [val, val?, h0], by simp [val, val?, h0, hd]⟩
    · rename_i h0
      have hA : Heap.at (h ++ [num, den]) h.length = num := by simp [Heap.at]
      have hB : Heap.at (h ++ [num, den]) (h.length + 1) = den := by simp [Heap.at]
      have hm : mulInt (h ++ [num, den]) (some i) (some h.length) = ((h ++ [num, den]).set i (h.at i * num), some i) := by
        simp only [mulInt, hA, if_neg h0]
        rw [at_append_lt hi]
      rw [hm]
      simp only
      have hden : Heap.at ((h ++ [num, den]).set i (h.at i * num)) (h.length + 1) = den := by
        rw [at_set_ne _ _ (by omega), hB]
      have hrec : Heap.at ((h ++ [num, den]).set i (h.at i * num)) i = h.at i * num :=
        at_set _ _ _ (by simp; omega)
      rw [divInt, if_neg (by simp [isZero, hden]; omega)]
      simp only [hden, hrec]
      refine ⟨_, rfl, ⟨by simp, ?_⟩, ?_, ?_⟩
      · intro k hk hne
        rw [at_set_ne _ _ (by simpa using hne), at_set_ne _ _ (by simpa using hne), at_append_lt hk]
      · simp only [val, val?, Option.getD_some]
        rw [at_set _ _ _ (by simp; omega)]
        exact Int.mul_ediv_self_le (by omega)
      · simp only [val, val?, Option.getD_some]
        rw [at_set _ _ _ (by simp; omega)]
        rw [Int.mul_add, Int.mul_one]
        exact Int.lt_mul_ediv_self_add hd

theorem val_onlyChanges {h h' : Heap} {b p : Ptr} (hc : OnlyChanges h h' b) (hp : InHeap h p) (hne : b ≠ p) :
    val h' p = val h p := by
  cases p with
  | none => rfl
  | some k => simp only [val, val?, Option.getD_some]; exact hc.2 k (hp k rfl) hne

/-- **C87, many summands (partial).** `AddInts` returns the sum if no summand is the receiver itself.  Missing: summands
that are the receiver, refuted by `C87_addInts_alias_refuted`. -/
theorem C87_addInts_partial (is : List Ptr) : ∀ (h : Heap) (b : Ptr), InHeap h b → (∀ i ∈ is, InHeap h i ∧ (i = none ∨ i ≠ b)) →
    Computes h b (addInts h b is) (val h b + (is.map (val h)).sum) := by
  induction is with
  | nil => intro h b hb _; exact ⟨by simp [addInts], onlyChanges_refl _ _, hb⟩
  | cons i is ih =>
    intro h b hb his
    rw [addInts]
    have hi := his i (by simp)
    have hrest : ∀ x ∈ is, InHeap h x ∧ (x = none ∨ x ≠ b) := fun x hx => his x (by simp [hx])
    by_cases h0 : isZero h i = true
    · rw [if_pos h0]
      have hv : val h i = 0 := by cases i <;> simp_all [isZero, val, val?]
      have := ih h b hb hrest
      rwa [List.map_cons, List.sum_cons, hv, Int.zero_add]
    · rw [if_neg h0]
      obtain ⟨h1, h2, h3⟩ := (C87_add_sub h b i hb).1
      -- the receiver from now on: the old one, or a new cell
      have hptr : (addInt h b i).2 = b ∨ (b = none ∧ (addInt h b i).2 = some h.length) := by
        cases i with
        | none => left; rfl
        | some j =>
          cases b with
          | none => right; exact ⟨rfl, rfl⟩
          | some k => left; rfl
      generalize addInt h b i = r at h1 h2 h3 hptr
      have hin : ∀ x, InHeap h x → InHeap r.1 x := fun x hx k hk => Nat.lt_of_lt_of_le (hx k hk) h2.1
      have hnew : ∀ x, InHeap h x → x = none ∨ x ≠ b → x = none ∨ x ≠ r.2 := by
        intro x hx hxb
        rcases hptr with e | ⟨-, e⟩
        · rw [e]; exact hxb
        · rcases hxb with hn | _
          · exact Or.inl hn
          · right
            rintro rfl
            have := hx _ e
            omega
      have hval : is.map (val r.1) = is.map (val h) := by
        apply List.map_congr_left
        intro x hx
        obtain ⟨g1, g2⟩ := hrest x hx
        rcases g2 with rfl | g2
        · rfl
        · exact val_onlyChanges h2 g1 (Ne.symm g2)
      obtain ⟨k1, k2, k3⟩ := ih r.1 r.2 h3 (fun x hx => ⟨hin x (hrest x hx).1, hnew x (hrest x hx).1 (hrest x hx).2⟩)
      refine ⟨?_, ⟨Nat.le_trans h2.1 k2.1, ?_⟩, k3⟩
      · rw [k1, h1, hval, List.map_cons, List.sum_cons]; ring
      · intro k hk hne
        rw [k2.2 k (Nat.lt_of_lt_of_le hk h2.1) ?_, h2.2 k hk hne]
        rcases hptr with e | ⟨-, e⟩
        · rw [e]; exact hne
        · rw [e]; intro hc; cases hc; omega

/-- With itself as a summand twice, a number is quadrupled instead of tripled. -/
theorem C87_addInts_alias_refuted : ¬ ∀ (h : Heap) (b : Ptr) (is : List Ptr), InHeap h b → (∀ i ∈ is, InHeap h i) →
    val (addInts h b is).1 (addInts h b is).2 = val h b + (is.map (val h)).sum := by
  intro hall
  have := hall [1] (some 0) [some 0, some 0] (by intro i hi; cases hi; decide)
    (by intro i hi j hj; simp at hi; subst hi; cases hj; decide)
  revert this
  decide

/-- **C87, 64-bit value.** -/
theorem C87_toUint64 (h : Heap) (b : Ptr) (n : Nat) :
    toUint64 h b = some n ↔ val? h b = some (n : Int) ∧ n < 2 ^ 64 := by
  cases b with
  | none => simp [toUint64, val?]
  | some i =>
    simp only [toUint64, val?, Option.some.injEq]
    generalize h.at i = v
    constructor
    · intro hh
      split at hh
      · cases hh
      · rename_i hr
        simp only [Option.some.injEq] at hh
        rw [Nat.mod_eq_of_lt (by omega)] at hh
        omega
    · rintro ⟨rfl, hn⟩
      rw [if_neg (by omega), Int.toNat_natCast, Nat.mod_eq_of_lt hn]

/-! ### Clamped subtraction -/

/-- **C44.** For operands that are nil or non-negative: what is left and what was taken sum to the original, what is left
is not negative, no more is taken than asked for, no less than possible, and no existing number changes. -/
theorem C44_clamped_sub (h : Heap) (b s : Ptr) (hb : InHeap h b) (hs : InHeap h s) (hb0 : 0 ≤ val h b) (hs0 : 0 ≤ val h s) :
    ∀ h' l t, subIntNotLessZero h b s = (h', l, t) →
      val h' l + val h' t = val h b ∧ 0 ≤ val h' l ∧ val h' t = min (val h b) (val h s) ∧
        ∀ k < h.length, h'.at k = h.at k := by
  intro h' l t he
  have hnp : ∀ p, notPositive h p = true ↔ val h p ≤ 0 := by
    intro p; cases p <;> simp [notPositive, val, val?]
  rw [subIntNotLessZero] at he
  by_cases h1 : notPositive h s = true
  · rw [if_pos h1] at he
    cases he
    have := (hnp s).1 h1
    refine ⟨by simp [val, val?], hb0, ?_, fun _ _ => rfl⟩
    rw [min_eq_right (by omega)]
    simp [val, val?] at *; omega
  · rw [if_neg h1] at he
    by_cases h2 : notPositive h b = true
    · rw [if_pos h2] at he
      cases he
      have := (hnp b).1 h2
      refine ⟨by simp [val, val?], hb0, ?_, fun _ _ => rfl⟩
      rw [min_eq_left (by omega)]
      simp [val, val?] at *; omega
    · rw [if_neg h2, (C43_compare_partial h b s).2.2 hb0 hs0] at he
      rw [hnp] at h1 h2
      cases b with
      | none => simp [val, val?] at h2
      | some i =>
        cases s with
        | none => simp [val, val?] at h1
        | some j =>
          have hi := hb i rfl
          have hj := hs j rfl
          have e1 : val h (some i) = h.at i := rfl
          have e2 : val h (some j) = h.at j := rfl
          rw [e1, e2] at he
          rw [e1] at hb0 h2 ⊢
          rw [e2] at hs0 h1 ⊢
          by_cases hc : cmp (h.at i) (h.at j) > 0
          · rw [if_pos hc] at he
            have hlt : h.at j < h.at i := by
              rcases cmp_cases (h.at i) (h.at j) with ⟨_, g⟩ | ⟨_, g⟩ | ⟨g1, g⟩ <;> omega
            simp only [clone, alloc, subInt] at he
            rw [at_append_lt hj, at_append_new] at he
            have hset : (h ++ [h.at i]).set h.length (h.at i - h.at j) = h ++ [h.at i - h.at j] := by
              rw [List.set_append_right _ _ (Nat.le_refl _)]; simp
            rw [hset, at_append_lt hj] at he
            cases he
            have v1 : val (h ++ [h.at i - h.at j] ++ [h.at j]) (some h.length) = h.at i - h.at j := by
              simp only [val, val?, Option.getD_some]
              rw [at_append_lt (by simp), at_append_new]
            have v2 : val (h ++ [h.at i - h.at j] ++ [h.at j]) (some (h ++ [h.at i - h.at j]).length) = h.at j := by
              simp only [val, val?, Option.getD_some]
              exact at_append_new _ _
            rw [v1, v2]
            refine ⟨by omega, by omega, by rw [min_eq_right (by omega)], ?_⟩
            intro k hk
            rw [at_append_lt (by simp; omega), at_append_lt hk]
          · rw [if_neg hc] at he
            have hle : h.at i ≤ h.at j := by
              rcases cmp_cases (h.at i) (h.at j) with ⟨_, g⟩ | ⟨_, g⟩ | ⟨g1, g⟩ <;> omega
            simp only [clone, alloc] at he
            cases he
            have v2 : val (h ++ [h.at i]) (some h.length) = h.at i := by
              simp only [val, val?, Option.getD_some]; exact at_append_new _ _
            rw [v2]
            refine ⟨by simp [val, val?], by simp [val, val?], by rw [min_eq_left hle], ?_⟩
            intro k hk
            exact at_append_lt hk

/-- **C44, other operands.** If the subtrahend or the amount is negative, nothing is taken. -/
theorem C44_negative (h : Heap) (b s : Ptr) (hn : val h b ≤ 0 ∨ val h s ≤ 0) :
    subIntNotLessZero h b s = (h, b, none) := by
  have hnp : ∀ p, notPositive h p = true ↔ val h p ≤ 0 := by
    intro p; cases p <;> simp [notPositive, val, val?]
  rw [subIntNotLessZero]
  by_cases h1 : notPositive h s = true
  · rw [if_pos h1]
  · rw [if_neg h1]
    rw [hnp] at h1
    rw [if_pos ((hnp b).2 (by omega))]

example : subIntNotLessZero [10, 3] (some 0) (some 1) = ([10, 3, 7, 3], some 2, some 3) ∧
    subIntNotLessZero [3, 10] (some 0) (some 1) = ([3, 10, 3], none, some 2) := by decide

example : addInts [1, 2] none [some 0, none, some 1] = ([1, 2, 3], some 2) ∧ mulInt [4, 5] (some 0) (some 1) = ([20, 5], some 0) ∧
    divInt [-7, 2] (some 0) (some 1) = .ok ([-4, 2], some 0) ∧ mulRat [7] (some 0) (some (2, 3)) = .ok ([4, 2, 3], some 0) := by
  refine ⟨?_, ?_, ?_, ?_⟩ <;> rfl

/-! ### Lowest set bit -/

theorem firstBitLoop_spec (n : Nat) : ∀ k i, (∀ j < i, n.testBit j = false) →
    (∀ j < firstBitLoop n k i, n.testBit j = false) ∧ (firstBitLoop n k i < i + k → n.testBit (firstBitLoop n k i) = true) ∧
      firstBitLoop n k i ≤ i + k := by
  intro k
  induction k with
  | zero => intro i hi; exact ⟨hi, by simp [firstBitLoop], by simp [firstBitLoop]⟩
  | succ k ih =>
    intro i hi
    rw [firstBitLoop]
    by_cases hb : n.testBit i = true
    · rw [if_pos hb]
      exact ⟨hi, fun _ => hb, by omega⟩
    · rw [if_neg hb]
      obtain ⟨h1, h2, h3⟩ := ih (i + 1) (by
        intro j hj
        by_cases hji : j = i
        · subst hji; simpa using hb
        · exact hi j (by omega))
      exact ⟨h1, fun h => h2 (by omega), by omega⟩

/-- **C87, lowest bit.** `FirstBitSet` of a positive number is the largest `i` with `2^i` dividing it; of zero it is 0. -/
theorem C87_firstBitSet (n : Nat) : firstBitSet 0 = 0 ∧
    (n ≠ 0 → n.testBit (firstBitSet n) = true ∧ ∀ j < firstBitSet n, n.testBit j = false) := by
  refine ⟨rfl, fun hn => ?_⟩
  obtain ⟨h1, h2, h3⟩ := firstBitLoop_spec n (bitLen n) 0 (by intro j hj; omega)
  refine ⟨?_, h1⟩
  by_cases hlt : firstBitLoop n (bitLen n) 0 < 0 + bitLen n
  · exact h2 hlt
  · exfalso
    have htop := (bitLen_spec n).2 hn
    have hlt' := (bitLen_spec n).1
    obtain ⟨j, hj⟩ := Nat.exists_testBit_of_ne_zero hn
    by_cases hjl : j < bitLen n
    · rw [h1 j (by omega)] at hj; cases hj
    · have : n < 2 ^ j := Nat.lt_of_lt_of_le hlt' (Nat.pow_le_pow_right (by decide) (by omega))
      rw [Nat.testBit_lt_two_pow this] at hj
      cases hj

example : firstBitSet 40 = 3 := by decide +kernel

end Verif.BigMath

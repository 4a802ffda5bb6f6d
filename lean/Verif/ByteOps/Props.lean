import Verif.ByteOps.Model
import Mathlib.Tactic.Ring

/-!
# Properties C50-C52, C85, C86: byte-string functions
-/

namespace Verif.ByteOps
open Verif

/-! ### C50: SubBytes -/

/-- The bits `s, s+1, ...` of the 16-bit number `b1 b0`, `len` of them. -/
theorem shiftBits_spec (b0 b1 : UInt8) (s : Nat) (hs : s < 8) (len : Nat) (h0 : 0 < len) (h8 : len ≤ 8)
    (lo : Option UInt8) (hlo : (lo = none ∧ len = 8) ∨ lo = some (UInt8.ofNat len)) :
    (shiftBits b0 b1 (UInt8.ofNat s) lo).toNat = ((b0.toNat + 256 * b1.toNat) >>> s) % 2 ^ len := by
  have hs7 : UInt8.ofNat s &&& 7 = UInt8.ofNat s := by
    have : ∀ s : Fin 8, UInt8.ofNat s.val &&& 7 = UInt8.ofNat s.val := by decide
    exact this ⟨s, hs⟩
  have hbl : shiftLen lo = UInt8.ofNat len := by
    rcases hlo with ⟨rfl, rfl⟩ | rfl
    · rfl
    · have : ∀ l : Fin 9, 0 < l.val → (if (0 : UInt8) < UInt8.ofNat l.val ∧ UInt8.ofNat l.val < 8 then UInt8.ofNat l.val else 8) =
        UInt8.ofNat l.val := by decide
      exact this ⟨len, by omega⟩ h0
  have ts : (UInt8.ofNat s).toNat = s := by rw [UInt8.toNat_ofNat']; omega
  have tl : (UInt8.ofNat len).toNat = len := by rw [UInt8.toNat_ofNat']; omega
  have hb0 := b0.toNat_lt
  have hb1 := b1.toNat_lt
  -- the part before clearing the top bits
  let r : UInt8 := if UInt8.ofNat s = 0 then b0
    else if UInt8.ofNat len + UInt8.ofNat s > 8 then b0 >>> UInt8.ofNat s ||| (b1 <<< (8 - UInt8.ofNat s))
    else b0 >>> UInt8.ofNat s
  have hr : ∀ j < len, r.toNat.testBit j = ((b0.toNat + 256 * b1.toNat) >>> s).testBit j := by
    intro j hj
    have e : b0.toNat + 256 * b1.toNat = 2 ^ 8 * b1.toNat + b0.toNat := by omega
    rw [Nat.testBit_shiftRight, e, Nat.testBit_two_pow_mul_add _ hb0]
    by_cases hz : s = 0
    · subst hz
      have : r = b0 := if_pos rfl
      rw [this, Nat.zero_add, if_pos (by omega)]
    · have hne : UInt8.ofNat s ≠ 0 := by
        intro h
        have := congrArg UInt8.toNat h
        rw [ts] at this
        exact hz (by simpa using this)
      have h8s : (8 - UInt8.ofNat s).toNat = 8 - s := by
        rw [UInt8.toNat_sub_of_le, ts]
        · rfl
        · rw [UInt8.le_iff_toNat_le, ts]; exact Nat.le_of_lt hs
      by_cases hg : UInt8.ofNat len + UInt8.ofNat s > 8
      · have : r = b0 >>> UInt8.ofNat s ||| (b1 <<< (8 - UInt8.ofNat s)) := by
          simp only [r, if_neg hne, if_pos hg]
        rw [this, UInt8.toNat_or, UInt8.toNat_shiftRight, UInt8.toNat_shiftLeft, h8s, ts, Nat.testBit_or]
        have m1 : s % 8 = s := Nat.mod_eq_of_lt hs
        have m2 : (8 - s) % 8 = 8 - s := Nat.mod_eq_of_lt (by omega)
        rw [m1, m2, Nat.testBit_mod_two_pow, Nat.testBit_shiftRight, Nat.testBit_shiftLeft]
        by_cases hjs : s + j < 8
        · rw [if_pos hjs]
          have : decide (j ≥ 8 - s) = false := by simp; omega
          rw [this, Bool.false_and, Bool.and_false, Bool.or_false]
        · rw [if_neg hjs]
          have h1 : b0.toNat.testBit (s + j) = false := by
            apply Nat.testBit_lt_two_pow
            exact Nat.lt_of_lt_of_le hb0 (Nat.pow_le_pow_right (by decide) (by omega : 8 ≤ s + j))
          have h2 : decide (j ≥ 8 - s) = true := by simp; omega
          have h3 : decide (j < 8) = true := by simp; omega
          rw [h1, h2, h3]
          simp only [Bool.true_and, Bool.false_or]
          congr 1
          omega
      · have : r = b0 >>> UInt8.ofNat s := by simp only [r, if_neg hne, if_neg hg]
        have hle : len + s ≤ 8 := by
          have h := hg
          rw [gt_iff_lt, UInt8.lt_iff_toNat_lt, UInt8.toNat_add, ts, tl] at h
          have e8 : (8 : UInt8).toNat = 8 := rfl
          rw [e8] at h
          omega
        rw [this, UInt8.toNat_shiftRight, ts, Nat.mod_eq_of_lt hs, Nat.testBit_shiftRight, if_pos (by omega)]
  have hfin : shiftBits b0 b1 (UInt8.ofNat s) lo =
      (if 8 - UInt8.ofNat len > 0 then (r <<< (8 - UInt8.ofNat len)) >>> (8 - UInt8.ofNat len) else r) := by
    unfold shiftBits
    simp only [hs7, hbl, r]
  have hrl := r.toNat_lt
  have hcut : (shiftBits b0 b1 (UInt8.ofNat s) lo).toNat = r.toNat % 2 ^ len := by
    rw [hfin]
    have h8l : (8 - UInt8.ofNat len).toNat = 8 - len := by
      rw [UInt8.toNat_sub_of_le, tl]
      · rfl
      · rw [UInt8.le_iff_toNat_le, tl]; exact h8
    by_cases hl : len = 8
    · subst hl
      have : ¬ (8 - UInt8.ofNat 8 > 0) := by decide
      rw [if_neg this, Nat.mod_eq_of_lt hrl]
    · have hp : 8 - UInt8.ofNat len > 0 := by
        rw [gt_iff_lt, UInt8.lt_iff_toNat_lt, h8l]
        show 0 < 8 - len
        omega
      rw [if_pos hp, UInt8.toNat_shiftRight, UInt8.toNat_shiftLeft, h8l, Nat.mod_eq_of_lt (by omega : 8 - len < 8)]
      apply Nat.eq_of_testBit_eq
      intro j
      rw [Nat.testBit_shiftRight, Nat.testBit_mod_two_pow, Nat.testBit_mod_two_pow, Nat.testBit_shiftLeft]
      have e1 : decide (8 - len + j < 8) = decide (j < len) := by
        apply decide_eq_decide.2; omega
      have e2 : decide (8 - len + j ≥ 8 - len) = true := by simp
      have e3 : 8 - len + j - (8 - len) = j := by omega
      rw [e1, e2, e3, Bool.true_and]
  rw [hcut]
  apply Nat.eq_of_testBit_eq
  intro j
  rw [Nat.testBit_mod_two_pow, Nat.testBit_mod_two_pow]
  by_cases hj : j < len
  · rw [hr j hj]
  · simp [hj]

/-- The byte of position `k`, counted from the end; zero outside. -/
def revByte (bs : Bytes) (k : Nat) : UInt8 := (bs.reverse[k]?).getD 0

theorem at_rev (bs : Bytes) (k : Nat) (h : k < bs.length) :
    at? bs ((bs.length : Int) - 1 - (k : Nat)) = some (revByte bs k) := by
  have e : ((bs.length : Int) - 1 - (k : Nat)).toNat = bs.length - 1 - k := by omega
  rw [at?, if_pos (by omega), e, revByte, List.getElem?_reverse h]
  rw [List.getElem?_eq_getElem (by omega)]
  rfl

theorem revByte_out (bs : Bytes) (k : Nat) (h : bs.length ≤ k) : revByte bs k = 0 := by
  rw [revByte, List.getElem?_eq_none (by simpa using h)]; rfl

/-- The byte that the loop writes for position `k` from the end. -/
def outByte (bs : Bytes) (frm size k : Nat) : Nat :=
  (((revByte bs (k + frm / 8)).toNat + 256 * (revByte bs (k + frm / 8 + 1)).toNat) >>> (frm % 8)) %
    2 ^ (min 8 (size - 8 * k))

theorem subLoop_spec (bs : Bytes) (frm size : Nat) (hfit : frm + size ≤ 8 * bs.length) (n : Nat) :
    ∀ (m : Nat) (rs : Bytes), rs.length = (size + 7) / 8 → rs.length - m = n → m ≤ rs.length →
    (∀ k < m, (revByte rs k).toNat = outByte bs frm size k) →
    ∃ out, subLoop bs frm size (8 * m) rs = some out ∧ out.length = rs.length ∧
      ∀ k < rs.length, (revByte out k).toNat = outByte bs frm size k := by
  induction n with
  | zero =>
    intro m rs hl hn hm hinv
    have : m = rs.length := by omega
    refine ⟨rs, ?_, rfl, by rw [← this]; exact hinv⟩
    rw [subLoop.eq_def, if_neg (by omega)]
  | succ n ih =>
    intro m rs hl hn hm hinv
    have hlt : 8 * m < size := by omega
    rw [subLoop.eq_def, if_pos hlt]
    have e1 : (8 * m + frm) / 8 = m + frm / 8 := by omega
    have e2 : 8 * m / 8 = m := by omega
    have hq : m + frm / 8 < bs.length := by omega
    simp only [e1, e2]
    rw [at_rev bs _ hq, at_rev rs m (by omega)]
    have hb1 : (if (bs.length : Int) - 1 - ((m + frm / 8 : Nat) : Int) > 0 then
        at? bs ((bs.length : Int) - 1 - ((m + frm / 8 : Nat) : Int) - 1) else some 0) =
        some (revByte bs (m + frm / 8 + 1)) := by
      by_cases hp : m + frm / 8 + 1 < bs.length
      · rw [if_pos (by omega)]
        have := at_rev bs (m + frm / 8 + 1) hp
        rw [← this]
        congr 1
        omega
      · rw [if_neg (by omega), revByte_out _ _ (by omega)]
    rw [hb1]
    simp only
    have epr : ((rs.length : Int) - 1 - (m : Nat)).toNat = rs.length - 1 - m := by omega
    rw [epr]
    generalize hb : (if size - 8 * m ≥ 8 then
        shiftBits (revByte bs (m + frm / 8)) (revByte bs (m + frm / 8 + 1)) (UInt8.ofNat (frm % 8)) none
      else shiftBits (revByte bs (m + frm / 8)) (revByte bs (m + frm / 8 + 1)) (UInt8.ofNat (frm % 8))
        (some (UInt8.ofNat (size - 8 * m)))) = b
    have hbv : b.toNat = outByte bs frm size m := by
      rw [← hb, outByte]
      split
      · rw [shiftBits_spec _ _ _ (Nat.mod_lt _ (by decide)) 8 (by decide) (by decide) none (Or.inl ⟨rfl, rfl⟩),
          Nat.min_eq_left (by omega)]
      · rw [shiftBits_spec _ _ _ (Nat.mod_lt _ (by decide)) (size - 8 * m) (by omega) (by omega) _ (Or.inr rfl),
          Nat.min_eq_right (by omega)]
    have hset : ∀ k, revByte (rs.set (rs.length - 1 - m) b) k = if k = m then b else revByte rs k := by
      intro k
      by_cases hk : k < rs.length
      · rw [revByte, List.getElem?_reverse (by simpa using hk), List.length_set, List.getElem?_set]
        by_cases hkm : k = m
        · subst hkm
          rw [if_pos rfl, if_pos (by omega), if_pos rfl]
          rfl
        · rw [if_neg (by omega), if_neg hkm, revByte, List.getElem?_reverse hk]
      · rw [revByte_out _ _ (by simpa using hk), revByte_out _ _ (by omega), if_neg (by omega)]
    obtain ⟨out, h1, h2, h3⟩ := ih (m + 1) (rs.set (rs.length - 1 - m) b) (by simpa using hl) (by simp; omega)
      (by simp; omega) (by
        intro k hk
        rw [hset]
        split
        · rename_i h; rw [h, hbv]
        · exact hinv k (by omega))
    refine ⟨out, ?_, by simpa using h2, by simpa using h3⟩
    have : 8 * m + 8 = 8 * (m + 1) := by omega
    rw [this, h1]

theorem beNat_testBit' (bs : Bytes) (k : Nat) : (beNat bs).testBit k = (revByte bs (k / 8)).toNat.testBit (k % 8) :=
  beNat_testBit bs k

/-- **C50.** `SubBytes(bs, from, size)` reads the bits `from, from+1, ..., from+size-1` of the number that `bs` spells,
clipped at the end of `bs`, as a big-endian string of the fewest bytes that hold that many bits.  `from` past the end
gives nil; a negative offset or a size of zero or less is an error.  `from+size` has to fit in an `int`. -/
theorem C50_subBytes (bs : Bytes) (hlen : bs.length < 2 ^ 48) (frm size : Int) (hov : frm + size < 2 ^ 63 - 8) :
    subBytes bs frm size =
      if frm < 0 ∨ size ≤ 0 then .err
      else if frm ≥ 8 * bs.length then .ok none
      else
        let sz := min size.toNat (8 * bs.length - frm.toNat)
        .ok (some (natBE ((sz + 7) / 8) ((beNat bs / 2 ^ frm.toNat) % 2 ^ sz))) := by
  rw [subBytes]
  by_cases h1 : frm < 0 ∨ size ≤ 0
  · rw [if_pos h1, if_pos h1]
  · rw [if_neg h1, if_neg h1]
    simp only [not_or, not_lt, not_le] at h1
    by_cases h2 : frm ≥ 8 * bs.length
    · rw [if_pos h2]
      simp only
      rw [if_pos (by omega)]
    · rw [if_neg h2]
      simp only
      rw [if_neg (by omega)]
      have w1 : wrap64 (size + frm) = size + frm := by rw [wrap64]; omega
      rw [w1]
      have hsz : (if size + frm > (bs.length : Int) * 8 then (bs.length : Int) * 8 - frm else size) =
          ((min size.toNat (8 * bs.length - frm.toNat) : Nat) : Int) := by
        split <;> omega
      rw [hsz]
      generalize hs : min size.toNat (8 * bs.length - frm.toNat) = sz
      have hsz0 : 0 < sz := by omega
      have hfit : frm.toNat + sz ≤ 8 * bs.length := by omega
      have w2 : wrap64 ((sz : Int) + 7) / 8 = (((sz + 7) / 8 : Nat) : Int) := by rw [wrap64]; omega
      rw [w2, if_neg (by omega)]
      simp only [Int.toNat_natCast]
      obtain ⟨out, e1, e2, e3⟩ := subLoop_spec bs frm.toNat sz hfit _ 0 (List.replicate ((sz + 7) / 8) 0)
        (by simp) rfl (by simp) (by omega)
      simp only [Nat.mul_zero] at e1
      rw [e1]
      simp only [List.length_replicate] at e2 e3
      suffices hout : out = natBE ((sz + 7) / 8) ((beNat bs / 2 ^ frm.toNat) % 2 ^ sz) by rw [hout]
      apply beNat_inj
      · rw [e2, natBE_length]
      · have hlt : beNat bs / 2 ^ frm.toNat % 2 ^ sz < 256 ^ ((sz + 7) / 8) := by
          apply Nat.lt_of_lt_of_le (Nat.mod_lt _ (Nat.two_pow_pos _))
          rw [show 256 = 2 ^ 8 from rfl, ← Nat.pow_mul]
          exact Nat.pow_le_pow_right (by decide) (by omega)
        rw [beNat_natBE_of_lt hlt]
        apply Nat.eq_of_testBit_eq
        intro j
        rw [beNat_testBit', Nat.testBit_mod_two_pow, Nat.testBit_div_two_pow, beNat_testBit']
        by_cases hj : j / 8 < (sz + 7) / 8
        · rw [e3 _ hj, outByte, Nat.testBit_mod_two_pow, Nat.testBit_shiftRight]
          have hb0 := (revByte bs (j / 8 + frm.toNat / 8)).toNat_lt
          rw [show (revByte bs (j / 8 + frm.toNat / 8)).toNat + 256 * (revByte bs (j / 8 + frm.toNat / 8 + 1)).toNat =
            2 ^ 8 * (revByte bs (j / 8 + frm.toNat / 8 + 1)).toNat + (revByte bs (j / 8 + frm.toNat / 8)).toNat by omega,
            Nat.testBit_two_pow_mul_add _ hb0]
          have hd : decide (j % 8 < min 8 (sz - 8 * (j / 8))) = decide (j < sz) := by
            apply decide_eq_decide.2; omega
          rw [hd]
          refine congrArg (fun z => decide (j < sz) && z) ?_
          by_cases hc : frm.toNat % 8 + j % 8 < 8
          · rw [if_pos hc, show (j + frm.toNat) / 8 = j / 8 + frm.toNat / 8 by omega,
              show (j + frm.toNat) % 8 = frm.toNat % 8 + j % 8 by omega]
          · rw [if_neg hc, show (j + frm.toNat) / 8 = j / 8 + frm.toNat / 8 + 1 by omega,
              show (j + frm.toNat) % 8 = frm.toNat % 8 + j % 8 - 8 by omega]
        · rw [revByte_out _ _ (by omega)]
          have : decide (j < sz) = false := by simp; omega
          simp [this]

/-- Beyond the range of `int` the clipping test wraps around and the call panics. -/
theorem C50_overflow_panics : subBytes [1, 2] 1 (2 ^ 63 - 1) = .panic := by
  decide +kernel

example : subBytes [0x12, 0x34, 0x56] 4 12 = .ok (some [0x03, 0x45]) := by decide +kernel
example : subBytes [0x12, 0x34, 0x56] 20 12 = .ok (some [0x01]) := by decide +kernel

/-! ### C51: splitting and joining -/

theorem splitLoop_spec (bs : Bytes) (size : Nat) (h0 : 0 < size) (n : Nat) :
    ∀ p, bs.length = p + n * size →
      (splitLoop bs size p).flatten = bs.drop p ∧ (splitLoop bs size p).length = n ∧
        ∀ x ∈ splitLoop bs size p, x.length = size := by
  induction n with
  | zero =>
    intro p hp
    rw [splitLoop.eq_def, if_neg (by omega)]
    simp [List.drop_of_length_le (by omega : bs.length ≤ p)]
  | succ n ih =>
    intro p hp
    have hm : (n + 1) * size = n * size + size := Nat.succ_mul n size
    rw [splitLoop.eq_def, if_pos ⟨by omega, h0⟩]
    obtain ⟨h1, h2, h3⟩ := ih (p + size) (by omega)
    refine ⟨?_, by simp [h2], ?_⟩
    · rw [List.flatten_cons, h1, ← List.drop_drop, List.take_append_drop]
    · intro x hx
      rw [List.mem_cons] at hx
      rcases hx with rfl | hx
      · rw [List.length_take, List.length_drop]; omega
      · exact h3 x hx

theorem concatLoop_spec (bss : List Bytes) : ∀ (done rest : Bytes), rest.length = (bss.map List.length).sum →
    concatLoop bss done.length (done ++ rest) = done ++ bss.flatten := by
  induction bss with
  | nil => intro done rest h; simp at h; simp [concatLoop, h]
  | cons b bss ih =>
    intro done rest h
    simp only [List.map_cons, List.sum_cons] at h
    rw [concatLoop]
    split
    · rename_i hb
      have : b = [] := List.length_eq_zero_iff.1 hb
      subst this
      rw [ih done rest (by simpa using h)]
      simp
    · rw [goCopyAt_of_fits _ _ _ (by simp; omega)]
      have e : List.take done.length (done ++ rest) = done := by simp
      have e2 : List.drop (done.length + b.length) (done ++ rest) = rest.drop b.length := by
        rw [List.drop_append]
        simp
      rw [e, e2, ← List.length_append, ih (done ++ b) (rest.drop b.length) (by simp; omega)]
      simp

/-- `ConcatenateBytes` joins the pieces. -/
theorem C51_concat (bss : List Bytes) : concatBytes bss = bss.flatten := by
  have := concatLoop_spec bss [] (List.replicate (bss.map List.length).sum 0) (by simp)
  simpa [concatBytes] using this

/-- **C51.** For a positive size, `SplitBytes` fails exactly if the size does not divide the length, and otherwise cuts
into pieces of that size that join to the original. -/
theorem C51_split (bs : Bytes) (size : Nat) (h : 0 < size) :
    (size ∣ bs.length → ∃ l, splitBytes bs size = .ok l ∧ concatBytes l = bs ∧ l.length = bs.length / size ∧
      ∀ x ∈ l, x.length = size) ∧
    (¬ size ∣ bs.length → splitBytes bs size = .err) := by
  have hm : ((bs.length : Int) % (size : Int) = 0) ↔ size ∣ bs.length := by
    rw [← Int.natCast_mod, Nat.dvd_iff_mod_eq_zero]; omega
  constructor
  · intro hd
    obtain ⟨n, hn⟩ := hd
    rw [Nat.mul_comm] at hn
    obtain ⟨h1, h2, h3⟩ := splitLoop_spec bs size h n 0 (by omega)
    refine ⟨splitLoop bs size 0, ?_, ?_, ?_, h3⟩
    · have h0 : (bs.length : Int) % (size : Int) = 0 := hm.2 ⟨n, by rw [hn, Nat.mul_comm]⟩
      rw [splitBytes, if_neg (by omega), if_neg (by simp [h0]), if_neg (by omega), Int.toNat_natCast]
    · rw [C51_concat, h1, List.drop_zero]
    · rw [h2, hn, Nat.mul_div_cancel _ h]
  · intro hd
    rw [splitBytes, if_neg (by omega), if_pos (fun hc => hd (hm.1 hc))]

/-- Pieces of one size are determined by what they join to. -/
theorem flatten_inj (size : Nat) (h : 0 < size) : ∀ l l' : List Bytes, (∀ x ∈ l, x.length = size) →
    (∀ x ∈ l', x.length = size) → l.flatten = l'.flatten → l = l' := by
  intro l
  induction l with
  | nil =>
    intro l' _ h' he
    cases l' with
    | nil => rfl
    | cons b l' =>
      have := h' b (by simp)
      simp only [List.flatten_nil, List.flatten_cons] at he
      have := congrArg List.length he
      simp at this
      omega
  | cons a l ih =>
    intro l' h1 h' he
    cases l' with
    | nil =>
      have := h1 a (by simp)
      simp only [List.flatten_nil, List.flatten_cons] at he
      have := congrArg List.length he
      simp only [List.length_append, List.length_nil] at this
      omega
    | cons b l' =>
      simp only [List.flatten_cons] at he
      have ha := h1 a (by simp)
      have hb := h' b (by simp)
      obtain ⟨e1, e2⟩ := List.append_inj he (ha.trans hb.symm)
      rw [e1, ih l' (fun x hx => h1 x (by simp [hx])) (fun x hx => h' x (by simp [hx])) e2]

/-- **C51.** Sizes that are no lengths: zero panics, and so does a negative divisor of the length, but for no bytes at all. -/
theorem C51_split_sizes (bs : Bytes) (size : Int) (h : size ≤ 0) :
    splitBytes bs size = if size ≠ 0 ∧ bs = [] then .ok [] else if size ∣ (bs.length : Int) ∨ size = 0 then .panic else .err := by
  unfold splitBytes
  by_cases h0 : size = 0
  · simp [h0]
  · have hl : size < 0 := by omega
    by_cases hd : size ∣ (bs.length : Int)
    · rw [if_neg h0, if_neg (by simpa using Int.emod_eq_zero_of_dvd hd), if_pos hl]
      cases bs <;> simp [h0, hd]
      simpa using hd
    · rw [if_neg h0, if_pos (fun hm => hd (Int.dvd_of_emod_eq_zero hm))]
      cases bs with
      | nil => simp at hd
      | cons b bs => rw [if_neg (by simp), if_neg (by simp only [h0, or_false]; exact hd)]

example : splitBytes [] (-3) = .ok [] ∧ splitBytes [1] (-1) = .panic ∧ splitBytes [1] 0 = .panic ∧ splitBytes [1] (-2) = .err := by decide +kernel

/-- **C51, the other way round.** Splitting what was joined from pieces of one size gives the pieces back. -/
theorem C51_split_concat (size : Nat) (h : 0 < size) (l : List Bytes) (hl : ∀ x ∈ l, x.length = size) :
    splitBytes (concatBytes l) size = .ok l := by
  have hd : size ∣ (concatBytes l).length := by
    rw [C51_concat]
    clear h
    induction l with
    | nil => simp
    | cons a l ih =>
      rw [List.flatten_cons, List.length_append, hl a (by simp)]
      exact Nat.dvd_add (Nat.dvd_refl _) (ih fun x hx => hl x (by simp [hx]))
  obtain ⟨l', h1, h2, -, h4⟩ := (C51_split (concatBytes l) size h).1 hd
  rw [h1]
  congr 1
  apply flatten_inj size h _ _ h4 hl
  rw [← C51_concat, h2, C51_concat]

example : splitBytes [1, 2, 3, 4, 5, 6] 2 = .ok [[1, 2], [3, 4], [5, 6]] ∧ splitBytes [1, 2, 3] 2 = .err ∧
    splitBytes [1] 0 = .panic := by decide +kernel

/-! ### C52: fixed sizes -/

/-- The specification: the last `n` bytes, padded on the left with zeros. -/
def cropPad (n : Nat) (b : Bytes) : Bytes :=
  List.replicate (n - b.length) 0 ++ b.drop (b.length - n)

theorem cropPad_len (n : Nat) (b : Bytes) : (cropPad n b).length = n := by
  simp [cropPad]; omega

/-- `SetBytes` on an identifier that holds `old`: the last bytes of the input replace the last bytes; what is left of
`old` in front of a short input stays. -/
theorem C52_setBytes (n : Nat) (old b : Bytes) (ho : old.length = n) :
    setBytes n old b = old.take (n - b.length) ++ b.drop (b.length - n) := by
  rw [setBytes]
  by_cases h : b.length > n
  · simp only [h, if_true]
    rw [goCopyAt_of_fits _ _ _ (by simp; omega)]
    have e1 : n - (b.drop (b.length - n)).length = 0 := by simp; omega
    have e2 : old.drop (0 + (b.drop (b.length - n)).length) = [] := List.drop_of_length_le (by simp; omega)
    have e3 : n - b.length = 0 := by omega
    rw [e1, e2, e3]
    simp
  · simp only [h, if_false]
    rw [goCopyAt_of_fits _ _ _ (by omega)]
    have e2 : old.drop (n - b.length + b.length) = [] := List.drop_of_length_le (by omega)
    have e3 : b.length - n = 0 := by omega
    rw [e2, e3, List.append_nil, List.drop_zero]

/-- **C52.** `BytesToHash` and its kin crop and pad on the left, have the fixed length and keep strings of that
length. -/
theorem C52_fixed_size (n : Nat) (b : Bytes) :
    bytesTo n b = cropPad n b ∧ (bytesTo n b).length = n ∧ (b.length = n → bytesTo n b = b) ∧
      beNat (bytesTo n b) = beNat b % 256 ^ n := by
  have h : bytesTo n b = cropPad n b := by
    rw [bytesTo, C52_setBytes n _ b (by simp), cropPad, List.take_replicate, Nat.min_eq_left (by omega)]
  refine ⟨h, by rw [h, cropPad_len], ?_, ?_⟩
  · intro hb
    rw [h, cropPad, hb]
    simp
  · rw [h, cropPad, beNat_append]
    have hz : ∀ k, beNat (List.replicate k 0) = 0 := by
      intro k
      induction k with
      | zero => rfl
      | succ k ih => rw [List.replicate_succ, beNat_cons_zero, ih]
    rw [hz, Nat.zero_mul, Nat.zero_add]
    conv_rhs => rw [← List.take_append_drop (b.length - n) b, beNat_append]
    by_cases hn : n ≤ b.length
    · have hl : (b.drop (b.length - n)).length = n := by simp; omega
      have hlt := beNat_lt (b.drop (b.length - n))
      rw [hl] at hlt
      rw [hl, Nat.mul_add_mod_self_right, Nat.mod_eq_of_lt hlt]
    · have e : b.length - n = 0 := by omega
      rw [e]
      simp only [List.take_zero, beNat_nil, Nat.zero_mul, Nat.zero_add, List.drop_zero]
      rw [Nat.mod_eq_of_lt]
      exact Nat.lt_of_lt_of_le (beNat_lt b) (Nat.pow_le_pow_right (by decide) (by omega))

/-- **C52, padding functions.** Padding keeps long strings and fills up short ones; `Hex2BytesFixed` crops as well. -/
theorem C52_padding (s : Bytes) (l : Nat) :
    leftPad s l = List.replicate (l - s.length) 0 ++ s ∧
    rightPad s l = s ++ List.replicate (l - s.length) 0 ∧
    fixedBytes s l = cropPad l s := by
  refine ⟨?_, ?_, ?_⟩
  · rw [leftPad]
    split
    · rw [show l - s.length = 0 by omega]; simp
    · rw [goCopyAt_of_fits _ _ _ (by simp; omega), List.take_replicate, List.drop_of_length_le (by simp; omega)]
      simp
  · rw [rightPad]
    split
    · rw [show l - s.length = 0 by omega]; simp
    · rw [goCopy, List.length_replicate, List.take_of_length_le (by omega), List.drop_replicate]
  · rw [fixedBytes, cropPad]
    split
    · rename_i h; rw [h]; simp
    · split
      · rw [show l - s.length = 0 by omega]; simp
      · rw [goCopyAt_of_fits _ _ _ (by simp; omega), List.take_replicate, List.drop_of_length_le (by simp; omega),
          show s.length - l = 0 by omega]
        simp

example : bytesTo 4 [1, 2] = [0, 0, 1, 2] ∧ bytesTo 4 [1, 2, 3, 4, 5, 6] = [3, 4, 5, 6] ∧
    setBytes 4 [9, 9, 9, 9] [1, 2] = [9, 9, 1, 2] := by decide

/-! ### C51 for node id lists -/

theorem parseIds_eq (s : Bytes) (n : Nat) : ∀ p, s.length = p + n * nodeIDBytes → parseIds s p = splitLoop s nodeIDBytes p := by
  induction n with
  | zero => intro p h; rw [parseIds.eq_def, splitLoop.eq_def, if_neg (by omega), if_neg (by omega)]
  | succ n ih =>
    intro p h
    have hm : (n + 1) * nodeIDBytes = n * nodeIDBytes + nodeIDBytes := Nat.succ_mul n _
    have h64 : nodeIDBytes = 64 := rfl
    rw [parseIds.eq_def, splitLoop.eq_def, if_pos (by omega), if_pos ⟨by omega, by decide⟩, ih (p + nodeIDBytes) (by omega)]
    congr 1
    apply (C52_fixed_size nodeIDBytes _).2.2.1
    rw [List.length_take, List.length_drop]
    omega

theorem packLoop_spec (ids : List Bytes) : ∀ (i : Nat) (done rest : Bytes), done.length = i * nodeIDBytes →
    rest.length = ids.length * nodeIDBytes → (∀ x ∈ ids, x.length = nodeIDBytes) →
    packLoop ids i (done ++ rest) = done ++ ids.flatten := by
  induction ids with
  | nil => intro i done rest h1 h2 _; simp at h2; simp [packLoop, h2]
  | cons b ids ih =>
    intro i done rest h1 h2 h3
    have hb := h3 b (by simp)
    have hm : (ids.length + 1) * nodeIDBytes = ids.length * nodeIDBytes + nodeIDBytes := Nat.succ_mul _ _
    simp only [List.length_cons] at h2
    rw [packLoop, goCopyAt_of_fits _ _ _ (by simp; omega)]
    have e : List.take (i * nodeIDBytes) (done ++ rest) = done := by rw [← h1]; simp
    have e2 : List.drop (i * nodeIDBytes + b.length) (done ++ rest) = rest.drop b.length := by
      rw [← h1, List.drop_append]; simp
    rw [e, e2, ih (i + 1) (done ++ b) (rest.drop b.length) (by simp [h1, hb, Nat.succ_mul]) (by simp; omega)
      (fun x hx => h3 x (by simp [hx]))]
    simp

/-- **C51 for node ids.** Packing and parsing lists of node ids are inverse to each other; parsing fails exactly on
lengths that are not a multiple of 64. -/
theorem C51_node_ids :
    (∀ ids : List Bytes, (∀ x ∈ ids, x.length = 64) → parseNodeIds (packNodeIds ids) = some ids) ∧
    (∀ s : Bytes, 64 ∣ s.length → ∃ ids, parseNodeIds s = some ids ∧ packNodeIds ids = s ∧ ∀ x ∈ ids, x.length = 64) ∧
    (∀ s : Bytes, ¬ 64 ∣ s.length → parseNodeIds s = none) := by
  have pack : ∀ ids : List Bytes, (∀ x ∈ ids, x.length = 64) → packNodeIds ids = ids.flatten := by
    intro ids h
    rw [packNodeIds]
    split
    · rename_i h0; rw [List.length_eq_zero_iff.1 h0]; rfl
    · have := packLoop_spec ids 0 [] (List.replicate (ids.length * nodeIDBytes) 0) (by simp) (by simp) h
      simpa using this
  have parse : ∀ s : Bytes, 64 ∣ s.length → ∃ ids, parseNodeIds s = some ids ∧ ids.flatten = s ∧ ∀ x ∈ ids, x.length = 64 := by
    intro s hd
    obtain ⟨n, hn⟩ := hd
    have hn' : s.length = 0 + n * nodeIDBytes := by rw [hn, nodeIDBytes]; omega
    obtain ⟨h1, -, h3⟩ := splitLoop_spec s nodeIDBytes (by decide) n 0 hn'
    refine ⟨parseIds s 0, ?_, ?_, ?_⟩
    · rw [parseNodeIds, if_neg (by simp [nodeIDBytes]; omega)]
    · rw [parseIds_eq s n 0 hn', h1, List.drop_zero]
    · rw [parseIds_eq s n 0 hn']; exact h3
  refine ⟨?_, ?_, ?_⟩
  · intro ids h
    have hd : 64 ∣ (packNodeIds ids).length := by
      rw [pack ids h, List.length_flatten]
      clear pack parse
      induction ids with
      | nil => simp
      | cons a l ih =>
        rw [List.map_cons, List.sum_cons, h a (by simp)]
        exact Nat.dvd_add (Nat.dvd_refl _) (ih fun x hx => h x (by simp [hx]))
    obtain ⟨ids', h1, h2, h3⟩ := parse _ hd
    rw [h1]
    congr 1
    exact flatten_inj 64 (by decide) _ _ h3 h (h2.trans (pack ids h))
  · intro s hd
    obtain ⟨ids, h1, h2, h3⟩ := parse s hd
    exact ⟨ids, h1, (pack ids h3).trans h2, h3⟩
  · intro s hd
    rw [parseNodeIds, if_pos]
    intro h
    exact hd (Nat.dvd_of_mod_eq_zero h)

example : parseNodeIds (packNodeIds [List.replicate 64 1, List.replicate 64 2]) =
    some [List.replicate 64 1, List.replicate 64 2] := by decide +kernel

/-! ### C85: intersection -/

theorem interLoop_spec (y : List Bytes) : ∀ m : List Bytes, m.Nodup →
    (interLoop m y).Nodup ∧ ∀ x, x ∈ interLoop m y ↔ x ∈ m ∧ x ∈ y := by
  induction y with
  | nil => intro m _; simp [interLoop]
  | cons b y ih =>
    intro m hm
    rw [interLoop]
    split
    · rename_i hb
      obtain ⟨h1, h2⟩ := ih (m.erase b) (hm.erase b)
      refine ⟨List.nodup_cons.2 ⟨?_, h1⟩, ?_⟩
      · rw [h2]
        intro hc
        exact (List.Nodup.not_mem_erase hm) hc.1
      · intro x
        rw [List.mem_cons, h2, List.mem_cons]
        by_cases hx : x = b
        · subst hx; simp [hb]
        · rw [List.mem_erase_of_ne hx]; simp [hx]
    · rename_i hb
      obtain ⟨h1, h2⟩ := ih m hm
      refine ⟨h1, ?_⟩
      intro x
      rw [h2, List.mem_cons]
      constructor
      · rintro ⟨a, b⟩; exact ⟨a, Or.inr b⟩
      · rintro ⟨a, rfl | b⟩
        · exact absurd a hb
        · exact ⟨a, b⟩

/-- **C85.** `BytesIntersection` is the set intersection, without repetitions. -/
theorem C85_intersection (a b : List Bytes) :
    (bytesIntersection a b).Nodup ∧ ∀ x, x ∈ bytesIntersection a b ↔ x ∈ a ∧ x ∈ b := by
  rw [bytesIntersection]
  split
  · rename_i h
    rcases h with h | h <;> rw [List.length_eq_zero_iff.1 h] <;> simp
  · split
    · obtain ⟨h1, h2⟩ := interLoop_spec a b.dedup (List.nodup_dedup b)
      refine ⟨h1, fun x => ?_⟩
      rw [h2, List.mem_dedup, and_comm]
    · obtain ⟨h1, h2⟩ := interLoop_spec b a.dedup (List.nodup_dedup a)
      refine ⟨h1, fun x => ?_⟩
      rw [h2, List.mem_dedup]

example : bytesIntersection [[1], [2], [2]] [[2], [3], [2], [1], [4]] = [[1], [2]] ∨
    bytesIntersection [[1], [2], [2]] [[2], [3], [2], [1], [4]] = [[2], [1]] := by decide

/-! ### C86: reversing in place -/

theorem reverseLoop_spec (l n : Nat) : ∀ (j : Nat) (bs : Bytes), bs.length = l → l / 2 - j = n → j ≤ l / 2 →
    (reverseLoop l j bs).length = l ∧ ∀ i < l, (reverseLoop l j bs).getD i 0 =
      if j ≤ i ∧ i < l - j then bs.getD (l - 1 - i) 0 else bs.getD i 0 := by
  induction n with
  | zero =>
    intro j bs hl hn hj
    rw [reverseLoop.eq_def, if_neg (by omega)]
    refine ⟨hl, ?_⟩
    intro i hi
    split
    · congr 1; omega
    · rfl
  | succ n ih =>
    intro j bs hl hn hj
    rw [reverseLoop.eq_def, if_pos (by omega)]
    simp only
    obtain ⟨h1, h2⟩ := ih (j + 1) ((bs.set j (bs.getD (l - j - 1) 0)).set (l - j - 1) (bs.getD j 0)) (by simp [hl])
      (by omega) (by omega)
    refine ⟨h1, ?_⟩
    intro i hi
    rw [h2 i hi]
    have hget : ∀ k < l, ((bs.set j (bs.getD (l - j - 1) 0)).set (l - j - 1) (bs.getD j 0)).getD k 0 =
        if k = l - j - 1 then bs.getD j 0 else if k = j then bs.getD (l - j - 1) 0 else bs.getD k 0 := by
      intro k hk
      simp only [List.getD_eq_getElem?_getD, List.getElem?_set, List.length_set, hl]
      by_cases e1 : l - j - 1 = k
      · rw [if_pos e1, if_pos (by omega), if_pos e1.symm]; rfl
      · rw [if_neg e1, if_neg (Ne.symm e1)]
        by_cases e2 : j = k
        · rw [if_pos e2, if_pos (by omega), if_pos e2.symm]; rfl
        · rw [if_neg e2, if_neg (Ne.symm e2)]
    split
    · rw [hget _ (by omega), if_neg (by omega), if_neg (by omega), if_pos (by omega)]
    · rw [hget _ hi]
      by_cases e1 : i = l - j - 1
      · rw [if_pos e1, if_pos (by omega)]
        congr 1; omega
      · rw [if_neg e1]
        by_cases e2 : i = j
        · rw [if_pos e2, if_pos (by omega)]
          congr 1; omega
        · rw [if_neg e2, if_neg (by omega)]

/-- **C86.** `ReverseBytes` reverses (in place); doing it twice restores the string. -/
theorem C86_reverse (bs : Bytes) : reverseBytes bs = bs.reverse ∧ reverseBytes (reverseBytes bs) = bs := by
  have h : ∀ bs, reverseBytes bs = bs.reverse := by
    intro bs
    obtain ⟨h1, h2⟩ := reverseLoop_spec bs.length (bs.length / 2) 0 bs rfl (by omega) (by omega)
    apply List.ext_getElem
    · rw [reverseBytes, h1, List.length_reverse]
    · intro i hi hi'
      have hi'' : i < bs.length := by simpa using hi'
      have := h2 i hi''
      rw [if_pos ⟨by omega, by omega⟩, List.getD_eq_getElem?_getD, List.getElem?_eq_getElem (by rw [h1]; exact hi''),
        List.getD_eq_getElem?_getD, List.getElem?_eq_getElem (by omega)] at this
      rw [List.getElem_reverse]
      exact this
  exact ⟨h bs, by rw [h, h, List.reverse_reverse]⟩

example : reverseBytes [1, 2, 3, 4, 5] = [5, 4, 3, 2, 1] := by decide +kernel

end Verif.ByteOps

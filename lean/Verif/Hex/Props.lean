import Verif.Hex.Model
import Mathlib.Data.List.Forall2
import Mathlib.Tactic.Ring
import Mathlib.Tactic.NormNum

/-!
# Property C54: hexadecimal texts
-/

namespace Verif.Hex
open Verif

/-! ### Specification -/

/-- A hexadecimal digit, in either case, with its value. -/
inductive Digit : UInt8 → Nat → Prop
  | num (d : Nat) (h : d < 10) : Digit (UInt8.ofNat (48 + d)) d
  | upper (d : Nat) (h : d < 6) : Digit (UInt8.ofNat (65 + d)) (10 + d)
  | lower (d : Nat) (h : d < 6) : Digit (UInt8.ofNat (97 + d)) (10 + d)

/-- The prefix `0x` or `0X`. -/
def IsPrefix0x (s : Bytes) : Prop := s = [48, 120] ∨ s = [48, 88]

/-- The number with the given digits, most significant first. -/
def number (ds : List Nat) : Nat := ds.foldl (fun a d => a * 16 + d) 0

/-- The bytes with the given digits, two per byte. -/
def byteDigits (b : Bytes) : List Nat := b.flatMap fun x => [x.toNat / 16, x.toNat % 16]

/-- A canonical quantity: the prefix and the digits of `n` without leading zeros (one digit for zero). -/
def Quantity (s : Bytes) (n : Nat) : Prop :=
  ∃ p cs ds, s = p ++ cs ∧ IsPrefix0x p ∧ List.Forall₂ Digit cs ds ∧ ds ≠ [] ∧ (ds.head? = some 0 → ds = [0]) ∧
    n = number ds

/-- A hexadecimal data string: the prefix and two digits for every byte. -/
def Data (s : Bytes) (b : Bytes) : Prop :=
  ∃ p cs, s = p ++ cs ∧ IsPrefix0x p ∧ List.Forall₂ Digit cs (byteDigits b)

/-! ### Digits -/

theorem decodeNibble_spec (c : UInt8) (d : Nat) : decodeNibble c = some d ↔ Digit c d := by
  constructor
  · intro h
    have hc := c.toNat_lt
    rw [decodeNibble] at h
    split at h
    · rename_i hb
      rw [UInt8.le_iff_toNat_le, UInt8.le_iff_toNat_le] at hb
      simp only [UInt8.reduceToNat] at hb
      cases h
      have e : (c - 48).toNat = c.toNat - 48 := by
        rw [UInt8.toNat_sub_of_le _ _ (UInt8.le_iff_toNat_le.2 (show (48 : UInt8).toNat ≤ c.toNat from hb.1))]; rfl
      have := Digit.num (c - 48).toNat (by omega)
      rwa [e, show 48 + (c.toNat - 48) = c.toNat by omega, UInt8.ofNat_toNat, ← e] at this
    · split at h
      · rename_i hb
        rw [UInt8.le_iff_toNat_le, UInt8.le_iff_toNat_le] at hb
        simp only [UInt8.reduceToNat] at hb
        cases h
        have e : (c - 65).toNat = c.toNat - 65 := by
          rw [UInt8.toNat_sub_of_le _ _ (UInt8.le_iff_toNat_le.2 (show (65 : UInt8).toNat ≤ c.toNat from hb.1))]; rfl
        have e2 : (c - 65 + 10).toNat = 10 + (c.toNat - 65) := by
          rw [UInt8.toNat_add, e]; simp only [UInt8.reduceToNat]; omega
        have := Digit.upper (c - 65).toNat (by omega)
        rw [e, show 65 + (c.toNat - 65) = c.toNat by omega, UInt8.ofNat_toNat] at this
        rwa [e2]
      · split at h
        · rename_i hb
          rw [UInt8.le_iff_toNat_le, UInt8.le_iff_toNat_le] at hb
          simp only [UInt8.reduceToNat] at hb
          cases h
          have e : (c - 97).toNat = c.toNat - 97 := by
            rw [UInt8.toNat_sub_of_le _ _ (UInt8.le_iff_toNat_le.2 (show (97 : UInt8).toNat ≤ c.toNat from hb.1))]; rfl
          have e2 : (c - 97 + 10).toNat = 10 + (c.toNat - 97) := by
            rw [UInt8.toNat_add, e]; simp only [UInt8.reduceToNat]; omega
          have := Digit.lower (c - 97).toNat (by omega)
          rw [e, show 97 + (c.toNat - 97) = c.toNat by omega, UInt8.ofNat_toNat] at this
          rwa [e2]
        · cases h
  · intro h
    cases h with
    | num d h =>
      have : ∀ e : Fin 10, decodeNibble (UInt8.ofNat (48 + e.val)) = some e.val := by decide
      exact this ⟨d, h⟩
    | upper d h =>
      have : ∀ e : Fin 6, decodeNibble (UInt8.ofNat (65 + e.val)) = some (10 + e.val) := by decide
      exact this ⟨d, h⟩
    | lower d h =>
      have : ∀ e : Fin 6, decodeNibble (UInt8.ofNat (97 + e.val)) = some (10 + e.val) := by decide
      exact this ⟨d, h⟩

theorem Digit.lt {c : UInt8} {d : Nat} (h : Digit c d) : d < 16 := by cases h <;> omega

theorem digit_hexChar (d : Nat) (h : d < 16) : Digit (hexChar d) d := by
  rw [← decodeNibble_spec]
  have : ∀ e : Fin 16, decodeNibble (hexChar e.val) = some e.val := by decide
  exact this ⟨d, h⟩

theorem Digit.zero {d : Nat} (h : Digit 48 d) : d = 0 := by
  rw [← decodeNibble_spec] at h
  have : decodeNibble 48 = some 0 := by decide
  rw [this] at h
  cases h
  rfl

theorem Digit.of_zero {c : UInt8} (h : Digit c 0) : c = 48 := by
  generalize hd : 0 = d at h
  cases h with
  | num d h => subst hd; rfl
  | upper d h => omega
  | lower d h => omega

theorem has0x_iff (s : Bytes) : has0x s = true ↔ ∃ p, IsPrefix0x p ∧ s = p ++ s.drop 2 := by
  match s with
  | [] => simp [has0x, IsPrefix0x]
  | [a] => simp [has0x, IsPrefix0x]
  | a :: b :: r =>
    simp only [has0x, Bool.and_eq_true, Bool.or_eq_true, beq_iff_eq, List.drop_succ_cons, List.drop_zero]
    constructor
    · rintro ⟨rfl, rfl | rfl⟩
      · exact ⟨_, Or.inl rfl, rfl⟩
      · exact ⟨_, Or.inr rfl, rfl⟩
    · rintro ⟨p, rfl | rfl, h⟩
      · simp only [List.cons_append, List.nil_append, List.cons.injEq] at h
        exact ⟨h.1, Or.inl h.2.1⟩
      · simp only [List.cons_append, List.nil_append, List.cons.injEq] at h
        exact ⟨h.1, Or.inr h.2.1⟩

theorem prefix_drop {p cs : Bytes} (h : IsPrefix0x p) : has0x (p ++ cs) = true ∧ (p ++ cs).drop 2 = cs := by
  rcases h with rfl | rfl <;> exact ⟨rfl, rfl⟩

/-! ### Data strings -/

theorem hexDecode_spec (cs : Bytes) (b : Bytes) : hexDecode cs = (b, true) ↔ List.Forall₂ Digit cs (byteDigits b) := by
  induction cs using hexDecode.induct generalizing b with
  | case1 =>
    simp only [hexDecode, Prod.mk.injEq, and_true, List.forall₂_nil_left_iff, byteDigits]
    constructor
    · intro h; rw [← h]; rfl
    · intro h
      cases b with
      | nil => rfl
      | cons x b => simp at h
  | case2 a =>
    simp only [hexDecode, Prod.mk.injEq, Bool.false_eq_true, and_false, false_iff]
    intro h
    cases b with
    | nil => cases h
    | cons x b =>
      simp only [byteDigits, List.flatMap_cons, List.cons_append, List.nil_append] at h
      cases h with
      | cons _ h => cases h
  | case3 a c r x y hy hx t ok hr ih =>
    have ha := (decodeNibble_spec a x).1 hx
    have hc := (decodeNibble_spec c y).1 hy
    have hxl := ha.lt
    have hyl := hc.lt
    simp only [hexDecode, hx, hy, hr, Prod.mk.injEq]
    constructor
    · rintro ⟨rfl, rfl⟩
      have ht : (UInt8.ofNat (16 * x + y)).toNat = 16 * x + y := by rw [UInt8.toNat_ofNat']; omega
      simp only [byteDigits, List.flatMap_cons, List.cons_append, List.nil_append, ht]
      have e1 : (16 * x + y) / 16 = x := by omega
      have e2 : (16 * x + y) % 16 = y := by omega
      rw [e1, e2]
      exact .cons ha (.cons hc ((ih t).1 hr))
    · intro h
      cases b with
      | nil => cases h
      | cons z b =>
        simp only [byteDigits, List.flatMap_cons, List.cons_append, List.nil_append] at h
        cases h with
        | cons h1 h =>
          cases h with
          | cons h2 h3 =>
            have e1 := (decodeNibble_spec _ _).2 h1
            have e2 := (decodeNibble_spec _ _).2 h2
            rw [hx] at e1
            rw [hy] at e2
            cases e1
            cases e2
            have := (ih b).2 h3
            rw [hr] at this
            cases this
            refine ⟨?_, rfl⟩
            congr 1
            apply UInt8.toNat_inj.1
            have := z.toNat_lt
            rw [UInt8.toNat_ofNat']
            omega
  | case4 a c r h =>
    have hd : hexDecode (a :: c :: r) = ([], false) := by
      rw [hexDecode]
      split
      · rename_i x y hx hy; exact absurd hy (h x y hx)
      · rfl
    rw [hd]
    simp only [Prod.mk.injEq, Bool.false_eq_true, and_false, false_iff]
    intro hf
    cases b with
    | nil => cases hf
    | cons z b =>
      simp only [byteDigits, List.flatMap_cons, List.cons_append, List.nil_append] at hf
      cases hf with
      | cons h1 hf =>
        cases hf with
        | cons h2 h3 => exact h _ _ ((decodeNibble_spec _ _).2 h1) ((decodeNibble_spec _ _).2 h2)

theorem forall2_hexEncode (b : Bytes) : List.Forall₂ Digit (hexEncode b) (byteDigits b) := by
  induction b with
  | nil => exact .nil
  | cons x b ih =>
    have := x.toNat_lt
    simp only [hexEncode, byteDigits, List.flatMap_cons, List.cons_append, List.nil_append]
    exact .cons (digit_hexChar _ (by omega)) (.cons (digit_hexChar _ (by omega)) ih)

theorem encode_eq (b : Bytes) : encode b = [48, 120] ++ hexEncode b := by
  have hl : (hexEncode b).length = b.length * 2 := by
    induction b with
    | nil => rfl
    | cons x b ih => simp only [hexEncode, List.flatMap_cons, List.length_append] at ih ⊢; simp [ih]; omega
  have hg : goCopy (List.replicate (b.length * 2 + 2) (0 : UInt8)) [48, 120] = [48, 120] ++ List.replicate (b.length * 2) 0 := by
    simp [goCopy]
  rw [encode, hg, goCopyAt_of_fits _ _ _ (by simp [hl]; omega)]
  have : List.drop (2 + (hexEncode b).length) ([48, 120] ++ List.replicate (b.length * 2) (0 : UInt8)) = [] := by
    apply List.drop_of_length_le
    simp [hl]
    omega
  rw [this]
  simp

/-- **C54, data.** `Decode` accepts exactly the prefixed strings with two digits per byte, and returns those bytes. -/
theorem C54_decode (s b : Bytes) : decode s = some b ↔ Data s b := by
  rw [decode]
  by_cases h0 : s.length = 0
  · rw [if_pos h0, List.length_eq_zero_iff.1 h0]
    simp only [reduceCtorEq, false_iff]
    rintro ⟨p, cs, h, hp | hp, -⟩ <;> simp [hp] at h
  · rw [if_neg h0]
    cases hx : has0x s with
    | false =>
      simp only [Bool.not_false, if_true, reduceCtorEq, false_iff]
      rintro ⟨p, cs, rfl, hp, -⟩
      rw [(prefix_drop hp).1] at hx
      simp at hx
    | true =>
      obtain ⟨p, hp, hs⟩ := (has0x_iff s).1 hx
      simp only [Bool.not_true, Bool.false_eq_true, if_false]
      have key : ∀ b, hexDecode (s.drop 2) = (b, true) ↔ Data s b := by
        intro b
        rw [hexDecode_spec]
        constructor
        · intro h; exact ⟨p, _, hs, hp, h⟩
        · rintro ⟨p', cs, rfl, hp', h⟩; rw [(prefix_drop hp').2]; exact h
      rcases hd : hexDecode (s.drop 2) with ⟨t, ok⟩
      cases ok with
      | true =>
        simp only [Option.some.injEq]
        rw [← key b, hd]
        simp
      | false =>
        simp only [reduceCtorEq, false_iff]
        rw [← key b, hd]
        simp

theorem data_encode (b : Bytes) : Data (encode b) b :=
  ⟨[48, 120], hexEncode b, encode_eq b, Or.inl rfl, forall2_hexEncode b⟩

/-- **C54, data round trip.** -/
theorem C54_decode_encode (b : Bytes) : decode (encode b) = some b := (C54_decode _ _).2 (data_encode b)

/-! ### Quantities -/

theorem number_append (a b : List Nat) : number (a ++ b) = number a * 16 ^ b.length + number b := by
  have h : ∀ (b : List Nat) (acc : Nat), b.foldl (fun a d => a * 16 + d) acc = acc * 16 ^ b.length + number b := by
    intro b
    induction b with
    | nil => intro acc; simp [number]
    | cons d b ih =>
      intro acc
      have h1 := ih (acc * 16 + d)
      have h2 := ih (0 * 16 + d)
      simp only [number, List.foldl_cons, List.length_cons, Nat.pow_succ] at *
      rw [h1, h2, Nat.add_mul, Nat.zero_mul, Nat.zero_add, Nat.mul_assoc, Nat.mul_comm 16, Nat.add_assoc]
  simp only [number, List.foldl_append]
  exact h b _

theorem number_lt (ds : List Nat) (h : ∀ d ∈ ds, d < 16) : number ds < 16 ^ ds.length := by
  induction ds with
  | nil => simp [number]
  | cons d ds ih =>
    have := number_append [d] ds
    have e : number [d] = d := by simp [number]
    rw [List.singleton_append, e] at this
    rw [this, List.length_cons, Nat.pow_succ]
    have hd := h d (by simp)
    have := ih fun x hx => h x (by simp [hx])
    have h2 : (d + 1) * 16 ^ ds.length ≤ 16 * 16 ^ ds.length := Nat.mul_le_mul_right _ hd
    rw [Nat.add_mul, Nat.one_mul] at h2
    rw [Nat.mul_comm (16 ^ ds.length)]
    omega

theorem number_ge (d : Nat) (ds : List Nat) (h : d ≠ 0) : 16 ^ ds.length ≤ number (d :: ds) := by
  have := number_append [d] ds
  have e : number [d] = d := by simp [number]
  rw [List.singleton_append, e] at this
  rw [this]
  have : 1 * 16 ^ ds.length ≤ d * 16 ^ ds.length := Nat.mul_le_mul_right _ (by omega)
  omega

theorem mapM_digits (cs : Bytes) (ds : List Nat) : cs.mapM decodeNibble = some ds ↔ List.Forall₂ Digit cs ds := by
  induction cs generalizing ds with
  | nil =>
    simp only [List.mapM_nil, List.forall₂_nil_left_iff]
    constructor
    · intro h; cases h; rfl
    · rintro rfl; rfl
  | cons c cs ih =>
    rw [List.mapM_cons]
    cases hc : decodeNibble c with
    | none =>
      simp only [Option.bind_eq_bind, Option.bind_none, reduceCtorEq, false_iff]
      intro h
      cases h with
      | cons h1 _ => rw [(decodeNibble_spec _ _).2 h1] at hc; cases hc
    | some d =>
      simp only [Option.bind_eq_bind, Option.bind_some]
      cases hm : cs.mapM decodeNibble with
      | none =>
        simp only [Option.bind_none, reduceCtorEq, false_iff]
        intro h
        cases h with
        | cons _ h2 => rw [(ih _).2 h2] at hm; cases hm
      | some es =>
        simp only [Option.bind_some, Option.pure_def, Option.some.injEq]
        constructor
        · rintro rfl; exact .cons ((decodeNibble_spec _ _).1 hc) ((ih _).1 hm)
        · intro h
          cases h with
          | cons h1 h2 =>
            have := (decodeNibble_spec _ _).2 h1
            rw [hc] at this
            cases this
            have := (ih _).2 h2
            rw [hm] at this
            cases this
            rfl

theorem forall2_lt {cs : Bytes} {ds : List Nat} (h : List.Forall₂ Digit cs ds) : ∀ d ∈ ds, d < 16 := by
  induction h with
  | nil => simp
  | cons h1 _ ih =>
    intro d hd
    rw [List.mem_cons] at hd
    rcases hd with rfl | hd
    · exact h1.lt
    · exact ih d hd

/-- What `checkNumber` leaves. -/
theorem checkNumber_iff (s raw : Bytes) : checkNumber s = some raw ↔
    ∃ p, IsPrefix0x p ∧ s = p ++ raw ∧ raw ≠ [] ∧ (raw.head? = some 48 → raw.length = 1) := by
  rw [checkNumber]
  by_cases h0 : s.length = 0
  · rw [if_pos h0, List.length_eq_zero_iff.1 h0]
    simp only [reduceCtorEq, false_iff]
    rintro ⟨p, hp | hp, h, -⟩ <;> simp [hp] at h
  · rw [if_neg h0]
    cases hx : has0x s with
    | false =>
      simp only [Bool.not_false, if_true, reduceCtorEq, false_iff]
      rintro ⟨p, hp, rfl, -⟩
      rw [(prefix_drop hp).1] at hx
      simp at hx
    | true =>
      obtain ⟨p, hp, hs⟩ := (has0x_iff s).1 hx
      simp only [Bool.not_true, Bool.false_eq_true, if_false]
      have hd : ∀ p', IsPrefix0x p' → s = p' ++ raw → s.drop 2 = raw := by
        rintro p' hp' rfl; exact (prefix_drop hp').2
      split
      · rename_i h1
        simp only [reduceCtorEq, false_iff]
        rintro ⟨p', hp', e, hne, -⟩
        rw [hd p' hp' e] at h1
        exact hne (List.length_eq_zero_iff.1 h1)
      · rename_i h1
        split
        · rename_i h2
          simp only [reduceCtorEq, false_iff]
          rintro ⟨p', hp', e, hne, h3⟩
          rw [hd p' hp' e] at h2
          have := h3 h2.2
          omega
        · rename_i h2
          simp only [Option.some.injEq]
          constructor
          · rintro rfl
            refine ⟨p, hp, hs, fun h => h1 (by rw [h]; rfl), ?_⟩
            intro h3
            by_contra h4
            exact h2 ⟨by omega, h3⟩
          · rintro ⟨p', hp', e, -⟩; exact hd p' hp' e

/-- The digits that follow an accepted prefix are those of a canonical quantity. -/
theorem quantity_iff (s : Bytes) (n : Nat) :
    Quantity s n ↔ ∃ raw ds, checkNumber s = some raw ∧ List.Forall₂ Digit raw ds ∧ n = number ds := by
  constructor
  · rintro ⟨p, cs, ds, rfl, hp, hf, hne, hz, rfl⟩
    refine ⟨cs, ds, (checkNumber_iff _ _).2 ⟨p, hp, rfl, ?_, ?_⟩, hf, rfl⟩
    · rintro rfl; cases hf; exact hne rfl
    · intro h48
      cases hf with
      | nil => simp at h48
      | @cons c d cs ds h1 h2 =>
        simp only [List.head?_cons, Option.some.injEq] at h48
        subst h48
        have := hz (by rw [List.head?_cons, h1.zero])
        simp only [List.cons.injEq] at this
        rw [this.2] at h2
        cases h2
        rfl
  · rintro ⟨raw, ds, hc, hf, rfl⟩
    obtain ⟨p, hp, rfl, hne, hz⟩ := (checkNumber_iff _ _).1 hc
    refine ⟨p, raw, ds, rfl, hp, hf, ?_, ?_, rfl⟩
    · rintro rfl; cases hf; exact hne rfl
    · intro h0
      cases hf with
      | nil => simp at h0
      | @cons c d cs ds h1 h2 =>
        simp only [List.head?_cons, Option.some.injEq] at h0
        subst h0
        rw [h1.of_zero] at hz
        have := hz rfl
        simp only [List.length_cons, Nat.add_eq_right, List.length_eq_zero_iff] at this
        subst this
        cases h2
        rfl

/-- **C54, 64-bit quantities.** `DecodeUint64` accepts exactly the canonical quantities below 2^64. -/
theorem C54_decodeUint64 (s : Bytes) (n : Nat) : decodeUint64 s = some n ↔ Quantity s n ∧ n < 2 ^ 64 := by
  rw [quantity_iff, decodeUint64]
  cases hc : checkNumber s with
  | none => simp
  | some raw =>
    obtain ⟨p, hp, hs, hne, hz⟩ := (checkNumber_iff _ _).1 hc
    simp only [Option.bind_some, parseUint16, if_neg hne]
    cases hm : raw.mapM decodeNibble with
    | none =>
      simp only [reduceCtorEq, false_iff]
      rintro ⟨⟨raw', ds, he, hf, -⟩, -⟩
      cases he
      rw [(mapM_digits _ _).2 hf] at hm
      cases hm
    | some ds =>
      have hf := (mapM_digits _ _).1 hm
      simp only
      constructor
      · intro h
        split at h
        · rename_i hlt
          cases h
          exact ⟨⟨raw, ds, rfl, hf, rfl⟩, hlt⟩
        · cases h
      · rintro ⟨⟨raw', ds', he, hf', rfl⟩, hlt⟩
        cases he
        have := (mapM_digits _ _).2 hf'
        rw [hm] at this
        cases this
        exact if_pos hlt

theorem wordLoop_spec (cs : Bytes) : ∀ w, w < 16 ^ (16 - cs.length) → cs.length ≤ 16 →
    ∀ n, wordLoop cs w = some n ↔ ∃ ds, List.Forall₂ Digit cs ds ∧ n = w * 16 ^ cs.length + number ds := by
  induction cs with
  | nil =>
    intro w _ _ n
    simp only [wordLoop, Option.some.injEq, List.length_nil, Nat.pow_zero, Nat.mul_one, List.forall₂_nil_left_iff]
    constructor
    · rintro rfl; exact ⟨[], rfl, by simp [number]⟩
    · rintro ⟨ds, rfl, rfl⟩; simp
  | cons c cs ih =>
    intro w hw hl n
    simp only [List.length_cons] at hw hl
    rw [wordLoop]
    cases hc : decodeNibble c with
    | none =>
      simp only [reduceCtorEq, false_iff]
      rintro ⟨ds, hf, -⟩
      cases hf with
      | cons h1 _ => rw [(decodeNibble_spec _ _).2 h1] at hc; cases hc
    | some d =>
      have hd := ((decodeNibble_spec _ _).1 hc).lt
      have hp : 16 ^ (16 - cs.length) = 16 * 16 ^ (16 - (cs.length + 1)) := by
        rw [← Nat.pow_succ']; congr 1; omega
      have hb : w * 16 + d < 16 ^ (16 - cs.length) := by rw [hp]; omega
      have hb2 : 16 ^ (16 - cs.length) ≤ 2 ^ 64 := by
        rw [show (2 : Nat) ^ 64 = 16 ^ 16 by norm_num]
        exact Nat.pow_le_pow_right (by decide) (by omega)
      have e1 : w * 16 % 2 ^ 64 = w * 16 := Nat.mod_eq_of_lt (by omega)
      have e2 : (w * 16 + d) % 2 ^ 64 = w * 16 + d := Nat.mod_eq_of_lt (by omega)
      simp only [e1, e2]
      rw [ih _ hb (by omega)]
      have step : ∀ ds, (w * 16 + d) * 16 ^ cs.length + number ds = w * 16 ^ (cs.length + 1) + number (d :: ds) ∨
          ds.length ≠ cs.length := by
        intro ds
        by_cases hds : ds.length = cs.length
        · left
          have := number_append [d] ds
          rw [List.singleton_append, hds] at this
          rw [this, show number [d] = d by simp [number], Nat.pow_succ, Nat.add_mul]
          ring
        · exact Or.inr hds
      constructor
      · rintro ⟨ds, hf, rfl⟩
        refine ⟨d :: ds, .cons ((decodeNibble_spec _ _).1 hc) hf, ?_⟩
        rcases step ds with h | h
        · exact h
        · exact absurd hf.length_eq.symm h
      · rintro ⟨ds, hf, rfl⟩
        cases hf with
        | @cons _ d' _ ds h1 h2 =>
          have := (decodeNibble_spec _ _).2 h1
          rw [hc] at this
          cases this
          refine ⟨ds, h2, ?_⟩
          rcases step ds with h | h
          · exact h.symm
          · exact absurd h2.length_eq.symm h

theorem forall2_split {cs1 cs2 : Bytes} {ds : List Nat} :
    List.Forall₂ Digit (cs1 ++ cs2) ds ↔ ∃ d1 d2, ds = d1 ++ d2 ∧ List.Forall₂ Digit cs1 d1 ∧ List.Forall₂ Digit cs2 d2 := by
  constructor
  · intro h
    refine ⟨ds.take cs1.length, ds.drop cs1.length, (List.take_append_drop _ _).symm, ?_, ?_⟩
    · have := List.forall₂_take cs1.length h
      simpa using this
    · have := List.forall₂_drop cs1.length h
      simpa using this
  · rintro ⟨d1, d2, rfl, h1, h2⟩
    exact List.rel_append h1 h2

theorem wordsLoop_spec (raw : Bytes) : ∀ (k stop : Nat), stop ≤ 16 * k → stop ≤ raw.length →
    ∀ n, (wordsLoop raw k stop).map setBits = some n ↔ ∃ ds, List.Forall₂ Digit (raw.take stop) ds ∧ n = number ds := by
  intro k
  induction k with
  | zero =>
    intro stop hk _ n
    have : stop = 0 := by omega
    subst this
    simp only [wordsLoop, Option.map_some, setBits, Option.some.injEq, List.take_zero, List.forall₂_nil_left_iff]
    constructor
    · rintro rfl; exact ⟨[], rfl, rfl⟩
    · rintro ⟨ds, rfl, rfl⟩; rfl
  | succ k ih =>
    intro stop hk hr n
    rw [wordsLoop, wordAt]
    generalize hst : stop - 16 = start
    have hsplit : raw.take stop = raw.take start ++ (raw.take stop).drop start := by
      conv_lhs => rw [← List.take_append_drop start (raw.take stop), List.take_take, Nat.min_eq_left (by omega)]
    have hlen : ((raw.take stop).drop start).length = stop - start := by simp; omega
    have hw := wordLoop_spec ((raw.take stop).drop start) 0 (Nat.pow_pos (by decide)) (by omega)
    have hi := ih start (by omega) (by omega)
    generalize hA : raw.take start = A at hsplit hi
    generalize hB : (raw.take stop).drop start = B at hsplit hlen hw
    rw [hsplit]
    -- either the low word is full, or there is nothing above it
    have hfull : stop - start = 16 ∨ A = [] := by
      by_cases h : 16 ≤ stop
      · left; omega
      · right
        rw [← hA, show start = 0 by omega, List.take_zero]
    cases hwl : wordLoop B 0 with
    | none =>
      simp only [Option.bind_none, Option.map_none, reduceCtorEq, false_iff]
      rintro ⟨ds, hf, -⟩
      obtain ⟨d1, d2, -, -, h2⟩ := forall2_split.1 hf
      have := (hw _).2 ⟨d2, h2, rfl⟩
      rw [hwl] at this
      cases this
    | some w =>
      obtain ⟨dw, hdw, hwv⟩ := (hw w).1 hwl
      simp only [Nat.zero_mul, Nat.zero_add] at hwv
      simp only [Option.bind_some, Option.map_map]
      have hcomb : ∀ d1, List.Forall₂ Digit A d1 → number (d1 ++ dw) = w + 2 ^ 64 * number d1 := by
        intro d1 h1
        rw [number_append, ← hwv, ← hdw.length_eq, hlen]
        rcases hfull with h | h
        · rw [h, show (16 : Nat) ^ 16 = 2 ^ 64 by norm_num]; ring
        · subst h
          cases h1
          simp [number]
      have hdw' : ∀ d2, List.Forall₂ Digit B d2 → d2 = dw := by
        intro d2 h2
        have a := (mapM_digits _ _).2 h2
        have b := (mapM_digits _ _).2 hdw
        rw [a] at b
        cases b
        rfl
      constructor
      · intro h
        cases hwo : wordsLoop raw k start with
        | none => rw [hwo] at h; simp at h
        | some ws =>
          rw [hwo] at h hi
          simp only [Option.map_some, Function.comp_apply, setBits, Option.some.injEq] at h hi
          obtain ⟨d1, h1, h2⟩ := (hi _).1 rfl
          refine ⟨d1 ++ dw, forall2_split.2 ⟨d1, dw, rfl, h1, hdw⟩, ?_⟩
          rw [hcomb d1 h1, ← h2, ← h]
      · rintro ⟨ds, hf, rfl⟩
        obtain ⟨d1, d2, rfl, h1, h2⟩ := forall2_split.1 hf
        rw [hdw' d2 h2, hcomb d1 h1]
        have := (hi _).2 ⟨d1, h1, rfl⟩
        cases hwo : wordsLoop raw k start with
        | none => rw [hwo] at this; simp at this
        | some ws =>
          rw [hwo] at this
          simp only [Option.map_some, Option.some.injEq] at this
          simp only [Option.map_some, Function.comp_apply, setBits, this]

theorem bigOfRaw_spec (raw : Bytes) (n : Nat) :
    bigOfRaw raw = some n ↔ raw.length ≤ 64 ∧ ∃ ds, List.Forall₂ Digit raw ds ∧ n = number ds := by
  rw [bigOfRaw]
  split
  · rename_i h
    simp only [reduceCtorEq, false_iff]
    omega
  · rw [wordsLoop_spec raw _ _ (by omega) (Nat.le_refl _), List.take_length]
    constructor
    · intro h; exact ⟨by omega, h⟩
    · intro h; exact h.2

/-- A canonical quantity has at most `k` digits exactly if it is below `16^k`. -/
theorem canonical_len {s raw : Bytes} {ds : List Nat} (hc : checkNumber s = some raw) (hf : List.Forall₂ Digit raw ds)
    (k : Nat) (hk : 0 < k) : raw.length ≤ k ↔ number ds < 16 ^ k := by
  obtain ⟨p, hp, rfl, hne, hz⟩ := (checkNumber_iff _ _).1 hc
  have hl := hf.length_eq
  have hlt := number_lt ds (forall2_lt hf)
  constructor
  · intro h
    exact Nat.lt_of_lt_of_le hlt (Nat.pow_le_pow_right (by decide) (by omega))
  · intro h
    by_contra hc
    cases hf with
    | nil => exact hne rfl
    | @cons c d cs ds h1 h2 =>
      by_cases hd : d = 0
      · subst hd
        rw [h1.of_zero] at hz
        have := hz rfl
        rw [h1.of_zero] at hc
        omega
      · have := number_ge d ds hd
        simp only [List.length_cons] at hc hl
        have h3 : 16 ^ k ≤ 16 ^ ds.length := Nat.pow_le_pow_right (by decide) (by omega)
        omega

/-- **C54, 256-bit quantities.** `DecodeBig` accepts exactly the canonical quantities below 2^256. -/
theorem C54_decodeBig (s : Bytes) (n : Nat) : decodeBig s = some n ↔ Quantity s n ∧ n < 2 ^ 256 := by
  rw [quantity_iff, decodeBig]
  cases hc : checkNumber s with
  | none => simp
  | some raw =>
    simp only [Option.bind_some, bigOfRaw_spec]
    have e : (2 : Nat) ^ 256 = 16 ^ 64 := by norm_num
    rw [e]
    constructor
    · rintro ⟨h1, ds, hf, rfl⟩
      exact ⟨⟨raw, ds, rfl, hf, rfl⟩, (canonical_len hc hf 64 (by decide)).1 h1⟩
    · rintro ⟨⟨raw', ds, he, hf, rfl⟩, hlt⟩
      cases he
      exact ⟨(canonical_len hc hf 64 (by decide)).2 hlt, ds, hf, rfl⟩

/-- The digits that are written. -/
theorem hexDigits_spec (n : Nat) : ∃ ds, List.Forall₂ Digit (hexDigits n) ds ∧ ds ≠ [] ∧ (ds.head? = some 0 → ds = [0]) ∧
    number ds = n := by
  induction n using Nat.strongRecOn with
  | _ n ih =>
    rw [hexDigits]
    split
    · rename_i h
      refine ⟨[n], .cons (digit_hexChar n h) .nil, by simp, ?_, by simp [number]⟩
      intro h0
      simp only [List.head?_cons, Option.some.injEq] at h0
      rw [h0]
    · rename_i h
      obtain ⟨ds, h1, h2, h3, h4⟩ := ih (n / 16) (by omega)
      refine ⟨ds ++ [n % 16], List.rel_append h1 (.cons (digit_hexChar _ (by omega)) .nil), by simp, ?_, ?_⟩
      · intro h0
        exfalso
        rw [List.head?_append] at h0
        cases hd : ds.head? with
        | none => rw [List.head?_eq_none_iff] at hd; exact h2 hd
        | some d =>
          rw [hd] at h0
          simp only [Option.some_or, Option.some.injEq] at h0
          subst h0
          have := h3 hd
          subst this
          simp [number] at h4
          omega
      · rw [number_append, h4]
        simp [number]
        omega

theorem quantity_encode (n : Nat) : Quantity ([48, 120] ++ hexDigits n) n := by
  obtain ⟨ds, h1, h2, h3, h4⟩ := hexDigits_spec n
  exact ⟨[48, 120], hexDigits n, ds, rfl, Or.inl rfl, h1, h2, h3, h4.symm⟩

/-- **C54, quantity round trips.** -/
theorem C54_uint64_roundtrip (n : Nat) (h : n < 2 ^ 64) : decodeUint64 (encodeUint64 n) = some n :=
  (C54_decodeUint64 _ _).2 ⟨quantity_encode n, h⟩

theorem C54_big_roundtrip (n : Nat) (h : n < 2 ^ 256) : decodeBig (encodeBig n) = some n := by
  refine (C54_decodeBig _ _).2 ⟨?_, h⟩
  rw [encodeBig]
  split
  · rename_i h0
    have : n = 0 := by omega
    subst this
    have h48 : hexDigits 0 = [48] := by rw [hexDigits]; rfl
    have := quantity_encode 0
    rwa [h48] at this
  · have hn : ¬ ((n : Int) < 0) := by omega
    simp only [hn, if_false, List.nil_append, Int.natAbs_natCast]
    exact quantity_encode n

/-- Negative numbers are written in a form that is not read back. -/
theorem C54_negative_rejected (n : Int) (h : n < 0) : decodeBig (encodeBig n) = none := by
  rw [encodeBig, if_neg (by omega), if_pos h]
  rfl

/-! ### Text forms -/

/-- **C54, text of byte strings.** As `Decode`, and the empty text stands for the empty string. -/
theorem C54_unmarshalBytes (s b : Bytes) : unmarshalBytes s = some b ↔ (s = [] ∧ b = []) ∨ Data s b := by
  rw [unmarshalBytes, checkText]
  by_cases h0 : s.length = 0
  · have hs := List.length_eq_zero_iff.1 h0
    subst hs
    simp only [List.length_nil, if_true, hexDecode, Option.some.injEq, true_and]
    constructor
    · intro h; exact Or.inl h.symm
    · rintro (h | ⟨p, cs, h, hp | hp, -⟩)
      · exact h.symm
      · simp [hp] at h
      · simp [hp] at h
  · have hne : s ≠ [] := fun h => h0 (by rw [h]; rfl)
    simp only [if_neg h0, hne, false_and, false_or]
    rw [← C54_decode, decode, if_neg h0]
    cases hx : has0x s with
    | false => simp
    | true =>
      simp only [if_true, Bool.not_true, Bool.false_eq_true, if_false]
      by_cases hodd : (s.drop 2).length % 2 ≠ 0
      · rw [if_pos hodd]
        simp only [reduceCtorEq, false_iff]
        rcases hd : hexDecode (s.drop 2) with ⟨t, ok⟩
        cases ok with
        | false => simp
        | true =>
          exfalso
          have := ((hexDecode_spec _ _).1 hd).length_eq
          rw [this] at hodd
          apply hodd
          have hb : (byteDigits t).length = t.length * 2 := by
            clear hd this hodd
            induction t with
            | nil => rfl
            | cons x t ih => simp only [byteDigits, List.flatMap_cons, List.length_append] at ih ⊢; simp [ih]; omega
          rw [hb]
          omega
      · rw [if_neg hodd]

/-- **C54, text of 64-bit numbers.** As `DecodeUint64`, and the empty text stands for zero. -/
theorem C54_unmarshalUint64 (s : Bytes) (n : Nat) :
    unmarshalUint64 s = some n ↔ (s = [] ∧ n = 0) ∨ (Quantity s n ∧ n < 2 ^ 64) := by
  rw [unmarshalUint64, checkNumberText]
  have hq : ¬ Quantity [] n := by
    rintro ⟨p, cs, ds, h, hp | hp, -⟩ <;> simp [hp] at h
  by_cases h0 : s.length = 0
  · have hs := List.length_eq_zero_iff.1 h0
    subst hs
    simp [wordLoop, hq, eq_comm]
  · have hne : s ≠ [] := fun h => h0 (by rw [h]; rfl)
    simp only [if_neg h0, hne, false_and, false_or]
    rw [quantity_iff]
    have e : (2 : Nat) ^ 64 = 16 ^ 16 := by norm_num
    cases hc : checkNumber s with
    | none => simp
    | some raw =>
      simp only
      split
      · rename_i hl
        simp only [reduceCtorEq, false_iff]
        rintro ⟨⟨raw', ds, he, hf, rfl⟩, hlt⟩
        cases he
        rw [e] at hlt
        have := (canonical_len hc hf 16 (by decide)).2 hlt
        omega
      · rename_i hl
        rw [wordLoop_spec raw 0 (Nat.pow_pos (by decide)) (by omega)]
        simp only [Nat.zero_mul, Nat.zero_add]
        constructor
        · rintro ⟨ds, hf, rfl⟩
          exact ⟨⟨raw, ds, rfl, hf, rfl⟩, by rw [e]; exact (canonical_len hc hf 16 (by decide)).1 (by omega)⟩
        · rintro ⟨⟨raw', ds, he, hf, rfl⟩, -⟩
          cases he
          exact ⟨ds, hf, rfl⟩

/-- **C54, text of big numbers.** -/
theorem C54_unmarshalBig (s : Bytes) (n : Nat) :
    unmarshalBig s = some n ↔ (s = [] ∧ n = 0) ∨ (Quantity s n ∧ n < 2 ^ 256) := by
  rw [unmarshalBig, checkNumberText]
  have hq : ¬ Quantity [] n := by
    rintro ⟨p, cs, ds, h, hp | hp, -⟩ <;> simp [hp] at h
  by_cases h0 : s.length = 0
  · have hs := List.length_eq_zero_iff.1 h0
    subst hs
    simp only [List.length_nil, if_true, Option.bind_some, bigOfRaw_spec, hq, false_and, or_false, true_and]
    constructor
    · rintro ⟨-, ds, hf, rfl⟩; cases hf; rfl
    · rintro rfl; exact ⟨by omega, [], .nil, rfl⟩
  · have hne : s ≠ [] := fun h => h0 (by rw [h]; rfl)
    simp only [if_neg h0, hne, false_and, false_or]
    exact C54_decodeBig s n

theorem all_digits {cs : Bytes} (h : cs.any (fun c => (decodeNibble c).isNone) = false) (he : cs.length % 2 = 0) :
    (hexDecode cs).2 = true := by
  induction cs using hexDecode.induct with
  | case1 => rfl
  | case2 a => simp at he
  | case3 a c r x y hy hx t ok hr ih =>
    simp only [List.any_cons, hx, hy, Option.isNone_some, Bool.false_or] at h
    have := ih h (by simp only [List.length_cons] at he; omega)
    simp only [hexDecode, hx, hy]
    rw [hr] at this ⊢
    exact this
  | case4 a c r hn =>
    exfalso
    simp only [List.any_cons, Bool.or_eq_false_iff, Option.isNone_eq_false_iff] at h
    obtain ⟨x, hx⟩ := Option.isSome_iff_exists.1 h.1
    obtain ⟨y, hy⟩ := Option.isSome_iff_exists.1 h.2.1
    exact hn x y hx hy

theorem byteDigits_len (b : Bytes) : (byteDigits b).length = 2 * b.length := by
  induction b with
  | nil => rfl
  | cons x t ih => simp only [byteDigits, List.flatMap_cons, List.length_append] at ih ⊢; simp [ih]; omega

/-- **C54, text of identifiers.** `UnmarshalFixedText` accepts exactly the data strings of the right number of bytes
(and the empty text if no bytes are wanted). -/
theorem C54_unmarshalFixed (n : Nat) (s b : Bytes) :
    unmarshalFixed n true s = some b ↔ ((s = [] ∧ b = []) ∨ Data s b) ∧ b.length = n := by
  rw [← C54_unmarshalBytes, unmarshalFixed, unmarshalBytes]
  cases hc : checkText s true with
  | none => simp
  | some raw =>
    have heven : raw.length % 2 = 0 := by
      rw [checkText] at hc
      by_cases h0 : s.length = 0
      · rw [if_pos h0] at hc; cases hc; rfl
      · rw [if_neg h0] at hc
        simp only at hc
        split at hc
        · cases hc
        · split at hc
          · cases hc
          · rename_i h; cases hc; simpa using h
    simp only
    rcases hd : hexDecode raw with ⟨t, ok⟩
    cases ok with
    | false =>
      simp only [reduceCtorEq, false_and, iff_false]
      split
      · simp
      · split
        · simp
        · rename_i h
          have := all_digits (by simpa using h) heven
          rw [hd] at this
          cases this
    | true =>
      have hf := (hexDecode_spec _ _).1 hd
      have hl : raw.length = 2 * t.length := by rw [hf.length_eq, byteDigits_len]
      simp only [Option.some.injEq]
      have hany : raw.any (fun c => (decodeNibble c).isNone) = false := by
        generalize byteDigits t = ds at hf
        clear hd hl heven hc
        induction hf with
        | nil => rfl
        | cons h1 _ ih => rw [List.any_cons, (decodeNibble_spec _ _).2 h1, ih]; rfl
      rw [hany]
      constructor
      · intro h
        split at h
        · cases h
        · rename_i hn
          simp only [Bool.false_eq_true, if_false, Option.some.injEq] at h
          subst h
          exact ⟨rfl, by omega⟩
      · rintro ⟨rfl, hn⟩
        rw [if_neg (by omega)]
        simp

/-- **C54, identifiers round trip.** -/
theorem C54_fixed_roundtrip (b : Bytes) : unmarshalFixed b.length true (encode b) = some b :=
  (C54_unmarshalFixed _ _ _).2 ⟨Or.inr (data_encode b), rfl⟩

/-- `FromHex` reads back what was encoded, with or without prefix. -/
theorem C54_fromHex (b : Bytes) : fromHex (encode b) = b ∧ fromHex (hexEncode b) = b := by
  have hb : has0x (hexEncode b) = false := by
    cases b with
    | nil => rfl
    | cons x b =>
      have key : ∀ e : Fin 16, hexChar e.val ≠ 120 ∧ hexChar e.val ≠ 88 := by decide
      have := key ⟨x.toNat % 16, by omega⟩
      simp only [hexEncode, List.flatMap_cons, List.cons_append, List.nil_append, has0x]
      simp [this.1, this.2]
  have hd : hexDecode (hexEncode b) = (b, true) := (hexDecode_spec _ _).2 (forall2_hexEncode b)
  have he : (hexEncode b).length % 2 ≠ 1 := by
    rw [(forall2_hexEncode b).length_eq, byteDigits_len]; omega
  constructor
  · have h2 := prefix_drop (cs := hexEncode b) (Or.inl rfl : IsPrefix0x [48, 120])
    rw [fromHex, encode_eq]
    simp only [h2.1, h2.2, if_true, if_neg he, hd]
  · rw [fromHex]
    simp only [hb, Bool.false_eq_true, if_false, if_neg he, hd]

example : decode [48, 120, 48, 49, 65, 98] = some [0x01, 0xab] ∧ decode [48, 120, 49] = none ∧
    decodeUint64 [48, 120, 48, 49] = none ∧ decodeUint64 [48, 120, 49, 48] = some 16 ∧
    decodeBig (encodeBig (2 ^ 64 + 5)) = some (2 ^ 64 + 5) ∧ encodeUint64 255 = [48, 120, 102, 102] := by
  decide +kernel

end Verif.Hex

import Verif.Hex.Props
import Verif.BigMath.Props

/-!
# Property C120: JSON forms, and numbers that are hexadecimal or decimal

The JSON methods of `/repo/hexutil/json.go`, `ParseBig256` and the text methods of `/repo/math/big.go`, `ParseUint64` and those of
`/repo/math/integer.go`.  `big.Int.SetString` and `strconv.ParseUint` are given by their documentation; for a fixed base neither
accepts underscores, the first accepts a sign.
-/

namespace Verif.Hex
open Verif

/-! ### The code -/

/-- `isString` (`/repo/hexutil/json.go:271-273`). -/
def isString (s : Bytes) : Bool := decide (s.length ≥ 2) && s.head? == some 34 && s.getLast? == some 34

/-- The `UnmarshalJSON` methods (`/repo/hexutil/json.go:48-53, 141-146, 203-208, 247-252`): the text without its quotes. -/
def unmarshalJSON {α : Type} (text : Bytes → Option α) (s : Bytes) : Option α :=
  if isString s then text ((s.take (s.length - 1)).drop 1) else none

/-- `Uint.UnmarshalText` (`/repo/hexutil/json.go:255-265`) where `uint` has 64 bits. -/
def unmarshalUint (s : Bytes) : Option Nat :=
  match unmarshalUint64 s with
  | none => none
  | some n => if n > 2 ^ 64 - 1 then none else some n

/-- A decimal digit. -/
def decodeDec (c : UInt8) : Option Nat := if 48 ≤ c ∧ c ≤ 57 then some (c - 48).toNat else none

/-- One or more digits to the base: the common part of `big.Int.SetString` and `strconv.ParseUint`. -/
def parseNat (digit : UInt8 → Option Nat) (base : Nat) (s : Bytes) : Option Nat :=
  if s = [] then none else (s.mapM digit).map fun ds => ds.foldl (fun a d => a * base + d) 0

/-- `big.Int.SetString` for a base other than zero: an optional sign. -/
def setString (digit : UInt8 → Option Nat) (base : Nat) (s : Bytes) : Option Int :=
  if s.head? = some 45 then (parseNat digit base (s.drop 1)).map fun n : Nat => -(n : Int)
  else if s.head? = some 43 then (parseNat digit base (s.drop 1)).map fun n : Nat => (n : Int)
  else (parseNat digit base s).map fun n : Nat => (n : Int)

/-- `ParseBig256` (`/repo/math/big.go:119-134`), and with it `UnmarshalText` of `HexOrDecimal256` and `Decimal256` (`66-73, 94-101`). -/
def parseBig256 (s : Bytes) : Option Int :=
  if s = [] then some 0
  else
    match (if has0x s then setString decodeNibble 16 (s.drop 2) else setString decodeDec 10 s) with
    | none => none
    | some z => if BigMath.bitLen z.natAbs > 256 then none else some z

/-- `ParseUint64` (`/repo/math/integer.go:60-70`), and with it `HexOrDecimal64.UnmarshalText` (`44-51`). -/
def parseUint64 (s : Bytes) : Option Nat :=
  if s = [] then some 0
  else
    match (if has0x s then parseNat decodeNibble 16 (s.drop 2) else parseNat decodeDec 10 s) with
    | none => none
    | some n => if n < 2 ^ 64 then some n else none

/-- The digits of the decimal form (`%d`). -/
def decDigits (n : Nat) : Bytes := if n < 10 then [hexChar n] else decDigits (n / 10) ++ [hexChar (n % 10)]
termination_by n

/-- `HexOrDecimal256.MarshalText` (`/repo/math/big.go:76-81`); `none` is the nil pointer. -/
def marshalHex256 : Option Int → Bytes
  | none => [48, 120, 48]
  | some z => (if z < 0 then [45] else []) ++ [48, 120] ++ hexDigits z.natAbs

/-- `Decimal256.MarshalText` (`/repo/math/big.go:104-114`). -/
def marshalDec256 : Option Int → Bytes
  | none => [48]
  | some z => (if z < 0 then [45] else []) ++ decDigits z.natAbs

/-- `HexOrDecimal64.MarshalText` (`/repo/math/integer.go:54-56`), `Uint64.MarshalText` (`/repo/hexutil/json.go:195-200`). -/
def marshalHex64 (n : Nat) : Bytes := [48, 120] ++ hexDigits n

/-! ### Specification -/

/-- A text in quotes. -/
def quote (s : Bytes) : Bytes := [34] ++ s ++ [34]

/-- A decimal digit with its value. -/
def DecDigit (c : UInt8) (d : Nat) : Prop := d < 10 ∧ c = UInt8.ofNat (48 + d)

/-- One or more hexadecimal digits, leading zeros allowed. -/
def HexNumeral (s : Bytes) (n : Nat) : Prop := ∃ ds, ds ≠ [] ∧ List.Forall₂ Digit s ds ∧ n = number ds

/-- The number with the given decimal digits, most significant first. -/
def decNumber : List Nat → Nat
  | [] => 0
  | d :: ds => d * 10 ^ ds.length + decNumber ds

/-- One or more decimal digits, leading zeros allowed. -/
def DecNumeral (s : Bytes) (n : Nat) : Prop := ∃ ds, ds ≠ [] ∧ List.Forall₂ DecDigit s ds ∧ n = decNumber ds

/-- With an optional sign. -/
def Signed (P : Bytes → Nat → Prop) (s : Bytes) (z : Int) : Prop :=
  ∃ n, (P s n ∧ z = n) ∨ (∃ t, s = 43 :: t ∧ P t n ∧ z = n) ∨ ∃ t, s = 45 :: t ∧ P t n ∧ z = -(n : Int)

/-! ### JSON -/

theorem isString_iff (s : Bytes) : isString s = true ↔ ∃ t, s = quote t := by
  constructor
  · intro h
    simp only [isString, Bool.and_eq_true, decide_eq_true_eq, beq_iff_eq] at h
    obtain ⟨⟨h1, h2⟩, h3⟩ := h
    cases s with
    | nil => cases h2
    | cons a s =>
      obtain rfl : a = 34 := by simpa using h2
      have hs : s ≠ [] := by rintro rfl; simp at h1
      refine ⟨s.dropLast, ?_⟩
      rw [List.getLast?_cons_of_ne_nil hs, List.getLast?_eq_some_getLast hs] at h3
      have := List.dropLast_append_getLast hs
      rw [Option.some.inj h3] at this
      simp only [quote, List.cons_append, List.cons.injEq, true_and]
      exact this.symm
  · rintro ⟨t, rfl⟩
    have hl : (quote t).getLast? = some 34 := by rw [quote, List.getLast?_append]; rfl
    have h2 : 2 ≤ (quote t).length := by simp [quote]
    simp only [isString, hl, Bool.and_eq_true, decide_eq_true_eq, beq_self_eq_true, and_true]
    exact ⟨h2, rfl⟩

/-- **C120, JSON.**  What `UnmarshalJSON` accepts are the quoted texts that `UnmarshalText` accepts. -/
theorem C120_json {α : Type} (text : Bytes → Option α) (s : Bytes) (a : α) :
    unmarshalJSON text s = some a ↔ ∃ t, s = quote t ∧ text t = some a := by
  have hq : ∀ t : Bytes, ((quote t).take ((quote t).length - 1)).drop 1 = t := by
    intro t
    simp [quote]
  unfold unmarshalJSON
  split
  · rename_i h
    obtain ⟨t, rfl⟩ := (isString_iff s).1 h
    rw [hq]
    constructor
    · intro h; exact ⟨t, rfl, h⟩
    · rintro ⟨t', e, h⟩
      have := hq t'
      rw [← e, hq] at this
      rwa [this]
  · rename_i h
    simp only [reduceCtorEq, false_iff]
    rintro ⟨t, rfl, _⟩
    exact h ((isString_iff _).2 ⟨t, rfl⟩)

/-- **C120, JSON round trips** of the types of `hexutil`. -/
theorem C120_json_roundtrip (b : Bytes) (n m : Nat) (hn : n < 2 ^ 64) (hm : m < 2 ^ 256) :
    unmarshalJSON unmarshalBytes (quote (encode b)) = some b ∧ unmarshalJSON (unmarshalFixed b.length true) (quote (encode b)) = some b ∧
      unmarshalJSON unmarshalUint64 (quote (marshalHex64 n)) = some n ∧ unmarshalJSON unmarshalUint (quote (marshalHex64 n)) = some n ∧
      unmarshalJSON unmarshalBig (quote (encodeBig m)) = some m := by
  have h64 : unmarshalUint64 (marshalHex64 n) = some n := (C54_unmarshalUint64 _ _).2 (.inr ⟨quantity_encode n, hn⟩)
  refine ⟨?_, ?_, ?_, ?_, ?_⟩
  · exact (C120_json _ _ _).2 ⟨_, rfl, (C54_unmarshalBytes _ _).2 (.inr (data_encode b))⟩
  · exact (C120_json _ _ _).2 ⟨_, rfl, C54_fixed_roundtrip b⟩
  · exact (C120_json _ _ _).2 ⟨_, rfl, h64⟩
  · refine (C120_json _ _ _).2 ⟨_, rfl, ?_⟩
    rw [unmarshalUint, h64]
    simp only
    rw [if_neg (by omega)]
  · exact (C120_json _ _ _).2 ⟨_, rfl, (C54_unmarshalBig _ _).2 (.inr ((C54_decodeBig _ _).1 (C54_big_roundtrip m hm)))⟩

/-! ### Digits -/

theorem decodeDec_spec (c : UInt8) (d : Nat) : decodeDec c = some d ↔ DecDigit c d := by
  have h10 : ∀ d < 10, decodeDec (UInt8.ofNat (48 + d)) = some d := by decide
  constructor
  · intro h
    unfold decodeDec at h
    split at h
    · rename_i hc
      obtain ⟨h1, h2⟩ := hc
      rw [UInt8.le_iff_toNat_le] at h1 h2
      have e1 : (48 : UInt8).toNat = 48 := rfl
      have e2 : (57 : UInt8).toNat = 57 := rfl
      have h3 : (c - 48).toNat = c.toNat - 48 := by
        rw [UInt8.toNat_sub_of_le c 48 (by rw [UInt8.le_iff_toNat_le]; exact h1)]; rfl
      obtain rfl := Option.some.inj h
      refine ⟨by omega, ?_⟩
      rw [h3, show 48 + (c.toNat - 48) = c.toNat by omega, UInt8.ofNat_toNat]
    · cases h
  · rintro ⟨h1, rfl⟩
    exact h10 d h1

theorem mapM_spec {digit : UInt8 → Option Nat} {P : UInt8 → Nat → Prop} (hd : ∀ c d, digit c = some d ↔ P c d) (cs : Bytes) (ds : List Nat) :
    cs.mapM digit = some ds ↔ List.Forall₂ P cs ds := by
  induction cs generalizing ds with
  | nil =>
    simp only [List.mapM_nil, List.forall₂_nil_left_iff]
    constructor
    · intro h; cases h; rfl
    · rintro rfl; rfl
  | cons c cs ih =>
    rw [List.mapM_cons]
    simp only [Option.bind_eq_bind, Option.bind_eq_some_iff, Option.pure_def, Option.some.injEq]
    constructor
    · rintro ⟨d, h1, es, h2, rfl⟩
      exact .cons ((hd _ _).1 h1) ((ih _).1 h2)
    · intro h
      cases h with
      | cons h1 h2 => exact ⟨_, (hd _ _).2 h1, _, (ih _).2 h2, rfl⟩

theorem parseNat_hex (s : Bytes) (n : Nat) : parseNat decodeNibble 16 s = some n ↔ HexNumeral s n := by
  unfold parseNat HexNumeral
  by_cases hs : s = []
  · subst hs
    simp only [if_true, reduceCtorEq, false_iff]
    rintro ⟨ds, h1, h2, _⟩
    cases h2
    exact h1 rfl
  · rw [if_neg hs, Option.map_eq_some_iff]
    constructor
    · rintro ⟨ds, h1, rfl⟩
      have h2 := (mapM_digits s ds).1 h1
      refine ⟨ds, ?_, h2, rfl⟩
      rintro rfl
      cases h2
      exact hs rfl
    · rintro ⟨ds, _, h2, rfl⟩
      exact ⟨ds, (mapM_digits s ds).2 h2, rfl⟩

theorem foldl_dec : ∀ (ds : List Nat) (acc : Nat), ds.foldl (fun a d => a * 10 + d) acc = acc * 10 ^ ds.length + decNumber ds := by
  intro ds
  induction ds with
  | nil => intro acc; simp [decNumber]
  | cons d ds ih =>
    intro acc
    rw [List.foldl_cons, ih, decNumber, List.length_cons, Nat.pow_succ]
    ring

theorem parseNat_dec (s : Bytes) (n : Nat) : parseNat decodeDec 10 s = some n ↔ DecNumeral s n := by
  unfold parseNat DecNumeral
  by_cases hs : s = []
  · subst hs
    simp only [if_true, reduceCtorEq, false_iff]
    rintro ⟨ds, h1, h2, _⟩
    cases h2
    exact h1 rfl
  · rw [if_neg hs, Option.map_eq_some_iff]
    have hv : ∀ ds : List Nat, ds.foldl (fun a d => a * 10 + d) 0 = decNumber ds := fun ds => by rw [foldl_dec]; simp
    constructor
    · rintro ⟨ds, h1, rfl⟩
      have h2 := (mapM_spec decodeDec_spec s ds).1 h1
      refine ⟨ds, ?_, h2, hv ds⟩
      rintro rfl
      cases h2
      exact hs rfl
    · rintro ⟨ds, _, h2, rfl⟩
      exact ⟨ds, (mapM_spec decodeDec_spec s ds).2 h2, hv ds⟩

theorem setString_spec {digit : UInt8 → Option Nat} {base : Nat} {P : Bytes → Nat → Prop}
    (hP : ∀ s n, parseNat digit base s = some n ↔ P s n) (h43 : digit 43 = none) (h45 : digit 45 = none) (s : Bytes) (z : Int) :
    setString digit base s = some z ↔ Signed P s z := by
  have bad : ∀ (c : UInt8) (t : Bytes) n, digit c = none → ¬ P (c :: t) n := by
    intro c t n hc hp
    rw [← hP, parseNat, if_neg (by simp), Option.map_eq_some_iff] at hp
    obtain ⟨ds, h1, _⟩ := hp
    rw [List.mapM_cons] at h1
    simp [hc] at h1
  unfold setString Signed
  cases s with
  | nil =>
    simp only [List.head?_nil, reduceCtorEq, if_false, Option.map_eq_some_iff, hP]
    constructor
    · rintro ⟨n, h1, h2⟩; exact ⟨n, .inl ⟨h1, h2.symm⟩⟩
    · rintro ⟨n, ⟨h1, h2⟩ | ⟨t, e, _⟩ | ⟨t, e, _⟩⟩
      · exact ⟨n, h1, h2.symm⟩
      · cases e
      · cases e
  | cons c t =>
    simp only [List.head?_cons, Option.some.injEq, List.drop_one, List.tail_cons, List.cons.injEq]
    split
    · rename_i e; subst e
      rw [Option.map_eq_some_iff]
      simp only [hP]
      constructor
      · rintro ⟨n, h1, h2⟩; exact ⟨n, .inr (.inr ⟨t, ⟨trivial, rfl⟩, h1, h2.symm⟩)⟩
      · rintro ⟨n, ⟨h1, _⟩ | ⟨t', ⟨e, _⟩, _⟩ | ⟨t', ⟨_, rfl⟩, h1, h2⟩⟩
        · exact absurd h1 (bad _ _ _ h45)
        · exact absurd e (by decide)
        · exact ⟨n, h1, h2.symm⟩
    · rename_i hn
      split
      · rename_i e; subst e
        rw [Option.map_eq_some_iff]
        simp only [hP]
        constructor
        · rintro ⟨n, h1, h2⟩; exact ⟨n, .inr (.inl ⟨t, ⟨trivial, rfl⟩, h1, h2.symm⟩)⟩
        · rintro ⟨n, ⟨h1, _⟩ | ⟨t', ⟨_, rfl⟩, h1, h2⟩ | ⟨t', ⟨e, _⟩, _⟩⟩
          · exact absurd h1 (bad _ _ _ h43)
          · exact ⟨n, h1, h2.symm⟩
          · exact absurd e hn
      · rename_i hp
        rw [Option.map_eq_some_iff]
        simp only [hP]
        constructor
        · rintro ⟨n, h1, h2⟩; exact ⟨n, .inl ⟨h1, h2.symm⟩⟩
        · rintro ⟨n, ⟨h1, h2⟩ | ⟨t', ⟨e, _⟩, _⟩ | ⟨t', ⟨e, _⟩, _⟩⟩
          · exact ⟨n, h1, h2.symm⟩
          · exact absurd e hp
          · exact absurd e hn

theorem bitLen_le (n : Nat) : BigMath.bitLen n > 256 ↔ 2 ^ 256 ≤ n := by
  obtain ⟨h1, h2⟩ := BigMath.bitLen_spec n
  constructor
  · intro h
    have h0 : n ≠ 0 := by rintro rfl; rw [BigMath.bitLen, if_pos rfl] at h; cases h
    exact Nat.le_trans (Nat.pow_le_pow_right (by omega) (by omega)) (h2 h0)
  · intro h
    by_contra hc
    have := Nat.pow_le_pow_right (n := 2) (by omega) (show BigMath.bitLen n ≤ 256 by omega)
    omega

/-! ### Hexadecimal or decimal -/

/-- Split on the prefix. -/
theorem has0x_or (s : Bytes) : (∃ p t, IsPrefix0x p ∧ s = p ++ t) ↔ has0x s = true := by
  constructor
  · rintro ⟨p, t, hp, rfl⟩; exact (prefix_drop hp).1
  · intro h
    obtain ⟨p, hp, e⟩ := (has0x_iff s).1 h
    exact ⟨p, _, hp, e⟩

/-- **C120, 256-bit numbers.**  `ParseBig256` accepts the empty text, hexadecimal digits after `0x` and decimal digits without it, either
with a sign and with leading zeros, if the absolute value is below `2^256`; and it returns that number. -/
theorem C120_parseBig256 (s : Bytes) (z : Int) : parseBig256 s = some z ↔
    (s = [] ∧ z = 0) ∨
    ((∃ p t, IsPrefix0x p ∧ s = p ++ t ∧ Signed HexNumeral t z) ∨ ((¬ ∃ p t, IsPrefix0x p ∧ s = p ++ t) ∧ Signed DecNumeral s z)) ∧
      z.natAbs < 2 ^ 256 := by
  have hx := setString_spec parseNat_hex (by decide) (by decide)
  have hd := setString_spec parseNat_dec (by decide) (by decide)
  have fin : ∀ (o : Option Int), (match o with | none => none | some z => if BigMath.bitLen z.natAbs > 256 then none else some z) = some z ↔
      o = some z ∧ z.natAbs < 2 ^ 256 := by
    intro o
    cases o with
    | none => simp
    | some w =>
      simp only [Option.some.injEq]
      split
      · rename_i h
        rw [bitLen_le] at h
        simp only [reduceCtorEq, false_iff]
        rintro ⟨rfl, h2⟩
        omega
      · rename_i h
        rw [bitLen_le] at h
        simp only [Option.some.injEq]
        constructor
        · rintro rfl; exact ⟨rfl, by omega⟩
        · exact fun h => h.1
  unfold parseBig256
  by_cases hs : s = []
  · subst hs
    simp only [if_true, Option.some.injEq]
    constructor
    · rintro rfl; exact .inl ⟨trivial, rfl⟩
    · rintro (⟨_, h⟩ | ⟨⟨p, t, hp, e, _⟩ | ⟨_, n, ⟨⟨ds, h1, h2, _⟩, _⟩ | ⟨t, e, _⟩ | ⟨t, e, _⟩⟩, _⟩)
      · exact h.symm
      · rcases hp with rfl | rfl <;> cases e
      · cases h2; exact absurd rfl h1
      · cases e
      · cases e
  · rw [if_neg hs, fin]
    simp only [hs, false_and, false_or]
    apply and_congr_left
    intro _
    by_cases h0 : has0x s = true
    · obtain ⟨p, hp, e⟩ := (has0x_iff s).1 h0
      simp only [h0, if_true, hx]
      constructor
      · intro h; exact .inl ⟨p, _, hp, e, h⟩
      · rintro (⟨p', t', hp', e', h⟩ | ⟨h, _⟩)
        · rw [e', (prefix_drop hp').2]; exact h
        · exact absurd ((has0x_or s).2 h0) h
    · simp only [h0, Bool.false_eq_true, if_false, hd]
      constructor
      · intro h; exact .inr ⟨fun h' => h0 ((has0x_or s).1 h'), h⟩
      · rintro (⟨p', t', hp', e', h⟩ | ⟨_, h⟩)
        · exact absurd ((has0x_or s).1 ⟨p', t', hp', e'⟩) h0
        · exact h

/-- **C120, 64-bit numbers.**  The same without a sign. -/
theorem C120_parseUint64 (s : Bytes) (n : Nat) : parseUint64 s = some n ↔
    (s = [] ∧ n = 0) ∨
    ((∃ p t, IsPrefix0x p ∧ s = p ++ t ∧ HexNumeral t n) ∨ ((¬ ∃ p t, IsPrefix0x p ∧ s = p ++ t) ∧ DecNumeral s n)) ∧ n < 2 ^ 64 := by
  have fin : ∀ (o : Option Nat), (match o with | none => none | some n => if n < 2 ^ 64 then some n else none) = some n ↔
      o = some n ∧ n < 2 ^ 64 := by
    intro o
    cases o with
    | none => simp
    | some w =>
      simp only [Option.some.injEq]
      split
      · rename_i h
        simp only [Option.some.injEq]
        constructor
        · rintro rfl; exact ⟨rfl, h⟩
        · exact fun h => h.1
      · rename_i h
        simp only [reduceCtorEq, false_iff]
        rintro ⟨rfl, h2⟩
        exact h h2
  unfold parseUint64
  by_cases hs : s = []
  · subst hs
    simp only [if_true, Option.some.injEq]
    constructor
    · rintro rfl; exact .inl ⟨trivial, rfl⟩
    · rintro (⟨_, h⟩ | ⟨⟨p, t, hp, e, _⟩ | ⟨_, ds, h1, h2, _⟩, _⟩)
      · exact h.symm
      · rcases hp with rfl | rfl <;> cases e
      · cases h2; exact absurd rfl h1
  · rw [if_neg hs, fin]
    simp only [hs, false_and, false_or]
    apply and_congr_left
    intro _
    by_cases h0 : has0x s = true
    · obtain ⟨p, hp, e⟩ := (has0x_iff s).1 h0
      simp only [h0, if_true, parseNat_hex]
      constructor
      · intro h; exact .inl ⟨p, _, hp, e, h⟩
      · rintro (⟨p', t', hp', e', h⟩ | ⟨h, _⟩)
        · rw [e', (prefix_drop hp').2]; exact h
        · exact absurd ((has0x_or s).2 h0) h
    · simp only [h0, Bool.false_eq_true, if_false, parseNat_dec]
      constructor
      · intro h; exact .inr ⟨fun h' => h0 ((has0x_or s).1 h'), h⟩
      · rintro (⟨p', t', hp', e', h⟩ | ⟨_, h⟩)
        · exact absurd ((has0x_or s).1 ⟨p', t', hp', e'⟩) h0
        · exact h

/-! ### Round trips -/

theorem hexDigits_numeral (n : Nat) : HexNumeral (hexDigits n) n := by
  obtain ⟨ds, h1, h2, _, h4⟩ := hexDigits_spec n
  exact ⟨ds, h2, h1, h4.symm⟩

theorem decDigits_numeral (n : Nat) : DecNumeral (decDigits n) n ∧ ((decDigits n).head? = some 48 → decDigits n = [48]) := by
  have hc : ∀ d < 10, DecDigit (hexChar d) d := by
    intro d hd
    refine ⟨hd, ?_⟩
    rw [hexChar, if_pos hd]
  have hap : ∀ (ds : List Nat) (d : Nat), decNumber (ds ++ [d]) = decNumber ds * 10 + d := by
    intro ds d
    have h1 := foldl_dec (ds ++ [d]) 0
    have h2 := foldl_dec ds 0
    rw [List.foldl_append, h2] at h1
    simpa using h1.symm
  induction n using Nat.strongRecOn with
  | _ n ih =>
    rw [decDigits]
    split
    · rename_i h
      refine ⟨⟨[n], by simp, .cons (hc n h) .nil, by simp [decNumber]⟩, ?_⟩
      intro e
      rw [List.head?_cons] at e
      rw [Option.some.inj e]
    · rename_i h
      obtain ⟨⟨ds, h1, h2, h3⟩, h4⟩ := ih (n / 10) (by omega)
      refine ⟨⟨ds ++ [n % 10], by simp, List.rel_append h2 (.cons (hc _ (by omega)) .nil), by rw [hap, ← h3]; omega⟩, ?_⟩
      intro e
      exfalso
      have hne : decDigits (n / 10) ≠ [] := by
        intro e'
        rw [e'] at h2
        cases h2
        exact h1 rfl
      rw [List.head?_append_of_ne_nil _ hne] at e
      have e' := h4 e
      rw [e'] at h2
      cases h2 with
      | cons a b =>
        cases b
        rename_i d
        obtain ⟨a1, a2⟩ := a
        have : ∀ d < 10, (48 : UInt8) = UInt8.ofNat (48 + d) → d = 0 := by decide
        have hd := this d a1 a2
        subst hd
        simp [decNumber] at h3
        omega

theorem decDigits_no0x (n : Nat) : has0x (decDigits n) = false := by
  by_contra h
  have h : has0x (decDigits n) = true := by simpa using h
  obtain ⟨p, hp, e⟩ := (has0x_iff _).1 h
  have h48 : (decDigits n).head? = some 48 := by
    rw [e]
    rcases hp with rfl | rfl <;> rfl
  rw [(decDigits_numeral n).2 h48] at h
  cases h

/-- **C120, decimal texts** are read back, with their sign. -/
theorem C120_dec256_roundtrip (z : Int) (h : z.natAbs < 2 ^ 256) : parseBig256 (marshalDec256 (some z)) = some z := by
  rw [C120_parseBig256]
  refine .inr ⟨.inr ⟨?_, ?_⟩, h⟩
  · rw [has0x_or, marshalDec256]
    split
    · simp only [List.singleton_append]
      cases decDigits z.natAbs <;> simp [has0x]
    · rw [List.nil_append, decDigits_no0x]; simp
  · rw [marshalDec256]
    refine ⟨z.natAbs, ?_⟩
    split
    · exact .inr (.inr ⟨_, rfl, (decDigits_numeral _).1, by omega⟩)
    · exact .inl ⟨(decDigits_numeral _).1, by omega⟩

/-- C120, hexadecimal texts of numbers that are not negative are read back.  Missing: negative numbers, see
`C120_hex256_negative_refuted`. -/
theorem C120_hex256_roundtrip_partial (z : Int) (h0 : 0 ≤ z) (h : z < 2 ^ 256) : parseBig256 (marshalHex256 (some z)) = some z := by
  rw [C120_parseBig256]
  refine .inr ⟨.inl ⟨[48, 120], hexDigits z.natAbs, .inl rfl, ?_, ?_⟩, by omega⟩
  · rw [marshalHex256, if_neg (by omega)]; rfl
  · exact ⟨z.natAbs, .inl ⟨hexDigits_numeral _, by omega⟩⟩

/-- C120 fails for negative numbers: no text that `HexOrDecimal256` writes for one is accepted. -/
theorem C120_hex256_negative_refuted (z : Int) (h : z < 0) : parseBig256 (marshalHex256 (some z)) = none := by
  have e : marshalHex256 (some z) = 45 :: 48 :: 120 :: hexDigits z.natAbs := by rw [marshalHex256, if_pos h]; rfl
  rw [e]
  have h1 : decodeDec 120 = none := by decide
  unfold parseBig256
  rw [if_neg (by simp)]
  have : setString decodeDec 10 (45 :: 48 :: 120 :: hexDigits z.natAbs) = none := by
    simp only [setString, List.head?_cons, if_true, List.drop_one, List.tail_cons, Option.map_eq_none_iff]
    unfold parseNat
    rw [if_neg (by simp), Option.map_eq_none_iff]
    simp only [List.mapM_cons, h1]
    cases decodeDec 48 <;> rfl
  simp only [has0x, this]
  rfl

/-- **C120, nil pointers** are written as zero. -/
theorem C120_nil : parseBig256 (marshalHex256 none) = some 0 ∧ parseBig256 (marshalDec256 none) = some 0 := by decide +kernel

/-- **C120, 64-bit texts** are read back. -/
theorem C120_hex64_roundtrip (n : Nat) (h : n < 2 ^ 64) : parseUint64 (marshalHex64 n) = some n := by
  rw [C120_parseUint64]
  exact .inr ⟨.inl ⟨[48, 120], hexDigits n, .inl rfl, rfl, hexDigits_numeral n⟩, h⟩

/-- The texts `0x-f`, `-15`, `+0015`, `0xF`, ` 1`. -/
example : parseBig256 [48, 120, 45, 102] = some (-15) ∧ parseBig256 [45, 49, 53] = some (-15) ∧ parseBig256 [43, 48, 48, 49, 53] = some 15 ∧
    parseUint64 [48, 120, 70] = some 15 ∧ parseUint64 [43, 49] = none ∧ parseUint64 [32, 49] = none := by decide +kernel

example : marshalDec256 (some (-1024)) = [45, 49, 48, 50, 52] ∧ marshalHex256 (some (-1024)) = [45, 48, 120, 52, 48, 48] := by
  decide +kernel

example : unmarshalJSON unmarshalBytes [34, 48, 120, 48, 49, 34] = some [1] ∧ unmarshalJSON unmarshalBytes [34] = none := by decide +kernel

end Verif.Hex

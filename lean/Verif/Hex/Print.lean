import Verif.Hex.Text

/-!
# Printing of big numbers (/repo/math/big.go:274-346, 646-659)

`BigStringForPrint` shortens the decimal text of a number to a form with an exponent, `HexString` writes the bytes of a number in
hexadecimal.  Texts are byte lists; `big.Int.String` is the sign and the decimal digits, `big.Int.Bytes` the big-endian bytes of the
absolute value.
-/

namespace Verif.Print
open Verif.Hex

/-- The loop `/repo/math/big.go:291-297`: how many zeros the text ends with. -/
def zerosAtEnd (s : Bytes) : Nat := (s.reverse.takeWhile (· == 48)).length

/-- The part of `BigStringForPrint` after the sign (`/repo/math/big.go:288-318`). -/
def mantissa (neg : Bool) (ss : Bytes) : Bytes :=
  if ss.length - zerosAtEnd ss > 1 then
    (if neg then [45] else []) ++ (ss.take 1 ++ [46] ++ (ss.take (ss.length - zerosAtEnd ss)).drop 1) ++ ([101] ++ decDigits (ss.length - 1))
  else if ss.length - zerosAtEnd ss = 1 then (if neg then [45] else []) ++ ss.take 1 ++ ([101] ++ decDigits (ss.length - 1))
  else [48]

/-- `BigStringForPrint` (`/repo/math/big.go:274-319`). -/
def bigStringForPrint (s : Bytes) : Bytes :=
  if s.length ≤ 5 then s
  else if s.head? = some 45 then mantissa true (s.drop 1)
  else if s.head? = some 43 then mantissa false (s.drop 1)
  else mantissa false s

/-- `big.Int.String`. -/
def intString (z : Int) : Bytes := (if z < 0 then [45] else []) ++ decDigits z.natAbs

/-- `BigIntForPrint` (`/repo/math/big.go:321-327`), `BigInt.String` (646-648); `none` is the nil pointer. -/
def bigIntForPrint : Option Int → Bytes
  | none => []
  | some z => bigStringForPrint (intString z)

/-- `BigForPrint` (`/repo/math/big.go:329-339`). -/
def bigForPrint : Option Int → Bytes
  | none => []
  | some z =>
    if intString z = bigStringForPrint (intString z) then intString z
    else intString z ++ [32, 40] ++ bigStringForPrint (intString z) ++ [41]

/-- `%x` of a byte. -/
def hexByte (b : UInt8) : Bytes := [hexChar (b.toNat / 16), hexChar (b.toNat % 16)]

/-- `BigInt.HexString` (`/repo/math/big.go:650-659`); a nil pointer panics in `big.Int.Bytes`. -/
def hexString : Option Int → Res Bytes
  | none => .panic
  | some z =>
    if natBytes z.natAbs = [] then .ok [48]
    else if z < 0 then .ok (45 :: (natBytes z.natAbs).flatMap hexByte)
    else .ok ((natBytes z.natAbs).flatMap hexByte)

/-! ### Specification: how such a text is read -/

/-- `d`, `d.ddd`: the digits and how many of them are behind the point. -/
def readMantissa (m : Bytes) : Option (Nat × Nat) :=
  let i := m.takeWhile (· ≠ 46)
  let f := (m.dropWhile (· ≠ 46)).drop 1
  if i.length = 1 then (parseNat decodeDec 10 (i ++ f)).map fun n => (n, f.length) else none

/-- A number with an optional exponent: sign, mantissa, `e`, exponent; or a plain integer.  The number must be an integer. -/
def readSci (t : Bytes) : Option Int :=
  let u := if t.head? = some 45 then t.drop 1 else t
  match u.dropWhile (· ≠ 101) with
  | [] => setString decodeDec 10 t
  | _ :: es =>
    match readMantissa (u.takeWhile (· ≠ 101)), parseNat decodeDec 10 es with
    | some (n, k), some e => if k ≤ e then some ((if t.head? = some 45 then -1 else 1) * ((n : Int) * 10 ^ (e - k))) else none
    | _, _ => none

/-- Hexadecimal digits with an optional minus. -/
def readHex (t : Bytes) : Option Int := setString decodeNibble 16 t

/-! ### Decimal texts -/

theorem digit_ne {c : UInt8} {d : Nat} (h : DecDigit c d) : c ≠ 101 ∧ c ≠ 46 ∧ c ≠ 45 ∧ c ≠ 43 ∧ (c = 48 ↔ d = 0) := by
  obtain ⟨h1, rfl⟩ := h
  have : ∀ d < 10, UInt8.ofNat (48 + d) ≠ 101 ∧ UInt8.ofNat (48 + d) ≠ 46 ∧ UInt8.ofNat (48 + d) ≠ 45 ∧ UInt8.ofNat (48 + d) ≠ 43 ∧
      (UInt8.ofNat (48 + d) = 48 ↔ d = 0) := by decide
  exact this d h1

theorem digits_all {s : Bytes} {ds : List Nat} (h : List.Forall₂ DecDigit s ds) : ∀ c ∈ s, c ≠ 101 ∧ c ≠ 46 ∧ c ≠ 45 ∧ c ≠ 43 := by
  induction h with
  | nil => intro c hc; cases hc
  | cons a _ ih =>
    intro c hc
    rcases List.mem_cons.1 hc with rfl | hc
    · have := digit_ne a; exact ⟨this.1, this.2.1, this.2.2.1, this.2.2.2.1⟩
    · exact ih c hc

theorem takeWhile_stop {p : UInt8 → Bool} {a : Bytes} {x : UInt8} {b : Bytes} (ha : ∀ c ∈ a, p c = true) (hx : p x = false) :
    (a ++ x :: b).takeWhile p = a ∧ (a ++ x :: b).dropWhile p = x :: b := by
  induction a with
  | nil => simp [hx]
  | cons c a ih =>
    have hc := ha c (by simp)
    have := ih fun c h => ha c (by simp [h])
    simp only [List.cons_append, List.takeWhile_cons, List.dropWhile_cons, hc, if_true]
    exact ⟨by rw [this.1], this.2⟩

theorem takeWhile_all {p : UInt8 → Bool} {a : Bytes} (ha : ∀ c ∈ a, p c = true) : a.takeWhile p = a ∧ a.dropWhile p = [] := by
  induction a with
  | nil => simp
  | cons c a ih =>
    have hc := ha c (by simp)
    have := ih fun c h => ha c (by simp [h])
    simp only [List.takeWhile_cons, List.dropWhile_cons, hc, if_true]
    exact ⟨by rw [this.1], this.2⟩

theorem split_zeros (s : Bytes) : s = s.take (s.length - zerosAtEnd s) ++ List.replicate (zerosAtEnd s) 48 ∧ zerosAtEnd s ≤ s.length := by
  have hr : s.reverse = s.reverse.takeWhile (· == 48) ++ s.reverse.dropWhile (· == 48) := (List.takeWhile_append_dropWhile).symm
  have hz : s.reverse.takeWhile (· == 48) = List.replicate (zerosAtEnd s) 48 := by
    refine List.eq_replicate_iff.2 ⟨rfl, ?_⟩
    intro b hb
    have : ∀ (l : Bytes), ∀ b ∈ l.takeWhile (· == 48), b = 48 := by
      intro l
      induction l with
      | nil => intro b hb; cases hb
      | cons c l ih =>
        intro b hb
        rw [List.takeWhile_cons] at hb
        split at hb
        · rename_i hc
          rcases List.mem_cons.1 hb with rfl | hb
          · simpa using hc
          · exact ih b hb
        · cases hb
    exact this _ b hb
  have hs : s = (s.reverse.dropWhile (· == 48)).reverse ++ List.replicate (zerosAtEnd s) 48 := by
    have := congrArg List.reverse hr
    rw [List.reverse_reverse, List.reverse_append, hz, List.reverse_replicate] at this
    exact this
  have hl : s.length = (s.reverse.dropWhile (· == 48)).reverse.length + zerosAtEnd s := by
    conv_lhs => rw [hs]
    simp
  refine ⟨?_, by omega⟩
  have ht : s.take (s.length - zerosAtEnd s) = (s.reverse.dropWhile (· == 48)).reverse := by
    have h1 : s.length - zerosAtEnd s = (s.reverse.dropWhile (· == 48)).reverse.length := by omega
    rw [h1]
    generalize (s.reverse.dropWhile (· == 48)).reverse = w at hs
    rw [hs]
    exact List.take_left
  rw [ht]
  exact hs

theorem decNumber_append (a b : List Nat) : decNumber (a ++ b) = decNumber a * 10 ^ b.length + decNumber b := by
  induction a with
  | nil => simp [decNumber]
  | cons d a ih =>
    simp only [List.cons_append, decNumber, ih, List.length_append, Nat.pow_add]
    ring

theorem decNumber_zeros (k : Nat) : decNumber (List.replicate k 0) = 0 := by
  induction k with
  | zero => rfl
  | succ k ih => rw [List.replicate_succ, decNumber, ih]; simp

theorem forall₂_zeros {k : Nat} {ds : List Nat} (h : List.Forall₂ DecDigit (List.replicate k 48) ds) : ds = List.replicate k 0 := by
  induction k generalizing ds with
  | zero => cases h; rfl
  | succ k ih =>
    rw [List.replicate_succ] at h
    cases h with
    | cons a b => rw [List.replicate_succ, ih b, (digit_ne a).2.2.2.2.1 rfl]

theorem parse_decDigits (n : Nat) : parseNat decodeDec 10 (decDigits n) = some n := (parseNat_dec _ _).2 (decDigits_numeral n).1

/-- A text of digits, with a sign or without, is read from its shortened form. -/
theorem read_mantissa (neg : Bool) (ss : Bytes) (ds : List Nat) (h : List.Forall₂ DecDigit ss ds) :
    readSci (mantissa neg ss) = some ((if neg then -1 else 1) * (decNumber ds : Int)) := by
  obtain ⟨hs, hz⟩ := split_zeros ss
  generalize hk : zerosAtEnd ss = k at *
  have hall := digits_all h
  have hlen := h.length_eq
  -- the digits and their values, split
  obtain ⟨t, ht⟩ : ∃ t, t = ss.take (ss.length - k) := ⟨_, rfl⟩
  have htl : t.length = ss.length - k := by rw [ht, List.length_take]; omega
  rw [← ht] at hs
  have h' : List.Forall₂ DecDigit (t ++ List.replicate k 48) ds := hs ▸ h
  have hsplit : ∃ ts, List.Forall₂ DecDigit t ts ∧ ds = ts ++ List.replicate k 0 := by
    have h1 := List.forall₂_take_append ds t (List.replicate k 48) h'.flip
    have h2 := List.forall₂_drop_append ds t (List.replicate k 48) h'.flip
    refine ⟨_, h1.flip, ?_⟩
    rw [← forall₂_zeros h2.flip, List.take_append_drop]
  obtain ⟨ts, hts, hds⟩ := hsplit
  have hval : decNumber ds = decNumber ts * 10 ^ k := by rw [hds, decNumber_append, decNumber_zeros]; simp
  have htsl := hts.length_eq
  have hta := digits_all hts
  unfold mantissa
  rw [hk, ← ht]
  have hsign : ∀ (a : UInt8) (r : Bytes), a ≠ 45 →
      (((if neg then [45] else []) ++ a :: r).head? = some 45 ↔ neg = true) := by
    intro a r ha
    cases neg <;> simp [ha]
  have hdrop : ∀ (a : UInt8) (r : Bytes), a ≠ 45 →
      (if ((if neg then [45] else []) ++ a :: r).head? = some 45 then ((if neg then [45] else []) ++ a :: r).drop 1
        else ((if neg then [45] else []) ++ a :: r)) = a :: r := by
    intro a r ha
    cases neg <;> simp [ha]
  by_cases h1 : ss.length - k > 1
  · rw [if_pos h1]
    obtain ⟨a, f, rfl⟩ : ∃ a f, t = a :: f := by
      cases t with
      | nil => simp at htl; omega
      | cons a f => exact ⟨a, f, rfl⟩
    obtain ⟨da, df, rfl⟩ : ∃ da df, ts = da :: df := by
      cases hts with
      | cons _ _ => exact ⟨_, _, rfl⟩
    have hfd : f.length = df.length := by simpa using htsl
    have hst : ss.take 1 = [a] := by rw [hs]; rfl
    have ha := hta a (by simp)
    rw [hst, List.drop_one, List.tail_cons]
    have e : ((if neg = true then [45] else []) ++ ([a] ++ [46] ++ f) ++ ([101] ++ decDigits (ss.length - 1)) : Bytes)
        = (if neg = true then [45] else []) ++ a :: (46 :: (f ++ 101 :: decDigits (ss.length - 1))) := by simp
    rw [e]
    unfold readSci
    simp only [hdrop a _ ha.2.2.1]
    have hw := takeWhile_stop (p := fun c => decide (c ≠ 101)) (a := a :: 46 :: f) (x := 101) (b := decDigits (ss.length - 1))
      (by
        intro c hc
        rcases List.mem_cons.1 hc with rfl | hc
        · simpa using ha.1
        rcases List.mem_cons.1 hc with rfl | hc
        · decide
        · simpa using (hta c (by simp [hc])).1) (by decide)
    simp only [List.cons_append] at hw
    rw [hw.2, hw.1]
    have hm : readMantissa (a :: 46 :: f) = some (decNumber (da :: df), f.length) := by
      have hw2 := takeWhile_stop (p := fun c => decide (c ≠ 46)) (a := [a]) (x := 46) (b := f)
        (by intro c hc; simp at hc; subst hc; simpa using ha.2.1) (by decide)
      simp only [List.cons_append, List.nil_append] at hw2
      unfold readMantissa
      simp only [hw2.1, hw2.2, List.length_singleton, if_true, List.drop_one, List.tail_cons, List.singleton_append]
      rw [(parseNat_dec (a :: f) (decNumber (da :: df))).2 ⟨_, by simp, hts, rfl⟩]
      rfl
    simp only [hm, parse_decDigits]
    simp only [List.length_cons] at htl
    rw [if_pos (by omega), hval, show ss.length - 1 - f.length = k by omega]
    congr 1
    simp only [hsign a _ ha.2.2.1]
    push_cast
    ring
  · rw [if_neg h1]
    by_cases h2 : ss.length - k = 1
    · rw [if_pos h2]
      obtain ⟨a, rfl⟩ : ∃ a, t = [a] := List.length_eq_one_iff.1 (by omega)
      obtain ⟨da, rfl⟩ : ∃ da, ts = [da] := List.length_eq_one_iff.1 (by simpa using htsl.symm)
      have hst : ss.take 1 = [a] := by rw [hs]; rfl
      have ha := hta a (by simp)
      rw [hst]
      have e : ((if neg = true then [45] else []) ++ [a] ++ ([101] ++ decDigits (ss.length - 1)) : Bytes)
          = (if neg = true then [45] else []) ++ a :: (101 :: decDigits (ss.length - 1)) := by simp
      rw [e]
      unfold readSci
      simp only [hdrop a _ ha.2.2.1]
      have hw := takeWhile_stop (p := fun c => decide (c ≠ 101)) (a := [a]) (x := 101) (b := decDigits (ss.length - 1))
        (by intro c hc; simp at hc; subst hc; simpa using ha.1) (by decide)
      simp only [List.cons_append, List.nil_append] at hw
      rw [hw.2, hw.1]
      have hm : readMantissa [a] = some (decNumber [da], 0) := by
        have hw2 := takeWhile_all (p := fun c => decide (c ≠ 46)) (a := [a])
          (by intro c hc; simp at hc; subst hc; simpa using ha.2.1)
        unfold readMantissa
        simp only [hw2.1, hw2.2, List.length_singleton, if_true, List.drop_nil, List.append_nil, List.length_nil]
        rw [(parseNat_dec [a] (decNumber [da])).2 ⟨_, by simp, hts, rfl⟩]
        rfl
      simp only [hm, parse_decDigits]
      rw [if_pos (by omega), hval, show ss.length - 1 - 0 = k by omega]
      congr 1
      simp only [hsign a _ ha.2.2.1]
      push_cast
      ring
    · rw [if_neg h2]
      have : t = [] := List.length_eq_zero_iff.1 (by omega)
      subst this
      cases hts
      rw [hval]
      have : readSci [48] = some 0 := by decide +kernel
      rw [this]
      simp [decNumber]

/-- **C128, printing.**  The text that `BigStringForPrint` makes of any decimal text denotes the same number. -/
theorem C128_text (s : Bytes) (z : Int) (h : Signed DecNumeral s z) : readSci (bigStringForPrint s) = some z := by
  unfold bigStringForPrint
  obtain ⟨n, hn⟩ := h
  by_cases hl : s.length ≤ 5
  · rw [if_pos hl]
    have hno : ∀ c ∈ s, c ≠ 101 := by
      intro c hc
      rcases hn with ⟨⟨ds, _, hd, _⟩, _⟩ | ⟨t, rfl, ⟨ds, _, hd, _⟩, _⟩ | ⟨t, rfl, ⟨ds, _, hd, _⟩, _⟩
      · exact (digits_all hd c hc).1
      · rcases List.mem_cons.1 hc with rfl | hc
        · decide
        · exact (digits_all hd c hc).1
      · rcases List.mem_cons.1 hc with rfl | hc
        · decide
        · exact (digits_all hd c hc).1
    unfold readSci
    have hd : (if s.head? = some 45 then s.drop 1 else s).dropWhile (fun c => decide (c ≠ 101)) = [] := by
      refine (takeWhile_all ?_).2
      intro c hc
      have : c ∈ s := by
        split at hc
        · exact List.mem_of_mem_drop hc
        · exact hc
      simpa using hno c this
    simp only [hd]
    exact (setString_spec parseNat_dec (by decide) (by decide) s z).2 ⟨n, hn⟩
  · rw [if_neg hl]
    rcases hn with ⟨⟨ds, _, hd, rfl⟩, rfl⟩ | ⟨t, rfl, ⟨ds, _, hd, rfl⟩, rfl⟩ | ⟨t, rfl, ⟨ds, _, hd, rfl⟩, rfl⟩
    · have h1 : s.head? ≠ some 45 ∧ s.head? ≠ some 43 := by
        cases hd with
        | nil => simp
        | cons a _ => have := digit_ne a; simp [this.2.2.1, this.2.2.2.1]
      rw [if_neg h1.1, if_neg h1.2, read_mantissa _ _ _ hd]
      simp
    · rw [List.head?_cons, if_neg (by decide), if_pos rfl, List.drop_one, List.tail_cons, read_mantissa _ _ _ hd]
      simp
    · rw [List.head?_cons, if_pos rfl, List.drop_one, List.tail_cons, read_mantissa _ _ _ hd]
      simp

theorem intString_signed (z : Int) : Signed DecNumeral (intString z) z := by
  refine ⟨z.natAbs, ?_⟩
  unfold intString
  split
  · exact .inr (.inr ⟨_, rfl, (decDigits_numeral _).1, by omega⟩)
  · exact .inl ⟨(decDigits_numeral _).1, by omega⟩

/-- **C128, numbers.**  What `BigIntForPrint` prints of a number can be read back. -/
theorem C128_number (z : Int) : readSci (bigIntForPrint (some z)) = some z := C128_text _ _ (intString_signed z)

/-- **C128, different numbers** are printed differently, and differently from the nil pointer. -/
theorem C128_injective (x y : Option Int) (h : bigIntForPrint x = bigIntForPrint y) : x = y := by
  have h0 : readSci (bigIntForPrint none) = none := by decide +kernel
  cases x with
  | none =>
    cases y with
    | none => rfl
    | some b => have := C128_number b; rw [← h, h0] at this; cases this
  | some a =>
    cases y with
    | none => have := C128_number a; rw [h, h0] at this; cases this
    | some b => have h1 := C128_number a; have h2 := C128_number b; rw [h, h2] at h1; exact h1.symm

/-- A text without an `e` is printed as it is only if it is short. -/
theorem print_changes (s : Bytes) (z : Int) (h : Signed DecNumeral s z) : bigStringForPrint s = s ↔ s.length ≤ 5 := by
  constructor
  · intro e
    by_contra hl
    have hno : ∀ c ∈ s, c ≠ 101 := by
      obtain ⟨n, hn⟩ := h
      intro c hc
      rcases hn with ⟨⟨ds, _, hd, _⟩, _⟩ | ⟨t, rfl, ⟨ds, _, hd, _⟩, _⟩ | ⟨t, rfl, ⟨ds, _, hd, _⟩, _⟩
      · exact (digits_all hd c hc).1
      · rcases List.mem_cons.1 hc with rfl | hc
        · decide
        · exact (digits_all hd c hc).1
      · rcases List.mem_cons.1 hc with rfl | hc
        · decide
        · exact (digits_all hd c hc).1
    have hm : ∀ neg ss, mantissa neg ss = s → False := by
      intro neg ss hm
      unfold mantissa at hm
      split at hm
      · exact hno 101 (by rw [← hm]; simp) rfl
      · split at hm
        · exact hno 101 (by rw [← hm]; simp) rfl
        · rw [← hm] at hl; simp at hl
    unfold bigStringForPrint at e
    rw [if_neg hl] at e
    split at e
    · exact hm _ _ e
    · split at e
      · exact hm _ _ e
      · exact hm _ _ e
  · intro hl
    unfold bigStringForPrint
    rw [if_pos hl]

/-- **C128, both forms.**  `BigForPrint` prints the whole number; and behind it, in parentheses, the short form exactly when the number has
more than five characters. -/
theorem C128_both (z : Int) : bigForPrint (some z) =
    if (intString z).length ≤ 5 then intString z else intString z ++ [32, 40] ++ bigIntForPrint (some z) ++ [41] := by
  simp only [bigForPrint, bigIntForPrint]
  have := print_changes _ _ (intString_signed z)
  by_cases h : (intString z).length ≤ 5
  · rw [if_pos h, if_pos (this.2 h).symm]
  · rw [if_neg h, if_neg fun e => h (this.1 e.symm)]

/-! ### Hexadecimal texts -/

theorem hexByte_digits (b : UInt8) : List.Forall₂ Digit (hexByte b) [b.toNat / 16, b.toNat % 16] := by
  have hd : ∀ n < 16, decodeNibble (hexChar n) = some n := by decide
  have hb := b.toNat_lt
  exact .cons ((decodeNibble_spec _ _).1 (hd _ (by omega))) (.cons ((decodeNibble_spec _ _).1 (hd _ (by omega))) .nil)

theorem hexBytes_digits (bs : Bytes) : ∃ ds, List.Forall₂ Digit (bs.flatMap hexByte) ds ∧ number ds = beNat bs ∧ ds.length = 2 * bs.length := by
  induction bs with
  | nil => exact ⟨[], .nil, rfl, rfl⟩
  | cons b bs ih =>
    obtain ⟨ds, h1, h2, h3⟩ := ih
    refine ⟨[b.toNat / 16, b.toNat % 16] ++ ds, ?_, ?_, ?_⟩
    · rw [List.flatMap_cons]; exact List.rel_append (hexByte_digits b) h1
    · rw [number_append, h2, h3, beNat_cons, show number [b.toNat / 16, b.toNat % 16] = b.toNat by simp [number]; omega,
        show (256 : Nat) = 16 ^ 2 by rfl, ← Nat.pow_mul]
    · simp [h3]; omega

/-- **C128, hexadecimal.**  The text `HexString` makes of a number can be read back. -/
theorem C128_hex (z : Int) : ∃ t, hexString (some z) = .ok t ∧ readHex t = some z := by
  obtain ⟨ds, h1, h2, h3⟩ := hexBytes_digits (natBytes z.natAbs)
  rw [beNat_natBytes] at h2
  have hnil : natBytes z.natAbs = [] ↔ z = 0 := by
    constructor
    · intro e
      have := beNat_natBytes z.natAbs
      rw [e] at this
      have h0 : beNat [] = 0 := rfl
      omega
    · rintro rfl; decide +kernel
  unfold hexString readHex
  by_cases hz : z = 0
  · subst hz
    exact ⟨_, if_pos (hnil.2 rfl), by decide +kernel⟩
  · have hne : ds ≠ [] := by
      rintro rfl
      have : number [] = 0 := rfl
      omega
    simp only [if_neg (fun e => hz (hnil.1 e))]
    by_cases hn : z < 0
    · exact ⟨_, if_pos hn, (setString_spec parseNat_hex (by decide) (by decide) _ _).2
        ⟨z.natAbs, .inr (.inr ⟨_, rfl, ⟨ds, hne, h1, h2.symm⟩, by omega⟩)⟩⟩
    · exact ⟨_, if_neg hn, (setString_spec parseNat_hex (by decide) (by decide) _ _).2
        ⟨z.natAbs, .inl ⟨⟨ds, hne, h1, h2.symm⟩, by omega⟩⟩⟩

/-- C128, the nil pointer: `HexString` panics, `String` prints nothing. -/
theorem C128_nil : hexString none = .panic ∧ bigIntForPrint none = [] := ⟨rfl, rfl⟩

/-! Concrete cases: `-1200000` is printed as `-1.2e6`, `500000` as `5e5`, `-0000000` as `0`; `2571` as `0a0b`. -/
example : bigStringForPrint [45, 49, 50, 48, 48, 48, 48, 48] = [45, 49, 46, 50, 101, 54] := by decide +kernel
example : bigStringForPrint [53, 48, 48, 48, 48, 48] = [53, 101, 53] := by decide +kernel
example : bigStringForPrint [45, 48, 48, 48, 48, 48, 48] = [48] := by decide +kernel
example : readSci [45, 49, 46, 50, 101, 54] = some (-1200000) := by decide +kernel
example : hexString (some 2571) = .ok [48, 97, 48, 98] := by decide +kernel

end Verif.Print

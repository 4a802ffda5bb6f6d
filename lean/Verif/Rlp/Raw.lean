import Verif.Rlp.Enc

/-!
# RLP: raw values
-/

namespace Verif.Rlp
open Verif

/-- A single byte below 0x80. -/
def single : Bytes → Bool
  | [x] => decide (x < 0x80)
  | _ => false

/-- The encoding of a value of this kind with this content. -/
def val : Kind → Bytes → Bytes
  | .byte, c => c
  | .string, c => head 0x80 c.length ++ c
  | .list, c => encList c

/-- The contents a value of this kind has. -/
def okc : Kind → Bytes → Prop
  | .byte, c => single c = true
  | .string, c => single c = false
  | .list, _ => True

theorem getD_take (b : Bytes) (n j : Nat) (h : j < n) : (b.take n).getD j 0 = b.getD j 0 := by
  simp [List.getD_eq_getElem?_getD, h]

theorem sizeOf_take (b : Bytes) (n : Nat) (h8 : n ≤ 8) : sizeOf b n = sizeOf (b.take n) n := by
  have hs : ∀ j k, j < n → shl (b.take n) j k = shl b j k := fun j k h => by rw [shl, shl, getD_take _ _ _ h]
  match n with
  | 0 | 1 | 2 | 3 | 4 | 5 | 6 | 7 | 8 => simp [sizeOf, hs]
  | n + 9 => omega

theorem natBytes_head (n : Nat) (h : n ≠ 0) : (natBytes n).getD 0 0 ≠ 0 := by
  have h1 := natBytes_head_ne_zero n
  have h2 := natBytes_length_pos h
  cases hb : natBytes n with
  | nil => simp [hb] at h2
  | cons x l => rw [hb] at h1; simpa using h1

theorem readSize_iff (b : Bytes) (slen n : Nat) (h1 : 1 ≤ slen) (h8 : slen ≤ 8) :
    readSize b slen = .ok n ↔ 56 ≤ n ∧ (natBytes n).length = slen ∧ ∃ r, b = natBytes n ++ r := by
  have hlt : ∀ i : UInt64, i < 56 ↔ i.toNat < 56 := lt56
  constructor
  · intro h
    unfold readSize at h
    split at h
    · cases h
    · next hl =>
      split at h
      · cases h
      · next hc =>
        rw [not_or, hlt] at hc
        simp only [Except.ok.injEq] at h
        have hlen : (b.take slen).length = slen := by rw [List.length_take]; omega
        rw [sizeOf_take b slen h8, sizeOf_eq _ _ hlen h8] at h
        rw [sizeOf_take b slen h8, sizeOf_eq _ _ hlen h8, h] at hc
        have hne : (b.take slen).head? ≠ some 0 := by
          have := hc.2
          rw [← getD_take b slen 0 (by omega)] at this
          cases hb : b.take slen with
          | nil => simp
          | cons x l => rw [hb] at this; simpa using this
        have := natBytes_beNat hne
        rw [h] at this
        refine ⟨by omega, by rw [this, hlen], b.drop slen, ?_⟩
        rw [this, List.take_append_drop]
  · rintro ⟨h56, hl, r, rfl⟩
    have htake : (natBytes n ++ r).take slen = natBytes n := by
      rw [List.take_append_of_le_length (by omega), List.take_of_length_le (by omega)]
    unfold readSize
    rw [if_neg (by rw [List.length_append]; omega), sizeOf_take _ slen h8, htake]
    have he : (sizeOf (natBytes n) slen).toNat = n := by rw [sizeOf_eq _ _ hl h8, beNat_natBytes]
    have hg : (natBytes n ++ r).getD 0 0 ≠ 0 := by
      rw [← getD_take _ slen 0 (by omega), htake]; exact natBytes_head n (by omega)
    rw [if_neg (by rw [not_or, hlt, he]; exact ⟨by omega, hg⟩), he]

theorem u8_sub (b : UInt8) (k : Nat) (h : k ≤ b.toNat) : (b - UInt8.ofNat k).toNat = b.toNat - k := by
  have := b.toNat_lt
  rw [UInt8.toNat_sub]
  simp
  omega

theorem u8_lt (b : UInt8) (k : Nat) (hk : k < 256) : b < UInt8.ofNat k ↔ b.toNat < k := by
  rw [UInt8.lt_iff_toNat_lt]; simp; omega

theorem u8_eq (b : UInt8) (n : Nat) (h : b.toNat = n) : b = UInt8.ofNat n := by
  subst h; simp

theorem u8_toNat {n : Nat} (h : n < 256) : (UInt8.ofNat n).toNat = n := by simp; omega

theorem len_of_lt {n : Nat} (h : n < 2 ^ 64) : (natBytes n).length ≤ 8 := BigMath.natBytes_len_le _ _ (by omega)

theorem lt_of_len {n : Nat} (h : (natBytes n).length ≤ 8) : n < 2 ^ 64 := by
  have h1 := beNat_lt (natBytes n)
  rw [beNat_natBytes] at h1
  have : 256 ^ (natBytes n).length ≤ 256 ^ 8 := Nat.pow_le_pow_right (by omega) h
  omega

/-- The tags: a byte below 0x80, a short or long string header, a short or long list header. -/
theorem readTag_eq (buf : Bytes) (b : UInt8) : readTag buf b =
    if b.toNat < 0x80 then .ok (.byte, 0, 1)
    else if b.toNat < 0xB8 then
      if b.toNat - 0x80 = 1 ∧ buf.length > 1 ∧ (buf.getD 1 0).toNat < 128 then .error .canonSize
      else .ok (.string, 1, b.toNat - 0x80)
    else if b.toNat < 0xC0 then (readSize (buf.drop 1) (b.toNat - 0xB7)).map fun n => (.string, b.toNat - 0xB7 + 1, n)
    else if b.toNat < 0xF8 then .ok (.list, 1, b.toNat - 0xC0)
    else (readSize (buf.drop 1) (b.toNat - 0xF7)).map fun n => (.list, b.toNat - 0xF7 + 1, n) := by
  have l1 : b < 0x80 ↔ b.toNat < 0x80 := u8_lt b _ (by decide)
  have l2 : b < 0xB8 ↔ b.toNat < 0xB8 := u8_lt b _ (by decide)
  have l3 : b < 0xC0 ↔ b.toNat < 0xC0 := u8_lt b _ (by decide)
  have l4 : b < 0xF8 ↔ b.toNat < 0xF8 := u8_lt b _ (by decide)
  have l5 : buf.getD 1 0 < 128 ↔ (buf.getD 1 0).toNat < 128 := u8_lt _ _ (by decide)
  unfold readTag
  simp only [l1, l2, l3, l4, l5]
  by_cases c1 : b.toNat < 0x80
  · simp only [c1, if_true]
  · by_cases c2 : b.toNat < 0xB8
    · have := u8_sub b 0x80 (by omega)
      simp only [c1, c2, if_true, if_false, show (0x80 : UInt8) = UInt8.ofNat 0x80 from rfl, this]
    · by_cases c3 : b.toNat < 0xC0
      · have := u8_sub b 0xB7 (by omega)
        simp only [c1, c2, c3, if_true, if_false, show (0xB7 : UInt8) = UInt8.ofNat 0xB7 from rfl, this]
      · by_cases c4 : b.toNat < 0xF8
        · have := u8_sub b 0xC0 (by omega)
          simp only [c1, c2, c3, c4, if_true, if_false, show (0xC0 : UInt8) = UInt8.ofNat 0xC0 from rfl, this]
        · have := u8_sub b 0xF7 (by omega)
          simp only [c1, c2, c3, c4, if_false, show (0xF7 : UInt8) = UInt8.ofNat 0xF7 from rfl, this]

theorem head_large {off n : Nat} (h : 56 ≤ n) : head off n = UInt8.ofNat (off + 55 + (natBytes n).length) :: natBytes n := by
  rw [head, if_neg (by omega)]

theorem single_of_len {c : Bytes} (h : c.length ≠ 1) : single c = false := by
  unfold single
  split
  · simp at h
  · rfl

/-- `readKind` accepts exactly the well-formed values. -/
theorem readKind_iff (b : Bytes) (k : Kind) (ts cs : Nat) : readKind b = .ok (k, ts, cs) ↔
    ∃ c r, b = val k c ++ r ∧ okc k c ∧ c.length < 2 ^ 64 ∧ cs = c.length ∧ ts + cs = (val k c).length := by
  constructor
  · intro h
    unfold readKind at h
    split at h
    · cases h
    · next x l =>
      rw [readTag_eq] at h
      have hx := x.toNat_lt
      by_cases c1 : x.toNat < 0x80
      · simp only [c1, if_true] at h
        simp at h
        obtain ⟨rfl, rfl, rfl⟩ := h
        refine ⟨[x], l, rfl, ?_, by simp, rfl, rfl⟩
        simp only [okc, single, decide_eq_true_eq]
        exact (u8_lt x _ (by decide)).mpr c1
      · by_cases c2 : x.toNat < 0xB8
        · simp only [c1, c2, if_true, if_false] at h
          by_cases c3 : x.toNat - 0x80 = 1 ∧ (x :: l).length > 1 ∧ ((x :: l).getD 1 0).toNat < 128
          · rw [if_pos c3] at h; simp at h
          · rw [if_neg c3] at h
            simp only at h
            split at h
            · cases h
            · next hle =>
              simp only [Except.ok.injEq, Prod.mk.injEq] at h
              obtain ⟨rfl, rfl, rfl⟩ := h
              simp only [List.length_cons] at hle
              have hlen : (l.take (x.toNat - 128)).length = x.toNat - 128 := by rw [List.length_take]; omega
              have hh : head 0x80 (l.take (x.toNat - 128)).length = [x] := by
                rw [hlen, head_small (by omega), show 128 + (x.toNat - 128) = x.toNat from by omega]; simp
              refine ⟨l.take (x.toNat - 128), l.drop (x.toNat - 128), ?_, ?_, by omega, hlen.symm, ?_⟩
              · rw [val, hh]; simp
              · simp only [okc]
                by_cases hs1 : x.toNat - 128 = 1
                · rw [hs1]
                  rw [hs1] at hle
                  cases l with
                  | nil => simp at hle
                  | cons y l =>
                    simp only [List.take_succ_cons, List.take_zero, single, decide_eq_false_iff_not]
                    intro hy
                    have := (u8_lt y _ (by decide)).mp hy
                    exact c3 ⟨hs1, by simp, by simpa using this⟩
                · exact single_of_len (by omega)
              · rw [val, List.length_append, hh, hlen]; rfl
        · have large : ∀ (k : Kind) (off o5 : Nat), o5 = off + 55 → off + 55 < x.toNat → x.toNat ≤ off + 55 + 8 →
              (k = .string ∧ off = 0x80 ∨ k = .list ∧ off = 0xC0) →
              ∀ n, readSize l (x.toNat - o5) = .ok n → ¬ n > (x :: l).length - (x.toNat - o5 + 1) →
              ∃ c r, x :: l = val k c ++ r ∧ okc k c ∧ c.length < 2 ^ 64 ∧ n = c.length ∧
                x.toNat - o5 + 1 + n = (val k c).length := by
                intro k off o5 h5 ho1 ho2 hk n hr hle
                subst h5
                rw [readSize_iff _ _ _ (by omega) (by omega)] at hr
                obtain ⟨h56, hnl, r, hr⟩ := hr
                subst hr
                simp only [List.length_cons, List.length_append] at hle
                have hlen : (r.take n).length = n := by rw [List.length_take]; omega
                have hh : head off n = x :: natBytes n := by
                  rw [head_large h56, hnl, show off + 55 + (x.toNat - (off + 55)) = x.toNat from by omega]; simp
                have hv : val k (r.take n) = x :: (natBytes n ++ r.take n) := by
                  rcases hk with ⟨rfl, rfl⟩ | ⟨rfl, rfl⟩
                  · rw [val, hlen, hh]; rfl
                  · rw [val, encList, hlen, hh]; rfl
                refine ⟨r.take n, r.drop n, ?_, ?_, ?_, hlen.symm, ?_⟩
                · rw [hv, List.cons_append, List.append_assoc, List.take_append_drop]
                · rcases hk with ⟨rfl, rfl⟩ | ⟨rfl, rfl⟩
                  · exact single_of_len (by omega)
                  · trivial
                · rw [hlen]; exact lt_of_len (by omega)
                · rw [hv, List.length_cons, List.length_append, hlen, hnl]; omega
          by_cases c3 : x.toNat < 0xC0
          · simp only [c1, c2, c3, if_true, if_false] at h
            simp only [List.drop_one, List.tail_cons] at h
            cases hr : readSize l (x.toNat - 0xB7) with
            | error e => rw [hr] at h; simp [Except.map] at h
            | ok n =>
              rw [hr] at h
              simp only [Except.map] at h
              split at h
              · cases h
              · next hle =>
                simp only [Except.ok.injEq, Prod.mk.injEq] at h
                obtain ⟨rfl, rfl, rfl⟩ := h
                exact large .string 0x80 0xB7 rfl (by omega) (by omega) (Or.inl ⟨rfl, rfl⟩) n hr hle
          · by_cases c4 : x.toNat < 0xF8
            · simp only [c1, c2, c3, c4, if_true, if_false] at h
              split at h
              · cases h
              · next hle =>
                simp only [Except.ok.injEq, Prod.mk.injEq] at h
                obtain ⟨rfl, rfl, rfl⟩ := h
                simp only [List.length_cons] at hle
                have hlen : (l.take (x.toNat - 192)).length = x.toNat - 192 := by rw [List.length_take]; omega
                have hh : head 0xC0 (l.take (x.toNat - 192)).length = [x] := by
                  rw [hlen, head_small (by omega), show 192 + (x.toNat - 192) = x.toNat from by omega]; simp
                refine ⟨l.take (x.toNat - 192), l.drop (x.toNat - 192), ?_, trivial, by omega, hlen.symm, ?_⟩
                · rw [val, encList, hh]; simp
                · rw [val, encList, List.length_append, hh, hlen]; rfl
            · simp only [c1, c2, c3, c4, if_false] at h
              simp only [List.drop_one, List.tail_cons] at h
              cases hr : readSize l (x.toNat - 0xF7) with
              | error e => rw [hr] at h; simp [Except.map] at h
              | ok n =>
                rw [hr] at h
                simp only [Except.map] at h
                split at h
                · cases h
                · next hle =>
                  simp only [Except.ok.injEq, Prod.mk.injEq] at h
                  obtain ⟨rfl, rfl, rfl⟩ := h
                  exact large .list 0xC0 0xF7 rfl (by omega) (by omega) (Or.inr ⟨rfl, rfl⟩) n hr hle
  · rintro ⟨c, r, rfl, hok, hlt, rfl, hts⟩
    have hnl := len_of_lt hlt
    cases k with
    | byte =>
      simp only [okc] at hok
      unfold single at hok
      split at hok
      · next x =>
        have hx := (u8_lt x _ (by decide)).mp (of_decide_eq_true hok)
        simp only [val] at hts ⊢
        have : ts = 0 := by simpa using hts
        subst this
        simp [readKind, readTag_eq, hx]
      · cases hok
    | string =>
      simp only [okc] at hok
      simp only [val] at hts ⊢
      by_cases h56 : c.length < 56
      · rw [head_small h56] at hts ⊢
        have : ts = 1 := by rw [List.length_append] at hts; simp at hts; omega
        subst this
        have hx := u8_toNat (n := 128 + c.length) (by omega)
        simp only [List.cons_append, List.nil_append, readKind, readTag_eq, hx]
        rw [if_neg (by omega), if_pos (by omega), if_neg, show 128 + c.length - 128 = c.length from by omega]
        · simp
        · rintro ⟨h1, h2, h3⟩
          rw [Nat.add_sub_cancel_left] at h1
          obtain ⟨y, rfl⟩ := List.length_eq_one_iff.mp h1
          simp only [single, decide_eq_false_iff_not] at hok
          exact hok ((u8_lt y _ (by decide)).mpr (by simpa using h3))
      · have h56 : 56 ≤ c.length := by omega
        have hpos := natBytes_length_pos (n := c.length) (by omega)
        rw [head_large h56] at hts ⊢
        have : ts = (natBytes c.length).length + 1 := by rw [List.length_append] at hts; simp at hts; omega
        subst this
        have hx := u8_toNat (n := 128 + 55 + (natBytes c.length).length) (by omega)
        simp only [List.cons_append, List.append_assoc, readKind, readTag_eq, hx]
        have hr := (readSize_iff (natBytes c.length ++ (c ++ r)) (natBytes c.length).length c.length hpos hnl).mpr
          ⟨h56, rfl, _, rfl⟩
        rw [if_neg (by omega), if_neg (by omega), if_pos (by omega),
          show 128 + 55 + (natBytes c.length).length - 183 = (natBytes c.length).length from by omega,
          List.drop_succ_cons, List.drop_zero, hr]
        simp only [Except.map, List.length_cons, List.length_append]
        rw [if_neg (by omega)]
    | list =>
      simp only [val, encList] at hts ⊢
      by_cases h56 : c.length < 56
      · rw [head_small h56] at hts ⊢
        have : ts = 1 := by rw [List.length_append] at hts; simp at hts; omega
        subst this
        have hx := u8_toNat (n := 192 + c.length) (by omega)
        simp only [List.cons_append, List.nil_append, readKind, readTag_eq, hx]
        rw [if_neg (by omega), if_neg (by omega), if_neg (by omega), if_pos (by omega),
          show 192 + c.length - 192 = c.length from by omega]
        simp
      · have h56 : 56 ≤ c.length := by omega
        have hpos := natBytes_length_pos (n := c.length) (by omega)
        rw [head_large h56] at hts ⊢
        have : ts = (natBytes c.length).length + 1 := by rw [List.length_append] at hts; simp at hts; omega
        subst this
        have hx := u8_toNat (n := 192 + 55 + (natBytes c.length).length) (by omega)
        simp only [List.cons_append, List.append_assoc, readKind, readTag_eq, hx]
        have hr := (readSize_iff (natBytes c.length ++ (c ++ r)) (natBytes c.length).length c.length hpos hnl).mpr
          ⟨h56, rfl, _, rfl⟩
        rw [if_neg (by omega), if_neg (by omega), if_neg (by omega), if_neg (by omega),
          show 192 + 55 + (natBytes c.length).length - 247 = (natBytes c.length).length from by omega,
          List.drop_succ_cons, List.drop_zero, hr]
        simp only [Except.map, List.length_cons, List.length_append]
        rw [if_neg (by omega)]

theorem split_iff (b : Bytes) (k : Kind) (c r : Bytes) :
    split b = .ok (k, c, r) ↔ b = val k c ++ r ∧ okc k c ∧ c.length < 2 ^ 64 := by
  have hpre : ∀ k c, ∃ h, val k c = h ++ c := by
    intro k c
    cases k with
    | byte => exact ⟨[], rfl⟩
    | string => exact ⟨_, rfl⟩
    | list => exact ⟨_, rfl⟩
  have cut : ∀ (k : Kind) (c r : Bytes) (ts : Nat), ts + c.length = (val k c).length →
      ((val k c ++ r).drop ts).take c.length = c ∧ (val k c ++ r).drop (ts + c.length) = r := by
    intro k c r ts h
    obtain ⟨hd, he⟩ := hpre k c
    rw [he, List.length_append] at h
    have : ts = hd.length := by omega
    subst this
    rw [he, ← List.length_append, List.drop_left, List.append_assoc, List.drop_left, List.take_left]
    exact ⟨rfl, rfl⟩
  constructor
  · intro h
    unfold split at h
    cases hr : readKind b with
    | error e => rw [hr] at h; simp [Except.map] at h
    | ok x =>
      obtain ⟨k', ts, cs⟩ := x
      rw [hr] at h
      simp only [Except.map, Except.ok.injEq, Prod.mk.injEq] at h
      obtain ⟨rfl, rfl, rfl⟩ := h
      obtain ⟨c, r, rfl, h2, h3, rfl, h5⟩ := (readKind_iff b k' ts cs).mp hr
      obtain ⟨e1, e2⟩ := cut k' c r ts h5
      rw [e1, e2]
      exact ⟨rfl, h2, h3⟩
  · rintro ⟨rfl, h2, h3⟩
    obtain ⟨hd, he⟩ := hpre k c
    have hts : hd.length + c.length = (val k c).length := by rw [he, List.length_append]
    have := (readKind_iff (val k c ++ r) k hd.length c.length).mpr ⟨c, r, rfl, h2, h3, rfl, hts⟩
    obtain ⟨e1, e2⟩ := cut k c r hd.length hts
    rw [split, this]
    simp only [Except.map]
    rw [e1, e2]

theorem encStr_val (b : Bytes) : encStr b = val (if single b then .byte else .string) b := by
  unfold encStr
  split
  · next x =>
    simp only [single]
    split
    · next h => simp [h, val]
    · next h => simp [h, val]
  · next h =>
    have : single b = false := by
      unfold single
      split
      · next x => exact (h x rfl).elim
      · rfl
    simp [this, val]

theorem single_okc (b : Bytes) : okc (if single b then .byte else .string) b := by
  cases h : single b <;> simp [okc, h]

/-- The kind of a value. -/
def Item.kind : Item → Kind
  | .str b => if single b then .byte else .string
  | .list _ => .list

/-- The content of a value. -/
def Item.content : Item → Bytes
  | .str b => b
  | .list l => encs l

theorem enc_val (v : Item) : enc v = val v.kind v.content ∧ okc v.kind v.content := by
  cases v with
  | str b => rw [enc]; exact ⟨encStr_val b, single_okc b⟩
  | list l => rw [enc]; exact ⟨rfl, trivial⟩

theorem content_length (v : Item) : v.content.length ≤ (enc v).length := by
  cases v with
  | str b => rw [enc]; exact encStr_length b
  | list l => rw [enc]; exact Nat.le_of_lt (encList_length _)

/-- **C68, C69.**  `Split` takes apart exactly the canonical encodings: it succeeds with a content and the rest just when the
input is the encoding of a value of that kind with this content, followed by the rest. -/
theorem C69_split (b c r : Bytes) (k : Kind) : split b = .ok (k, c, r) ↔
    c.length < 2 ^ 64 ∧ match k with
      | .list => b = encList c ++ r
      | .byte => b = encStr c ++ r ∧ ∃ x, c = [x] ∧ x < 0x80
      | .string => b = encStr c ++ r ∧ ∀ x, c = [x] → ¬ x < 0x80 := by
  rw [split_iff]
  cases k with
  | list => simp only [val, okc]; tauto
  | byte =>
    simp only [okc]
    constructor
    · rintro ⟨h1, h2, h3⟩
      refine ⟨h3, ?_, ?_⟩
      · rw [encStr_val, h2]; exact h1
      · unfold single at h2
        split at h2
        · next x => exact ⟨x, rfl, of_decide_eq_true h2⟩
        · cases h2
    · rintro ⟨h1, h2, x, rfl, h3⟩
      have hs : single [x] = true := by simp [single, h3]
      rw [encStr_val, hs] at h2
      exact ⟨h2, hs, h1⟩
  | string =>
    simp only [okc]
    constructor
    · rintro ⟨h1, h2, h3⟩
      refine ⟨h3, ?_, ?_⟩
      · rw [encStr_val, h2]; exact h1
      · rintro x rfl hx
        simp [single, hx] at h2
    · rintro ⟨h1, h2, h3⟩
      have hs : single c = false := by
        unfold single
        split
        · next x => exact decide_eq_false (h3 x rfl)
        · rfl
      rw [encStr_val, hs] at h2
      exact ⟨h2, hs, h1⟩

/-- **C68, C69.**  `SplitString` accepts exactly encoded strings. -/
theorem C69_splitString (b c r : Bytes) : splitString b = .ok (c, r) ↔ b = encStr c ++ r ∧ c.length < 2 ^ 64 := by
  constructor
  · intro h
    unfold splitString at h
    cases hs : split b with
    | error e => rw [hs] at h; simp at h
    | ok x =>
      obtain ⟨k, c', r'⟩ := x
      rw [hs] at h
      simp only at h
      split at h
      · cases h
      · next hk =>
        simp only [Except.ok.injEq, Prod.mk.injEq] at h
        obtain ⟨rfl, rfl⟩ := h
        have := (C69_split b c' r' k).mp hs
        cases k with
        | list => exact absurd rfl hk
        | byte => exact ⟨this.2.1, this.1⟩
        | string => exact ⟨this.2.1, this.1⟩
  · rintro ⟨rfl, h2⟩
    have hs := (split_iff (encStr c ++ r) (if single c then .byte else .string) c r).mpr
      ⟨by rw [← encStr_val], single_okc c, h2⟩
    rw [splitString, hs]
    simp only
    rw [if_neg]
    cases single c <;> simp

/-- **C68, C69.**  `SplitList` accepts exactly encoded lists. -/
theorem C69_splitList (b c r : Bytes) : splitList b = .ok (c, r) ↔ b = encList c ++ r ∧ c.length < 2 ^ 64 := by
  constructor
  · intro h
    unfold splitList at h
    cases hs : split b with
    | error e => rw [hs] at h; simp at h
    | ok x =>
      obtain ⟨k, c', r'⟩ := x
      rw [hs] at h
      simp only at h
      split at h
      · cases h
      · next hk =>
        rw [not_not] at hk
        subst hk
        simp only [Except.ok.injEq, Prod.mk.injEq] at h
        obtain ⟨rfl, rfl⟩ := h
        have := (split_iff b .list c' r').mp hs
        exact ⟨this.1, this.2.2⟩
  · rintro ⟨rfl, h2⟩
    have hs := (split_iff (encList c ++ r) .list c r).mpr ⟨rfl, trivial, h2⟩
    rw [splitList, hs]
    simp

/-- **C69.**  `SplitUint64` accepts exactly encoded 64-bit integers. -/
theorem C69_splitUint64 (b r : Bytes) (n : Nat) : splitUint64 b = .ok (n, r) ↔ b = encNat n ++ r ∧ n < 2 ^ 64 := by
  constructor
  · intro h
    unfold splitUint64 at h
    cases hs : splitString b with
    | error e => rw [hs] at h; simp at h
    | ok x =>
      obtain ⟨c, r'⟩ := x
      rw [hs] at h
      obtain ⟨rfl, hlt⟩ := (C69_splitString _ _ _).mp hs
      match c with
      | [] =>
        simp only [Except.ok.injEq, Prod.mk.injEq] at h
        obtain ⟨rfl, rfl⟩ := h
        exact ⟨by rw [encNat, natBytes_zero], by decide⟩
      | [x] =>
        simp only at h
        split at h
        · cases h
        · next hx =>
          simp only [Except.ok.injEq, Prod.mk.injEq] at h
          obtain ⟨rfl, rfl⟩ := h
          have hx0 : x.toNat ≠ 0 := fun hh => hx (UInt8.toNat_inj.mp (by simpa using hh))
          have := x.toNat_lt
          exact ⟨by rw [encNat, natBytes_one hx0 this]; simp, by omega⟩
      | x :: y :: l =>
        simp only at h
        split at h
        · cases h
        · next hl =>
          cases hr : readSize (x :: y :: l) (x :: y :: l).length with
          | error e => rw [hr] at h; simp at h
          | ok m =>
            rw [hr] at h
            simp only [Except.ok.injEq, Prod.mk.injEq] at h
            obtain ⟨rfl, rfl⟩ := h
            rw [readSize_iff _ _ _ (by simp) (by omega)] at hr
            obtain ⟨h56, hl2, r, hr⟩ := hr
            have : r = [] := by
              have := congrArg List.length hr
              rw [List.length_append] at this
              exact List.length_eq_zero_iff.mp (by omega)
            subst this
            rw [List.append_nil] at hr
            exact ⟨by rw [encNat, ← hr], lt_of_len (by omega)⟩
  · rintro ⟨rfl, h2⟩
    have hnl := len_of_lt h2
    have hs := (C69_splitString (encNat n ++ r) (natBytes n) r).mpr ⟨rfl, by omega⟩
    rw [splitUint64, hs]
    by_cases h0 : n = 0
    · subst h0; simp [natBytes_zero]
    · by_cases h256 : n < 256
      · rw [natBytes_one h0 h256]
        have : (UInt8.ofNat n).toNat = n := u8_toNat h256
        simp only
        rw [if_neg, this]
        intro hh
        have := congrArg UInt8.toNat hh
        simp at this
        omega
      · have hb := natBytes_eq_natBE
        have hr := (readSize_iff (natBytes n) (natBytes n).length n (natBytes_length_pos h0) hnl).mpr
          ⟨by omega, rfl, [], by simp⟩
        match hn : natBytes n with
        | [] => rw [hn] at hs; have := natBytes_length_pos h0; rw [hn] at this; simp at this
        | [x] =>
          have := beNat_natBytes n
          rw [hn] at this
          have hx := x.toNat_lt
          simp [beNat] at this; omega
        | x :: y :: l =>
          rw [hn] at hr hnl
          simp only
          rw [if_neg (by omega), hr]

example : split [0xC2, 0x81, 0x90, 7] = .ok (.list, [0x81, 0x90], [7]) ∧ split [0x81, 0x05] = .error .canonSize ∧
    split [0xB8, 1, 9] = .error .canonSize ∧ splitUint64 [0x82, 4, 0, 5] = .ok (1024, [5]) ∧
    splitUint64 [0x82, 0, 5] = .error .canonInt := by decide +kernel

/-! ### Counting and iterating -/

theorem val_pos {k : Kind} {c : Bytes} (h : okc k c) : 0 < (val k c).length := by
  cases k with
  | byte =>
    simp only [okc] at h
    cases c with
    | nil => simp [single] at h
    | cons x c => simp [val]
  | string =>
    have := List.length_pos_iff.mpr (head_ne_nil 0x80 c.length)
    simp only [val, List.length_append]; omega
  | list => have := encList_length c; simp only [val]; omega

theorem encs_mem_length (l : List Item) (v : Item) (h : v ∈ l) : (enc v).length ≤ (encs l).length := by
  induction l with
  | nil => simp at h
  | cons w l ih =>
    rw [encs, List.length_append]
    rcases List.mem_cons.mp h with rfl | h
    · omega
    · have := ih h; omega

/-- Reading the first of a sequence of encodings. -/
theorem readKind_encs (v : Item) (r : Bytes) (h : (enc v).length < 2 ^ 64) :
    ∃ k t c, readKind (enc v ++ r) = .ok (k, t, c) ∧ t + c = (enc v).length := by
  obtain ⟨h1, h2⟩ := enc_val v
  have h3 := content_length v
  have hle : v.content.length ≤ (enc v).length := h3
  refine ⟨v.kind, (enc v).length - v.content.length, v.content.length, ?_, by omega⟩
  rw [readKind_iff]
  exact ⟨v.content, r, by rw [h1], h2, by omega, rfl, by rw [← h1]; omega⟩

/-- **C72.**  `CountValues` of the content of a list is the number of elements. -/
theorem C72_count (l : List Item) (h : (encs l).length < 2 ^ 64) (f : Nat) (hf : (encs l).length ≤ f) :
    countValues f (encs l) = .ok l.length := by
  induction l generalizing f with
  | nil => rw [encs]; cases f <;> rfl
  | cons v l ih =>
    rw [encs, List.length_append] at h hf
    have hp := enc_pos v
    obtain ⟨k, t, c, hr, htc⟩ := readKind_encs v (encs l) (by omega)
    cases f with
    | zero => omega
    | succ f =>
      rw [encs]
      cases hb : enc v ++ encs l with
      | nil => have := congrArg List.length hb; rw [List.length_append, List.length_nil] at this; omega
      | cons x b =>
        rw [countValues, ← hb, hr]
        simp only
        rw [htc, List.drop_left, ih (by omega) f (by omega)]
        rfl

/-- **C72.**  `CountValues` accepts nothing but sequences of well-formed values, as many as it says. -/
theorem C72_count_sound (f : Nat) (b : Bytes) (n : Nat) (h : countValues f b = .ok n) :
    ∃ vs : List (Kind × Bytes), vs.length = n ∧ (∀ v ∈ vs, okc v.1 v.2) ∧ b = vs.flatMap fun v => val v.1 v.2 := by
  induction f generalizing b n with
  | zero =>
    cases b with
    | nil => simp only [countValues, Except.ok.injEq] at h; exact ⟨[], by simpa using h, by simp, rfl⟩
    | cons x b => simp [countValues] at h
  | succ f ih =>
    cases b with
    | nil => simp only [countValues, Except.ok.injEq] at h; exact ⟨[], by simpa using h, by simp, rfl⟩
    | cons x b =>
      rw [countValues] at h
      cases hr : readKind (x :: b) with
      | error e => rw [hr] at h; simp at h
      | ok y =>
        obtain ⟨k, ts, cs⟩ := y
        rw [hr] at h
        simp only at h
        obtain ⟨c, r, e, h2, h3, h4, h5⟩ := (readKind_iff _ _ _ _).mp hr
        rw [h5, e, List.drop_left] at h
        cases hc : countValues f r with
        | error e => rw [hc] at h; simp [Except.map] at h
        | ok m =>
          rw [hc] at h
          simp only [Except.map, Except.ok.injEq] at h
          obtain ⟨vs, hl, ho, rfl⟩ := ih r m hc
          refine ⟨(k, c) :: vs, by simp; omega, ?_, by rw [e]; rfl⟩
          intro v hv
          rcases List.mem_cons.mp hv with rfl | hv
          · exact h2
          · exact ho v hv

/-- The loop `for it.Next() { … it.Value() … }`: the values, or nothing if it has not ended after `f` rounds. -/
def Iter.walk : Nat → Iter → Option (List Bytes × Iter)
  | 0, _ => none
  | f + 1, it =>
    match it.nextStep with
    | (it, false) => some ([], it)
    | (it, true) =>
      match Iter.walk f it with
      | none => none
      | some (l, it') => some (it.next :: l, it')

theorem walk_encs (l : List Item) (n : Bytes) (h : (encs l).length < 2 ^ 64) (f : Nat) (hf : l.length < f) :
    ∃ it', Iter.walk f ⟨encs l, n, none⟩ = some (l.map enc, it') ∧ it'.err = none := by
  induction l generalizing n f with
  | nil =>
    cases f with
    | zero => omega
    | succ f => rw [encs, Iter.walk, Iter.nextStep]; exact ⟨_, rfl, rfl⟩
  | cons v l ih =>
    cases f with
    | zero => omega
    | succ f =>
      rw [encs, List.length_append] at h
      rw [List.length_cons] at hf
      have hp := enc_pos v
      obtain ⟨k, t, c, hr, htc⟩ := readKind_encs v (encs l) (by omega)
      rw [encs]
      have hne : enc v ++ encs l ≠ [] := by
        intro hh; have := congrArg List.length hh; rw [List.length_append, List.length_nil] at this; omega
      rw [Iter.walk, Iter.nextStep, if_neg hne, hr]
      simp only
      rw [htc, List.drop_left, List.take_left]
      obtain ⟨it', e, he⟩ := ih (enc v) (by omega) f (by omega)
      rw [e]
      exact ⟨it', rfl, he⟩

/-- **C72.**  Iterating over an encoded list gives the encodings of the elements in order, then stops without an error. -/
theorem C72_iterate (l : List Item) (r : Bytes) (h : (encs l).length < 2 ^ 64) (f : Nat) (hf : l.length < f) :
    ∃ it it', newListIterator (enc (.list l) ++ r) = .ok it ∧ it.walk f = some (l.map enc, it') ∧ it'.err = none := by
  have hs := (split_iff (enc (.list l) ++ r) .list (encs l) r).mpr ⟨by rw [enc]; rfl, trivial, h⟩
  unfold split at hs
  cases hr : readKind (enc (.list l) ++ r) with
  | error e => rw [hr] at hs; simp [Except.map] at hs
  | ok x =>
    obtain ⟨k, t, c⟩ := x
    rw [hr] at hs
    simp only [Except.map, Except.ok.injEq, Prod.mk.injEq] at hs
    obtain ⟨rfl, hs2, hs3⟩ := hs
    obtain ⟨it', e1, e2⟩ := walk_encs l [] h f hf
    refine ⟨⟨encs l, [], none⟩, it', ?_, e1, e2⟩
    rw [newListIterator, hr]
    simp only
    rw [hs2]
    simp

/-- **C72.**  An iterator is given exactly for data that begin with a list, and it starts at the content of that list; for all
other data there is an error. -/
theorem C72_iterator (d : Bytes) (it : Iter) :
    newListIterator d = .ok it ↔ ∃ c r, d = val .list c ++ r ∧ c.length < 2 ^ 64 ∧ it = ⟨c, [], none⟩ := by
  unfold newListIterator
  constructor
  · intro h
    cases hr : readKind d with
    | error e => rw [hr] at h; cases h
    | ok x =>
      obtain ⟨k, t, c⟩ := x
      rw [hr] at h
      simp only at h
      split at h
      · cases h
      · next hk =>
        have hk : k = .list := by simpa using hk
        subst hk
        cases h
        have hs : split d = .ok (.list, (d.drop t).take c, d.drop (t + c)) := by unfold split; rw [hr]; rfl
        obtain ⟨h1, _, h3⟩ := (split_iff d .list _ _).mp hs
        exact ⟨_, _, h1, h3, rfl⟩
  · rintro ⟨c, r, h1, h3, rfl⟩
    have hs := (split_iff d .list c r).mpr ⟨h1, trivial, h3⟩
    unfold split at hs
    cases hr : readKind d with
    | error e => rw [hr] at hs; simp [Except.map] at hs
    | ok x =>
      obtain ⟨k, t, l⟩ := x
      rw [hr] at hs
      simp only [Except.map, Except.ok.injEq, Prod.mk.injEq] at hs
      obtain ⟨rfl, hs2, hs3⟩ := hs
      simp [hs2]

example : newListIterator [0x83, 1, 2, 3] = .error .expectedList ∧ newListIterator [] ≠ .ok ⟨[], [], none⟩ := by decide +kernel

example : (newListIterator [0xC4, 0x05, 0xC1, 0x06, 0x80]).toOption.bind (fun it => (it.walk 9).map Prod.fst) =
    some [[5], [0xC1, 6], [0x80]] := by decide +kernel

example : countValues 9 [0x05, 0xC1, 0x06, 0x80] = .ok 3 := by decide +kernel

/-- **C73 fails.**  On a list with a malformed element `Next` returns true for ever. -/
theorem C73_terminates_refuted :
    ∃ d it, newListIterator d = .ok it ∧ ∀ f, it.walk f = none := by
  refine ⟨[0xC1, 0x81], ⟨[0x81], [], none⟩, by decide +kernel, ?_⟩
  have step : ∀ n e, (⟨[0x81], n, e⟩ : Iter).nextStep = (⟨[0x81], [], some .valueTooLarge⟩, true) := fun _ _ => rfl
  have all : ∀ f n e, (⟨[0x81], n, e⟩ : Iter).walk f = none := by
    intro f
    induction f with
    | zero => intro n e; rfl
    | succ f ih => intro n e; rw [Iter.walk, step]; simp only; rw [ih]
  exact fun f => all f _ _

/-- The loop `for it.Next() { if it.Err() != nil { break } … }`. -/
def Iter.walkErr : Nat → Iter → Option (List Bytes × Iter)
  | 0, _ => none
  | f + 1, it =>
    match it.nextStep with
    | (it, false) => some ([], it)
    | (it, true) =>
      if it.err.isSome then some ([], it)
      else match Iter.walkErr f it with
        | none => none
        | some (l, it') => some (it.next :: l, it')

/-- **C73, in part.**  Iterating until `Next` returns false or `Err` is set takes at most as many steps as there are bytes, plus
one; the values given are well-formed and are, with the data left, the content of the list.  Missing: the loop that the
interface suggests, which looks at `Next` only. -/
theorem C73_terminates_partial (it : Iter) (f : Nat) (hf : it.data.length < f) :
    ∃ vs it', it.walkErr f = some (vs, it') ∧ it.data = vs.flatten ++ it'.data ∧ (it'.err = none → it.err = none → it'.data = []) ∧
      ∀ v ∈ vs, ∃ k c, okc k c ∧ v = val k c := by
  induction f generalizing it with
  | zero => omega
  | succ f ih =>
    rw [Iter.walkErr, Iter.nextStep]
    by_cases hd : it.data = []
    · rw [if_pos hd]
      exact ⟨[], it, rfl, rfl, fun _ _ => hd, by simp⟩
    · rw [if_neg hd]
      cases hr : readKind it.data with
      | error e =>
        simp only [Option.isSome_some, if_true]
        exact ⟨[], _, rfl, by simp, by simp, by simp⟩
      | ok x =>
        obtain ⟨k, t, c⟩ := x
        obtain ⟨cc, r, e, h2, h3, h4, h5⟩ := (readKind_iff _ _ _ _).mp hr
        have hp := val_pos h2
        simp only [Option.isSome_none]
        rw [h5, e, List.drop_left, List.take_left]
        rw [e, List.length_append] at hf
        obtain ⟨vs, it', e1, e2, e3, e4⟩ := ih ⟨r, val k cc, none⟩ (by simp only; omega)
        simp only at e1 e2
        rw [if_neg (by decide), e1]
        refine ⟨val k cc :: vs, it', rfl, by rw [List.flatten_cons, List.append_assoc, ← e2], fun h _ => e3 h rfl, ?_⟩
        intro v hv
        rcases List.mem_cons.mp hv with rfl | hv
        · exact ⟨k, cc, h2, rfl⟩
        · exact e4 v hv

example : ((⟨[0x05, 0xC1, 0x06, 0x81], [], none⟩ : Iter).walkErr 9).map Prod.fst = some [[5], [0xC1, 6]] := by decide +kernel

end Verif.Rlp

import Verif.Rlp.Raw

/-!
# RLP: the decoding stream
-/

namespace Verif.Rlp
open Verif

/-- `n` bytes may be read: neither the innermost list nor the input ends before. -/
def Stream.fits (s : Stream) (n : Nat) : Prop :=
  (∀ l, s.stack.head? = some l → n ≤ l) ∧ (s.limited = true → n ≤ s.remaining)

/-- The limits are 64-bit numbers. -/
def Stream.wf (s : Stream) : Prop := ∀ l ∈ s.stack, l < 2 ^ 64

/-- Between `s` and `s'` exactly the bytes `x` were consumed: the input advanced by them, and the limits of the input and of
the innermost list went down by their number (on 64 bits). -/
structure Cons (s : Stream) (x : Bytes) (s' : Stream) : Prop where
  r : s.r = x ++ s'.r
  limited : s'.limited = s.limited
  ahead : s'.ahead = none
  remaining : if s.limited then s.remaining = x.length + s'.remaining else s'.remaining = s.remaining
  stack : s'.stack = s.stack.modifyHead (sub64 · x.length)

theorem sub64_le {a b : Nat} (h : b ≤ a) (ha : a < 2 ^ 64) : sub64 a b = a - b := by unfold sub64; omega

theorem sub64_lt (a b : Nat) : sub64 a b < 2 ^ 64 := by unfold sub64; omega

theorem sub64_sub64 (a b c : Nat) : sub64 (sub64 a b) c = sub64 a (b + c) := by unfold sub64; omega

theorem sub64_zero {a : Nat} (h : a < 2 ^ 64) : sub64 a 0 = a := by unfold sub64; omega

theorem sub64_eq_zero {a b : Nat} (ha : a < 2 ^ 64) (hb : b < 2 ^ 64) (h : sub64 a b = 0) : a = b := by
  unfold sub64 at h; omega

theorem Cons.wf {s s' : Stream} {x : Bytes} (h : Cons s x s') (hw : s.wf) : s'.wf := by
  intro l hl
  rw [h.stack] at hl
  unfold Stream.wf at hw
  cases hs : s.stack with
  | nil => rw [hs] at hl; simp at hl
  | cons a st =>
    rw [hs] at hl hw
    rw [List.modifyHead_cons] at hl
    rcases List.mem_cons.mp hl with rfl | hl
    · exact sub64_lt _ _
    · exact hw l (by simp [hl])

theorem Cons.trans {s s1 s2 : Stream} {x y : Bytes} (h1 : Cons s x s1) (h2 : Cons s1 y s2) : Cons s (x ++ y) s2 := by
  refine ⟨by rw [h1.r, h2.r, List.append_assoc], by rw [h2.limited, h1.limited], h2.ahead, ?_, ?_⟩
  · have e1 := h1.remaining
    have e2 := h2.remaining
    rw [h1.limited] at e2
    rw [List.length_append]
    split at e1
    · next h => rw [if_pos h] at e2 ⊢; omega
    · next h => rw [if_neg h] at e2 ⊢; omega
  · rw [h2.stack, h1.stack]
    cases s.stack with
    | nil => rfl
    | cons a st => simp only [List.modifyHead_cons, List.length_append, sub64_sub64]

theorem cons_nil (s s' : Stream) (hw : s.wf) (h1 : s'.r = s.r) (h2 : s'.limited = s.limited) (h3 : s'.ahead = none)
    (h4 : s'.remaining = s.remaining) (h5 : s'.stack = s.stack) : Cons s [] s' := by
  refine ⟨by rw [h1]; rfl, h2, h3, ?_, ?_⟩
  · split <;> simp [h4]
  · rw [h5]
    unfold Stream.wf at hw
    cases hs : s.stack with
    | nil => rfl
    | cons a st =>
      rw [hs] at hw
      rw [List.modifyHead_cons, List.length_nil, sub64_zero (hw a (by simp))]

/-- `Cons` does not look at the value ahead. -/
theorem Cons.of_ahead {s s' : Stream} {x : Bytes} {a : Option (Kind × Nat × Option Err)} {b : UInt8}
    (h : Cons { s with ahead := a, byteval := b } x s') : Cons s x s' := ⟨h.r, h.limited, h.ahead, h.remaining, h.stack⟩

theorem Cons.to_ahead {s s' : Stream} {x : Bytes} {a : Option (Kind × Nat × Option Err)} {b : UInt8}
    (h : Cons s x s') : Cons { s with ahead := a, byteval := b } x s' := ⟨h.r, h.limited, h.ahead, h.remaining, h.stack⟩

theorem Cons.set_byteval {s s' : Stream} {x : Bytes} {b : UInt8} (h : Cons s x s') : Cons s x { s' with byteval := b } :=
  ⟨h.r, h.limited, h.ahead, h.remaining, h.stack⟩

theorem Cons.r_length {s s' : Stream} {x : Bytes} (h : Cons s x s') : s.r.length = x.length + s'.r.length := by
  rw [h.r, List.length_append]

/-- What fits before consuming. -/
theorem Cons.fits {s s' : Stream} {x : Bytes} (h : Cons s x s') (hw : s.wf) {n : Nat} (hf : s.fits (x.length + n)) :
    s'.fits n := by
  refine ⟨?_, ?_⟩
  · intro l hl
    rw [h.stack] at hl
    unfold Stream.wf at hw
    have h1 := hf.1
    cases hs : s.stack with
    | nil => rw [hs] at hl; simp at hl
    | cons a st =>
      rw [hs] at hl h1 hw
      simp only [List.modifyHead_cons, List.head?_cons, Option.some.injEq] at hl h1
      have := h1 a rfl
      rw [sub64_le (by omega) (hw a (by simp))] at hl
      omega
  · intro hl
    have h2 := hf.2
    have h3 := h.remaining
    rw [h.limited] at hl
    rw [if_pos hl] at h3
    have := h2 hl
    omega

theorem Stream.fits.mono {s : Stream} {n m : Nat} (h : s.fits n) (hm : m ≤ n) : s.fits m :=
  ⟨fun l hl => Nat.le_trans hm (h.1 l hl), fun hl => Nat.le_trans hm (h.2 hl)⟩

/-! ### Reading bytes -/

theorem willRead_ok {s s' : Stream} {n : Nat} (h : s.willRead n = (.ok (), s')) : s.fits n ∧ s'.r = s.r ∧
    s'.limited = s.limited ∧ s'.ahead = none ∧ s'.byteval = s.byteval ∧
    (if s.limited then s'.remaining = s.remaining - n else s'.remaining = s.remaining) ∧
    s'.stack = s.stack.modifyHead (· - n) := by
  obtain ⟨r, rem, lim, stk, ah, bv⟩ := s
  cases stk with
  | nil =>
    cases lim with
    | false =>
      simp [Stream.willRead] at h
      subst h
      simp [Stream.fits]
    | true =>
      simp only [Stream.willRead, if_true] at h
      split at h
      · simp at h
      · next hle =>
        simp only [Prod.mk.injEq, true_and] at h
        subst h
        refine ⟨⟨by simp, fun _ => by simp only; omega⟩, rfl, rfl, rfl, rfl, by simp, rfl⟩
  | cons l st =>
    simp only [Stream.willRead] at h
    split at h
    · simp at h
    · next hle =>
      cases lim with
      | false =>
        simp at h
        subst h
        refine ⟨⟨by simpa using hle, by simp⟩, rfl, rfl, rfl, rfl, by simp, rfl⟩
      | true =>
        simp only [if_true] at h
        split at h
        · simp at h
        · next hle2 =>
          simp only [Prod.mk.injEq, true_and] at h
          subst h
          refine ⟨⟨by simpa using hle, fun _ => by simp only; omega⟩, rfl, rfl, rfl, rfl, by simp, rfl⟩

theorem willRead_fits {s : Stream} {n : Nat} (h : s.fits n) : ∃ s', s.willRead n = (.ok (), s') := by
  obtain ⟨r, rem, lim, stk, ah, bv⟩ := s
  obtain ⟨h1, h2⟩ := h
  simp only at h1 h2
  cases stk with
  | nil =>
    cases lim with
    | false => exact ⟨_, rfl⟩
    | true =>
      have := h2 rfl
      simp only [Stream.willRead, if_true]
      rw [if_neg (by omega)]
      exact ⟨_, rfl⟩
  | cons l st =>
    have := h1 l rfl
    simp only [Stream.willRead]
    rw [if_neg (by omega)]
    cases lim with
    | false => exact ⟨_, rfl⟩
    | true =>
      have := h2 rfl
      simp only [if_true]
      rw [if_neg (by omega)]
      exact ⟨_, rfl⟩

/-- From the accounting of `willRead` to `Cons`. -/
theorem cons_of_took {s s' t : Stream} {x : Bytes} (hw : s.wf) (h : s.willRead x.length = (.ok (), t))
    (hr : t.r = x ++ s'.r) (hs : s' = { t with r := s'.r }) : Cons s x s' := by
  obtain ⟨hf, h1, h2, h3, h4, h5, h6⟩ := willRead_ok h
  have e1 : s'.limited = t.limited := by rw [hs]
  have e2 : s'.ahead = t.ahead := by rw [hs]
  have e3 : s'.remaining = t.remaining := by rw [hs]
  have e4 : s'.stack = t.stack := by rw [hs]
  refine ⟨by rw [← h1, hr], by rw [e1, h2], by rw [e2, h3], ?_, ?_⟩
  · rw [e3]
    have h7 := hf.2
    split at h5
    · next h => rw [if_pos h]; have := h7 h; omega
    · next h => rw [if_neg h]; exact h5
  · rw [e4, h6]
    unfold Stream.wf at hw
    have h8 := hf.1
    cases hst : s.stack with
    | nil => rfl
    | cons a st =>
      rw [hst] at hw h8
      rw [List.modifyHead_cons, List.modifyHead_cons, sub64_le (h8 a rfl) (hw a (by simp))]

theorem readByte_ok {s s' : Stream} {b : UInt8} (hw : s.wf) (h : s.readByte = (.ok b, s')) :
    Cons s [b] s' ∧ s.fits 1 := by
  unfold Stream.readByte at h
  cases hr : s.willRead 1 with
  | mk o t =>
    rw [hr] at h
    cases o with
    | error e => simp at h
    | ok u =>
      simp only at h
      cases ht : t.r with
      | nil => rw [ht] at h; simp at h
      | cons y r =>
        rw [ht] at h
        simp only [Prod.mk.injEq, Except.ok.injEq] at h
        obtain ⟨rfl, rfl⟩ := h
        exact ⟨cons_of_took hw hr (by rw [ht]; rfl) rfl, (willRead_ok hr).1⟩

theorem readByte_fits {s : Stream} {b : UInt8} {r : Bytes} (hr : s.r = b :: r) (hf : s.fits 1) :
    ∃ s', s.readByte = (.ok b, s') ∧ s'.r = r := by
  obtain ⟨t, ht⟩ := willRead_fits hf
  have := (willRead_ok ht).2.1
  unfold Stream.readByte
  rw [ht]
  simp only
  rw [this, hr]
  exact ⟨_, rfl, rfl⟩

theorem readFull_ok {s s' : Stream} {n : Nat} {b : Bytes} (hw : s.wf) (h : s.readFull n = (.ok b, s')) :
    Cons s b s' ∧ b.length = n ∧ s.fits n := by
  unfold Stream.readFull at h
  cases hr : s.willRead n with
  | mk o t =>
    rw [hr] at h
    cases o with
    | error e => simp at h
    | ok u =>
      simp only at h
      split at h
      · simp at h
      · next hl =>
        simp only [Prod.mk.injEq, Except.ok.injEq] at h
        obtain ⟨rfl, rfl⟩ := h
        have hlen : (t.r.take n).length = n := by rw [List.length_take]; omega
        refine ⟨cons_of_took hw (by rw [hlen]; exact hr) ?_ rfl, hlen, (willRead_ok hr).1⟩
        simp

theorem readFull_fits {s : Stream} {b r : Bytes} (hr : s.r = b ++ r) (hf : s.fits b.length) :
    ∃ s', s.readFull b.length = (.ok b, s') ∧ s'.r = r := by
  obtain ⟨t, ht⟩ := willRead_fits hf
  have := (willRead_ok ht).2.1
  unfold Stream.readFull
  rw [ht]
  simp only
  rw [this, hr, if_neg (by rw [List.length_append]; omega), List.take_left, List.drop_left]
  exact ⟨_, rfl, rfl⟩

/-- A number of at least 2 bytes without leading zero, or of one byte. -/
theorem readUint_ok {s s' : Stream} {n v : Nat} (hw : s.wf) (hn : n ≤ 8) (h : s.readUint n = (.ok v, s')) :
    ∃ b, Cons s b s' ∧ b.length = n ∧ v = beNat b ∧ (n ≠ 1 → b = natBytes v) ∧ v < 2 ^ 64 := by
  unfold Stream.readUint at h
  split at h
  · simp only [Prod.mk.injEq, Except.ok.injEq] at h
    obtain ⟨rfl, rfl⟩ := h
    exact ⟨[], cons_nil _ _ hw rfl rfl rfl rfl rfl, rfl, rfl, fun _ => natBytes_zero.symm, by decide⟩
  · cases hr : s.readByte with
    | mk o t =>
      rw [hr] at h
      cases o with
      | error e => simp at h
      | ok b =>
        simp only [Prod.mk.injEq, Except.ok.injEq] at h
        obtain ⟨rfl, rfl⟩ := h
        have := b.toNat_lt
        exact ⟨[b], (readByte_ok hw hr).1, rfl, by simp [beNat], fun h => absurd rfl h, by omega⟩
  · next h0 h1 =>
    cases hr : s.readFull n with
    | mk o t =>
      rw [hr] at h
      cases o with
      | error e => simp at h
      | ok b =>
        simp only at h
        split at h
        · simp at h
        · next hne =>
          simp only [Prod.mk.injEq, Except.ok.injEq] at h
          obtain ⟨rfl, rfl⟩ := h
          obtain ⟨hc, hl, _⟩ := readFull_ok hw hr
          have hlt := beNat_lt b
          have : 256 ^ b.length ≤ 256 ^ 8 := Nat.pow_le_pow_right (by omega) (by omega)
          refine ⟨b, hc, hl, rfl, fun _ => ?_, by omega⟩
          rw [natBytes_beNat]
          cases b with
          | nil => simp
          | cons x b => simpa using hne

theorem readUint_fits {s : Stream} {v : Nat} {r : Bytes} (hr : s.r = natBytes v ++ r) (hf : s.fits (natBytes v).length) :
    ∃ s', s.readUint (natBytes v).length = (.ok v, s') ∧ s'.r = r := by
  unfold Stream.readUint
  split
  · next h =>
    have : natBytes v = [] := List.length_eq_zero_iff.mp h
    have hv : v = 0 := by rw [← beNat_natBytes v, this]; rfl
    subst hv
    refine ⟨_, rfl, ?_⟩
    simp only
    rw [hr, natBytes_zero]; rfl
  · next h =>
    obtain ⟨x, hx⟩ := List.length_eq_one_iff.mp h
    rw [hx] at hr hf
    have hv : v = x.toNat := by rw [← beNat_natBytes v, hx]; simp [beNat]
    obtain ⟨s', e1, e2⟩ := readByte_fits hr hf
    rw [e1]
    exact ⟨s', by rw [hv], e2⟩
  · next h0 h1 =>
    obtain ⟨s', e1, e2⟩ := readFull_fits hr hf
    rw [e1]
    simp only
    have hv : v ≠ 0 := by rintro rfl; exact h0 (by rw [natBytes_zero]; rfl)
    rw [if_neg (natBytes_head v hv), beNat_natBytes]
    exact ⟨s', rfl, e2⟩

/-! ### Headers -/

/-- The header of a value: of a single byte, the byte. -/
def hdr : Kind → Nat → UInt8 → Bytes
  | .byte, _, x => [x]
  | .string, n, _ => head 0x80 n
  | .list, n, _ => head 0xC0 n

/-- The sizes and bytes a header can have. -/
def hdrOk : Kind → Nat → UInt8 → Prop
  | .byte, n, x => n = 0 ∧ x < 0x80
  | .string, n, _ => n < 2 ^ 64
  | .list, n, _ => n < 2 ^ 64

theorem hdr_pos (k : Kind) (n : Nat) (x : UInt8) : 0 < (hdr k n x).length := by
  cases k with
  | byte => simp [hdr]
  | string => exact List.length_pos_iff.mpr (head_ne_nil _ _)
  | list => exact List.length_pos_iff.mpr (head_ne_nil _ _)

theorem readLong_ok {s s' : Stream} {k k' : Kind} {m n off : Nat} {b : UInt8} (hw : s.wf) (hm1 : 1 ≤ m) (hm : m ≤ 8)
    (h : s.readLong k m = (k', n, none, s')) (hb : b = UInt8.ofNat (off + 55 + m)) :
    k' = k ∧ n < 2 ^ 64 ∧ ∃ x, Cons s x s' ∧ b :: x = head off n := by
  unfold Stream.readLong at h
  cases hr : s.readUint m with
  | mk o t =>
    rw [hr] at h
    cases o with
    | error e => simp at h
    | ok v =>
      simp only [Prod.mk.injEq] at h
      obtain ⟨rfl, rfl, h3, rfl⟩ := h
      have h56 : 56 ≤ v := by
        by_cases hv : v < 56
        · rw [if_pos hv] at h3; simp at h3
        · omega
      obtain ⟨x, hc, hl, hv, hnb, hlt⟩ := readUint_ok hw hm hr
      have hx : x = natBytes v := by
        by_cases h1 : m = 1
        · subst h1
          obtain ⟨y, rfl⟩ := List.length_eq_one_iff.mp hl
          have hy : v = y.toNat := by rw [hv]; simp [beNat]
          have := y.toNat_lt
          rw [natBytes_one (by omega) (by omega), hy]; simp
        · exact hnb h1
      refine ⟨rfl, hlt, x, hc, ?_⟩
      rw [head_large h56, hb, ← hl, hx]

theorem readKind_ok {s s' : Stream} {k : Kind} {n : Nat} (hw : s.wf) (h : s.readKind = (k, n, none, s')) :
    Cons s (hdr k n s'.byteval) s' ∧ hdrOk k n s'.byteval := by
  unfold Stream.readKind at h
  cases hr : s.readByte with
  | mk o t =>
    rw [hr] at h
    cases o with
    | error e => simp at h
    | ok b =>
      simp only at h
      obtain ⟨hc, _⟩ := readByte_ok hw hr
      have l1 : b < 0x80 ↔ b.toNat < 0x80 := u8_lt b _ (by decide)
      have l2 : b < 0xB8 ↔ b.toNat < 0xB8 := u8_lt b _ (by decide)
      have l3 : b < 0xC0 ↔ b.toNat < 0xC0 := u8_lt b _ (by decide)
      have l4 : b < 0xF8 ↔ b.toNat < 0xF8 := u8_lt b _ (by decide)
      have hb := b.toNat_lt
      have hw' : ({ t with byteval := 0 } : Stream).wf := hc.wf hw
      split at h
      · next c1 =>
        simp only [Prod.mk.injEq, true_and] at h
        obtain ⟨rfl, rfl, rfl⟩ := h
        exact ⟨hc.set_byteval, rfl, c1⟩
      · next c1 =>
        rw [l1] at c1
        split at h
        · next c2 =>
          rw [l2] at c2
          simp only [Prod.mk.injEq, true_and] at h
          obtain ⟨rfl, rfl, rfl⟩ := h
          have e := u8_sub b 0x80 (by omega)
          rw [show (0x80 : UInt8) = UInt8.ofNat 0x80 from rfl, e]
          have hh : hdr .string (b.toNat - 0x80) ({ t with byteval := 0 } : Stream).byteval = [b] := by
            simp only [hdr]
            rw [head_small (by omega), show 128 + (b.toNat - 128) = b.toNat from by omega]; simp
          rw [hh]
          exact ⟨hc.set_byteval, by simp only [hdrOk]; omega⟩
        · next c2 =>
          rw [l2] at c2
          split at h
          · next c3 =>
            rw [l3] at c3
            have e := u8_sub b 0xB7 (by omega)
            rw [show (0xB7 : UInt8) = UInt8.ofNat 0xB7 from rfl, e] at h
            obtain ⟨rfl, h2, x, h3, h4⟩ := readLong_ok (off := 0x80) hw' (by omega) (by omega) h (u8_eq b _ (by omega))
            refine ⟨?_, h2⟩
            simp only [hdr]
            rw [← h4]
            exact hc.trans h3.of_ahead
          · next c3 =>
            rw [l3] at c3
            split at h
            · next c4 =>
              rw [l4] at c4
              simp only [Prod.mk.injEq, true_and] at h
              obtain ⟨rfl, rfl, rfl⟩ := h
              have e := u8_sub b 0xC0 (by omega)
              rw [show (0xC0 : UInt8) = UInt8.ofNat 0xC0 from rfl, e]
              have hh : hdr .list (b.toNat - 0xC0) ({ t with byteval := 0 } : Stream).byteval = [b] := by
                simp only [hdr]
                rw [head_small (by omega), show 192 + (b.toNat - 192) = b.toNat from by omega]; simp
              rw [hh]
              exact ⟨hc.set_byteval, by simp only [hdrOk]; omega⟩
            · next c4 =>
              rw [l4] at c4
              have e := u8_sub b 0xF7 (by omega)
              rw [show (0xF7 : UInt8) = UInt8.ofNat 0xF7 from rfl, e] at h
              obtain ⟨rfl, h2, x, h3, h4⟩ := readLong_ok (off := 0xC0) hw' (by omega) (by omega) h (u8_eq b _ (by omega))
              refine ⟨?_, h2⟩
              simp only [hdr]
              rw [← h4]
              exact hc.trans h3.of_ahead

theorem readLong_fits {s : Stream} {k : Kind} {n : Nat} {r : Bytes} (h56 : 56 ≤ n) (hr : s.r = natBytes n ++ r)
    (hf : s.fits (natBytes n).length) :
    ∃ s', s.readLong k (natBytes n).length = (k, n, none, s') ∧ s'.r = r := by
  obtain ⟨s', e1, e2⟩ := readUint_fits hr hf
  unfold Stream.readLong
  rw [e1]
  simp only
  rw [if_neg (by omega)]
  exact ⟨s', rfl, e2⟩

theorem readKind_fits {s : Stream} {k : Kind} {n : Nat} {x : UInt8} {r : Bytes} (hw : s.wf) (hk : hdrOk k n x)
    (hr : s.r = hdr k n x ++ r) (hf : s.fits (hdr k n x).length) :
    ∃ s', s.readKind = (k, n, none, s') ∧ s'.r = r ∧ (k = .byte → s'.byteval = x) := by
  have hpos := hdr_pos k n x
  have hf1 : s.fits 1 := hf.mono (by omega)
  have short : ∀ b, hdr k n x = [b] → ∃ t, s.readByte = (.ok b, t) ∧ t.r = r := by
    intro b hb
    rw [hb] at hr
    exact readByte_fits hr hf1
  have long : ∀ b off, 56 ≤ n → head off n = b :: natBytes n → hdr k n x = head off n →
      ∃ t, s.readByte = (.ok b, t) ∧ ({ t with byteval := 0 } : Stream).fits (natBytes n).length ∧ t.r = natBytes n ++ r := by
    intro b off h56 hb hh
    rw [hh, hb] at hr hf
    obtain ⟨t, e1, e2⟩ := readByte_fits (r := natBytes n ++ r) (by simpa using hr) hf1
    refine ⟨t, e1, ?_, e2⟩
    have hc := (readByte_ok hw e1).1
    refine hc.set_byteval.fits hw ?_
    rw [List.length_cons] at hf
    simpa [Nat.add_comm] using hf
  unfold Stream.readKind
  cases k with
  | byte =>
    obtain ⟨rfl, hx⟩ := hk
    obtain ⟨t, e1, e2⟩ := short x rfl
    rw [e1]
    simp only [if_pos hx]
    exact ⟨_, rfl, e2, fun _ => rfl⟩
  | string =>
    simp only [hdrOk] at hk
    by_cases h56 : n < 56
    · obtain ⟨t, e1, e2⟩ := short _ (head_small h56)
      have ht := u8_toNat (n := 128 + n) (by omega)
      have hs := u8_sub (UInt8.ofNat (128 + n)) 0x80 (by omega)
      rw [e1]
      simp only
      rw [if_neg (by rw [show (0x80 : UInt8) = UInt8.ofNat 0x80 from rfl, u8_lt _ _ (by decide)]; omega),
        if_pos (by rw [show (0xB8 : UInt8) = UInt8.ofNat 0xB8 from rfl, u8_lt _ _ (by decide)]; omega),
        show (0x80 : UInt8) = UInt8.ofNat 0x80 from rfl, hs, ht, Nat.add_sub_cancel_left]
      exact ⟨_, rfl, e2, fun h => by cases h⟩
    · have hnl := len_of_lt hk
      have hp := natBytes_length_pos (n := n) (by omega)
      obtain ⟨t, e1, e2, e3⟩ := long _ 0x80 (by omega) (head_large (by omega)) rfl
      have ht := u8_toNat (n := 128 + 55 + (natBytes n).length) (by omega)
      have hs := u8_sub (UInt8.ofNat (128 + 55 + (natBytes n).length)) 0xB7 (by omega)
      rw [e1]
      simp only
      rw [if_neg (by rw [show (0x80 : UInt8) = UInt8.ofNat 0x80 from rfl, u8_lt _ _ (by decide)]; omega),
        if_neg (by rw [show (0xB8 : UInt8) = UInt8.ofNat 0xB8 from rfl, u8_lt _ _ (by decide)]; omega),
        if_pos (by rw [show (0xC0 : UInt8) = UInt8.ofNat 0xC0 from rfl, u8_lt _ _ (by decide)]; omega),
        show (0xB7 : UInt8) = UInt8.ofNat 0xB7 from rfl, hs, ht, show 128 + 55 + (natBytes n).length - 183 =
          (natBytes n).length from by omega]
      obtain ⟨s', g1, g2⟩ := readLong_fits (k := .string) (s := { t with byteval := 0 }) (n := n) (r := r) (by omega) e3 e2
      exact ⟨s', g1, g2, fun h => by cases h⟩
  | list =>
    simp only [hdrOk] at hk
    by_cases h56 : n < 56
    · obtain ⟨t, e1, e2⟩ := short _ (head_small h56)
      have ht := u8_toNat (n := 192 + n) (by omega)
      have hs := u8_sub (UInt8.ofNat (192 + n)) 0xC0 (by omega)
      rw [e1]
      simp only
      rw [if_neg (by rw [show (0x80 : UInt8) = UInt8.ofNat 0x80 from rfl, u8_lt _ _ (by decide)]; omega),
        if_neg (by rw [show (0xB8 : UInt8) = UInt8.ofNat 0xB8 from rfl, u8_lt _ _ (by decide)]; omega),
        if_neg (by rw [show (0xC0 : UInt8) = UInt8.ofNat 0xC0 from rfl, u8_lt _ _ (by decide)]; omega),
        if_pos (by rw [show (0xF8 : UInt8) = UInt8.ofNat 0xF8 from rfl, u8_lt _ _ (by decide)]; omega),
        show (0xC0 : UInt8) = UInt8.ofNat 0xC0 from rfl, hs, ht, Nat.add_sub_cancel_left]
      exact ⟨_, rfl, e2, fun h => by cases h⟩
    · have hnl := len_of_lt hk
      have hp := natBytes_length_pos (n := n) (by omega)
      obtain ⟨t, e1, e2, e3⟩ := long _ 0xC0 (by omega) (head_large (by omega)) rfl
      have ht := u8_toNat (n := 192 + 55 + (natBytes n).length) (by omega)
      have hs := u8_sub (UInt8.ofNat (192 + 55 + (natBytes n).length)) 0xF7 (by omega)
      rw [e1]
      simp only
      rw [if_neg (by rw [show (0x80 : UInt8) = UInt8.ofNat 0x80 from rfl, u8_lt _ _ (by decide)]; omega),
        if_neg (by rw [show (0xB8 : UInt8) = UInt8.ofNat 0xB8 from rfl, u8_lt _ _ (by decide)]; omega),
        if_neg (by rw [show (0xC0 : UInt8) = UInt8.ofNat 0xC0 from rfl, u8_lt _ _ (by decide)]; omega),
        if_neg (by rw [show (0xF8 : UInt8) = UInt8.ofNat 0xF8 from rfl, u8_lt _ _ (by decide)]; omega),
        show (0xF7 : UInt8) = UInt8.ofNat 0xF7 from rfl, hs, ht, show 192 + 55 + (natBytes n).length - 247 =
          (natBytes n).length from by omega]
      obtain ⟨s', g1, g2⟩ := readLong_fits (k := .list) (s := { t with byteval := 0 }) (n := n) (r := r) (by omega) e3 e2
      exact ⟨s', g1, g2, fun h => by cases h⟩

/-- The header of the next value has been read. -/
structure Ahead (s : Stream) (k : Kind) (n : Nat) (s1 : Stream) : Prop where
  cons : Cons s (hdr k n s1.byteval) { s1 with ahead := none }
  ok : hdrOk k n s1.byteval
  ahead : s1.ahead = some (k, n, none)
  limit : s1.limited = true → n ≤ s1.remaining

theorem Ahead.wf {s s1 : Stream} {k : Kind} {n : Nat} (h : Ahead s k n s1) (hw : s.wf) : s1.wf := h.cons.wf hw

theorem Ahead.kind {s s1 : Stream} {k : Kind} {n : Nat} (h : Ahead s k n s1) : s1.kind = (.ok (k, n), s1) := by
  unfold Stream.kind
  rw [h.ahead]

theorem kind_ok {s s1 : Stream} {k : Kind} {n : Nat} (hw : s.wf) (ha : s.ahead = none) (h : s.kind = (.ok (k, n), s1)) :
    Ahead s k n s1 := by
  unfold Stream.kind at h
  rw [ha] at h
  simp only at h
  split at h
  · simp at h
  · next h0 =>
    cases hr : s.readKind with
    | mk k' q =>
      obtain ⟨n', e, t⟩ := q
      rw [hr] at h
      simp only at h
      cases e with
      | some e => simp at h
      | none =>
        simp only at h
        split at h
        · simp at h
        · next hnone =>
          simp only [Prod.mk.injEq, Except.ok.injEq] at h
          obtain ⟨⟨rfl, rfl⟩, rfl⟩ := h
          obtain ⟨hc, hok⟩ := readKind_ok hw hr
          refine ⟨?_, hok, ?_, ?_⟩
          · have : ({ t with ahead := none } : Stream) = t := by rw [← hc.ahead]
            simp only
            rw [this]
            exact hc
          · simp only [hnone]
          · intro hl
            simp only at hl ⊢
            split at hnone
            · cases hnone
            · split at hnone
              · cases hnone
              · next hh => rw [not_and] at hh; have := hh hl; omega

/-- An error other than the end of a list. -/
def Hard (e : Err) : Prop := e ≠ .eol ∧ e ≠ .outOfFuel

/-- An error of a decoder: the end of the list where nothing is left in it, the stream as before, or another. -/
def Errs (s : Stream) (e : Err) (s' : Stream) : Prop := (e = .eol ∧ s' = s ∧ s.stack.head? = some 0) ∨ Hard e

theorem willRead_err {s s' : Stream} {n : Nat} {e : Err} (h : s.willRead n = (.error e, s')) : Hard e := by
  obtain ⟨r, rem, lim, stk, ah, bv⟩ := s
  unfold Stream.willRead at h
  simp only at h
  cases stk with
  | nil =>
    cases lim with
    | false => simp at h
    | true =>
      simp only [if_true] at h
      split at h
      · simp only [Prod.mk.injEq, Except.error.injEq] at h
        rw [← h.1]; exact ⟨by simp, by simp⟩
      · simp at h
  | cons l st =>
    simp only at h
    split at h
    · simp only [Prod.mk.injEq, Except.error.injEq] at h
      rw [← h.1]; exact ⟨by simp, by simp⟩
    · cases lim with
      | false => simp at h
      | true =>
        simp only [if_true] at h
        split at h
        · simp only [Prod.mk.injEq, Except.error.injEq] at h
          rw [← h.1]; exact ⟨by simp, by simp⟩
        · simp at h

theorem readByte_err {s s' : Stream} {e : Err} (h : s.readByte = (.error e, s')) : Hard e := by
  unfold Stream.readByte at h
  cases hr : s.willRead 1 with
  | mk o t =>
    rw [hr] at h
    cases o with
    | error e' =>
      simp only [Prod.mk.injEq, Except.error.injEq] at h
      rw [← h.1]; exact willRead_err hr
    | ok u =>
      simp only at h
      cases ht : t.r with
      | nil =>
        rw [ht] at h
        simp only [Prod.mk.injEq, Except.error.injEq] at h
        rw [← h.1]; exact ⟨by simp, by simp⟩
      | cons y r => rw [ht] at h; simp at h

theorem readFull_err {s s' : Stream} {n : Nat} {e : Err} (h : s.readFull n = (.error e, s')) : Hard e := by
  unfold Stream.readFull at h
  cases hr : s.willRead n with
  | mk o t =>
    rw [hr] at h
    cases o with
    | error e' =>
      simp only [Prod.mk.injEq, Except.error.injEq] at h
      rw [← h.1]; exact willRead_err hr
    | ok u =>
      simp only at h
      split at h
      · simp only [Prod.mk.injEq, Except.error.injEq] at h
        rw [← h.1]; exact ⟨by simp, by simp⟩
      · simp at h

theorem readUint_err {s s' : Stream} {n : Nat} {e : Err} (h : s.readUint n = (.error e, s')) : Hard e := by
  unfold Stream.readUint at h
  split at h
  · simp at h
  · cases hr : s.readByte with
    | mk o t =>
      rw [hr] at h
      cases o with
      | error e' =>
        simp only [Prod.mk.injEq, Except.error.injEq] at h
        rw [← h.1]; exact readByte_err hr
      | ok u => simp at h
  · cases hr : s.readFull n with
    | mk o t =>
      rw [hr] at h
      cases o with
      | error e' =>
        simp only [Prod.mk.injEq, Except.error.injEq] at h
        rw [← h.1]; exact readFull_err hr
      | ok u =>
        simp only at h
        split at h
        · simp only [Prod.mk.injEq, Except.error.injEq] at h
          rw [← h.1]; exact ⟨by simp, by simp⟩
        · simp at h

theorem readLong_err {s s' : Stream} {k k' : Kind} {n m : Nat} {e : Err} (h : s.readLong k n = (k', m, some e, s')) : Hard e := by
  unfold Stream.readLong at h
  cases hr : s.readUint n with
  | mk o t =>
    rw [hr] at h
    cases o with
    | error e' =>
      simp only [Prod.mk.injEq, Option.some.injEq] at h
      rw [← h.2.2.1]; exact readUint_err hr
    | ok u =>
      simp only [Prod.mk.injEq] at h
      have := h.2.2.1
      split at this
      · simp only [Option.some.injEq] at this
        rw [← this]; exact ⟨by simp, by simp⟩
      · cases this

theorem readKind_err {s s' : Stream} {k : Kind} {n : Nat} {e : Err} (h : s.readKind = (k, n, some e, s')) : Hard e := by
  unfold Stream.readKind at h
  cases hr : s.readByte with
  | mk o t =>
    rw [hr] at h
    cases o with
    | error e' =>
      simp only [Prod.mk.injEq, Option.some.injEq] at h
      have := h.2.2.1
      split at this
      · rw [← this]; exact ⟨by simp, by simp⟩
      · rw [← this]; exact readByte_err hr
    | ok u =>
      simp only at h
      split at h
      · simp at h
      · split at h
        · simp at h
        · split at h
          · exact readLong_err h
          · split at h
            · simp at h
            · exact readLong_err h

/-- The end of the list is found only if nothing is left in it. -/
theorem kind_err {s s1 : Stream} {e : Err} (ha : s.ahead = none) (h : s.kind = (.error e, s1)) :
    Errs s e s1 := by
  unfold Stream.kind at h
  rw [ha] at h
  simp only at h
  split at h
  · next h0 =>
    simp only [Prod.mk.injEq, Except.error.injEq] at h
    exact Or.inl ⟨h.1.symm, h.2.symm, h0⟩
  · right
    cases hr : s.readKind with
    | mk k' q =>
      obtain ⟨n', e', t⟩ := q
      rw [hr] at h
      simp only at h
      cases e' with
      | some e' =>
        simp only [Prod.mk.injEq, Except.error.injEq] at h
        rw [← h.1]; exact readKind_err hr
      | none =>
        simp only at h
        split at h
        · next e' he =>
          simp only [Prod.mk.injEq, Except.error.injEq] at h
          rw [h.1] at he
          split at he
          · simp only [Option.some.injEq] at he
            rw [← he]; exact ⟨by simp, by simp⟩
          · split at he
            · simp only [Option.some.injEq] at he
              rw [← he]; exact ⟨by simp, by simp⟩
            · cases he
        · simp at h

theorem kind_at_eol {s : Stream} (ha : s.ahead = none) (h : s.stack.head? = some 0) : s.kind = (.error .eol, s) := by
  unfold Stream.kind
  rw [ha]
  simp only [h, if_true]

theorem kind_fits {s : Stream} {k : Kind} {n : Nat} {x : UInt8} {r : Bytes} (hw : s.wf) (ha : s.ahead = none)
    (hk : hdrOk k n x) (hr : s.r = hdr k n x ++ r) (hf : s.fits ((hdr k n x).length + n)) :
    ∃ s1, s.kind = (.ok (k, n), s1) ∧ Ahead s k n s1 ∧ s1.r = r ∧ (k = .byte → s1.byteval = x) := by
  have hpos := hdr_pos k n x
  obtain ⟨t, e1, e2, e3⟩ := readKind_fits hw hk hr (hf.mono (by omega))
  obtain ⟨hc, hok⟩ := readKind_ok hw e1
  have hx : hdr k n t.byteval = hdr k n x := by
    cases k with
    | byte => rw [e3 rfl]
    | string => rfl
    | list => rfl
  have hrem : t.limited = true → n ≤ t.remaining := (hc.fits hw (by rw [hx]; exact hf)).2
  have hkind : s.kind = (.ok (k, n), { t with ahead := some (k, n, none) }) := by
    have h0 : s.stack.head? ≠ some 0 := by
      intro h0
      have := hf.1 0 h0
      omega
    have h1 : exceeds n s.stack.head? = false := by
      cases hs : s.stack.head? with
      | none => rfl
      | some l => have := hf.1 l hs; simp [exceeds]; omega
    unfold Stream.kind
    rw [ha]
    simp only [h0, if_false, e1, h1]
    rw [if_neg (by decide), if_neg (by rintro ⟨a, b⟩; have := hrem a; omega)]
  exact ⟨_, hkind, kind_ok hw ha hkind, e2, e3⟩

/-! ### Strings -/

/-- After the header of a string: its content. -/
theorem Ahead.string {s s1 s' : Stream} {n : Nat} {b : Bytes} (hw : s.wf) (h : Ahead s .string n s1)
    (hr : s1.readFull n = (.ok b, s')) : Cons s (head 0x80 b.length ++ b) s' ∧ b.length = n := by
  obtain ⟨hc, hl, _⟩ := readFull_ok (h.wf hw) hr
  have := h.cons.trans hc.to_ahead
  simp only [hdr] at this
  rw [← hl] at this
  exact ⟨this, hl⟩

theorem encStr_string {b : Bytes} (h : ¬ (b.length = 1 ∧ b.getD 0 0 < 128)) : encStr b = head 0x80 b.length ++ b := by
  unfold encStr
  split
  · next x =>
    split
    · next hx => exact absurd ⟨rfl, hx⟩ h
    · rfl
  · rfl

theorem Ahead.byte {s s1 : Stream} {n : Nat} (h : Ahead s .byte n s1) :
    Cons s (encStr [s1.byteval]) { s1 with ahead := none } ∧ s1.byteval < 0x80 := by
  have h1 := h.cons
  have h2 := h.ok
  simp only [hdr] at h1
  simp only [hdrOk] at h2
  refine ⟨?_, h2.2⟩
  simp only [encStr, if_pos h2.2]
  exact h1

/-- The next value is the encoding of a string: the header, and then the content. -/
theorem string_fits {s : Stream} {b r : Bytes} (hw : s.wf) (ha : s.ahead = none) (hb : b.length < 2 ^ 64)
    (hr : s.r = encStr b ++ r) (hf : s.fits (encStr b).length) :
    (∃ x s1, b = [x] ∧ x < 0x80 ∧ s.kind = (.ok (.byte, 0), s1) ∧ Ahead s .byte 0 s1 ∧ s1.byteval = x ∧ s1.r = r) ∨
    (¬ (b.length = 1 ∧ b.getD 0 0 < 128) ∧ ∃ s1 s', s.kind = (.ok (.string, b.length), s1) ∧ Ahead s .string b.length s1 ∧
      s1.readFull b.length = (.ok b, s') ∧ s'.r = r) := by
  by_cases h1 : b.length = 1 ∧ b.getD 0 0 < 128
  · obtain ⟨x, rfl⟩ := List.length_eq_one_iff.mp h1.1
    have hx : x < 0x80 := h1.2
    have he : encStr [x] = [x] := by simp [encStr, hx]
    rw [he] at hr hf
    obtain ⟨s1, e1, e2, e3, e4⟩ := kind_fits (k := .byte) (n := 0) (x := x) hw ha ⟨rfl, hx⟩ hr hf
    exact Or.inl ⟨x, s1, rfl, hx, e1, e2, e4 rfl, e3⟩
  · have he := encStr_string h1
    rw [he] at hr hf
    rw [List.length_append] at hf
    obtain ⟨s1, e1, e2, e3, e4⟩ := kind_fits (k := .string) (n := b.length) (x := 0) (r := b ++ r) hw ha hb
      (by rw [hr, List.append_assoc]; rfl) hf
    have hf2 : ({ s1 with ahead := none } : Stream).fits b.length := e2.cons.fits hw hf
    obtain ⟨s', g1, g2⟩ := readFull_fits (s := s1) e3 hf2
    exact Or.inr ⟨h1, s1, s', e1, e2, g1, g2⟩

/-- **C69.**  `Bytes` accepts nothing but the canonical encoding of what it gives. -/
theorem C69_bytes {s s' : Stream} {b : Bytes} (hw : s.wf) (ha : s.ahead = none) (h : s.bytes = (.ok b, s')) :
    Cons s (encStr b) s' := by
  unfold Stream.bytes at h
  cases hk : s.kind with
  | mk o s1 =>
    rw [hk] at h
    cases o with
    | error e => simp at h
    | ok q =>
      obtain ⟨k, n⟩ := q
      have hA := kind_ok hw ha hk
      cases k with
      | byte =>
        simp only [Prod.mk.injEq, Except.ok.injEq] at h
        obtain ⟨rfl, rfl⟩ := h
        exact hA.byte.1
      | list => simp at h
      | string =>
        simp only at h
        cases hr : s1.readFull n with
        | mk o t =>
          rw [hr] at h
          cases o with
          | error e => simp at h
          | ok c =>
            simp only at h
            split at h
            · simp at h
            · next hc =>
              simp only [Prod.mk.injEq, Except.ok.injEq] at h
              obtain ⟨rfl, rfl⟩ := h
              obtain ⟨g1, g2⟩ := hA.string hw hr
              rw [← g2] at hc
              rw [encStr_string hc]
              exact g1

/-- **C68.**  `Bytes` reads an encoded string. -/
theorem C68_bytes {s : Stream} {b r : Bytes} (hw : s.wf) (ha : s.ahead = none) (hb : b.length < 2 ^ 64)
    (hr : s.r = encStr b ++ r) (hf : s.fits (encStr b).length) : ∃ s', s.bytes = (.ok b, s') ∧ s'.r = r := by
  unfold Stream.bytes
  rcases string_fits hw ha hb hr hf with ⟨x, s1, rfl, hx, e1, e2, e3, e4⟩ | ⟨h1, s1, s', e1, e2, e3, e4⟩
  · rw [e1]
    simp only
    rw [e3]
    exact ⟨_, rfl, e4⟩
  · rw [e1]
    simp only
    rw [e3]
    simp only
    rw [if_neg h1]
    exact ⟨_, rfl, e4⟩

/-- **C69.**  `ReadBytes` accepts nothing but the canonical encoding of a string of the given length. -/
theorem C69_readBytes {s s' : Stream} {b : Bytes} {len : Nat} (hw : s.wf) (ha : s.ahead = none)
    (h : s.readBytes len = (.ok b, s')) : Cons s (encStr b) s' ∧ b.length = len := by
  unfold Stream.readBytes at h
  cases hk : s.kind with
  | mk o s1 =>
    rw [hk] at h
    cases o with
    | error e => simp at h
    | ok q =>
      obtain ⟨k, n⟩ := q
      have hA := kind_ok hw ha hk
      cases k with
      | byte =>
        simp only at h
        split at h
        · simp at h
        · next hl =>
          simp only [Prod.mk.injEq, Except.ok.injEq] at h
          obtain ⟨rfl, rfl⟩ := h
          exact ⟨hA.byte.1, by rw [not_not] at hl; rw [hl]; rfl⟩
      | list => simp at h
      | string =>
        simp only at h
        split at h
        · simp at h
        · next hl =>
          rw [not_not] at hl
          cases hr : s1.readFull n with
          | mk o t =>
            rw [hr] at h
            cases o with
            | error e => simp at h
            | ok c =>
              simp only at h
              split at h
              · simp at h
              · next hc =>
                simp only [Prod.mk.injEq, Except.ok.injEq] at h
                obtain ⟨rfl, rfl⟩ := h
                obtain ⟨g1, g2⟩ := hA.string hw hr
                rw [← g2] at hc
                rw [encStr_string hc]
                exact ⟨g1, by rw [g2, hl]⟩

/-- **C68.**  `ReadBytes` reads an encoded string of the given length. -/
theorem C68_readBytes {s : Stream} {b r : Bytes} (hw : s.wf) (ha : s.ahead = none) (hb : b.length < 2 ^ 64)
    (hr : s.r = encStr b ++ r) (hf : s.fits (encStr b).length) : ∃ s', s.readBytes b.length = (.ok b, s') ∧ s'.r = r := by
  unfold Stream.readBytes
  rcases string_fits hw ha hb hr hf with ⟨x, s1, rfl, hx, e1, e2, e3, e4⟩ | ⟨h1, s1, s', e1, e2, e3, e4⟩
  · rw [e1]
    simp only
    rw [if_neg (by simp), e3]
    exact ⟨_, rfl, e4⟩
  · rw [e1]
    simp only
    rw [if_neg (by simp), e3]
    simp only
    rw [if_neg h1]
    exact ⟨_, rfl, e4⟩

/-! ### Integers -/

theorem encNat_string {n : Nat} (h : n = 0 ∨ 128 ≤ n) : encNat n = head 0x80 (natBytes n).length ++ natBytes n := by
  rcases h with rfl | h
  · rw [natBytes_zero, encNat_zero]; rfl
  · exact encNat_big h

/-- **C69.**  `Uint` and its variants accept nothing but the canonical encoding of a number of that many bits. -/
theorem C69_uint {s s' : Stream} {v bits : Nat} (hw : s.wf) (ha : s.ahead = none) (hb : bits ≤ 64) (hb8 : 8 ≤ bits)
    (h : s.uint bits = (.ok v, s')) : Cons s (encNat v) s' ∧ v < 256 ^ (bits / 8) := by
  unfold Stream.uint at h
  cases hk : s.kind with
  | mk o s1 =>
    rw [hk] at h
    cases o with
    | error e => simp at h
    | ok q =>
      obtain ⟨k, n⟩ := q
      have hA := kind_ok hw ha hk
      cases k with
      | byte =>
        simp only at h
        split at h
        · simp at h
        · next hne =>
          simp only [Prod.mk.injEq, Except.ok.injEq] at h
          obtain ⟨rfl, rfl⟩ := h
          have hx0 : s1.byteval.toNat ≠ 0 := fun hh => hne (UInt8.toNat_inj.mp (by simpa using hh))
          have hlt := s1.byteval.toNat_lt
          refine ⟨?_, ?_⟩
          · rw [encNat, natBytes_one hx0 hlt, UInt8.ofNat_toNat]
            exact hA.byte.1
          · have : 256 ^ 1 ≤ 256 ^ (bits / 8) := Nat.pow_le_pow_right (by omega) (by omega)
            omega
      | list => simp at h
      | string =>
        simp only at h
        split at h
        · simp at h
        · next hl =>
          cases hr : s1.readUint n with
          | mk o t =>
            rw [hr] at h
            cases o with
            | error e => cases e <;> simp at h
            | ok w =>
              simp only at h
              split at h
              · simp at h
              · next hc =>
                simp only [Prod.mk.injEq, Except.ok.injEq] at h
                obtain ⟨rfl, rfl⟩ := h
                obtain ⟨b, g1, g2, g3, g4, g5⟩ := readUint_ok (hA.wf hw) (by omega) hr
                have hbn : b = natBytes w := by
                  by_cases h1 : n = 1
                  · subst h1
                    obtain ⟨y, rfl⟩ := List.length_eq_one_iff.mp g2
                    have hy : w = y.toNat := by rw [g3]; simp [beNat]
                    have := y.toNat_lt
                    rw [natBytes_one (by omega) (by omega), hy]; simp
                  · exact g4 h1
                have h0 : w = 0 ∨ 128 ≤ w := by
                  by_cases hn : n = 0
                  · left
                    subst hn
                    rw [g3, List.length_eq_zero_iff.mp g2]; rfl
                  · right; omega
                refine ⟨?_, ?_⟩
                · have := hA.cons.trans g1.to_ahead
                  simp only [hdr] at this
                  rw [encNat_string h0, ← hbn, g2]
                  exact this
                · have h1 := beNat_lt b
                  rw [g2, ← g3] at h1
                  have : 256 ^ n ≤ 256 ^ (bits / 8) := Nat.pow_le_pow_right (by omega) (by omega)
                  omega

theorem natBytes_len_small {n : Nat} (h : ¬ ((natBytes n).length = 1 ∧ (natBytes n).getD 0 0 < 128)) : n = 0 ∨ 128 ≤ n := by
  by_cases h0 : n = 0
  · exact Or.inl h0
  · right
    by_cases h1 : n < 128
    · exfalso; apply h
      rw [natBytes_one h0 (by omega)]
      refine ⟨rfl, ?_⟩
      rw [List.getD_cons_zero, show (128 : UInt8) = UInt8.ofNat 128 from rfl, u8_lt _ _ (by decide), u8_toNat (by omega)]
      exact h1
    · omega

/-- **C68.**  `Uint` and its variants read an encoded number of that many bits. -/
theorem C68_uint {s : Stream} {v bits : Nat} {r : Bytes} (hw : s.wf) (ha : s.ahead = none) (hb : bits ≤ 64)
    (hv : v < 256 ^ (bits / 8)) (hr : s.r = encNat v ++ r) (hf : s.fits (encNat v).length) :
    ∃ s', s.uint bits = (.ok v, s') ∧ s'.r = r := by
  have hl := BigMath.natBytes_len_le _ _ hv
  unfold Stream.uint
  rcases string_fits hw ha (by omega) hr hf with ⟨x, s1, hx1, hx, e1, e2, e3, e4⟩ | ⟨h1, s1, s', e1, e2, e3, e4⟩
  · have hvx : v = x.toNat := by rw [← beNat_natBytes v, hx1]; simp [beNat]
    rw [e1]
    simp only
    have hx0 : x ≠ 0 := by
      have := natBytes_head_ne_zero v
      rw [hx1] at this
      simpa using this
    rw [e3, if_neg hx0, hvx]
    exact ⟨_, rfl, e4⟩
  · have h0 := natBytes_len_small h1
    obtain ⟨hc, _, hfit⟩ := readFull_ok (e2.wf hw) e3
    obtain ⟨t, g1, g2⟩ := readUint_fits (s := s1) (v := v) (r := r) (by rw [hc.r, e4]) hfit
    rw [e1]
    simp only
    rw [if_neg (by omega), g1]
    simp only
    rw [if_neg]
    · exact ⟨t, rfl, g2⟩
    · rintro ⟨a, b⟩
      have : v = 0 := by omega
      rw [this, natBytes_zero] at a
      simp at a

/-- **C69.**  `Bool` accepts nothing but the encodings of 0 and 1. -/
theorem C69_bool {s s' : Stream} {v : Bool} (hw : s.wf) (ha : s.ahead = none) (h : s.bool = (.ok v, s')) :
    Cons s (encNat (if v then 1 else 0)) s' := by
  unfold Stream.bool at h
  cases hk : s.uint 8 with
  | mk o t =>
    rw [hk] at h
    cases o with
    | error e => simp at h
    | ok n =>
      have := (C69_uint hw ha (by omega) (by omega) hk).1
      match n with
      | 0 =>
        simp only [Prod.mk.injEq, Except.ok.injEq] at h
        obtain ⟨rfl, rfl⟩ := h
        exact this
      | 1 =>
        simp only [Prod.mk.injEq, Except.ok.injEq] at h
        obtain ⟨rfl, rfl⟩ := h
        exact this
      | n + 2 => simp at h

/-- **C68.**  `Bool` reads an encoded Boolean. -/
theorem C68_bool {s : Stream} {v : Bool} {r : Bytes} (hw : s.wf) (ha : s.ahead = none)
    (hr : s.r = encNat (if v then 1 else 0) ++ r) (hf : s.fits (encNat (if v then 1 else 0)).length) :
    ∃ s', s.bool = (.ok v, s') ∧ s'.r = r := by
  obtain ⟨t, e1, e2⟩ := C68_uint (bits := 8) hw ha (by omega) (by cases v <;> decide) hr hf
  unfold Stream.bool
  rw [e1]
  cases v
  · exact ⟨t, rfl, e2⟩
  · exact ⟨t, rfl, e2⟩

theorem noLeadingZero_ok {b : Bytes} {v : Nat} (h : noLeadingZero b = .ok v) : b = natBytes v := by
  unfold noLeadingZero at h
  split at h
  · cases h
  · next hc =>
    simp only [Except.ok.injEq] at h
    subst h
    rw [natBytes_beNat]
    cases b with
    | nil => simp
    | cons x b => simpa using hc

theorem noLeadingZero_natBytes (v : Nat) : noLeadingZero (natBytes v) = .ok v := by
  unfold noLeadingZero
  rw [if_neg, beNat_natBytes]
  rintro ⟨h1, h2⟩
  refine natBytes_head v ?_ h2
  rintro rfl
  exact h1 natBytes_zero

/-- **C69.**  Decoding a big integer accepts nothing but its canonical encoding; `ReadUint256` nothing above the limit. -/
theorem C69_bigInt {s s' : Stream} {v : Nat} {max : Option Nat} (hw : s.wf) (ha : s.ahead = none)
    (h : s.bigInt max = (.ok v, s')) : Cons s (encNat v) s' ∧ ∀ m, max = some m → 1 ≤ m → v < 256 ^ m := by
  unfold Stream.bigInt at h
  cases hk : s.kind with
  | mk o s1 =>
    rw [hk] at h
    cases o with
    | error e => simp at h
    | ok q =>
      obtain ⟨k, n⟩ := q
      have hA := kind_ok hw ha hk
      cases k with
      | list => simp at h
      | byte =>
        simp only [Prod.mk.injEq] at h
        obtain ⟨h1, rfl⟩ := h
        have hb := noLeadingZero_ok h1
        refine ⟨by rw [encNat, ← hb]; exact hA.byte.1, ?_⟩
        intro m _ hm
        have hv : v = s1.byteval.toNat := by rw [← beNat_natBytes v, ← hb]; simp [beNat]
        have hlt := s1.byteval.toNat_lt
        have : 256 ^ 1 ≤ 256 ^ m := Nat.pow_le_pow_right (by omega) hm
        omega
      | string =>
        simp only at h
        by_cases hn : n = 0
        · subst hn
          rw [if_pos rfl] at h
          simp only [Prod.mk.injEq] at h
          obtain ⟨h1, rfl⟩ := h
          have hb := noLeadingZero_ok h1
          have hv : v = 0 := by rw [← beNat_natBytes v, ← hb]; rfl
          subst hv
          refine ⟨?_, fun m _ _ => Nat.pow_pos (by omega)⟩
          have := hA.cons
          rw [encNat_zero]
          exact this
        · rw [if_neg hn] at h
          split at h
          · simp at h
          · next hmax =>
            cases hr : s1.readFull n with
            | mk o t =>
              rw [hr] at h
              cases o with
              | error e => simp at h
              | ok c =>
                simp only at h
                split at h
                · simp at h
                · next hc =>
                  simp only [Prod.mk.injEq] at h
                  obtain ⟨h1, rfl⟩ := h
                  have hb := noLeadingZero_ok h1
                  obtain ⟨g1, g2⟩ := hA.string hw hr
                  rw [← g2] at hc
                  refine ⟨?_, ?_⟩
                  · rw [encNat, ← hb, encStr_string hc]
                    exact g1
                  · rintro m rfl _
                    have hnm : n ≤ m := by simpa [exceeds] using hmax
                    have := beNat_lt c
                    rw [g2, hb, beNat_natBytes] at this
                    have h2 : 256 ^ n ≤ 256 ^ m := Nat.pow_le_pow_right (by omega) hnm
                    omega

/-- **C68.**  Decoding a big integer reads its encoding. -/
theorem C68_bigInt {s : Stream} {v : Nat} {max : Option Nat} {r : Bytes} (hw : s.wf) (ha : s.ahead = none)
    (hv : (natBytes v).length < 2 ^ 64) (hm : ∀ m, max = some m → v < 256 ^ m)
    (hr : s.r = encNat v ++ r) (hf : s.fits (encNat v).length) :
    ∃ s', s.bigInt max = (.ok v, s') ∧ s'.r = r := by
  unfold Stream.bigInt
  rcases string_fits hw ha hv hr hf with ⟨x, s1, hx1, hx, e1, e2, e3, e4⟩ | ⟨h1, s1, s', e1, e2, e3, e4⟩
  · rw [e1]
    simp only
    rw [e3, ← hx1, noLeadingZero_natBytes]
    exact ⟨_, rfl, e4⟩
  · rw [e1]
    simp only
    by_cases hn : (natBytes v).length = 0
    · rw [if_pos hn]
      have hb : natBytes v = [] := List.length_eq_zero_iff.mp hn
      rw [← hb, noLeadingZero_natBytes]
      have := (readFull_ok (e2.wf hw) e3).1.r
      exact ⟨_, rfl, by simp only; rw [this, e4, hb]; rfl⟩
    · rw [if_neg hn, if_neg]
      · rw [e3]
        simp only
        rw [if_neg h1, noLeadingZero_natBytes]
        exact ⟨_, rfl, e4⟩
      · cases max with
        | none => simp [exceeds]
        | some m =>
          have := BigMath.natBytes_len_le _ _ (hm m rfl)
          simp [exceeds]; omega

/-- `Raw` gives back exactly the bytes it consumed, which are one value (with a header of minimal length). -/
theorem C69_raw {s s' : Stream} {x : Bytes} (hw : s.wf) (ha : s.ahead = none) (h : s.raw = (.ok x, s')) :
    Cons s x s' ∧ ∃ k c, x = val k c := by
  unfold Stream.raw at h
  cases hk : s.kind with
  | mk o s1 =>
    rw [hk] at h
    cases o with
    | error e => simp at h
    | ok q =>
      obtain ⟨k, n⟩ := q
      have hA := kind_ok hw ha hk
      have rest : ∀ off, k ≠ .byte → hdr k n s1.byteval = head off n →
          (∀ b, s1.readFull n = (.ok b, s') → Cons s (head off n ++ b) s' ∧ b.length = n) := by
        intro off _ hh b hr
        obtain ⟨hc, hl, _⟩ := readFull_ok (hA.wf hw) hr
        have := hA.cons.trans hc.to_ahead
        rw [hh] at this
        exact ⟨this, hl⟩
      cases k with
      | byte =>
        simp only [Prod.mk.injEq, Except.ok.injEq] at h
        obtain ⟨rfl, rfl⟩ := h
        have := hA.cons
        simp only [hdr] at this
        exact ⟨this, .byte, _, rfl⟩
      | string =>
        have hok := hA.ok
        simp only [hdrOk] at hok
        simp only at h
        cases hr : s1.readFull n with
        | mk o t =>
          rw [hr] at h
          cases o with
          | error e => simp at h
          | ok c =>
            simp only [if_true, Prod.mk.injEq, Except.ok.injEq] at h
            obtain ⟨rfl, rfl⟩ := h
            rw [puthead_str, u64of hok]
            obtain ⟨g1, g2⟩ := rest 0x80 (by simp) rfl c hr
            exact ⟨g1, .string, c, by rw [val, g2]⟩
      | list =>
        have hok := hA.ok
        simp only [hdrOk] at hok
        simp only at h
        cases hr : s1.readFull n with
        | mk o t =>
          rw [hr] at h
          cases o with
          | error e => simp at h
          | ok c =>
            simp only [if_neg (show ¬ Kind.list = Kind.string from by simp), Prod.mk.injEq, Except.ok.injEq] at h
            obtain ⟨rfl, rfl⟩ := h
            rw [puthead_list, u64of hok]
            obtain ⟨g1, g2⟩ := rest 0xC0 (by simp) rfl c hr
            exact ⟨g1, .list, c, by rw [val, encList, g2]⟩

/-- **C69 fails for `Raw`.**  A raw value need not be canonical: a byte below 0x80 with a header passes. -/
theorem C69_raw_refuted : ∃ x s', (Stream.ofBytes [0x81, 0x05]).raw = (.ok x, s') ∧ ¬ ∃ v, x = enc v := by
  refine ⟨[0x81, 0x05], ⟨[], 0, true, [], none, 0⟩, by decide +kernel, ?_⟩
  rintro ⟨v, hv⟩
  have h1 := enc_val v
  have hs := (split_iff (enc v ++ []) v.kind v.content []).mpr
    ⟨by rw [← h1.1], h1.2, by have := content_length v; rw [← hv] at this; simp at this; omega⟩
  rw [← hv] at hs
  have : split ([0x81, 0x05] ++ []) = .error .canonSize := by decide +kernel
  rw [this] at hs
  cases hs

/-! ### Errors -/

theorem bytes_err {s s' : Stream} {e : Err} (ha : s.ahead = none) (h : s.bytes = (.error e, s')) : Errs s e s' := by
  unfold Stream.bytes at h
  cases hk : s.kind with
  | mk o s1 =>
    rw [hk] at h
    cases o with
    | error e =>
      simp only [Prod.mk.injEq, Except.error.injEq] at h
      obtain ⟨rfl, rfl⟩ := h
      exact kind_err ha hk
    | ok q =>
      right
      obtain ⟨k, n⟩ := q
      cases k with
      | byte => simp at h
      | list =>
        simp only [Prod.mk.injEq, Except.error.injEq] at h
        rw [← h.1]; exact ⟨by simp, by simp⟩
      | string =>
        simp only at h
        cases hr : s1.readFull n with
        | mk o t =>
          rw [hr] at h
          cases o with
          | error e =>
            simp only [Prod.mk.injEq, Except.error.injEq] at h
            rw [← h.1]; exact readFull_err hr
          | ok c =>
            simp only at h
            split at h
            · simp only [Prod.mk.injEq, Except.error.injEq] at h
              rw [← h.1]; exact ⟨by simp, by simp⟩
            · simp at h

theorem readBytes_err {s s' : Stream} {e : Err} {len : Nat} (ha : s.ahead = none) (h : s.readBytes len = (.error e, s')) :
    Errs s e s' := by
  unfold Stream.readBytes at h
  cases hk : s.kind with
  | mk o s1 =>
    rw [hk] at h
    cases o with
    | error e =>
      simp only [Prod.mk.injEq, Except.error.injEq] at h
      obtain ⟨rfl, rfl⟩ := h
      exact kind_err ha hk
    | ok q =>
      right
      obtain ⟨k, n⟩ := q
      cases k with
      | byte =>
        simp only at h
        split at h
        · simp only [Prod.mk.injEq, Except.error.injEq] at h
          rw [← h.1]; exact ⟨by simp, by simp⟩
        · simp at h
      | list =>
        simp only [Prod.mk.injEq, Except.error.injEq] at h
        rw [← h.1]; exact ⟨by simp, by simp⟩
      | string =>
        simp only at h
        split at h
        · simp only [Prod.mk.injEq, Except.error.injEq] at h
          rw [← h.1]; exact ⟨by simp, by simp⟩
        · cases hr : s1.readFull n with
          | mk o t =>
            rw [hr] at h
            cases o with
            | error e =>
              simp only [Prod.mk.injEq, Except.error.injEq] at h
              rw [← h.1]; exact readFull_err hr
            | ok c =>
              simp only at h
              split at h
              · simp only [Prod.mk.injEq, Except.error.injEq] at h
                rw [← h.1]; exact ⟨by simp, by simp⟩
              · simp at h

theorem uint_err {s s' : Stream} {e : Err} {bits : Nat} (ha : s.ahead = none) (h : s.uint bits = (.error e, s')) :
    Errs s e s' := by
  unfold Stream.uint at h
  cases hk : s.kind with
  | mk o s1 =>
    rw [hk] at h
    cases o with
    | error e =>
      simp only [Prod.mk.injEq, Except.error.injEq] at h
      obtain ⟨rfl, rfl⟩ := h
      exact kind_err ha hk
    | ok q =>
      right
      obtain ⟨k, n⟩ := q
      cases k with
      | byte =>
        simp only at h
        split at h
        · simp only [Prod.mk.injEq, Except.error.injEq] at h
          rw [← h.1]; exact ⟨by simp, by simp⟩
        · simp at h
      | list =>
        simp only [Prod.mk.injEq, Except.error.injEq] at h
        rw [← h.1]; exact ⟨by simp, by simp⟩
      | string =>
        simp only at h
        split at h
        · simp only [Prod.mk.injEq, Except.error.injEq] at h
          rw [← h.1]; exact ⟨by simp, by simp⟩
        · cases hr : s1.readUint n with
          | mk o t =>
            rw [hr] at h
            cases o with
            | error e' =>
              have := readUint_err hr
              by_cases hc : e' = .canonSize
              · subst hc
                simp only [Prod.mk.injEq, Except.error.injEq] at h
                rw [← h.1]; exact ⟨by simp, by simp⟩
              · have he : e' = e := by cases e' <;> simp at hc h <;> exact h.1
                rw [← he]; exact this
            | ok c =>
              simp only at h
              split at h
              · simp only [Prod.mk.injEq, Except.error.injEq] at h
                rw [← h.1]; exact ⟨by simp, by simp⟩
              · simp at h

theorem bool_err {s s' : Stream} {e : Err} (ha : s.ahead = none) (h : s.bool = (.error e, s')) : Errs s e s' := by
  unfold Stream.bool at h
  cases hk : s.uint 8 with
  | mk o t =>
    rw [hk] at h
    cases o with
    | error e =>
      simp only [Prod.mk.injEq, Except.error.injEq] at h
      obtain ⟨rfl, rfl⟩ := h
      exact uint_err ha hk
    | ok n =>
      match n with
      | 0 => simp at h
      | 1 => simp at h
      | n + 2 =>
        simp only [Prod.mk.injEq, Except.error.injEq] at h
        right
        rw [← h.1]; exact ⟨by simp, by simp⟩

theorem noLeadingZero_err {b : Bytes} {e : Err} (h : noLeadingZero b = .error e) : Hard e := by
  unfold noLeadingZero at h
  split at h
  · simp only [Except.error.injEq] at h
    rw [← h]; exact ⟨by simp, by simp⟩
  · simp at h

theorem bigInt_err {s s' : Stream} {e : Err} {max : Option Nat} (ha : s.ahead = none) (h : s.bigInt max = (.error e, s')) :
    Errs s e s' := by
  unfold Stream.bigInt at h
  cases hk : s.kind with
  | mk o s1 =>
    rw [hk] at h
    cases o with
    | error e =>
      simp only [Prod.mk.injEq, Except.error.injEq] at h
      obtain ⟨rfl, rfl⟩ := h
      exact kind_err ha hk
    | ok q =>
      right
      obtain ⟨k, n⟩ := q
      cases k with
      | list =>
        simp only [Prod.mk.injEq, Except.error.injEq] at h
        rw [← h.1]; exact ⟨by simp, by simp⟩
      | byte =>
        simp only [Prod.mk.injEq] at h
        exact noLeadingZero_err h.1
      | string =>
        simp only at h
        by_cases hn : n = 0
        · rw [if_pos hn] at h
          simp only [Prod.mk.injEq] at h
          exact noLeadingZero_err h.1
        · rw [if_neg hn] at h
          split at h
          · simp only [Prod.mk.injEq, Except.error.injEq] at h
            rw [← h.1]; exact ⟨by simp, by simp⟩
          · cases hr : s1.readFull n with
            | mk o t =>
              rw [hr] at h
              cases o with
              | error e =>
                simp only [Prod.mk.injEq, Except.error.injEq] at h
                rw [← h.1]; exact readFull_err hr
              | ok c =>
                simp only at h
                split at h
                · simp only [Prod.mk.injEq, Except.error.injEq] at h
                  rw [← h.1]; exact ⟨by simp, by simp⟩
                · simp only [Prod.mk.injEq] at h
                  exact noLeadingZero_err h.1

end Verif.Rlp

import Verif.Rlp.TypedEnc
import Verif.Rlp.Decode

/-!
# Typed values: decoding
-/

namespace Verif.Rlp
open Verif

/-! ### One value -/

/-- A single byte, a string or a list, with its header. -/
theorem rawOk_hdr {x : Bytes} (h : RawOk x) : ∃ k n b c, x = hdr k n b ++ c ∧ c.length = n ∧ (x.length < 2 ^ 64 → hdrOk k n b) := by
  rcases h with ⟨b, hb, rfl⟩ | ⟨c, rfl⟩ | ⟨c, rfl⟩
  · exact ⟨.byte, 0, b, [], rfl, rfl, fun _ => ⟨rfl, hb⟩⟩
  · refine ⟨.string, c.length, 0, c, rfl, rfl, fun h => ?_⟩
    rw [List.length_append] at h
    simp only [hdrOk]; omega
  · refine ⟨.list, c.length, 0, c, rfl, rfl, fun h => ?_⟩
    have := encList_length c
    simp only [hdrOk]; omega

theorem rawOk_pos {x : Bytes} (h : RawOk x) : 0 < x.length := by
  obtain ⟨k, n, b, c, rfl, _⟩ := rawOk_hdr h
  have := hdr_pos k n b
  rw [List.length_append]; omega

theorem rawOk_encStr (b : Bytes) : RawOk (encStr b) := by
  by_cases h : b.length = 1 ∧ b.getD 0 0 < 128
  · obtain ⟨y, rfl⟩ := List.length_eq_one_iff.mp h.1
    have hy : y < 0x80 := h.2
    exact Or.inl ⟨y, hy, by simp [encStr, hy]⟩
  · exact Or.inr (Or.inl ⟨b, encStr_string h⟩)

theorem rawOk_enc (i : Item) : RawOk (enc i) := by
  cases i with
  | str b => rw [enc]; exact rawOk_encStr b
  | list l => rw [enc]; exact Or.inr (Or.inr ⟨_, rfl⟩)

theorem first_byte {off n : Nat} (hn : n < 2 ^ 64) : ∃ m r, head off n = UInt8.ofNat (off + m) :: r ∧ (m = 0 ↔ n = 0) ∧ m ≤ 63 ∧ (n = 0 → r = []) := by
  unfold head
  split
  · exact ⟨n, [], rfl, Iff.rfl, by omega, fun _ => rfl⟩
  · next h =>
    have h1 := len_of_lt hn
    have h2 := natBytes_length_pos (n := n) (by omega)
    exact ⟨55 + (natBytes n).length, natBytes n, by rw [Nat.add_assoc], by omega, by omega, by omega⟩

theorem hdr_first {k : Kind} {n : Nat} {b : UInt8} (h : hdrOk k n b) :
    ∃ m r, hdr k n b = (match k with | .byte => b | .string => UInt8.ofNat (0x80 + m) | .list => UInt8.ofNat (0xC0 + m)) :: r ∧
      m ≤ 63 ∧ (k ≠ .byte → (m = 0 ↔ n = 0)) ∧ (n = 0 → r = []) := by
  cases k with
  | byte => exact ⟨0, [], rfl, by omega, by simp, fun _ => rfl⟩
  | string =>
    obtain ⟨m, r, e1, e2, e3, e4⟩ := first_byte (off := 0x80) h
    exact ⟨m, r, e1, e3, fun _ => e2, e4⟩
  | list =>
    obtain ⟨m, r, e1, e2, e3, e4⟩ := first_byte (off := 0xC0) h
    exact ⟨m, r, e1, e3, fun _ => e2, e4⟩

/-- What begins like an empty value is one. -/
theorem hdr_empty {k : Kind} {n : Nat} {b : UInt8} {c d : Bytes} (h : hdrOk k n b)
    (hx : hdr k n b ++ c = 0x80 :: d ∨ hdr k n b ++ c = 0xC0 :: d) : k ≠ .byte ∧ n = 0 := by
  obtain ⟨m, r, e1, e2, e3, e4⟩ := hdr_first h
  rw [e1] at hx
  simp only [List.cons_append, List.cons.injEq] at hx
  cases k with
  | byte =>
    simp only [hdrOk] at h
    have h2 := h.2
    rw [UInt8.lt_iff_toNat_lt] at h2
    rcases hx with ⟨hx, _⟩ | ⟨hx, _⟩ <;> (simp only at hx; rw [hx] at h2; simp at h2)
  | string =>
    refine ⟨by simp, (e3 (by simp)).mp ?_⟩
    rcases hx with ⟨hx, _⟩ | ⟨hx, _⟩ <;>
      (simp only at hx; have := congrArg UInt8.toNat hx; simp at this; omega)
  | list =>
    refine ⟨by simp, (e3 (by simp)).mp ?_⟩
    rcases hx with ⟨hx, _⟩ | ⟨hx, _⟩ <;>
      (simp only at hx; have := congrArg UInt8.toNat hx; simp at this; omega)

theorem raw_snd {s s' : Stream} {x : Bytes} (hw : s.wf) (ha : s.ahead = none) (h : s.raw = (.ok x, s')) :
    Cons s x s' ∧ RawOk x := by
  obtain ⟨h1, _⟩ := C69_raw hw ha h
  refine ⟨h1, ?_⟩
  unfold Stream.raw at h
  cases hk : s.kind with
  | mk o s1 =>
    rw [hk] at h
    cases o with
    | error e => simp at h
    | ok q =>
      obtain ⟨k, n⟩ := q
      have hA := kind_ok hw ha hk
      cases k with
      | byte =>
        simp only [Prod.mk.injEq, Except.ok.injEq] at h
        obtain ⟨rfl, rfl⟩ := h
        exact Or.inl ⟨_, hA.ok.2, rfl⟩
      | string =>
        have hok := hA.ok
        simp only [hdrOk] at hok
        simp only at h
        cases hr : s1.readFull n with
        | mk o t =>
          rw [hr] at h
          cases o with
          | error e => simp at h
          | ok c =>
            simp only [if_true, Prod.mk.injEq, Except.ok.injEq] at h
            obtain ⟨rfl, rfl⟩ := h
            obtain ⟨_, hl, _⟩ := readFull_ok (hA.wf hw) hr
            rw [puthead_str, u64of hok]
            exact Or.inr (Or.inl ⟨c, by rw [hl]⟩)
      | list =>
        have hok := hA.ok
        simp only [hdrOk] at hok
        simp only at h
        cases hr : s1.readFull n with
        | mk o t =>
          rw [hr] at h
          cases o with
          | error e => simp at h
          | ok c =>
            simp only [if_neg (show ¬ Kind.list = Kind.string from by simp), Prod.mk.injEq, Except.ok.injEq] at h
            obtain ⟨rfl, rfl⟩ := h
            obtain ⟨_, hl, _⟩ := readFull_ok (hA.wf hw) hr
            rw [puthead_list, u64of hok]
            exact Or.inr (Or.inr ⟨c, by rw [encList, hl]⟩)

theorem raw_err {s s' : Stream} {e : Err} (ha : s.ahead = none) (h : s.raw = (.error e, s')) : Errs s e s' := by
  unfold Stream.raw at h
  cases hk : s.kind with
  | mk o s1 =>
    rw [hk] at h
    cases o with
    | error e =>
      simp only [Prod.mk.injEq, Except.error.injEq] at h
      obtain ⟨rfl, rfl⟩ := h
      exact kind_err ha hk
    | ok q =>
      obtain ⟨k, n⟩ := q
      right
      cases k with
      | byte => simp at h
      | string =>
        simp only at h
        cases hr : s1.readFull n with
        | mk o t =>
          rw [hr] at h
          cases o with
          | error e =>
            simp only [Prod.mk.injEq, Except.error.injEq] at h
            rw [← h.1]; exact readFull_err hr
          | ok c => simp at h
      | list =>
        simp only at h
        cases hr : s1.readFull n with
        | mk o t =>
          rw [hr] at h
          cases o with
          | error e =>
            simp only [Prod.mk.injEq, Except.error.injEq] at h
            rw [← h.1]; exact readFull_err hr
          | ok c => simp at h

/-- The header of a value ahead. -/
theorem rawOk_kind {s : Stream} {x r : Bytes} (hw : s.wf) (ha : s.ahead = none) (hlen : s.r.length < 2 ^ 64) (hx : RawOk x)
    (hr : s.r = x ++ r) (hf : s.fits x.length) : ∃ k n b c s1, x = hdr k n b ++ c ∧ c.length = n ∧ hdrOk k n b ∧
      s.kind = (.ok (k, n), s1) ∧ Ahead s k n s1 ∧ s1.r = c ++ r ∧ (k = .byte → s1.byteval = b) := by
  obtain ⟨k, n, b, c, hxe, hc, hok⟩ := rawOk_hdr hx
  have hok := hok (by rw [hr, List.length_append] at hlen; omega)
  rw [hxe] at hf
  rw [List.length_append, hc] at hf
  obtain ⟨s1, e1, e2, e3, e4⟩ := kind_fits (r := c ++ r) hw ha hok (by rw [hr, hxe, List.append_assoc]) hf
  exact ⟨k, n, b, c, s1, hxe, hc, hok, e1, e2, e3, e4⟩

theorem raw_fits {s : Stream} {x r : Bytes} (hw : s.wf) (ha : s.ahead = none) (hlen : s.r.length < 2 ^ 64) (hx : RawOk x)
    (hr : s.r = x ++ r) (hf : s.fits x.length) : ∃ s', s.raw = (.ok x, s') ∧ s'.r = r := by
  obtain ⟨k, n, b, c, s1, rfl, hc, hok, e1, e2, e3, e4⟩ := rawOk_kind hw ha hlen hx hr hf
  rw [List.length_append] at hf
  unfold Stream.raw
  rw [e1]
  have hx : hdr k n s1.byteval = hdr k n b := by
    cases k with
    | byte => rw [e4 rfl]
    | string => rfl
    | list => rfl
  have hf2 : ({ s1 with ahead := none } : Stream).fits c.length := e2.cons.fits hw (by rw [hx]; exact hf)
  obtain ⟨s', g1, g2⟩ := readFull_fits (s := s1) e3 hf2
  rw [hc] at g1
  cases k with
  | byte =>
    have hn : n = 0 := hok.1
    rw [hn] at hc
    have := List.length_eq_zero_iff.mp hc
    subst this
    simp only
    exact ⟨_, by rw [e4 rfl]; rfl, by simpa using e3⟩
  | string =>
    simp only [hdrOk] at hok
    simp only [g1, if_true]
    rw [puthead_str, u64of hok]
    exact ⟨s', rfl, g2⟩
  | list =>
    simp only [hdrOk] at hok
    simp only [g1, if_neg (show ¬ Kind.list = Kind.string from by simp)]
    rw [puthead_list, u64of hok]
    exact ⟨s', rfl, g2⟩

/-! ### Decoders -/

variable {Γ : Nat → Flds}

/-- On streams with fewer than `N` unread bytes: what is accepted stands for the value; the end of the list is reported only
there, with the stream unchanged. -/
structure SoundR (R : Val → Bytes → Prop) (dec : Dec) (N : Nat) : Prop where
  ok : ∀ {s s' : Stream} {v : Val}, s.wf → s.ahead = none → s.r.length < N → dec s = (.ok v, s') → ∃ x, R v x ∧ Cons s x s'
  err : ∀ {s s' : Stream} {e : Err}, s.wf → s.ahead = none → s.r.length < N → dec s = (.error e, s') → Errs s e s'

/-- The value is read from these bytes. -/
def CompleteR (dec : Dec) (N : Nat) (v : Val) (x : Bytes) : Prop := ∀ {s : Stream} {r : Bytes}, s.wf → s.ahead = none →
  s.r.length < N → s.r = x ++ r → s.fits x.length → ∃ s', dec s = (.ok v, s') ∧ s'.r = r

/-- The end of the list is reported. -/
def AtEolR (dec : Dec) (N : Nat) : Prop := ∀ s : Stream, s.ahead = none → s.r.length < N → s.stack.head? = some 0 →
  dec s = (.error .eol, s)

/-- Looking at the header first changes nothing. -/
def Peeks (dec : Dec) (N : Nat) : Prop := ∀ {s s1 : Stream} {k : Kind} {n : Nat}, s.r.length < N →
  s.kind = (.ok (k, n), s1) → s1.kind = (.ok (k, n), s1) → dec s1 = dec s

theorem SoundR.mono {R : Val → Bytes → Prop} {dec : Dec} {N M : Nat} (h : SoundR R dec N) (hm : M ≤ N) : SoundR R dec M :=
  ⟨fun a b c d => h.ok a b (by omega) d, fun a b c d => h.err a b (by omega) d⟩

theorem SoundR.imp {R S : Val → Bytes → Prop} {dec : Dec} {N : Nat} (h : SoundR R dec N) (hi : ∀ v x, R v x → S v x) :
    SoundR S dec N :=
  ⟨fun a b c d => by obtain ⟨x, h1, h2⟩ := h.ok a b c d; exact ⟨x, hi _ _ h1, h2⟩, h.err⟩

/-- With soundness: exactly these bytes are consumed. -/
theorem CompleteR.cons {R : Val → Bytes → Prop} {dec : Dec} {N : Nat} {v : Val} {x r : Bytes} {s : Stream} (h : CompleteR dec N v x)
    (hs : SoundR R dec N) (hw : s.wf) (ha : s.ahead = none) (hlen : s.r.length < N) (hr : s.r = x ++ r) (hf : s.fits x.length) :
    ∃ s', dec s = (.ok v, s') ∧ s'.r = r ∧ Cons s x s' := by
  obtain ⟨s', e1, e2⟩ := h hw ha hlen hr hf
  obtain ⟨y, _, hc⟩ := hs.ok hw ha hlen e1
  have hxy : y = x := by
    have := hc.r
    rw [hr, e2] at this
    exact (List.append_cancel_right this).symm
  rw [hxy] at hc
  exact ⟨s', e1, e2, hc⟩

theorem lift_ok {α : Type} {f : α → Val} {dec : Stream → Except Err α × Stream} {s s' : Stream} {v : Val}
    (h : lift f dec s = (.ok v, s')) : ∃ a, dec s = (.ok a, s') ∧ v = f a := by
  unfold lift at h
  rcases hd : dec s with ⟨_ | a, t⟩
  · rw [hd] at h; simp at h
  · rw [hd] at h
    simp only [Prod.mk.injEq, Except.ok.injEq] at h
    obtain ⟨rfl, rfl⟩ := h
    exact ⟨a, rfl, rfl⟩

theorem lift_err {α : Type} {f : α → Val} {dec : Stream → Except Err α × Stream} {s s' : Stream} {e : Err}
    (h : lift f dec s = (.error e, s')) : dec s = (.error e, s') := by
  unfold lift at h
  rcases hd : dec s with ⟨e' | a, t⟩
  · rw [hd] at h
    simp only [Prod.mk.injEq, Except.error.injEq] at h
    obtain ⟨rfl, rfl⟩ := h
    rfl
  · rw [hd] at h; simp at h

theorem lift_of {α : Type} {f : α → Val} {dec : Stream → Except Err α × Stream} {s s' : Stream} {a : α}
    (h : dec s = (.ok a, s')) : lift f dec s = (.ok (f a), s') := by unfold lift; rw [h]

theorem lift_of_err {α : Type} {f : α → Val} {dec : Stream → Except Err α × Stream} {s s' : Stream} {e : Err}
    (h : dec s = (.error e, s')) : lift f dec s = (.error e, s') := by unfold lift; rw [h]

theorem sound_lift {α : Type} {R : Val → Bytes → Prop} {f : α → Val} {dec : Stream → Except Err α × Stream} {N : Nat}
    (h1 : ∀ {s s' : Stream} {a : α}, s.wf → s.ahead = none → s.r.length < N → dec s = (.ok a, s') → ∃ x, R (f a) x ∧ Cons s x s')
    (h2 : ∀ {s s' : Stream} {e : Err}, s.wf → s.ahead = none → s.r.length < N → dec s = (.error e, s') → Errs s e s') :
    SoundR R (lift f dec) N := by
  constructor
  · intro s s' v hw ha hlen h
    obtain ⟨a, e1, rfl⟩ := lift_ok h
    exact h1 hw ha hlen e1
  · intro s s' e hw ha hlen h
    exact h2 hw ha hlen (lift_err h)

theorem complete_lift {α : Type} {f : α → Val} {dec : Stream → Except Err α × Stream} {N : Nat} {a : α} {x : Bytes}
    (h : ∀ {s : Stream} {r : Bytes}, s.wf → s.ahead = none → s.r.length < N → s.r = x ++ r → s.fits x.length →
      ∃ s', dec s = (.ok a, s') ∧ s'.r = r) : CompleteR (lift f dec) N (f a) x := by
  intro s r hw ha hlen hr hf
  obtain ⟨s', e1, e2⟩ := h hw ha hlen hr hf
  exact ⟨s', lift_of e1, e2⟩

/-! ### Lists -/

theorem listEnd_ok {s s' : Stream} (h : s.listEnd = (.ok (), s')) : s.stack.head? = some 0 := by
  unfold Stream.listEnd at h
  cases hs : s.stack with
  | nil => rw [hs] at h; simp at h
  | cons l st =>
    rw [hs] at h
    simp only at h
    split at h
    · simp at h
    · next hl => simp; omega

theorem listEnd_of {s : Stream} (h : s.stack.head? = some 0) : ∃ s', s.listEnd = (.ok (), s') ∧ s'.r = s.r := by
  unfold Stream.listEnd
  cases hs : s.stack with
  | nil => rw [hs] at h; simp at h
  | cons l st =>
    rw [hs] at h
    simp only [List.head?_cons, Option.some.injEq] at h
    subst h
    exact ⟨_, rfl, rfl⟩

/-- A list whose inside is read by `elems`. -/
theorem inList_sound {P : List Val → Bytes → Prop} {elems : Stream → Except Err (List Val) × Stream} {N : Nat} (hN : N < 2 ^ 63)
    (h1 : ∀ {s s' : Stream} {l : List Val}, s.wf → s.ahead = none → s.r.length < N → elems s = (.ok l, s') →
      ∃ x, P l x ∧ Cons s x s')
    (h2 : ∀ {s s' : Stream} {e : Err}, s.wf → s.ahead = none → s.r.length < N → elems s = (.error e, s') → Hard e) :
    SoundR (fun v x => ∃ l y, v = .list l ∧ x = encList y ∧ P l y) (lift .list (inList elems)) (N + 1) := by
  apply sound_lift
  · intro s s' l hw ha hlen h
    unfold inList at h
    cases hl : s.list with
    | mk o t =>
      rw [hl] at h
      cases o with
      | error e => simp at h
      | ok n =>
        simp only at h
        obtain ⟨s1, hA, rfl, hn⟩ := list_ok hw ha hl
        have hw2 := push_wf (hA.wf hw) hn
        have hrl := hA.cons.r_length
        have hp := hdr_pos .list n s1.byteval
        simp only at hrl
        cases hs : elems { s1 with stack := n :: s1.stack.modifyHead (sub64 · n), ahead := none } with
        | mk o t2 =>
          rw [hs] at h
          cases o with
          | error e => simp at h
          | ok l2 =>
            simp only at h
            cases he : t2.listEnd with
            | mk o t3 =>
              rw [he] at h
              cases o with
              | error e => simp at h
              | ok u =>
                simp only [Prod.mk.injEq, Except.ok.injEq] at h
                obtain ⟨rfl, rfl⟩ := h
                obtain ⟨y, g1, g2⟩ := h1 hw2 rfl (by simp only; omega) hs
                exact ⟨encList y, ⟨_, y, rfl, rfl, g1⟩, list_done (by omega) hA g2 (listEnd_ok he) he⟩
  · intro s s' e hw ha hlen h
    unfold inList at h
    cases hl : s.list with
    | mk o t =>
      rw [hl] at h
      cases o with
      | error e =>
        simp only [Prod.mk.injEq, Except.error.injEq] at h
        obtain ⟨rfl, rfl⟩ := h
        exact list_err ha hl
      | ok n =>
        simp only at h
        right
        obtain ⟨s1, hA, rfl, hn⟩ := list_ok hw ha hl
        have hw2 := push_wf (hA.wf hw) hn
        have hrl := hA.cons.r_length
        have hp := hdr_pos .list n s1.byteval
        simp only at hrl
        cases hs : elems { s1 with stack := n :: s1.stack.modifyHead (sub64 · n), ahead := none } with
        | mk o t2 =>
          rw [hs] at h
          cases o with
          | error e =>
            simp only [Prod.mk.injEq, Except.error.injEq] at h
            rw [← h.1]
            exact h2 hw2 rfl (by simp only; omega) hs
          | ok l2 =>
            simp only at h
            cases he : t2.listEnd with
            | mk o t3 =>
              rw [he] at h
              cases o with
              | error e =>
                simp only [Prod.mk.injEq, Except.error.injEq] at h
                rw [← h.1]; exact listEnd_err he
              | ok u => simp at h

/-- The inside of a list, when the header has been read. -/
theorem list_fits {s : Stream} {y r : Bytes} {N : Nat} (hN : N < 2 ^ 63) (hw : s.wf) (ha : s.ahead = none) (hlen : s.r.length < N + 1)
    (hr : s.r = encList y ++ r) (hfit : s.fits (encList y).length) :
    ∃ s1, s.list = (.ok y.length, s1) ∧ s1.wf ∧ s1.ahead = none ∧ s1.r.length < N ∧ s1.r = y ++ r ∧ s1.fits y.length ∧
      s1.stack.head? = some y.length := by
  have hll : y.length < 2 ^ 63 := by
    have := encList_length y
    rw [hr, List.length_append] at hlen
    omega
  rw [encList] at hr hfit
  rw [List.length_append] at hfit
  obtain ⟨s1, e1, hA, e3, _⟩ := kind_fits (k := .list) (n := y.length) (x := 0) (r := y ++ r) hw ha
    (by simp only [hdrOk]; omega) (by rw [hr, List.append_assoc]; rfl) hfit
  have hw1 : s1.wf := hA.wf hw
  have hlist : s.list = (.ok y.length, { s1 with stack := y.length :: s1.stack.modifyHead (sub64 · y.length), ahead := none }) := by
    unfold Stream.list
    rw [e1]
    simp only
    rw [if_neg (by simp)]
    cases s1.stack <;> rfl
  have hrl := hA.cons.r_length
  have hp2 := hdr_pos .list y.length s1.byteval
  simp only at hrl
  exact ⟨_, hlist, push_wf (n := y.length) hw1 (by omega), rfl, by simp only; omega, e3, ⟨by simp, fun hl => hA.limit hl⟩, rfl⟩

theorem inList_fits {elems : Stream → Except Err (List Val) × Stream} {N : Nat} (hN : N < 2 ^ 63) {l : List Val} {y : Bytes}
    (h : ∀ {s : Stream} {r : Bytes}, s.wf → s.ahead = none → s.r.length < N → s.r = y ++ r → s.fits y.length →
      s.stack.head? = some y.length → ∃ s', elems s = (.ok l, s') ∧ s'.r = r ∧ s'.stack.head? = some 0) :
    CompleteR (lift .list (inList elems)) (N + 1) (.list l) (encList y) := by
  apply complete_lift
  intro s r hw ha hlen hr hf
  obtain ⟨s1, e1, e2, e3, e4, e5, e6, e7⟩ := list_fits hN hw ha hlen hr hf
  obtain ⟨s2, f1, f2, f3⟩ := h e2 e3 e4 e5 e6 e7
  obtain ⟨s3, g1, g2⟩ := listEnd_of f3
  unfold inList
  rw [e1]
  simp only
  rw [f1]
  simp only
  rw [g1]
  exact ⟨s3, rfl, by rw [g2, f2]⟩

/-- After a part of the innermost list: the limit. -/
theorem Cons.top {s s' : Stream} {x : Bytes} {n : Nat} (hc : Cons s x s') (hw : s.wf) (h : s.stack.head? = some (x.length + n)) :
    s'.stack.head? = some n := by
  rw [hc.stack]
  have hlt : ∀ a ∈ s.stack, a < 2 ^ 64 := hw
  cases hst : s.stack with
  | nil => rw [hst] at h; simp at h
  | cons a st =>
    rw [hst] at h hlt
    simp only [List.head?_cons, Option.some.injEq] at h
    rw [List.modifyHead_cons, List.head?_cons, sub64_le (by omega) (hlt a (by simp)), h]
    congr 1; omega

section
variable {t : Ty} {dec : Dec} {N : Nat}

theorem sliceElems_snd (hd : SoundR (Enc Γ {} t) dec N) (f : Nat) {s s' : Stream} {l : List Val} (hw : s.wf) (ha : s.ahead = none)
    (hlen : s.r.length < N) (h : sliceElems dec f s = (.ok l, s')) :
    ∃ x, EncL Γ t l x ∧ Cons s x s' ∧ s'.stack.head? = some 0 := by
  induction f generalizing s l with
  | zero => simp [sliceElems] at h
  | succ f ih =>
    rw [sliceElems] at h
    cases hr : dec s with
    | mk o t =>
      rw [hr] at h
      cases o with
      | error e =>
        by_cases he : e = .eol
        · subst he
          simp only [Prod.mk.injEq, Except.ok.injEq] at h
          obtain ⟨rfl, rfl⟩ := h
          rcases hd.err hw ha hlen hr with ⟨_, rfl, h0⟩ | hh
          · exact ⟨[], .nil, cons_nil _ _ hw rfl rfl ha rfl rfl, h0⟩
          · exact absurd rfl hh.1
        · cases e <;> simp at h he
      | ok v =>
        simp only at h
        obtain ⟨x, hx, hc⟩ := hd.ok hw ha hlen hr
        cases hs : sliceElems dec f t with
        | mk o t2 =>
          rw [hs] at h
          cases o with
          | error e => simp at h
          | ok l2 =>
            simp only [Prod.mk.injEq, Except.ok.injEq] at h
            obtain ⟨rfl, rfl⟩ := h
            obtain ⟨y, g0, g1, g2⟩ := ih (hc.wf hw) hc.ahead (by have := hc.r_length; omega) hs
            exact ⟨x ++ y, .cons hx g0, hc.trans g1, g2⟩

theorem sliceElems_errR (hd : SoundR (Enc Γ {} t) dec N) (hp : ∀ v x, Enc Γ {} t v x → 0 < x.length) (f : Nat) {s s' : Stream} {e : Err}
    (hw : s.wf) (ha : s.ahead = none) (hlen : s.r.length < N) (hf : s.r.length < f)
    (h : sliceElems dec f s = (.error e, s')) : Hard e := by
  induction f generalizing s s' e with
  | zero => omega
  | succ f ih =>
    rw [sliceElems] at h
    cases hr : dec s with
    | mk o t =>
      rw [hr] at h
      cases o with
      | error e' =>
        by_cases he : e' = .eol
        · subst he
          simp at h
        · have he' : e' = e := by cases e' <;> simp at he h <;> exact h.1
          rcases hd.err hw ha hlen hr with ⟨h1, _⟩ | hh
          · exact absurd h1 he
          · rw [← he']; exact hh
      | ok v =>
        simp only at h
        obtain ⟨x, hx, hc⟩ := hd.ok hw ha hlen hr
        have hl := hc.r_length
        have hp' := hp v x hx
        cases hs : sliceElems dec f t with
        | mk o t2 =>
          rw [hs] at h
          cases o with
          | error e' =>
            simp only [Prod.mk.injEq, Except.error.injEq] at h
            rw [← h.1]
            exact ih (hc.wf hw) hc.ahead (by omega) (by omega) hs
          | ok l2 => simp at h

theorem listSlice_snd (hd : SoundR (Enc Γ {} t) dec N) (hp : ∀ v x, Enc Γ {} t v x → 0 < x.length) (hN : N < 2 ^ 63) :
    SoundR (fun v x => ∃ l y, v = .list l ∧ x = encList y ∧ EncL Γ t l y) (lift .list (listSlice dec)) N := by
  apply sound_lift
  · intro s s' l hw ha hlen h
    unfold listSlice at h
    cases hl : s.list with
    | mk o u =>
      rw [hl] at h
      cases o with
      | error e => simp at h
      | ok n =>
        simp only at h
        obtain ⟨s1, hA, rfl, hn⟩ := list_ok hw ha hl
        have hw2 := push_wf (hA.wf hw) hn
        have hrl := hA.cons.r_length
        simp only at hrl
        split at h
        · next hn0 =>
          cases he : Stream.listEnd { s1 with stack := n :: s1.stack.modifyHead (sub64 · n), ahead := none } with
          | mk o t2 =>
            rw [he] at h
            cases o with
            | error e => simp at h
            | ok u =>
              simp only [Prod.mk.injEq, Except.ok.injEq] at h
              obtain ⟨rfl, rfl⟩ := h
              exact ⟨_, ⟨[], [], rfl, rfl, .nil⟩,
                list_done (by omega) hA (cons_nil _ _ hw2 rfl rfl rfl rfl rfl) (by simp [hn0]) he⟩
        · cases hs : sliceElems dec (s1.r.length + 1)
              { s1 with stack := n :: s1.stack.modifyHead (sub64 · n), ahead := none } with
          | mk o t2 =>
            rw [hs] at h
            cases o with
            | error e => simp at h
            | ok l2 =>
              simp only at h
              cases he : t2.listEnd with
              | mk o t3 =>
                rw [he] at h
                cases o with
                | error e => simp at h
                | ok u =>
                  simp only [Prod.mk.injEq, Except.ok.injEq] at h
                  obtain ⟨rfl, rfl⟩ := h
                  obtain ⟨y, g0, g1, g2⟩ := sliceElems_snd hd _ hw2 rfl (by simp only; omega) hs
                  exact ⟨_, ⟨_, y, rfl, rfl, g0⟩, list_done (by omega) hA g1 g2 he⟩
  · intro s s' e hw ha hlen h
    unfold listSlice at h
    cases hl : s.list with
    | mk o u =>
      rw [hl] at h
      cases o with
      | error e =>
        simp only [Prod.mk.injEq, Except.error.injEq] at h
        obtain ⟨rfl, rfl⟩ := h
        exact list_err ha hl
      | ok n =>
        simp only at h
        right
        obtain ⟨s1, hA, rfl, hn⟩ := list_ok hw ha hl
        have hw2 := push_wf (hA.wf hw) hn
        have hrl := hA.cons.r_length
        simp only at hrl
        split at h
        · cases he : Stream.listEnd { s1 with stack := n :: s1.stack.modifyHead (sub64 · n), ahead := none } with
          | mk o t2 =>
            rw [he] at h
            cases o with
            | error e =>
              simp only [Prod.mk.injEq, Except.error.injEq] at h
              rw [← h.1]; exact listEnd_err he
            | ok u => simp at h
        · cases hs : sliceElems dec (s1.r.length + 1)
              { s1 with stack := n :: s1.stack.modifyHead (sub64 · n), ahead := none } with
          | mk o t2 =>
            rw [hs] at h
            cases o with
            | error e =>
              simp only [Prod.mk.injEq, Except.error.injEq] at h
              rw [← h.1]
              exact sliceElems_errR hd hp _ hw2 rfl (by simp only; omega) (by simp only; omega) hs
            | ok l2 =>
              simp only at h
              cases he : t2.listEnd with
              | mk o t3 =>
                rw [he] at h
                cases o with
                | error e =>
                  simp only [Prod.mk.injEq, Except.error.injEq] at h
                  rw [← h.1]; exact listEnd_err he
                | ok u => simp at h

theorem arrElems_snd (hd : SoundR (Enc Γ {} t) dec N) (n : Nat) {s s' : Stream} {l : List Val} (hw : s.wf) (ha : s.ahead = none)
    (hlen : s.r.length < N) (h : arrElems dec n s = (.ok l, s')) :
    ∃ x, (EncL Γ t l x ∧ l.length = n) ∧ Cons s x s' := by
  induction n generalizing s l with
  | zero =>
    simp only [arrElems, Prod.mk.injEq, Except.ok.injEq] at h
    obtain ⟨rfl, rfl⟩ := h
    exact ⟨[], ⟨.nil, rfl⟩, cons_nil _ _ hw rfl rfl ha rfl rfl⟩
  | succ n ih =>
    rw [arrElems] at h
    cases hr : dec s with
    | mk o t =>
      rw [hr] at h
      cases o with
      | error e => cases e <;> simp at h
      | ok v =>
        simp only at h
        obtain ⟨x, hx, hc⟩ := hd.ok hw ha hlen hr
        cases hs : arrElems dec n t with
        | mk o t2 =>
          rw [hs] at h
          cases o with
          | error e => simp at h
          | ok l2 =>
            simp only [Prod.mk.injEq, Except.ok.injEq] at h
            obtain ⟨rfl, rfl⟩ := h
            obtain ⟨y, ⟨g0, g3⟩, g1⟩ := ih (hc.wf hw) hc.ahead (by have := hc.r_length; omega) hs
            exact ⟨x ++ y, ⟨.cons hx g0, by rw [List.length_cons, g3]⟩, hc.trans g1⟩

theorem arrElems_errR (hd : SoundR (Enc Γ {} t) dec N) (n : Nat) {s s' : Stream} {e : Err}
    (hw : s.wf) (ha : s.ahead = none) (hlen : s.r.length < N)
    (h : arrElems dec n s = (.error e, s')) : Hard e := by
  induction n generalizing s s' e with
  | zero => simp [arrElems] at h
  | succ n ih =>
    rw [arrElems] at h
    cases hr : dec s with
    | mk o t =>
      rw [hr] at h
      cases o with
      | error e' =>
        by_cases he : e' = .eol
        · subst he
          simp only [Prod.mk.injEq, Except.error.injEq] at h
          rw [← h.1]; exact ⟨by simp, by simp⟩
        · have he' : e' = e := by cases e' <;> simp at he h <;> exact h.1
          rcases hd.err hw ha hlen hr with ⟨h1, _⟩ | hh
          · exact absurd h1 he
          · rw [← he']; exact hh
      | ok v =>
        simp only at h
        obtain ⟨x, hx, hc⟩ := hd.ok hw ha hlen hr
        have hl := hc.r_length
        cases hs : arrElems dec n t with
        | mk o t2 =>
          rw [hs] at h
          cases o with
          | error e' =>
            simp only [Prod.mk.injEq, Except.error.injEq] at h
            rw [← h.1]
            exact ih (hc.wf hw) hc.ahead (by omega) hs
          | ok l2 => simp at h

/-- Elements from their encodings, up to the end of the list. -/
theorem sliceElems_fitsR (hd : SoundR (Enc Γ {} t) dec N) (heol : AtEolR dec N) {l : List Val} {x : Bytes} (hl : EncL Γ t l x)
    (hc : ∀ v ∈ l, ∀ y, Enc Γ {} t v y → CompleteR dec N v y) (f : Nat)
    (hf : l.length < f) {s : Stream} {r : Bytes} (hw : s.wf) (ha : s.ahead = none) (hlen : s.r.length < N)
    (hr : s.r = x ++ r) (hfit : s.fits x.length) (htop : s.stack.head? = some x.length) :
    ∃ s', sliceElems dec f s = (.ok l, s') ∧ s'.r = r ∧ s'.stack.head? = some 0 := by
  induction l generalizing s f x with
  | nil =>
    cases hl
    cases f with
    | zero => omega
    | succ f =>
      rw [sliceElems, heol s ha hlen htop]
      exact ⟨s, rfl, hr, htop⟩
  | cons v l ih =>
    cases hl with
    | cons h hl =>
      rename_i x y
      cases f with
      | zero => omega
      | succ f =>
        rw [List.length_append] at hfit htop
        obtain ⟨u, e1, e2, g1⟩ := CompleteR.cons (hc v (by simp) x h) hd hw ha hlen (r := y ++ r) (by rw [hr, List.append_assoc])
          (hfit.mono (by omega))
        obtain ⟨s', i1, i2, i3⟩ := ih hl (fun v hv => hc v (by simp [hv])) f (by rw [List.length_cons] at hf; omega) (g1.wf hw) g1.ahead
          (by have := g1.r_length; omega) e2 (g1.fits hw hfit) (g1.top hw htop)
        rw [sliceElems, e1]
        simp only
        rw [i1]
        exact ⟨s', rfl, i2, i3⟩

theorem arrElems_fitsR (hd : SoundR (Enc Γ {} t) dec N) {l : List Val} {x : Bytes} (hl : EncL Γ t l x)
    (hc : ∀ v ∈ l, ∀ y, Enc Γ {} t v y → CompleteR dec N v y)
    {s : Stream} {r : Bytes} (hw : s.wf) (ha : s.ahead = none) (hlen : s.r.length < N)
    (hr : s.r = x ++ r) (hfit : s.fits x.length) (htop : s.stack.head? = some x.length) :
    ∃ s', arrElems dec l.length s = (.ok l, s') ∧ s'.r = r ∧ s'.stack.head? = some 0 := by
  induction l generalizing s x with
  | nil =>
    cases hl
    exact ⟨s, rfl, hr, htop⟩
  | cons v l ih =>
    cases hl with
    | cons h hl =>
      rename_i x y
      rw [List.length_append] at hfit htop
      obtain ⟨u, e1, e2, g1⟩ := CompleteR.cons (hc v (by simp) x h) hd hw ha hlen (r := y ++ r) (by rw [hr, List.append_assoc])
        (hfit.mono (by omega))
      obtain ⟨s', i1, i2, i3⟩ := ih hl (fun v hv => hc v (by simp [hv])) (g1.wf hw) g1.ahead
        (by have := g1.r_length; omega) e2 (g1.fits hw hfit) (g1.top hw htop)
      rw [List.length_cons, arrElems, e1]
      simp only
      rw [i1]
      exact ⟨s', rfl, i2, i3⟩

theorem encL_length {l : List Val} {x : Bytes} (hp : ∀ v x, Enc Γ {} t v x → 0 < x.length) (hl : EncL Γ t l x) : l.length ≤ x.length := by
  induction l generalizing x with
  | nil => cases hl; simp
  | cons v l ih =>
    cases hl with
    | cons h hl =>
      have h1 := hp _ _ h
      have h2 := ih hl
      rw [List.length_append, List.length_cons]; omega

theorem listSlice_fitsR (hd : SoundR (Enc Γ {} t) dec N) (hp : ∀ v x, Enc Γ {} t v x → 0 < x.length) (hN : N < 2 ^ 63)
    (heol : AtEolR dec N) {l : List Val} {y : Bytes} (hl : EncL Γ t l y)
    (hc : ∀ v ∈ l, ∀ y, Enc Γ {} t v y → CompleteR dec N v y) : CompleteR (lift .list (listSlice dec)) N (.list l) (encList y) := by
  apply complete_lift
  intro s r hw ha hlen hr hf
  obtain ⟨s1, e1, e2, e3, e4, e5, e6, e7⟩ := list_fits hN hw ha (by omega) hr hf
  have hle := encL_length hp hl
  unfold listSlice
  rw [e1]
  simp only
  by_cases h0 : y.length = 0
  · have hl0 : l = [] := List.length_eq_zero_iff.mp (by omega)
    have hy0 : y = [] := List.length_eq_zero_iff.mp h0
    subst hl0
    rw [if_pos h0]
    rw [h0] at e7
    obtain ⟨s3, g1, g2⟩ := listEnd_of e7
    rw [g1]
    exact ⟨s3, rfl, by rw [g2, e5, hy0]; rfl⟩
  · rw [if_neg h0]
    have hrl : s1.r.length = y.length + r.length := by rw [e5, List.length_append]
    obtain ⟨s2, f1, f2, f3⟩ := sliceElems_fitsR hd heol hl hc (s1.r.length + 1) (by omega) e2 e3 (by omega) e5 e6 e7
    obtain ⟨s3, g1, g2⟩ := listEnd_of f3
    rw [f1]
    simp only
    rw [g1]
    exact ⟨s3, rfl, by rw [g2, f2]⟩

end

/-! ### Looking at the header -/

theorem list_peek {s s1 : Stream} {k : Kind} {n : Nat} (h : s.kind = (.ok (k, n), s1)) (h1 : s1.kind = (.ok (k, n), s1)) :
    s1.list = s.list := by
  unfold Stream.list; rw [h, h1]

theorem inList_peek {elems : Stream → Except Err (List Val) × Stream} {s s1 : Stream} {k : Kind} {n : Nat}
    (h : s.kind = (.ok (k, n), s1)) (h1 : s1.kind = (.ok (k, n), s1)) : inList elems s1 = inList elems s := by
  unfold inList; rw [list_peek h h1]

theorem listSlice_peek {dec : Dec} {s s1 : Stream} {k : Kind} {n : Nat}
    (h : s.kind = (.ok (k, n), s1)) (h1 : s1.kind = (.ok (k, n), s1)) : listSlice dec s1 = listSlice dec s := by
  unfold listSlice; rw [list_peek h h1]

theorem uint_peek (bits : Nat) {s s1 : Stream} {k : Kind} {n : Nat} (h : s.kind = (.ok (k, n), s1))
    (h1 : s1.kind = (.ok (k, n), s1)) : s1.uint bits = s.uint bits := by
  unfold Stream.uint; rw [h, h1]

theorem decodeIface_peek {F : Nat} {s s1 : Stream} {k : Kind} {n : Nat} (h : s.kind = (.ok (k, n), s1))
    (h1 : s1.kind = (.ok (k, n), s1)) : decodeIface (F + 1) s1 = decodeIface (F + 1) s := by
  rw [decodeIface, decodeIface, h, h1]

theorem lift_peek {α : Type} {f : α → Val} {dec : Stream → Except Err α × Stream} {s s1 : Stream} (h : dec s1 = dec s) :
    lift f dec s1 = lift f dec s := by unfold lift; rw [h]

section
variable {F N : Nat} {nm : Nat → Dec}

theorem decTy_peek (hF : N ≤ F) (hn : ∀ i, Peeks (nm i) N) : ∀ (t : Ty) (g : Tags), (g.tail && t.isSlice) = false → Peeks (decTy F nm g t) N
  | .bool, g, _, s, s1, k, n, _, h, h1 => lift_peek (by unfold Stream.bool; rw [uint_peek 8 h h1])
  | .uint bits, g, _, s, s1, k, n, _, h, h1 => lift_peek (uint_peek bits h h1)
  | .big, g, _, s, s1, k, n, _, h, h1 => lift_peek (by unfold Stream.bigInt; rw [h, h1])
  | .u256, g, _, s, s1, k, n, _, h, h1 => lift_peek (by unfold Stream.bigInt; rw [h, h1])
  | .str, g, _, s, s1, k, n, _, h, h1 => lift_peek (by unfold Stream.bytes; rw [h, h1])
  | .bytes, g, _, s, s1, k, n, _, h, h1 => lift_peek (by unfold Stream.bytes; rw [h, h1])
  | .byteArr m, g, _, s, s1, k, n, _, h, h1 => lift_peek (by unfold Stream.readBytes; rw [h, h1])
  | .raw, g, _, s, s1, k, n, _, h, h1 => lift_peek (by unfold Stream.raw; rw [h, h1])
  | .any, g, _, s, s1, k, n, hl, h, h1 => by
    rw [decTy]
    cases F with
    | zero => omega
    | succ F => exact lift_peek (decodeIface_peek h h1)
  | .ptr t, g, _, s, s1, k, n, hl, h, h1 => by
    rw [decTy]
    split
    · unfold nilPtr; rw [h, h1]
    · exact lift_peek (decTy_peek hF hn t {} rfl hl h h1)
  | .slice t, g, hg, s, s1, k, n, _, h, h1 => by
    have hg : g.tail = false := by simpa [Ty.isSlice] using hg
    rw [decTy, if_neg (by simp [hg])]
    exact lift_peek (listSlice_peek h h1)
  | .array m t, g, _, s, s1, k, n, _, h, h1 => by rw [decTy]; exact lift_peek (inList_peek h h1)
  | .struct fs, g, _, s, s1, k, n, _, h, h1 => by rw [decTy]; exact lift_peek (inList_peek h h1)
  | .ref i, g, _, s, s1, k, n, hl, h, h1 => by rw [decTy]; exact hn i hl h h1

/-! ### The end of the list -/

theorem list_eol {s : Stream} (ha : s.ahead = none) (h0 : s.stack.head? = some 0) : s.list = (.error .eol, s) := by
  unfold Stream.list; rw [kind_at_eol ha h0]

theorem inList_eol {elems : Stream → Except Err (List Val) × Stream} {s : Stream} (ha : s.ahead = none)
    (h0 : s.stack.head? = some 0) : inList elems s = (.error .eol, s) := by
  unfold inList; rw [list_eol ha h0]

theorem uint_eol (bits : Nat) {s : Stream} (ha : s.ahead = none) (h0 : s.stack.head? = some 0) :
    s.uint bits = (.error .eol, s) := by
  unfold Stream.uint; rw [kind_at_eol ha h0]

theorem decTy_atEol (hF : N ≤ F) (hn : ∀ i, AtEolR (nm i) N) : ∀ (t : Ty) (g : Tags), (g.tail && t.isSlice) = false → AtEolR (decTy F nm g t) N
  | .bool, g, _, s, ha, _, h0 => lift_of_err (by unfold Stream.bool; rw [uint_eol 8 ha h0])
  | .uint bits, g, _, s, ha, _, h0 => lift_of_err (uint_eol bits ha h0)
  | .big, g, _, s, ha, _, h0 => lift_of_err (by unfold Stream.bigInt; rw [kind_at_eol ha h0])
  | .u256, g, _, s, ha, _, h0 => lift_of_err (by unfold Stream.bigInt; rw [kind_at_eol ha h0])
  | .str, g, _, s, ha, _, h0 => lift_of_err (by unfold Stream.bytes; rw [kind_at_eol ha h0])
  | .bytes, g, _, s, ha, _, h0 => lift_of_err (by unfold Stream.bytes; rw [kind_at_eol ha h0])
  | .byteArr m, g, _, s, ha, _, h0 => lift_of_err (by unfold Stream.readBytes; rw [kind_at_eol ha h0])
  | .raw, g, _, s, ha, _, h0 => lift_of_err (by unfold Stream.raw; rw [kind_at_eol ha h0])
  | .any, g, _, s, ha, hl, h0 => by
    rw [decTy]
    cases F with
    | zero => omega
    | succ F => exact lift_of_err (decodeIface_atEol F s ha h0)
  | .ptr t, g, _, s, ha, hl, h0 => by
    rw [decTy]
    split
    · unfold nilPtr; rw [kind_at_eol ha h0]
    · exact lift_of_err (decTy_atEol hF hn t {} rfl s ha hl h0)
  | .slice t, g, hg, s, ha, _, h0 => by
    have hg : g.tail = false := by simpa [Ty.isSlice] using hg
    rw [decTy, if_neg (by simp [hg])]
    exact lift_of_err (by unfold listSlice; rw [list_eol ha h0])
  | .array m t, g, _, s, ha, _, h0 => by rw [decTy]; exact lift_of_err (inList_eol ha h0)
  | .struct fs, g, _, s, ha, _, h0 => by rw [decTy]; exact lift_of_err (inList_eol ha h0)
  | .ref i, g, _, s, ha, hl, h0 => by rw [decTy]; exact hn i s ha hl h0

end

/-! ### Every value has its header -/

theorem nilByte_rawOk (g : Tags) (t : Ty) : RawOk [nilByte g t] := by
  have h1 : RawOk [0x80] := Or.inr (Or.inl ⟨[], rfl⟩)
  have h2 : RawOk [0xC0] := Or.inr (Or.inr ⟨[], rfl⟩)
  unfold nilByte
  split
  · exact h1
  · split
    · exact h1
    · exact h2

theorem nilByte_hdr (g : Tags) {t : Ty} (hn : t.isNum = false) (b : UInt8) :
    hdr (typeNilKind t g).kind 0 b = [nilByte g t] := by
  unfold nilByte
  rw [if_neg (by simp [hn])]
  cases typeNilKind t g <;> rfl

theorem enc_rawOk : ∀ {t : Ty} {g : Tags} {v : Val} {x : Bytes}, (g.tail && t.isSlice) = false → Enc Γ g t v x → RawOk x
  | .ptr t, g, v, x, _, h => by
    cases h with
    | ptr _ h => exact enc_rawOk rfl h
    | ptrNil _ _ => exact nilByte_rawOk g t
    | ptrSome _ _ _ _ h => exact enc_rawOk rfl h
  | .bool, g, v, x, _, h => by cases h; exact rawOk_encStr _
  | .uint _, g, v, x, _, h => by cases h; exact rawOk_encStr _
  | .big, g, v, x, _, h => by cases h; exact rawOk_encStr _
  | .u256, g, v, x, _, h => by cases h; exact rawOk_encStr _
  | .str, g, v, x, _, h => by cases h; exact rawOk_encStr _
  | .bytes, g, v, x, _, h => by cases h; exact rawOk_encStr _
  | .byteArr _, g, v, x, _, h => by cases h; exact rawOk_encStr _
  | .raw, g, v, x, _, h => by cases h; assumption
  | .any, g, v, x, _, h => by cases h; exact rawOk_enc _
  | .slice t, g, v, x, hg, h => by
    have hg : g.tail = false := by simpa [Ty.isSlice] using hg
    cases h with
    | slice _ _ => exact Or.inr (Or.inr ⟨_, rfl⟩)
    | tail hg' _ => rw [hg] at hg'; simp at hg'
  | .array _ t, g, v, x, _, h => by cases h; exact Or.inr (Or.inr ⟨_, rfl⟩)
  | .struct _, g, v, x, _, h => by cases h; exact Or.inr (Or.inr ⟨_, rfl⟩)
  | .ref _, g, v, x, _, h => by cases h; exact Or.inr (Or.inr ⟨_, rfl⟩)

theorem encT_pos {t : Ty} (v : Val) (x : Bytes) (h : Enc Γ {} t v x) : 0 < x.length := rawOk_pos (enc_rawOk rfl h)

/-! ### Pointers that may be nil -/

theorem nilPtr_sound {t : Ty} {g : Tags} {dec : Dec} {N : Nat} (hn : t.isNum = false) (hg : g.nilOK = true)
    (hd : SoundR (Enc Γ {} t) dec N) (hp : Peeks dec N) : SoundR (Enc Γ g (.ptr t)) (nilPtr (typeNilKind t g) dec) N := by
  constructor
  · intro s s' v hw ha hlen h
    unfold nilPtr at h
    cases hk : s.kind with
    | mk o s1 =>
      rw [hk] at h
      cases o with
      | error e => simp at h
      | ok q =>
        obtain ⟨k, n⟩ := q
        have hA := kind_ok hw ha hk
        simp only at h
        split at h
        · next hkn =>
          split at h
          · simp at h
          · next hkk =>
            simp only [Prod.mk.injEq, Except.ok.injEq] at h
            obtain ⟨rfl, rfl⟩ := h
            refine ⟨_, .ptrNil hn hg, ?_⟩
            have hc := hA.cons
            have he : hdr k n s1.byteval = [nilByte g t] := by
              rw [hkn.2, Decidable.not_not.mp hkk]
              exact nilByte_hdr g hn _
            rw [he] at hc
            exact hc
        · next hkn =>
          rw [lift_peek (hp hlen hk hA.kind)] at h
          obtain ⟨a, e1, rfl⟩ := lift_ok h
          obtain ⟨x, g1, g2⟩ := hd.ok hw ha hlen e1
          have hr : hdr k n s1.byteval ++ s1.r = x ++ s'.r := by rw [← hA.cons.r, g2.r]
          refine ⟨x, .ptrSome hn hg ?_ ?_ g1, g2⟩
          · rintro rfl
            exact hkn (hdr_empty hA.ok (Or.inl hr))
          · rintro rfl
            exact hkn (hdr_empty hA.ok (Or.inr hr))
  · intro s s' e hw ha hlen h
    unfold nilPtr at h
    cases hk : s.kind with
    | mk o s1 =>
      rw [hk] at h
      cases o with
      | error e =>
        simp only [Prod.mk.injEq, Except.error.injEq] at h
        obtain ⟨rfl, rfl⟩ := h
        exact kind_err ha hk
      | ok q =>
        obtain ⟨k, n⟩ := q
        have hA := kind_ok hw ha hk
        simp only at h
        split at h
        · split at h
          · simp only [Prod.mk.injEq, Except.error.injEq] at h
            rw [← h.1]; exact Or.inr ⟨by simp, by simp⟩
          · simp at h
        · rw [lift_peek (hp hlen hk hA.kind)] at h
          exact hd.err hw ha hlen (lift_err h)

theorem nilPtr_nil {t : Ty} {g : Tags} {dec : Dec} {N : Nat} (hn : t.isNum = false) :
    CompleteR (nilPtr (typeNilKind t g) dec) N .nil [nilByte g t] := by
  intro s r hw ha hlen hr hf
  rw [← nilByte_hdr g hn 0] at hr hf
  have hb : (typeNilKind t g).kind ≠ .byte := by cases typeNilKind t g <;> simp [NilKind.kind]
  obtain ⟨s1, e1, e2, e3, _⟩ := kind_fits (n := 0) (r := r) hw ha (by cases typeNilKind t g <;> simp [NilKind.kind, hdrOk]) hr hf
  unfold nilPtr
  rw [e1]
  simp only
  rw [if_pos (And.intro hb trivial), if_neg (by simp)]
  exact ⟨_, rfl, e3⟩

theorem nilPtr_some {k : NilKind} {dec : Dec} {N : Nat} {v : Val} {x : Bytes} (hN : N ≤ 2 ^ 64) (hx : RawOk x) (h1 : x ≠ [0x80]) (h2 : x ≠ [0xC0])
    (hp : Peeks dec N) (hc : CompleteR dec N v x) : CompleteR (nilPtr k dec) N (.ptr v) x := by
  intro s r hw ha hlen hr hf
  obtain ⟨k, n, b, c, s1, e0, hc0, hok, e1, e2, e3, e4⟩ := rawOk_kind hw ha (by omega) hx hr hf
  unfold nilPtr
  rw [e1]
  simp only
  rw [if_neg, lift_peek (hp hlen e1 e2.kind)]
  · obtain ⟨s', f1, f2⟩ := hc hw ha hlen hr hf
    exact ⟨s', lift_of f1, f2⟩
  · rintro ⟨hk, rfl⟩
    have := List.length_eq_zero_iff.mp hc0
    subst this
    cases k with
    | byte => exact hk rfl
    | string => exact h1 e0
    | list => exact h2 e0

/-! ### The decoder of a type -/

/-- What is known about the decoders of the named types. -/
structure NamedOk (Γ : Nat → Flds) (nm : Nat → Dec) (N : Nat) : Prop where
  sound : ∀ i, SoundR (Enc Γ {} (.ref i)) (nm i) N
  eol : ∀ i, AtEolR (nm i) N
  peek : ∀ i, Peeks (nm i) N
  complete : ∀ i v x, Enc Γ {} (.ref i) v x → CompleteR (nm i) N v x

theorem ty_ok_mono : ∀ {t : Ty} {d : Bool}, t.ok d = true → t.ok true = true
  | .array n t, d, h => by
    simp only [Ty.ok, Bool.and_eq_true] at h ⊢
    exact ⟨h.1, ty_ok_mono h.2⟩
  | .bool, d, h => h
  | .uint _, d, h => h
  | .big, d, h => h
  | .u256, d, h => h
  | .str, d, h => h
  | .bytes, d, h => h
  | .byteArr _, d, h => h
  | .raw, d, h => h
  | .any, d, h => h
  | .ptr _, d, h => h
  | .slice _, d, h => h
  | .struct _, d, h => h
  | .ref _, d, h => rfl

theorem uint_ok {bits : Nat} (h : (Ty.uint bits).ok true = true) : 8 ≤ bits ∧ bits ≤ 64 ∧ 256 ^ (bits / 8) = 2 ^ bits := by
  simp only [Ty.ok, Bool.or_eq_true, beq_iff_eq] at h
  rcases h with ((h | h) | h) | h <;> subst h <;> decide

section
variable {F N : Nat} {nm : Nat → Dec}

mutual
theorem decTy_sound (hF : N ≤ F) (hF63 : F < 2 ^ 63) (hn : NamedOk Γ nm N) : ∀ (t : Ty) (g : Tags), t.ok true = true →
    SoundR (Enc Γ g t) (decTy F nm g t) N
  | .bool, g, _ => by
    rw [decTy]
    exact sound_lift (fun hw ha _ h => ⟨_, .bool g _, C69_bool hw ha h⟩) (fun _ ha _ h => bool_err ha h)
  | .uint bits, g, hok => by
    rw [decTy]
    obtain ⟨h1, h2, h3⟩ := uint_ok hok
    refine sound_lift (fun hw ha _ h => ?_) (fun _ ha _ h => uint_err ha h)
    obtain ⟨e1, e2⟩ := C69_uint hw ha h2 h1 h
    exact ⟨_, .uint g bits _ (by rw [← h3]; exact e2), e1⟩
  | .big, g, _ => by
    rw [decTy]
    exact sound_lift (fun hw ha _ h => ⟨_, .big g _, (C69_bigInt hw ha h).1⟩) (fun _ ha _ h => bigInt_err ha h)
  | .u256, g, _ => by
    rw [decTy]
    refine sound_lift (fun hw ha _ h => ?_) (fun _ ha _ h => bigInt_err ha h)
    obtain ⟨e1, e2⟩ := C69_bigInt hw ha h
    exact ⟨_, .u256 g _ (by have := e2 32 rfl (by omega); rwa [show (256 : Nat) ^ 32 = 2 ^ 256 from by decide] at this), e1⟩
  | .str, g, _ => by
    rw [decTy]
    exact sound_lift (fun hw ha _ h => ⟨_, .str g _, C69_bytes hw ha h⟩) (fun _ ha _ h => bytes_err ha h)
  | .bytes, g, _ => by
    rw [decTy]
    exact sound_lift (fun hw ha _ h => ⟨_, .bytes g _, C69_bytes hw ha h⟩) (fun _ ha _ h => bytes_err ha h)
  | .byteArr n, g, _ => by
    rw [decTy]
    exact sound_lift (fun hw ha _ h => ⟨_, .byteArr g n _ (C69_readBytes hw ha h).2, (C69_readBytes hw ha h).1⟩)
      (fun _ ha _ h => readBytes_err ha h)
  | .raw, g, _ => by
    rw [decTy]
    exact sound_lift (fun hw ha _ h => ⟨_, .raw g (raw_snd hw ha h).2, (raw_snd hw ha h).1⟩) (fun _ ha _ h => raw_err ha h)
  | .any, g, _ => by
    rw [decTy]
    have hi := decodeIface_sound F hF63
    exact sound_lift (fun hw ha hl h => ⟨_, .any g _, (hi.ok hw ha (by omega) h).1⟩) (fun hw ha hl h => hi.err hw ha (by omega) h)
  | .ptr t, g, hok => by
    have ht := decTy_sound hF hF63 hn t {} hok
    rw [decTy]
    split
    · next h => exact nilPtr_sound h.1 h.2 ht (decTy_peek hF hn.peek t {} rfl)
    · next h =>
      have hg : t.isNum = true ∨ g.nilOK = false := by
        cases h1 : t.isNum <;> cases h2 : g.nilOK <;> simp [h1, h2] at h ⊢
      refine sound_lift (fun hw ha hl h => ?_) (fun hw ha hl h => ht.err hw ha hl h)
      obtain ⟨x, e1, e2⟩ := ht.ok hw ha hl h
      exact ⟨x, .ptr hg e1, e2⟩
  | .slice t, g, hok => by
    simp only [Ty.ok, Bool.and_eq_true] at hok
    have ht := decTy_sound hF hF63 hn t {} hok.2
    rw [decTy]
    split
    · next hg =>
      refine sound_lift (fun hw ha hl h => ?_) (fun hw ha hl h => Or.inr (sliceElems_errR ht encT_pos _ hw ha hl (by omega) h))
      obtain ⟨x, e1, e2, _⟩ := sliceElems_snd ht _ hw ha hl h
      exact ⟨x, .tail hg e1, e2⟩
    · next hg =>
      refine (listSlice_snd ht encT_pos (by omega)).imp ?_
      rintro v x ⟨l, y, rfl, rfl, h⟩
      exact .slice (by simpa using hg) h
  | .array n t, g, hok => by
    simp only [Ty.ok, Bool.and_eq_true] at hok
    have ht := decTy_sound hF hF63 hn t {} hok.2
    rw [decTy]
    refine ((inList_sound (P := fun l x => EncL Γ t l x ∧ l.length = n) (by omega) (fun hw ha hl h => arrElems_snd ht n hw ha hl h)
      (fun hw ha hl h => arrElems_errR ht n hw ha hl h)).mono (Nat.le_succ N)).imp ?_
    rintro v x ⟨l, y, rfl, rfl, h⟩
    exact .array n h.2 h.1
  | .struct fs, g, hok => by
    simp only [Ty.ok] at hok
    have hfs := decFlds_sound hF hF63 hn fs hok
    rw [decTy]
    refine ((inList_sound (by omega) hfs.1 hfs.2).mono (Nat.le_succ N)).imp ?_
    rintro v x ⟨l, y, rfl, rfl, h⟩
    exact .struct h
  | .ref i, g, _ => by
    rw [decTy]
    refine (hn.sound i).imp ?_
    intro v x h
    cases h with
    | ref h => exact .ref h
theorem decFlds_sound (hF : N ≤ F) (hF63 : F < 2 ^ 63) (hn : NamedOk Γ nm N) : ∀ (fs : Flds), fs.ok = true →
    (∀ {s s' : Stream} {l : List Val}, s.wf → s.ahead = none → s.r.length < N → decFlds F nm fs s = (.ok l, s') →
      ∃ x, EncF Γ fs l x ∧ Cons s x s') ∧
    (∀ {s s' : Stream} {e : Err}, s.wf → s.ahead = none → s.r.length < N → decFlds F nm fs s = (.error e, s') → Hard e)
  | .nil, _ => by
    constructor
    · intro s s' l hw ha hl h
      simp only [decFlds, Prod.mk.injEq, Except.ok.injEq] at h
      obtain ⟨rfl, rfl⟩ := h
      exact ⟨[], .nil, cons_nil _ _ hw rfl rfl ha rfl rfl⟩
    · intro s s' e hw ha hl h
      simp [decFlds] at h
  | .cons g t fs, hok => by
    simp only [Flds.ok, Bool.and_eq_true] at hok
    have ht := decTy_sound hF hF63 hn t g (ty_ok_mono hok.1.1.1.1)
    have hfs := decFlds_sound hF hF63 hn fs hok.2
    constructor
    · intro s s' l hw ha hl h
      rw [decFlds] at h
      cases hr : decTy F nm g t s with
      | mk o u =>
        rw [hr] at h
        cases o with
        | error e =>
          by_cases he : e = .eol
          · subst he
            simp only at h
            split at h
            · next hg =>
              simp only [Prod.mk.injEq, Except.ok.injEq] at h
              obtain ⟨rfl, rfl⟩ := h
              rcases ht.err hw ha hl hr with ⟨_, rfl, h0⟩ | hh
              · exact ⟨[], .missing hg, cons_nil _ _ hw rfl rfl ha rfl rfl⟩
              · exact absurd rfl hh.1
            · simp at h
          · cases e <;> simp at h he
        | ok v =>
          simp only at h
          obtain ⟨x, hx, hc⟩ := ht.ok hw ha hl hr
          cases hs : decFlds F nm fs u with
          | mk o t2 =>
            rw [hs] at h
            cases o with
            | error e => simp at h
            | ok l2 =>
              simp only [Prod.mk.injEq, Except.ok.injEq] at h
              obtain ⟨rfl, rfl⟩ := h
              obtain ⟨y, g0, g1⟩ := hfs.1 (hc.wf hw) hc.ahead (by have := hc.r_length; omega) hs
              exact ⟨x ++ y, .cons hx g0, hc.trans g1⟩
    · intro s s' e hw ha hl h
      rw [decFlds] at h
      cases hr : decTy F nm g t s with
      | mk o u =>
        rw [hr] at h
        cases o with
        | error e' =>
          by_cases he : e' = .eol
          · subst he
            simp only at h
            split at h
            · simp at h
            · simp only [Prod.mk.injEq, Except.error.injEq] at h
              rw [← h.1]; exact ⟨by simp, by simp⟩
          · have he' : e' = e := by cases e' <;> simp at he h <;> exact h.1
            rcases ht.err hw ha hl hr with ⟨h1, _⟩ | hh
            · exact absurd h1 he
            · rw [← he']; exact hh
        | ok v =>
          simp only at h
          obtain ⟨x, hx, hc⟩ := ht.ok hw ha hl hr
          cases hs : decFlds F nm fs u with
          | mk o t2 =>
            rw [hs] at h
            cases o with
            | error e' =>
              simp only [Prod.mk.injEq, Except.error.injEq] at h
              rw [← h.1]
              exact hfs.2 (hc.wf hw) hc.ahead (by have := hc.r_length; omega) hs
            | ok l2 => simp at h
end

theorem encNat_len (n : Nat) : (natBytes n).length ≤ (encNat n).length := by
  have := encStr_length (natBytes n)
  unfold encNat
  omega

mutual
theorem decTy_complete (hF : N ≤ F) (hF63 : F < 2 ^ 63) (hn : NamedOk Γ nm N) : ∀ (t : Ty) (g : Tags) (v : Val) (x : Bytes),
    t.ok true = true → (g.tail && t.isSlice) = false → Enc Γ g t v x → CompleteR (decTy F nm g t) N v x
  | .bool, g, v, x, _, _, h => by
    cases h
    rw [decTy]
    exact complete_lift (fun hw ha _ hr hf => C68_bool hw ha hr hf)
  | .uint bits, g, v, x, hok, _, h => by
    obtain ⟨h1, h2, h3⟩ := uint_ok hok
    cases h with
    | uint _ _ n hv =>
      rw [decTy]
      exact complete_lift (f := fun n : Nat => Val.num n) (fun hw ha _ hr hf => C68_uint hw ha h2 (by rw [h3]; exact hv) hr hf)
  | .big, g, v, x, _, _, h => by
    cases h with
    | big _ n =>
      rw [decTy]
      refine complete_lift (f := fun n : Nat => Val.num n) (fun hw ha hl hr hf => C68_bigInt hw ha ?_ (by simp) hr hf)
      have := encNat_len n
      rw [hr, List.length_append] at hl
      omega
  | .u256, g, v, x, _, _, h => by
    cases h with
    | u256 _ n hv =>
      rw [decTy]
      refine complete_lift (f := fun n : Nat => Val.num n) (fun hw ha hl hr hf => C68_bigInt hw ha ?_ ?_ hr hf)
      · have := encNat_len n
        rw [hr, List.length_append] at hl
        omega
      · intro m hm
        simp only [Option.some.injEq] at hm
        subst hm
        rw [show (256 : Nat) ^ 32 = 2 ^ 256 from by decide]; exact hv
  | .str, g, v, x, _, _, h => by
    cases h with
    | str _ b =>
      rw [decTy]
      refine complete_lift (fun hw ha hl hr hf => C68_bytes hw ha ?_ hr hf)
      have := encStr_length b
      rw [hr, List.length_append] at hl
      omega
  | .bytes, g, v, x, _, _, h => by
    cases h with
    | bytes _ b =>
      rw [decTy]
      refine complete_lift (fun hw ha hl hr hf => C68_bytes hw ha ?_ hr hf)
      have := encStr_length b
      rw [hr, List.length_append] at hl
      omega
  | .byteArr n, g, v, x, _, _, h => by
    cases h with
    | byteArr _ _ b hb =>
      subst hb
      rw [decTy]
      refine complete_lift (fun hw ha hl hr hf => C68_readBytes hw ha ?_ hr hf)
      have := encStr_length b
      rw [hr, List.length_append] at hl
      omega
  | .raw, g, v, x, _, _, h => by
    cases h with
    | raw _ hx =>
      rw [decTy]
      exact complete_lift (fun hw ha hl hr hf => raw_fits hw ha (by omega) hx hr hf)
  | .any, g, v, x, _, _, h => by
    cases h with
    | any _ i =>
      rw [decTy]
      exact complete_lift (fun hw ha hl hr hf => decodeIface_complete F hF63 i hw ha (by omega) hr hf)
  | .ptr t, g, v, x, hok, _, h => by
    rw [decTy]
    cases h with
    | ptr hg h =>
      have ht : CompleteR _ _ _ _ := decTy_complete hF hF63 hn t {} _ x hok rfl h
      rw [if_neg (by rcases hg with h | h <;> simp [h])]
      exact complete_lift ht
    | ptrNil hn' hg =>
      rw [if_pos ⟨hn', hg⟩]
      exact nilPtr_nil hn'
    | ptrSome hn' hg h1 h2 h =>
      have ht : CompleteR _ _ _ _ := decTy_complete hF hF63 hn t {} _ x hok rfl h
      rw [if_pos ⟨hn', hg⟩]
      exact nilPtr_some (by omega) (enc_rawOk rfl h) h1 h2 (decTy_peek hF hn.peek t {} rfl) ht
  | .slice t, g, v, x, hok, hg, h => by
    simp only [Ty.ok, Bool.and_eq_true] at hok
    have ht := decTy_sound hF hF63 hn t {} hok.2
    have hg : g.tail = false := by simpa [Ty.isSlice] using hg
    rw [decTy, if_neg (by simp [hg])]
    cases h with
    | slice _ h =>
      exact listSlice_fitsR ht encT_pos (by omega) (decTy_atEol hF hn.eol t {} rfl) h
        (fun v _ y h => decTy_complete hF hF63 hn t {} v y hok.2 rfl h)
    | tail hg' _ => rw [hg] at hg'; simp at hg'
  | .array n t, g, v, x, hok, _, h => by
    simp only [Ty.ok, Bool.and_eq_true] at hok
    have ht := decTy_sound hF hF63 hn t {} hok.2
    cases h with
    | array _ hn' h =>
      subst hn'
      rw [decTy]
      intro hw ha hl hr hf
      exact inList_fits (N := N) (by omega) (fun hw ha hl hr hf ht0 => arrElems_fitsR ht h
        (fun v _ y h => decTy_complete hF hF63 hn t {} v y hok.2 rfl h) hw ha hl hr hf ht0) hw ha (by omega) hr hf
  | .struct fs, g, v, x, hok, _, h => by
    simp only [Ty.ok] at hok
    cases h with
    | struct h =>
      rw [decTy]
      intro hw ha hl hr hf
      exact inList_fits (N := N) (by omega) (fun hw ha hl hr hf ht0 => decFlds_complete hF hF63 hn fs _ _ hok h hw ha hl hr hf ht0)
        hw ha (by omega) hr hf
  | .ref i, g, v, x, hok, _, h => by
    rw [decTy]
    cases h with
    | ref h => exact hn.complete i _ _ (.ref h)
theorem decFlds_complete (hF : N ≤ F) (hF63 : F < 2 ^ 63) (hn : NamedOk Γ nm N) : ∀ (fs : Flds) (l : List Val) (x : Bytes),
    fs.ok = true → EncF Γ fs l x → ∀ {s : Stream} {r : Bytes}, s.wf → s.ahead = none → s.r.length < N → s.r = x ++ r → s.fits x.length →
      s.stack.head? = some x.length → ∃ s', decFlds F nm fs s = (.ok l, s') ∧ s'.r = r ∧ s'.stack.head? = some 0
  | .nil, l, x, _, h, s, r, hw, ha, hl, hr, hf, ht0 => by
    cases h
    exact ⟨s, by rw [decFlds], hr, ht0⟩
  | .cons g t fs, l, x, hok, h, s, r, hw, ha, hl, hr, hf, ht0 => by
    simp only [Flds.ok, Bool.and_eq_true] at hok
    obtain ⟨⟨⟨⟨hok1, hok2⟩, hok3⟩, hok4⟩, hok5⟩ := hok
    have hokt := ty_ok_mono hok1
    cases h with
    | missing hg =>
      have htail : (g.tail && t.isSlice) = false := by
        cases h : g.tail with
        | false => rfl
        | true => rw [h, hg] at hok3; simp at hok3
      rw [decFlds, decTy_atEol hF hn.eol t g htail s ha hl ht0]
      simp only [hg, if_true]
      exact ⟨s, rfl, hr, ht0⟩
    | cons h hl' =>
      rename_i v l x y
      by_cases htail : (g.tail && t.isSlice) = true
      · rw [Bool.and_eq_true] at htail
        obtain ⟨htail, hsl⟩ := htail
        rw [htail] at hok3
        simp only [Bool.not_true, Bool.false_or, Bool.and_eq_true, beq_iff_eq] at hok3
        have hfs : fs = .nil := by cases fs with
          | nil => rfl
          | cons _ _ _ => simp [Flds.len] at hok3
        subst hfs
        cases hl'
        rw [List.append_nil] at hr hf ht0
        cases t with
        | slice t =>
          simp only [Ty.ok, Bool.and_eq_true] at hokt
          cases h with
          | slice hg' _ => rw [htail] at hg'; simp at hg'
          | tail _ h =>
            have hts := decTy_sound hF hF63 hn t {} hokt.2
            have hle := encL_length encT_pos h
            have hrl : s.r.length = x.length + r.length := by rw [hr, List.length_append]
            obtain ⟨s', e1, e2, e3⟩ := sliceElems_fitsR hts (decTy_atEol hF hn.eol t {} rfl) h
              (fun v _ y h => decTy_complete hF hF63 hn t {} v y hokt.2 rfl h) (s.r.length + 1) (by omega) hw ha hl hr hf ht0
            rw [decFlds, decTy, if_pos htail]
            have := lift_of (f := Val.list) (dec := fun s => sliceElems (decTy F nm {} t) (s.r.length + 1) s) e1
            rw [this]
            exact ⟨s', rfl, e2, e3⟩
        | _ => simp [Ty.isSlice] at hsl
      · have htail : (g.tail && t.isSlice) = false := by simpa using htail
        rw [List.length_append] at hf ht0
        obtain ⟨u, e1, e2, g1⟩ := CompleteR.cons (decTy_complete hF hF63 hn t g v x hokt htail h) (decTy_sound hF hF63 hn t g hokt)
          hw ha hl (r := y ++ r) (by rw [hr, List.append_assoc]) (hf.mono (by omega))
        obtain ⟨s', i1, i2, i3⟩ := decFlds_complete hF hF63 hn fs l y hok5 hl' (g1.wf hw) g1.ahead
          (by have := g1.r_length; omega) e2 (g1.fits hw hf) (g1.top hw ht0)
        rw [decFlds, e1]
        simp only
        rw [i1]
        exact ⟨s', rfl, i2, i3⟩
end

end

/-- The decoders of the named types. -/
theorem named_ok {F : Nat} (hΓ : ∀ i, (Γ i).ok = true) (hF63 : F < 2 ^ 63) : ∀ f, f ≤ F → NamedOk Γ (named Γ F f) f
  | 0, _ => ⟨fun i => ⟨fun _ _ h => by omega, fun _ _ h => by omega⟩, fun i _ _ h => by omega, fun i _ _ _ _ h => by omega,
      fun i v x _ _ _ _ _ h => by omega⟩
  | f + 1, hf => by
    have ih := named_ok hΓ hF63 f (by omega)
    refine ⟨fun i => ?_, fun i s ha hl h0 => ?_, fun i s s1 k n hl h h1 => ?_, fun i v x h => ?_⟩
    · have hfs := decFlds_sound (by omega) hF63 ih (Γ i) (hΓ i)
      rw [named, decTy]
      refine (inList_sound (by omega) hfs.1 hfs.2).imp ?_
      rintro v x ⟨l, y, rfl, rfl, h⟩
      exact .ref h
    · rw [named, decTy]; exact lift_of_err (inList_eol ha h0)
    · rw [named, decTy]; exact lift_peek (inList_peek h h1)
    · cases h with
      | ref h =>
        rw [named, decTy]
        exact inList_fits (by omega) (fun hw ha hl hr hf ht0 => decFlds_complete (by omega) hF63 ih (Γ i) _ _ (hΓ i) h hw ha hl hr hf ht0)

end Verif.Rlp

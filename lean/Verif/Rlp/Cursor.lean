import Verif.Rlp.Decode

/-!
# Property C142: an RLP stream is a cursor over nested values (/repo/rlp/decode.go:586-1036)

`Stream` hands out the parts of its input one call at a time.  On the encoding of a sequence of values every call answers what a
cursor in the nested lists answers.
-/

namespace Verif.Rlp
open Verif

/-! ### The calls -/

/-- The integer sizes of `Uint8`, `Uint16`, `Uint32` and `Uint64`. -/
inductive Width where
  | w8 | w16 | w32 | w64
  deriving DecidableEq

/-- The number of bits. -/
def Width.bits : Width → Nat
  | .w8 => 8
  | .w16 => 16
  | .w32 => 32
  | .w64 => 64

/-- `Uint8`, `Uint16`, `Uint32`, `Uint64` (`/repo/rlp/decode.go:719-740`): the conversion cuts off the upper bits. -/
def Stream.uintW (s : Stream) (w : Width) : Except Err Nat × Stream :=
  match s.uint w.bits with
  | (.ok v, s) => (.ok (v % 2 ^ w.bits), s)
  | (.error e, s) => (.error e, s)

/-- `MoreDataInList` (`/repo/rlp/decode.go:834-837`). -/
def Stream.more (s : Stream) : Bool := decide (0 < s.stack.head?.getD 0)

/-- `Stream.Decode` into an empty interface, with fuel enough also when the header has been read. -/
def Stream.decodeAny (s : Stream) : Except Err Item × Stream := decodeIface (s.r.length + 12) s

/-- `NewListStream` over a `bytes.Reader` (`/repo/rlp/decode.go:622-628`): the stream pretends that the header of a list of `len`
bytes has been read. -/
def newListStream (b : Bytes) (len : Nat) : Stream :=
  { r := b, remaining := if 0 < len then len else b.length, limited := true, stack := [], ahead := some (.list, len, none), byteval := 0 }

/-- A call. -/
inductive SCall where
  | kind | bytes | readBytes (len : Nat) | raw | uint (w : Width) | bool | bigInt | uint256 | list | listEnd | more | decode
  deriving DecidableEq

/-- An answer. -/
inductive SAns where
  | kind (k : Kind) (n : Nat) | bytes (b : Bytes) | num (n : Nat) | flag (b : Bool) | size (n : Nat) | done | item (v : Item) | fail (e : Err)

/-- What a call returned. -/
def ansOf {α : Type} (f : α → SAns) (x : Except Err α × Stream) : SAns × Stream :=
  (match x.1 with
    | .ok a => f a
    | .error e => .fail e, x.2)

/-- One call on a stream. -/
def Stream.call (s : Stream) : SCall → SAns × Stream
  | .kind => ansOf (fun p => .kind p.1 p.2) s.kind
  | .bytes => ansOf .bytes s.bytes
  | .readBytes n => ansOf .bytes (s.readBytes n)
  | .raw => ansOf .bytes s.raw
  | .uint w => ansOf .num (s.uintW w)
  | .bool => ansOf .flag s.bool
  | .bigInt => ansOf .num (s.bigInt none)
  | .uint256 => ansOf .num (s.bigInt (some 32))
  | .list => ansOf .size s.list
  | .listEnd => ansOf (fun _ => .done) s.listEnd
  | .more => (.flag s.more, s)
  | .decode => ansOf .item s.decodeAny

/-- Calls one after the other. -/
def Stream.calls : Stream → List SCall → List SAns
  | _, [] => []
  | s, c :: cs => (s.call c).1 :: (s.call c).2.calls cs

/-! ### The cursor -/

/-- What is left in the list the cursor is in and in the lists around it, the last being the values outside of all lists; whether the
next value has been looked at. -/
structure Cursor where
  cur : List Item
  outer : List (List Item)
  seen : Bool

/-- Kind and size of a value. -/
def Item.kindOf : Item → Kind × Nat
  | .str [x] => if x < 0x80 then (.byte, 0) else (.string, 1)
  | .str b => (.string, b.length)
  | .list l => (.list, (encs l).length)

/-- The value is all header: a byte below 0x80, or empty. -/
def Item.tiny : Item → Bool
  | .str [x] => decide (x < 0x80)
  | .str b => decide (b = [])
  | .list l => decide ((encs l).length = 0)

/-- A number in a byte string: not with leading zeros. -/
def numOf (b : Bytes) : Except Err Nat := if b.head? = some 0 then .error .canonInt else .ok (beNat b)

/-- Past the next value. -/
def Cursor.next (c : Cursor) : Cursor := ⟨c.cur.tail, c.outer, false⟩

/-- Still before the next value, which has been looked at. -/
def Cursor.look (c : Cursor) : Cursor := { c with seen := true }

/-- A result, as an answer. -/
def answer {α : Type} (f : α → SAns) : Except Err α → SAns
  | .ok a => f a
  | .error e => .fail e

/-- A number of at most that many bytes; zero as a byte and too many bytes leave the cursor where it is. -/
def Cursor.num (c : Cursor) (max : Nat) (b : Bytes) : Except Err Nat × Cursor :=
  if b = [0] then (.error .canonInt, c.look)
  else if b.length > max then (.error .uintOverflow, c.look)
  else (numOf b, c.next)

/-- The answer about the next value. -/
def Cursor.ask (c : Cursor) (v : Item) : SCall → SAns × Cursor
  | .kind => (.kind v.kindOf.1 v.kindOf.2, c.look)
  | .raw => (.bytes (enc v), c.next)
  | .decode => (.item v, c.next)
  | .list =>
    match v with
    | .list l => (.size (encs l).length, ⟨l, c.cur.tail :: c.outer, false⟩)
    | .str _ => (.fail .expectedList, c.look)
  | call =>
    match v with
    | .list _ => (.fail .expectedString, c.look)
    | .str b =>
      match call with
      | .bytes => (.bytes b, c.next)
      | .readBytes n => if b.length = n then (.bytes b, c.next) else (.fail .wrongSize, c.look)
      | .uint w => (answer .num (c.num (w.bits / 8) b).1, (c.num (w.bits / 8) b).2)
      | .bool =>
        match c.num 1 b with
        | (.ok 0, c) => (.flag false, c)
        | (.ok 1, c) => (.flag true, c)
        | (.ok _, c) => (.fail .badBool, c)
        | (.error e, c) => (.fail e, c)
      | .bigInt => (answer .num (numOf b), c.next)
      | .uint256 => if b.length > 32 then (.fail .uint256Large, c.look) else (answer .num (numOf b), c.next)
      | _ => (.done, c)

/-- Nothing is left in the list but possibly one value without content that has been looked at. -/
def Cursor.empty (c : Cursor) : Bool :=
  match c.cur with
  | [] => true
  | [v] => c.seen && v.tiny
  | _ => false

/-- One call on a cursor. -/
def Cursor.step (c : Cursor) (call : SCall) : SAns × Cursor :=
  match call with
  | .listEnd =>
    match c.outer with
    | [] => (.fail .notInList, c)
    | l :: o => if c.empty then (.done, ⟨l, o, false⟩) else (.fail .notAtEOL, c)
  | .more => (.flag (!c.outer.isEmpty && !c.empty), c)
  | call =>
    match c.cur with
    | [] => (.fail (if c.outer = [] then .eof else .eol), c)
    | v :: _ => c.ask v call

/-- Calls one after the other. -/
def Cursor.steps : Cursor → List SCall → List SAns
  | _, [] => []
  | c, x :: xs => (c.step x).1 :: (c.step x).2.steps xs

/-! ### What a stream stands for -/

/-- What follows the list. -/
def afterwards : List (List Item) → Bytes
  | [] => []
  | l :: o => encs l ++ afterwards o

/-- The room left in the lists. -/
def rooms : List Item → List (List Item) → List Nat
  | _, [] => []
  | l, l' :: o => (encs l).length :: rooms l' o

/-- The stream is before the values `cur`, with `outer` around. -/
structure At (s : Stream) (cur : List Item) (outer : List (List Item)) : Prop where
  r : s.r = encs cur ++ afterwards outer
  stack : s.stack = rooms cur outer
  limit : s.limited = true → s.remaining = s.r.length
  small : s.r.length < 2 ^ 62
  ahead : s.ahead = none ∨ cur = [] ∧ outer = [] ∧ s.ahead = some (.byte, 0, some .eof)

/-- The stream stands for the cursor. -/
def Stands (s : Stream) (c : Cursor) : Prop :=
  At s c.cur c.outer ∧ (c.cur = [] ∨ c.seen = false) ∨
    ∃ v l s0, c.cur = v :: l ∧ c.seen = true ∧ At s0 c.cur c.outer ∧ s0.kind = (.ok v.kindOf, s)

theorem At.fresh {s : Stream} {v : Item} {l : List Item} {o : List (List Item)} (h : At s (v :: l) o) : s.ahead = none := by
  rcases h.ahead with h | ⟨h, -⟩
  · exact h
  · cases h

theorem encs_cons_length (v : Item) (l : List Item) : (encs (v :: l)).length = (enc v).length + (encs l).length := by
  rw [encs, List.length_append]

theorem rooms_le (l : List Item) (o : List (List Item)) : ∀ n ∈ rooms l o, n ≤ (encs l ++ afterwards o).length := by
  induction o generalizing l with
  | nil => intro n hn; cases hn
  | cons l' o ih =>
    intro n hn
    rw [rooms, List.mem_cons] at hn
    rw [List.length_append, afterwards]
    rcases hn with rfl | hn
    · omega
    · exact le_trans (ih l' n hn) (by omega)

theorem At.wf {s : Stream} {l : List Item} {o : List (List Item)} (h : At s l o) : s.wf := by
  intro n hn
  rw [h.stack] at hn
  have := rooms_le l o n hn
  rw [← h.r] at this
  have := h.small
  omega

theorem At.fits {s : Stream} {v : Item} {l : List Item} {o : List (List Item)} (h : At s (v :: l) o) : s.fits (enc v).length := by
  constructor
  · intro n hn
    rw [h.stack] at hn
    cases o with
    | nil => cases hn
    | cons l' o =>
      simp only [rooms, List.head?_cons, Option.some.injEq] at hn
      rw [← hn, encs_cons_length]
      omega
  · intro hl
    rw [h.limit hl, h.r, List.length_append, encs_cons_length]
    omega

theorem At.next {s s' : Stream} {v : Item} {l : List Item} {o : List (List Item)} (h : At s (v :: l) o) (hc : Cons s (enc v) s') :
    At s' l o := by
  have hr : s'.r = encs l ++ afterwards o := by
    have := hc.r
    rw [h.r, encs, List.append_assoc] at this
    exact (List.append_cancel_left this).symm
  have hlen := hc.r_length
  have hsm := h.small
  refine ⟨hr, ?_, ?_, by omega, Or.inl hc.ahead⟩
  · rw [hc.stack, h.stack]
    cases o with
    | nil => rfl
    | cons l' o =>
      simp only [rooms, List.modifyHead_cons, List.cons.injEq, and_true]
      have hb := rooms_le (v :: l) (l' :: o) (encs (v :: l)).length (by simp [rooms])
      rw [← h.r] at hb
      rw [encs_cons_length] at hb ⊢
      rw [sub64_le (by omega) (by omega)]
      omega
  · intro hl
    rw [hc.limited] at hl
    have := hc.remaining
    rw [if_pos hl, h.limit hl] at this
    omega

theorem At.content {s : Stream} {v : Item} {l : List Item} {o : List (List Item)} (h : At s (v :: l) o) : (enc v).length < 2 ^ 62 := by
  have := h.small
  rw [h.r, List.length_append, encs_cons_length] at this
  omega

theorem encStr_length_le (b : Bytes) : b.length ≤ (encStr b).length := by
  by_cases h : b.length = 1 ∧ b.getD 0 0 < 128
  · have := encStr_ne_nil b
    have := List.length_pos_iff.2 this
    omega
  · rw [encStr_string h, List.length_append]
    omega

/-- Before a byte string. -/
theorem At.str {s : Stream} {b : Bytes} {l : List Item} {o : List (List Item)} (h : At s (.str b :: l) o) :
    (∃ x s1, b = [x] ∧ x < 0x80 ∧ s.kind = (.ok (.byte, 0), s1) ∧ s1.byteval = x ∧ Cons s (enc (.str b)) { s1 with ahead := none }) ∨
    (¬ (b.length = 1 ∧ b.getD 0 0 < 128) ∧ ∃ s1 s', s.kind = (.ok (.string, b.length), s1) ∧ Ahead s .string b.length s1 ∧
      s1.readFull b.length = (.ok b, s') ∧ Cons s (enc (.str b)) s') := by
  have hb := encStr_length_le b
  have hc := h.content
  rw [enc] at hc
  have hr := h.r
  rw [encs, enc, List.append_assoc] at hr
  have hf := h.fits
  rw [enc] at hf ⊢
  rcases string_fits h.wf h.fresh (by omega) hr hf with ⟨x, s1, rfl, hx, e1, e2, e3, e4⟩ | ⟨h1, s1, s', e1, e2, e3, e4⟩
  · refine Or.inl ⟨x, s1, rfl, hx, e1, e3, ?_⟩
    have := e2.byte.1
    rw [e3] at this
    subst e3
    exact this
  · refine Or.inr ⟨h1, s1, s', e1, e2, e3, ?_⟩
    rw [encStr_string h1]
    exact (e2.string h.wf e3).1

theorem encList_ge (c : Bytes) : (encList c).length = (head 0xC0 c.length).length + c.length := by
  rw [encList, List.length_append]

/-- Before a list. -/
theorem At.lst {s : Stream} {vs : List Item} {l : List Item} {o : List (List Item)} (h : At s (.list vs :: l) o) :
    ∃ s1 s', s.kind = (.ok (.list, (encs vs).length), s1) ∧ Ahead s .list (encs vs).length s1 ∧
      s1.r = encs vs ++ (encs l ++ afterwards o) ∧
      s1.readFull (encs vs).length = (.ok (encs vs), s') ∧ Cons s (enc (.list vs)) s' := by
  have hc := h.content
  rw [enc, encList_ge] at hc
  have hr := h.r
  rw [encs, enc, encList] at hr
  have hf := h.fits
  rw [enc, encList_ge] at hf
  have hk : hdrOk .list (encs vs).length 0 := by show (encs vs).length < 2 ^ 64; omega
  obtain ⟨s1, e1, e2, e3, -⟩ := kind_fits (k := .list) (n := (encs vs).length) (x := 0) (r := encs vs ++ (encs l ++ afterwards o)) h.wf h.fresh
    hk (by rw [hr]; simp [hdr]) hf
  have hf2 : ({ s1 with ahead := none } : Stream).fits (encs vs).length := e2.cons.fits h.wf hf
  obtain ⟨s', g1, g2⟩ := readFull_fits (s := s1) e3 hf2
  refine ⟨s1, s', e1, e2, e3, g1, ?_⟩
  have := e2.cons.trans ((readFull_ok (e2.wf h.wf) g1).1.to_ahead)
  rw [enc, encList]
  exact this

theorem At.kind {s : Stream} {v : Item} {l : List Item} {o : List (List Item)} (h : At s (v :: l) o) : ∃ s1, s.kind = (.ok v.kindOf, s1) := by
  cases v with
  | str b =>
    rcases h.str with ⟨x, s1, rfl, hx, e1, -⟩ | ⟨h1, s1, s', e1, -⟩
    · exact ⟨s1, by rw [e1, Item.kindOf, if_pos hx]⟩
    · refine ⟨s1, ?_⟩
      rw [e1]
      unfold Item.kindOf
      split
      · next x heq =>
        cases heq
        rw [if_neg (fun hx : x < 0x80 => h1 ⟨rfl, hx⟩)]
        rfl
      · next heq => cases heq; rfl
      · next heq => cases heq
  | list vs =>
    obtain ⟨s1, s', e1, -⟩ := h.lst
    exact ⟨s1, by rw [e1, Item.kindOf]⟩

/-- After `Kind`, a call that looks at the next value does what it would have done before. -/
theorem kind_first {s s1 : Stream} {k : Kind × Nat} (h : s.kind = (.ok k, s1)) (ha : s1.kind = (.ok k, s1)) :
    s1.kind = s.kind ∧ s1.bytes = s.bytes ∧ (∀ n, s1.readBytes n = s.readBytes n) ∧ s1.raw = s.raw ∧ (∀ w, s1.uintW w = s.uintW w) ∧
      s1.bool = s.bool ∧ (∀ m, s1.bigInt m = s.bigInt m) ∧ s1.list = s.list ∧ (∀ f, decodeIface (f + 1) s1 = decodeIface (f + 1) s) := by
  refine ⟨by rw [h, ha], by unfold Stream.bytes; rw [h, ha], fun n => by unfold Stream.readBytes; rw [h, ha],
    by unfold Stream.raw; rw [h, ha], fun w => by unfold Stream.uintW Stream.uint; rw [h, ha],
    by unfold Stream.bool Stream.uint; rw [h, ha], fun m => by unfold Stream.bigInt; rw [h, ha],
    by unfold Stream.list; rw [h, ha], fun f => by rw [decodeIface, decodeIface, h, ha]⟩

theorem natBytes_len8 {n : Nat} (h : n < 2 ^ 64) : (natBytes n).length ≤ 8 := BigMath.natBytes_len_le n 8 (by simpa using h)

theorem At.header {s s1 : Stream} {v : Item} {l : List Item} {o : List (List Item)} (h : At s (v :: l) o) (hk : s.kind = (.ok v.kindOf, s1)) :
    s.r.length ≤ s1.r.length + 9 ∧ s1.kind = (.ok v.kindOf, s1) := by
  have hA := kind_ok h.wf h.fresh (k := v.kindOf.1) (n := v.kindOf.2) hk
  refine ⟨?_, hA.kind⟩
  have := hA.cons.r_length
  have hok := hA.ok
  have hd : (hdr v.kindOf.1 v.kindOf.2 s1.byteval).length ≤ 9 := by
    generalize v.kindOf.1 = k at hok
    generalize v.kindOf.2 = n at hok
    cases k with
    | byte => simp [hdr]
    | string =>
      have := natBytes_len8 hok
      simp only [hdr, head]
      split
      · simp
      · simp; omega
    | list =>
      have := natBytes_len8 hok
      simp only [hdr, head]
      split
      · simp
      · simp; omega
  simp only at this
  omega

theorem At.decode {s : Stream} {v : Item} {l : List Item} {o : List (List Item)} (h : At s (v :: l) o) (f : Nat) (hf : s.r.length < f)
    (hf2 : f < 2 ^ 63) : ∃ s', decodeIface f s = (.ok v, s') ∧ Cons s (enc v) s' := by
  have hr := h.r
  rw [encs, List.append_assoc] at hr
  obtain ⟨s', e1, -⟩ := decodeIface_complete f hf2 v h.wf h.fresh hf hr h.fits
  exact ⟨s', e1, ((decodeIface_sound f hf2).ok h.wf h.fresh hf e1).1⟩

/-- At the end of a list or of the input. -/
theorem At.over {s : Stream} {o : List (List Item)} (h : At s [] o) :
    ∃ s', s.kind = (.error (if o = [] then .eof else .eol), s') ∧ At s' [] o := by
  cases o with
  | cons l o =>
    rcases h.ahead with ha | ⟨-, h2, -⟩
    · refine ⟨s, ?_, h⟩
      rw [kind_at_eol ha (by rw [h.stack]; rfl)]
      rfl
    · cases h2
  | nil =>
    rcases h.ahead with ha | ⟨-, -, ha⟩
    · refine ⟨{ s with ahead := some (.byte, 0, some .eof) }, ?_, ⟨h.r, h.stack, h.limit, h.small, Or.inr ⟨rfl, rfl, rfl⟩⟩⟩
      obtain ⟨r, rem, lim, stk, ah, bv⟩ := s
      have hr := h.r
      have hs := h.stack
      have hl := h.limit
      simp only [encs, afterwards, List.append_nil, rooms] at hr hs hl ha
      subst hr hs ha
      cases lim with
      | false => simp [Stream.kind, Stream.readKind, Stream.readByte, Stream.willRead]
      | true =>
        have := hl rfl
        simp only [List.length_nil] at this
        subst this
        simp [Stream.kind, Stream.readKind, Stream.readByte, Stream.willRead]
    · refine ⟨s, ?_, h⟩
      unfold Stream.kind
      rw [ha]
      rfl

theorem kind_fails {s s1 : Stream} {e : Err} (h : s.kind = (.error e, s1)) (call : SCall) (h1 : call ≠ .listEnd) (h2 : call ≠ .more) :
    s.call call = (.fail e, s1) := by
  cases call with
  | listEnd => exact absurd rfl h1
  | more => exact absurd rfl h2
  | kind => simp [Stream.call, ansOf, h]
  | bytes => simp [Stream.call, ansOf, Stream.bytes, h]
  | readBytes n => simp [Stream.call, ansOf, Stream.readBytes, h]
  | raw => simp [Stream.call, ansOf, Stream.raw, h]
  | uint w => simp [Stream.call, ansOf, Stream.uintW, Stream.uint, h]
  | bool => simp [Stream.call, ansOf, Stream.bool, Stream.uint, h]
  | bigInt => simp [Stream.call, ansOf, Stream.bigInt, h]
  | uint256 => simp [Stream.call, ansOf, Stream.bigInt, h]
  | list => simp [Stream.call, ansOf, Stream.list, h]
  | decode => simp [Stream.call, ansOf, Stream.decodeAny, decodeIface, h]

theorem stands_next {s s' : Stream} {v : Item} {l : List Item} {o : List (List Item)} (h : At s (v :: l) o) (hc : Cons s (enc v) s') :
    Stands s' ⟨l, o, false⟩ := Or.inl ⟨h.next hc, Or.inr rfl⟩

theorem stands_look {s s1 : Stream} {v : Item} {l : List Item} {o : List (List Item)} (h : At s (v :: l) o)
    (hk : s.kind = (.ok v.kindOf, s1)) : Stands s1 ⟨v :: l, o, true⟩ := Or.inr ⟨v, l, s, rfl, rfl, h, hk⟩

theorem head_getD (b : Bytes) (h : b ≠ []) : b.head? = some 0 ↔ b.getD 0 0 = 0 := by
  cases b with
  | nil => exact absurd rfl h
  | cons x b => simp

theorem noLeadingZero_eq (b : Bytes) : noLeadingZero b = numOf b := by
  unfold noLeadingZero numOf
  cases b with
  | nil => rfl
  | cons x b => simp

/-- Reading the content of a byte string as a number. -/
theorem readUint_string {s1 s' : Stream} {b : Bytes} (hw : s1.wf) (hr : s1.readFull b.length = (.ok b, s')) (h0 : b ≠ [])
    (h1 : ¬ (b.length = 1 ∧ b.getD 0 0 < 128)) :
    s1.readUint b.length = if b.getD 0 0 = 0 then (.error .canonSize, s') else (.ok (beNat b), s') := by
  match b, h0, h1, hr with
  | [x], _, h1, hr =>
    obtain ⟨hc, -, hf⟩ := readFull_ok hw hr
    have hx : ¬ x < 128 := fun h => h1 ⟨rfl, h⟩
    have hx0 : ¬ x = 0 := by rintro rfl; exact hx (by decide)
    simp only [List.getD_cons_zero, if_neg hx0, List.length_singleton]
    unfold Stream.readFull at hr
    unfold Stream.readUint Stream.readByte
    simp only [List.length_singleton] at hr ⊢
    cases hw : s1.willRead 1 with
    | mk e t =>
      rw [hw] at hr
      cases e with
      | error e => simp at hr
      | ok u =>
        simp only at hr ⊢
        split at hr
        · simp at hr
        · simp only [Prod.mk.injEq, Except.ok.injEq] at hr
          obtain ⟨hr1, hr2⟩ := hr
          cases ht : t.r with
          | nil => rw [ht] at hr1; simp at hr1
          | cons y ys =>
            rw [ht] at hr1 hr2
            simp only [List.take_succ_cons, List.take_zero, List.cons.injEq, and_true, List.drop_succ_cons, List.drop_zero] at hr1 hr2
            subst hr1 hr2
            simp [beNat]
  | x :: y :: b, _, _, hr =>
    unfold Stream.readUint
    simp only [List.length_cons]
    simp only [List.length_cons] at hr
    rw [hr]

theorem At.num {s : Stream} {b : Bytes} {l : List Item} {o : List (List Item)} (h : At s (.str b :: l) o) (w : Width) (sn : Bool) :
    ∃ s', s.uint w.bits = ((Cursor.num ⟨.str b :: l, o, sn⟩ (w.bits / 8) b).1, s') ∧ Stands s' (Cursor.num ⟨.str b :: l, o, sn⟩ (w.bits / 8) b).2 := by
  have hw8 : 1 ≤ w.bits / 8 := by cases w <;> decide
  rcases h.str with ⟨x, s1, rfl, hx, e1, e2, e3⟩ | ⟨h1, s1, s', e1, e2, e3, e4⟩
  · unfold Stream.uint
    rw [e1]
    simp only
    rw [e2]
    unfold Cursor.num
    by_cases h0 : x = 0
    · subst h0
      rw [if_pos rfl, if_pos rfl]
      exact ⟨s1, rfl, stands_look h e1⟩
    · rw [if_neg h0, if_neg (by simpa using h0), if_neg (by simp; omega)]
      refine ⟨_, ?_, stands_next h e3⟩
      subst e2
      simp [numOf, h0, beNat]
  · have hk : s.kind = (.ok (Item.str b).kindOf, s1) := by
      obtain ⟨t, ht⟩ := h.kind
      rw [e1] at ht
      rw [e1]
      simp only [Prod.mk.injEq, Except.ok.injEq] at ht
      rw [← ht.1]
    have hb0 : b ≠ [0] := by rintro rfl; exact h1 ⟨rfl, by decide⟩
    unfold Stream.uint
    rw [e1]
    simp only
    unfold Cursor.num
    rw [if_neg hb0]
    by_cases hl : b.length > w.bits / 8
    · rw [if_pos hl, if_pos hl]
      exact ⟨s1, rfl, stands_look h hk⟩
    · rw [if_neg hl, if_neg hl]
      by_cases hnil : b = []
      · subst hnil
        have e5 : Cons s (enc (.str [])) { s1 with ahead := none } := e2.cons
        refine ⟨{ s1 with ahead := none }, ?_, stands_next h e5⟩
        simp [Stream.readUint, numOf, beNat]
      · rw [readUint_string (e2.wf h.wf) e3 hnil h1]
        refine ⟨s', ?_, stands_next h e4⟩
        unfold numOf
        by_cases hz : b.getD 0 0 = 0
        · rw [if_pos hz, if_pos ((head_getD b hnil).2 hz)]
        · rw [if_neg hz, if_neg (fun h' => hz ((head_getD b hnil).1 h'))]
          simp only
          have hv : ¬ (0 < b.length ∧ beNat b < 128) := by
            rintro ⟨-, hv⟩
            cases b with
            | nil => exact hnil rfl
            | cons x b =>
              simp only [List.getD_cons_zero] at hz
              have hx : x.toNat ≠ 0 := fun h' => hz (UInt8.toNat_inj.1 h')
              rw [beNat_cons] at hv
              cases b with
              | nil =>
                simp [beNat] at hv
                exact h1 ⟨rfl, by simpa [UInt8.lt_iff_toNat_lt] using hv⟩
              | cons y b =>
                have : 256 ≤ x.toNat * 256 ^ (y :: b).length := by
                  rw [List.length_cons, Nat.pow_succ]
                  have : 1 ≤ x.toNat * 256 ^ b.length := Nat.mul_pos (by omega) (Nat.pow_pos (by omega))
                  rw [← Nat.mul_assoc]
                  omega
                omega
          rw [if_neg hv]

theorem numOf_lt {b : Bytes} {v m : Nat} (hl : b.length ≤ m) (h : numOf b = .ok v) : v < 256 ^ m := by
  unfold numOf at h
  split at h
  · cases h
  · cases h
    exact lt_of_lt_of_le (beNat_lt b) (Nat.pow_le_pow_right (by omega) hl)

theorem num_lt {c : Cursor} {b : Bytes} {v m : Nat} (h : (c.num m b).1 = .ok v) : v < 256 ^ m := by
  unfold Cursor.num at h
  split at h
  · cases h
  · split at h
    · cases h
    · exact numOf_lt (by omega) h

theorem At.strKind {s s1 : Stream} {b : Bytes} {l : List Item} {o : List (List Item)} {k : Kind × Nat} (h : At s (.str b :: l) o)
    (e : s.kind = (.ok k, s1)) : s.kind = (.ok (Item.str b).kindOf, s1) := by
  obtain ⟨t, ht⟩ := h.kind
  rw [e] at ht ⊢
  simp only [Prod.mk.injEq, Except.ok.injEq] at ht
  rw [← ht.1]

/-- A call about the next value, on a stream that has not looked at it yet. -/
theorem ask_spec {s : Stream} {v : Item} {l : List Item} {o : List (List Item)} (h : At s (v :: l) o) (sn : Bool) (call : SCall)
    (h1 : call ≠ .listEnd) (h2 : call ≠ .more) :
    (s.call call).1 = (Cursor.ask ⟨v :: l, o, sn⟩ v call).1 ∧ Stands (s.call call).2 (Cursor.ask ⟨v :: l, o, sn⟩ v call).2 := by
  have hlook : ∀ {k : Kind × Nat} {s1 : Stream}, s.kind = (.ok k, s1) → Stands s1 ⟨v :: l, o, true⟩ := by
    intro k s1 hk
    obtain ⟨t, ht⟩ := h.kind
    rw [hk] at ht
    simp only [Prod.mk.injEq, Except.ok.injEq] at ht
    obtain ⟨rfl, rfl⟩ := ht
    exact stands_look h hk
  cases call with
  | listEnd => exact absurd rfl h1
  | more => exact absurd rfl h2
  | kind =>
    obtain ⟨s1, hk⟩ := h.kind
    simp only [Stream.call, ansOf, hk, Cursor.ask]
    exact ⟨trivial, hlook hk⟩
  | decode =>
    obtain ⟨s', e1, e2⟩ := h.decode (s.r.length + 12) (by omega) (by have := h.small; omega)
    simp only [Stream.call, ansOf, Stream.decodeAny, e1, Cursor.ask]
    exact ⟨trivial, stands_next h e2⟩
  | raw =>
    cases v with
    | str b =>
      rcases h.str with ⟨x, s1, rfl, hx, e1, e2, e3⟩ | ⟨hn, s1, s', e1, e2, e3, e4⟩
      · simp only [Stream.call, ansOf, Stream.raw, e1, Cursor.ask, e2]
        subst e2
        exact ⟨by rw [enc]; simp [encStr, hx], stands_next h e3⟩
      · simp only [Stream.call, ansOf, Stream.raw, e1, Cursor.ask, e3]
        refine ⟨?_, stands_next h e4⟩
        have hb : b.length < 2 ^ 64 := e2.ok
        rw [enc, encStr_string hn, if_pos trivial, puthead_str, u64of hb]
    | list vs =>
      obtain ⟨s1, s', e1, e2, -, e3, e4⟩ := h.lst
      simp only [Stream.call, ansOf, Stream.raw, e1, Cursor.ask, e3]
      refine ⟨?_, stands_next h e4⟩
      have hb : (encs vs).length < 2 ^ 64 := e2.ok
      rw [enc, encList, if_neg (by decide), puthead_list, u64of hb]
  | list =>
    cases v with
    | str b =>
      obtain ⟨s1, hk⟩ := h.kind
      have hne : (Item.str b).kindOf.1 ≠ .list := by
        unfold Item.kindOf
        split
        · split <;> decide
        · simp
        · next heq => cases heq
      generalize hkk : (Item.str b).kindOf = k at hk hne
      obtain ⟨k, n⟩ := k
      simp only [Stream.call, ansOf, Stream.list, hk, if_pos hne, Cursor.ask]
      exact ⟨trivial, hlook hk⟩
    | list vs =>
      obtain ⟨s1, s', e1, e2, e3, -, -⟩ := h.lst
      simp only [Stream.call, ansOf, Stream.list, e1, Cursor.ask, ne_eq, not_true, if_false]
      refine ⟨trivial, Or.inl ⟨?_, Or.inr rfl⟩⟩
      have hlen := e2.cons.r_length
      have hcl := e2.cons.limited
      have hcr := e2.cons.remaining
      have hcs := e2.cons.stack
      simp only [hdr] at hlen hcl hcr hcs
      refine ⟨by rw [afterwards]; exact e3, ?_, ?_, by have := h.small; simp only; omega, Or.inl rfl⟩
      · simp only [List.tail_cons, rooms, List.cons.injEq, true_and]
        rw [hcs, h.stack]
        cases o with
        | nil => rfl
        | cons l' o =>
          simp only [rooms, List.modifyHead_cons, List.cons.injEq, and_true]
          have hb := rooms_le (.list vs :: l) (l' :: o) (encs (.list vs :: l)).length (by simp [rooms])
          rw [← h.r] at hb
          have := h.small
          rw [encs_cons_length, enc, encList_ge] at hb ⊢
          rw [sub64_sub64, sub64_le (by omega) (by omega)]
          omega
      · intro hl
        simp only at hl ⊢
        rw [hcl] at hl
        rw [if_pos hl, h.limit hl] at hcr
        omega
  | bytes =>
    cases v with
    | str b =>
      rcases h.str with ⟨x, s1, rfl, hx, e1, e2, e3⟩ | ⟨hn, s1, s', e1, e2, e3, e4⟩
      · simp only [Stream.call, ansOf, Stream.bytes, e1, Cursor.ask, e2]
        subst e2
        exact ⟨trivial, stands_next h e3⟩
      · simp only [Stream.call, ansOf, Stream.bytes, e1, Cursor.ask, e3, if_neg hn]
        exact ⟨trivial, stands_next h e4⟩
    | list vs =>
      obtain ⟨s1, s', e1, -⟩ := h.lst
      simp only [Stream.call, ansOf, Stream.bytes, e1, Cursor.ask]
      exact ⟨trivial, hlook e1⟩
  | readBytes n =>
    cases v with
    | str b =>
      rcases h.str with ⟨x, s1, rfl, hx, e1, e2, e3⟩ | ⟨hn, s1, s', e1, e2, e3, e4⟩
      · simp only [Stream.call, ansOf, Stream.readBytes, e1, Cursor.ask, e2, List.length_singleton]
        subst e2
        by_cases hl : n = 1
        · subst hl
          simp only [ne_eq, not_true, if_false, if_true]
          exact ⟨trivial, stands_next h e3⟩
        · rw [if_pos hl, if_neg (fun e => hl e.symm)]
          exact ⟨rfl, hlook e1⟩
      · simp only [Stream.call, ansOf, Stream.readBytes, e1, Cursor.ask]
        by_cases hl : n = b.length
        · subst hl
          simp only [ne_eq, not_true, if_false, if_true, e3, if_neg hn]
          exact ⟨trivial, stands_next h e4⟩
        · rw [if_pos hl, if_neg (fun e => hl e.symm)]
          exact ⟨rfl, hlook e1⟩
    | list vs =>
      obtain ⟨s1, s', e1, -⟩ := h.lst
      simp only [Stream.call, ansOf, Stream.readBytes, e1, Cursor.ask]
      exact ⟨trivial, hlook e1⟩
  | uint w =>
    cases v with
    | str b =>
      obtain ⟨s', e1, e2⟩ := h.num w sn
      have hlt := @num_lt ⟨.str b :: l, o, sn⟩ b
      simp only [Stream.call, ansOf, Stream.uintW, e1, Cursor.ask]
      cases hn : (Cursor.num ⟨.str b :: l, o, sn⟩ (w.bits / 8) b).1 with
      | error e => exact ⟨rfl, e2⟩
      | ok x =>
        refine ⟨?_, e2⟩
        have := hlt hn
        have hp : 256 ^ (w.bits / 8) = 2 ^ w.bits := by cases w <;> decide
        rw [hp] at this
        simp only [answer, Nat.mod_eq_of_lt this]
    | list vs =>
      obtain ⟨s1, s', e1, -⟩ := h.lst
      simp only [Stream.call, ansOf, Stream.uintW, Stream.uint, e1, Cursor.ask]
      exact ⟨trivial, hlook e1⟩
  | bool =>
    cases v with
    | str b =>
      obtain ⟨s', e1, e2⟩ := h.num .w8 sn
      simp only [Width.bits, show 8 / 8 = 1 from rfl] at e1 e2
      simp only [Stream.call, ansOf, Stream.bool, e1, Cursor.ask]
      cases hn : Cursor.num ⟨.str b :: l, o, sn⟩ 1 b with
      | mk x c =>
        rw [hn] at e2
        cases x with
        | error e => exact ⟨rfl, e2⟩
        | ok x =>
          match x with
          | 0 => exact ⟨rfl, e2⟩
          | 1 => exact ⟨rfl, e2⟩
          | x + 2 => exact ⟨rfl, e2⟩
    | list vs =>
      obtain ⟨s1, s', e1, -⟩ := h.lst
      simp only [Stream.call, ansOf, Stream.bool, Stream.uint, e1, Cursor.ask]
      exact ⟨trivial, hlook e1⟩
  | bigInt =>
    cases v with
    | str b =>
      rcases h.str with ⟨x, s1, rfl, hx, e1, e2, e3⟩ | ⟨hn, s1, s', e1, e2, e3, e4⟩
      · simp only [Stream.call, ansOf, Stream.bigInt, e1, Cursor.ask, e2, noLeadingZero_eq]
        subst e2
        exact ⟨rfl, stands_next h e3⟩
      · by_cases hb : b = []
        · subst hb
          have e5 : Cons s (enc (.str [])) { s1 with ahead := none } := e2.cons
          simp only [Stream.call, ansOf, Stream.bigInt, e1, Cursor.ask, List.length_nil, if_true, noLeadingZero_eq]
          exact ⟨rfl, stands_next h e5⟩
        · simp only [Stream.call, ansOf, Stream.bigInt, e1, Cursor.ask, List.length_eq_zero_iff, hb, if_false, exceeds, Bool.false_eq_true, e3,
            if_neg hn, noLeadingZero_eq]
          exact ⟨rfl, stands_next h e4⟩
    | list vs =>
      obtain ⟨s1, s', e1, -⟩ := h.lst
      simp only [Stream.call, ansOf, Stream.bigInt, e1, Cursor.ask]
      exact ⟨trivial, hlook e1⟩
  | uint256 =>
    cases v with
    | str b =>
      rcases h.str with ⟨x, s1, rfl, hx, e1, e2, e3⟩ | ⟨hn, s1, s', e1, e2, e3, e4⟩
      · simp only [Stream.call, ansOf, Stream.bigInt, e1, Cursor.ask, e2, noLeadingZero_eq, List.length_singleton,
          show ¬ (1 > 32) from by decide, if_false]
        subst e2
        exact ⟨rfl, stands_next h e3⟩
      · by_cases hb : b = []
        · subst hb
          have e5 : Cons s (enc (.str [])) { s1 with ahead := none } := e2.cons
          simp only [Stream.call, ansOf, Stream.bigInt, e1, Cursor.ask, List.length_nil, if_true, noLeadingZero_eq, show ¬ (0 > 32) from by decide,
            if_false]
          exact ⟨rfl, stands_next h e5⟩
        · by_cases hl : b.length > 32
          · simp only [Stream.call, ansOf, Stream.bigInt, e1, Cursor.ask, List.length_eq_zero_iff, hb, if_false, exceeds, hl, decide_true, if_true]
            exact ⟨trivial, hlook e1⟩
          · simp only [Stream.call, ansOf, Stream.bigInt, e1, Cursor.ask, List.length_eq_zero_iff, hb, if_false, exceeds, hl, decide_false,
              Bool.false_eq_true, e3, if_neg hn, noLeadingZero_eq]
            exact ⟨rfl, stands_next h e4⟩
    | list vs =>
      obtain ⟨s1, s', e1, -⟩ := h.lst
      simp only [Stream.call, ansOf, Stream.bigInt, e1, Cursor.ask]
      exact ⟨trivial, hlook e1⟩

theorem tiny_iff (v : Item) : v.tiny = true ↔ v.kindOf.2 = 0 := by
  unfold Item.tiny Item.kindOf
  split
  · next x =>
    by_cases hx : x < 0x80 <;> simp [hx]
  · simp
  · simp

theorem encs_eq_nil {l : List Item} (h : (encs l).length = 0) : l = [] := by
  cases l with
  | nil => rfl
  | cons v l =>
    rw [encs_cons_length] at h
    have := enc_pos v
    omega

/-- The header of a value, and its content. -/
theorem At.size {s s1 : Stream} {v : Item} {l : List Item} {o : List (List Item)} (h : At s (v :: l) o) (hk : s.kind = (.ok v.kindOf, s1)) :
    Ahead s v.kindOf.1 v.kindOf.2 s1 ∧ (enc v).length = (hdr v.kindOf.1 v.kindOf.2 s1.byteval).length + v.kindOf.2 ∧
      (v.tiny = true → Cons s (enc v) { s1 with ahead := none }) := by
  have hA := kind_ok h.wf h.fresh (k := v.kindOf.1) (n := v.kindOf.2) hk
  refine ⟨hA, ?_⟩
  have ht := tiny_iff v
  cases v with
  | str b =>
    rcases h.str with ⟨x, t, rfl, hx, e1, e2, e3⟩ | ⟨hn, t, s', e1, e2, e3, e4⟩
    · rw [hk] at e1
      simp only [Prod.mk.injEq, Except.ok.injEq] at e1
      obtain ⟨e0, rfl⟩ := e1
      rw [e0]
      exact ⟨by simp [enc, encStr, hx, hdr], fun _ => e3⟩
    · rw [hk] at e1
      simp only [Prod.mk.injEq, Except.ok.injEq] at e1
      obtain ⟨e0, rfl⟩ := e1
      rw [e0] at ht ⊢
      refine ⟨by rw [enc, encStr_string hn, List.length_append]; rfl, fun h' => ?_⟩
      have hb := ht.1 h'
      simp only [List.length_eq_zero_iff] at hb
      subst hb
      exact e2.cons
  | list vs =>
    obtain ⟨t, s', e1, e2, -⟩ := h.lst
    rw [hk] at e1
    simp only [Prod.mk.injEq, Except.ok.injEq] at e1
    obtain ⟨e0, rfl⟩ := e1
    rw [e0] at ht ⊢
    refine ⟨by rw [enc, encList_ge]; rfl, fun h' => ?_⟩
    have hb := ht.1 h'
    simp only at hb
    have hvs := encs_eq_nil hb
    subst hvs
    exact e2.cons

/-- The room left in the innermost list, and what follows it. -/
theorem room_spec {s : Stream} {cur : List Item} {l : List Item} {o : List (List Item)} {sn : Bool} (h : Stands s ⟨cur, l :: o, sn⟩) :
    ∃ n st, s.stack = n :: st ∧ (n = 0 ↔ Cursor.empty ⟨cur, l :: o, sn⟩ = true) ∧ (n = 0 → At { s with stack := st, ahead := none } l o) := by
  have pop : ∀ {t : Stream}, At t [] (l :: o) → At { t with stack := rooms l o, ahead := none } l o := by
    intro t ht
    refine ⟨?_, rfl, ht.limit, ht.small, Or.inl rfl⟩
    have := ht.r
    rw [encs, afterwards] at this
    simpa using this
  rcases h with ⟨h, hc⟩ | ⟨v, l1, s0, hcur, hseen, h0, hk⟩
  · refine ⟨(encs cur).length, rooms l o, h.stack, ?_, fun h0 => ?_⟩
    · cases cur with
      | nil => simp [encs, Cursor.empty]
      | cons v l1 =>
        have := enc_pos v
        rcases hc with hc | hc
        · cases hc
        · simp only at hc
          subst hc
          rw [encs_cons_length]
          constructor
          · intro; omega
          · intro h'
            simp only [Cursor.empty] at h'
            split at h' <;> simp at h'
            next heq => cases heq
    · have hnil := encs_eq_nil h0
      subst hnil
      exact pop h
  · simp only at hcur hseen h0
    subst hcur hseen
    obtain ⟨hA, hl, ht⟩ := h0.size hk
    have hst := hA.cons.stack
    simp only [h0.stack, rooms, List.modifyHead_cons] at hst
    have hb := rooms_le (v :: l1) (l :: o) (encs (v :: l1)).length (by simp [rooms])
    rw [← h0.r] at hb
    have hsm := h0.small
    have hn : sub64 (encs (v :: l1)).length (hdr v.kindOf.1 v.kindOf.2 s.byteval).length = v.kindOf.2 + (encs l1).length := by
      rw [encs_cons_length] at hb ⊢
      rw [sub64_le (by omega) (by omega)]
      omega
    rw [hn] at hst
    refine ⟨_, _, hst, ?_, fun hz => ?_⟩
    · constructor
      · intro hz
        have h1 : l1 = [] := encs_eq_nil (by omega)
        subst h1
        simp only [Cursor.empty, Bool.true_and]
        exact (tiny_iff v).2 (by omega)
      · intro h'
        cases l1 with
        | nil =>
          simp only [Cursor.empty, Bool.true_and] at h'
          have := (tiny_iff v).1 h'
          rw [this]
          rfl
        | cons w l1 => simp [Cursor.empty] at h'
    · have h1 : l1 = [] := encs_eq_nil (by omega)
      subst h1
      have := h0.next (ht ((tiny_iff v).2 (by omega)))
      exact pop (t := { s with ahead := none }) this

/-- Every call answers what the cursor answers. -/
theorem step_spec {s : Stream} {c : Cursor} (h : Stands s c) (call : SCall) :
    (s.call call).1 = (c.step call).1 ∧ Stands (s.call call).2 (c.step call).2 := by
  have top : ∀ {cur : List Item} {sn : Bool}, Stands s ⟨cur, [], sn⟩ → s.stack = [] := by
    intro cur sn h
    rcases h with ⟨h, -⟩ | ⟨v, l1, s0, hcur, hseen, h0, hk⟩
    · exact h.stack
    · simp only at hcur h0
      subst hcur
      have := (h0.size hk).1.cons.stack
      rw [h0.stack] at this
      exact this
  by_cases h1 : call = .listEnd
  · subst h1
    obtain ⟨cur, outer, sn⟩ := c
    cases outer with
    | nil =>
      have := top h
      simp only [Stream.call, ansOf, Stream.listEnd, this, Cursor.step]
      exact ⟨trivial, h⟩
    | cons l o =>
      obtain ⟨n, st, e1, e2, e3⟩ := room_spec h
      simp only [Stream.call, ansOf, Stream.listEnd, e1, Cursor.step]
      by_cases hn : n = 0
      · rw [if_pos (e2.1 hn)]
        subst hn
        simp only [gt_iff_lt, lt_irrefl, if_false]
        exact ⟨trivial, Or.inl ⟨e3 rfl, Or.inr rfl⟩⟩
      · rw [if_neg (fun h' => hn (e2.2 h')), if_pos (by omega)]
        exact ⟨rfl, h⟩
  · by_cases h2 : call = .more
    · subst h2
      obtain ⟨cur, outer, sn⟩ := c
      refine ⟨?_, h⟩
      cases outer with
      | nil =>
        have := top h
        simp [Stream.call, Stream.more, this, Cursor.step]
      | cons l o =>
        obtain ⟨n, st, e1, e2, -⟩ := room_spec h
        simp only [Stream.call, Stream.more, e1, Cursor.step, List.isEmpty_cons, Bool.not_false, Bool.true_and, List.head?_cons, Option.getD_some,
          SAns.flag.injEq]
        by_cases hn : n = 0
        · rw [e2.1 hn, hn]; rfl
        · have : Cursor.empty ⟨cur, l :: o, sn⟩ = false := by
            cases he : Cursor.empty ⟨cur, l :: o, sn⟩ with
            | false => rfl
            | true => exact absurd (e2.2 he) hn
          rw [this]
          simp; omega
    · have hs : c.step call = match c.cur with
          | [] => (.fail (if c.outer = [] then .eof else .eol), c)
          | v :: _ => c.ask v call := by
        cases call <;> first | rfl | exact absurd rfl h1 | exact absurd rfl h2
      rw [hs]
      obtain ⟨cur, outer, sn⟩ := c
      rcases h with ⟨h, hc⟩ | ⟨v, l, s0, hcur, hseen, h0, hk⟩
      · cases cur with
        | nil =>
          obtain ⟨s', e1, e2⟩ := h.over
          rw [kind_fails e1 call h1 h2]
          exact ⟨rfl, Or.inl ⟨e2, Or.inl rfl⟩⟩
        | cons v l => exact ask_spec h sn call h1 h2
      · simp only at hcur hseen h0
        subst hcur hseen
        have := ask_spec h0 true call h1 h2
        obtain ⟨hl, ha⟩ := h0.header hk
        obtain ⟨k1, k2, k3, k4, k5, k6, k7, k8, k9⟩ := kind_first hk ha
        by_cases hd : call = .decode
        · subst hd
          obtain ⟨s', e1, e2⟩ := h0.decode (s.r.length + 12) (by omega) (by
            have := h0.small
            have := (h0.size hk).1.cons.r_length
            simp only at this
            omega)
          have e3 := k9 (s.r.length + 11)
          simp only [Stream.call, ansOf, Stream.decodeAny, e3, e1, Cursor.ask]
          exact ⟨trivial, stands_next h0 e2⟩
        · have he : s.call call = s0.call call := by
            cases call <;> simp only [Stream.call, k1, k2, k3, k4, k5, k6, k7, k8] <;> first | rfl | exact absurd rfl h1 | exact absurd rfl h2 | exact absurd rfl hd
          rw [he]
          exact this

theorem calls_spec {s : Stream} {c : Cursor} (h : Stands s c) (cs : List SCall) : s.calls cs = c.steps cs := by
  induction cs generalizing s c with
  | nil => rfl
  | cons x cs ih =>
    obtain ⟨h1, h2⟩ := step_spec h x
    rw [Stream.calls, Cursor.steps, h1, ih h2]

/-- A reader of the encoded values; `limited` tells whether the stream knows how long the input is. -/
def streamOf (l : List Item) (limited : Bool) : Stream := ⟨encs l, if limited then (encs l).length else 0, limited, [], none, 0⟩

/-- **C142** Whatever calls are made on a stream over the encodings of a sequence of values, it answers what the cursor in the
sequence answers. -/
theorem C142_cursor (l : List Item) (hl : (encs l).length < 2 ^ 62) (limited : Bool) (cs : List SCall) :
    (streamOf l limited).calls cs = Cursor.steps ⟨l, [], false⟩ cs := by
  refine calls_spec (Or.inl ⟨⟨?_, rfl, ?_, hl, Or.inl rfl⟩, Or.inr rfl⟩) cs
  · simp [streamOf, afterwards]
  · intro h
    simp only [streamOf] at h ⊢
    rw [h]
    rfl

theorem willRead_byteval (s : Stream) (n : Nat) : (s.willRead n).2.byteval = s.byteval := by
  unfold Stream.willRead
  simp only
  split
  · split
    · split <;> rfl
    · rfl
  · split
    · rfl
    · split
      · split <;> rfl
      · rfl

theorem readByte_byteval (s : Stream) : s.readByte.2.byteval = s.byteval := by
  have := willRead_byteval s 1
  unfold Stream.readByte
  cases h : s.willRead 1 with
  | mk e t =>
    rw [h] at this
    cases e with
    | error e => exact this
    | ok u => simp only; split <;> exact this

theorem readFull_byteval (s : Stream) (n : Nat) : (s.readFull n).2.byteval = s.byteval := by
  have := willRead_byteval s n
  unfold Stream.readFull
  cases h : s.willRead n with
  | mk e t =>
    rw [h] at this
    cases e with
    | error e => exact this
    | ok u => simp only; split <;> exact this

theorem readUint_byteval (s : Stream) (n : Nat) : (s.readUint n).2.byteval = s.byteval := by
  unfold Stream.readUint
  split
  · rfl
  · have := readByte_byteval s
    cases h : s.readByte with
    | mk e t => rw [h] at this; cases e <;> exact this
  · have := readFull_byteval s n
    cases h : s.readFull n with
    | mk e t =>
      rw [h] at this
      cases e with
      | error e => exact this
      | ok u => simp only; split <;> exact this

theorem readLong_byteval (s : Stream) (k : Kind) (n : Nat) : (s.readLong k n).2.2.2.byteval = s.byteval := by
  have := readUint_byteval s n
  unfold Stream.readLong
  cases h : s.readUint n with
  | mk e t => rw [h] at this; cases e <;> exact this

theorem readKind_list {s s1 : Stream} {n : Nat} {e : Option Err} (h : s.readKind = (.list, n, e, s1)) : s1.byteval = 0 := by
  unfold Stream.readKind at h
  cases hb : s.readByte with
  | mk x t =>
    rw [hb] at h
    cases x with
    | error x => simp at h
    | ok b =>
      simp only at h
      split at h
      · simp at h
      · split at h
        · simp at h
        · split at h
          · have := readLong_byteval { t with byteval := 0 } .string (b - 0xB7).toNat
            rw [h] at this
            exact this
          · split at h
            · simp only [Prod.mk.injEq] at h
              rw [← h.2.2.2]
            · have := readLong_byteval { t with byteval := 0 } .list (b - 0xF7).toNat
              rw [h] at this
              exact this

theorem kind_list {s s1 : Stream} {n : Nat} (ha : s.ahead = none) (h : s.kind = (.ok (.list, n), s1)) : s1.byteval = 0 := by
  unfold Stream.kind at h
  rw [ha] at h
  simp only at h
  split at h
  · simp at h
  · cases hr : s.readKind with
    | mk k q =>
      obtain ⟨n', e, t⟩ := q
      rw [hr] at h
      simp only at h
      split at h
      · simp at h
      · simp only [Prod.mk.injEq, Except.ok.injEq] at h
        obtain ⟨⟨rfl, rfl⟩, rfl⟩ := h
        have := readKind_list hr
        exact this

/-- **C142** The same for a stream made by `NewListStream` with the length of its input: it is before a list of the values. -/
theorem C142_list (l : List Item) (hl : (enc (.list l)).length < 2 ^ 62) (cs : List SCall) :
    (newListStream (encs l) (encs l).length).calls cs = Cursor.steps ⟨[.list l], [], true⟩ cs := by
  have h0 : At (streamOf [.list l] true) [.list l] [] := by
    refine ⟨by simp [streamOf, afterwards], rfl, fun _ => by simp [streamOf], ?_, Or.inl rfl⟩
    simp only [streamOf, encs, List.append_nil]
    exact hl
  obtain ⟨s1, hk⟩ := h0.kind
  obtain ⟨t, -, e1, e2, e3, -⟩ := h0.lst
  rw [hk] at e1
  simp only [Prod.mk.injEq, Except.ok.injEq] at e1
  obtain ⟨e0, rfl⟩ := e1
  rw [e0] at hk
  have hb := kind_list h0.fresh hk
  have hl' := e2.cons.limited
  have hs' := e2.cons.stack
  have hr' := e2.cons.remaining
  simp only [hdr] at hl' hs' hr'
  rw [h0.stack] at hs'
  rw [if_pos (show (streamOf [.list l] true).limited = true from rfl), h0.limit rfl, h0.r] at hr'
  simp only [encs, afterwards, List.append_nil, enc, encList_ge] at hr' e3
  have : s1 = newListStream (encs l) (encs l).length := by
    obtain ⟨r, rem, lim, stk, ah, bv⟩ := s1
    simp only at hl' hs' hr' hb e3
    have ha := e2.ahead
    simp only at ha
    subst hl' hs' e3 hb ha
    simp only [newListStream, Stream.mk.injEq, true_and, streamOf, and_true]
    refine ⟨?_, rfl⟩
    split <;> omega
  rw [← this]
  exact calls_spec (Or.inr ⟨.list l, [], streamOf [.list l] true, rfl, rfl, h0, by rw [e0]; exact hk⟩) cs

/-- Bytes after the given length are not part of the list and are not seen after it, unless the length is zero: then the whole
reader follows the empty list. -/
example : (newListStream [1, 2, 3] 1).calls [.list, .uint .w8, .more, .listEnd, .kind, .uint .w8] =
      [.size 1, .num 1, .flag false, .done, .fail .eof, .fail .eof] ∧
    (newListStream [1, 2, 3] 0).calls [.list, .more, .listEnd, .uint .w8, .uint .w8] =
      [.size 0, .flag false, .done, .num 1, .num 2] := ⟨rfl, rfl⟩

/-! ### The end of a list -/

/-- A cursor that ends a list only when nothing is left in it. -/
def Cursor.strict (c : Cursor) (call : SCall) : SAns × Cursor :=
  match call with
  | .listEnd =>
    match c.outer with
    | [] => (.fail .notInList, c)
    | l :: o => if c.cur.isEmpty then (.done, ⟨l, o, false⟩) else (.fail .notAtEOL, c)
  | .more => (.flag (!c.outer.isEmpty && !c.cur.isEmpty), c)
  | call => c.step call

/-- Calls one after the other. -/
def Cursor.stricts : Cursor → List SCall → List SAns
  | _, [] => []
  | c, x :: xs => (c.strict x).1 :: (c.strict x).2.stricts xs

/-- No call of `ListEnd` or `MoreDataInList` comes after a call that looked at the next value and left it. -/
def Cursor.polite : Cursor → List SCall → Bool
  | _, [] => true
  | c, x :: xs => !((x = .listEnd || x = .more) && c.seen) && (c.strict x).2.polite xs

/-- **C142** As long as `ListEnd` and `MoreDataInList` are not called right after a call that looked at the next value and left it,
a list ends only when nothing is left in it. -/
theorem C142_end_partial (l : List Item) (hl : (encs l).length < 2 ^ 62) (limited : Bool) (cs : List SCall)
    (hp : Cursor.polite ⟨l, [], false⟩ cs = true) : (streamOf l limited).calls cs = Cursor.stricts ⟨l, [], false⟩ cs := by
  rw [C142_cursor l hl limited cs]
  generalize (⟨l, [], false⟩ : Cursor) = c at hp
  induction cs generalizing c with
  | nil => rfl
  | cons x cs ih =>
    rw [Cursor.polite, Bool.and_eq_true] at hp
    have he : c.step x = c.strict x := by
      have hempty : c.seen = false → c.empty = c.cur.isEmpty := by
        intro hs
        unfold Cursor.empty
        split
        · next h => rw [h]; rfl
        · next h => rw [h, hs]; rfl
        · next h1 h2 =>
          cases hc : c.cur with
          | nil => exact absurd hc h1
          | cons v l => rfl
      by_cases h1 : x = .listEnd
      · subst h1
        have hs : c.seen = false := by simpa using hp.1
        simp only [Cursor.step, Cursor.strict, hempty hs]
      · by_cases h2 : x = .more
        · subst h2
          have hs : c.seen = false := by simpa using hp.1
          simp only [Cursor.step, Cursor.strict, hempty hs]
        · cases x <;> first | rfl | exact absurd rfl h1 | exact absurd rfl h2
    rw [Cursor.steps, Cursor.stricts, he, ih _ hp.2]

/-- **C142 is false** without that: after `Kind` has looked at the last value of a list, a single byte, `ListEnd` passes over it. -/
theorem C142_end_refuted : ¬ ∀ (l : List Item) (limited : Bool) (cs : List SCall),
    (encs l).length < 2 ^ 62 → (streamOf l limited).calls cs = Cursor.stricts ⟨l, [], false⟩ cs := by
  intro h
  have := h [.list [.str [5]]] true [.list, .kind, .listEnd] (by decide +kernel)
  simp only [Stream.calls, Cursor.stricts, List.cons.injEq] at this
  have h3 := this.2.2.1
  have e1 : (Cursor.mk [.list [.str [5]]] [] false).strict .list = (.size 1, ⟨[.str [5]], [[]], false⟩) := by
    simp [Cursor.strict, Cursor.step, Cursor.ask, encs, enc, encStr]
  rw [e1] at h3
  have e2 : (Cursor.mk [.str [5]] [[]] false).strict .kind = (.kind .byte 0, ⟨[.str [5]], [[]], true⟩) := by
    simp [Cursor.strict, Cursor.step, Cursor.ask, Cursor.look, Item.kindOf]
  rw [e2] at h3
  simp only [Cursor.strict, List.isEmpty_cons, Bool.false_eq_true, if_false] at h3
  have h4 : ((((streamOf [.list [.str [5]]] true).call .list).2.call .kind).2.listEnd).1 = .ok () := by decide +kernel
  simp only [Stream.call, ansOf] at h3 h4
  rw [h4] at h3
  cases h3

/-- A list with a number, a nested list and a string is taken apart. -/
example : (streamOf [.list [.str [1, 0], .list [.str []], .str [7, 8]], .str [9]] true).calls
      [.kind, .bytes, .list, .uint .w8, .uint .w16, .bytes, .list, .bool, .more, .decode, .listEnd, .listEnd, .readBytes 3, .readBytes 2, .more,
        .listEnd, .uint .w64, .raw] =
    [.kind .list 8, .fail .expectedString, .size 8, .fail .uintOverflow, .num 256, .fail .expectedString, .size 1, .flag false, .flag false,
      .fail .eol, .done, .fail .notAtEOL, .fail .wrongSize, .bytes [7, 8], .flag false, .done, .num 9, .fail .eof] := by
  rw [C142_cursor _ (by decide +kernel)]
  simp [Cursor.steps, Cursor.step, Cursor.ask, Cursor.look, Cursor.next, Cursor.num, Cursor.empty, numOf, answer, Item.kindOf, encs, enc, encStr,
    encList, head, Width.bits, beNat]

end Verif.Rlp

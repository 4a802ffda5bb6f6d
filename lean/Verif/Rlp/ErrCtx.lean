import Verif.Rlp.TypedThms

/-!
# Where a decoding error is

Errors of the typed decoder carry the type and the way to the value they were found in: `decodeError`, `wrapStreamError`,
`addErrorContext`.  The decoders of `Typed` again, with these errors.

`C162_same`: values, and what went wrong, are as there.  `C162_path`: the way leads from the type decoded into to the type in the
error.  `C162_place`: in an encoded item it leads to an item that is no value of its type, and all before it are.  `C162_text`:
the way can be read from the text.
-/

namespace Verif.Rlp.ErrCtx
open Verif Verif.Rlp

/-! ### The model -/

/-- A part of the context (`/repo/rlp/decode.go:332, 351, 430`); a field by its struct and its number among the encoded ones. -/
inductive Step where
  | idx (i : Nat)
  | fld (t : Ty) (k : Nat)

/-- An error: one of the package or of the reader, or a `decodeError` (`/repo/rlp/decode.go:108-112`), whose context has the
innermost part first. -/
inductive XErr where
  | plain (e : Err)
  | inType (e : Err) (t : Ty) (ctx : List Step)

/-- The errors `wrapStreamError` knows (`/repo/rlp/decode.go:126-139`). -/
def wraps : Err → Bool
  | .canonInt => true
  | .canonSize => true
  | .expectedList => true
  | .expectedString => true
  | .uintOverflow => true
  | .notAtEOL => true
  | _ => false

/-- `wrapStreamError` (`/repo/rlp/decode.go:125-141`). -/
def wrap (t : Ty) (e : Err) : XErr := if wraps e then .inType e t [] else .plain e

/-- `addErrorContext` (`/repo/rlp/decode.go:143-148`). -/
def XErr.add (x : Step) : XErr → XErr
  | .plain e => .plain e
  | .inType e t ctx => .inType e t (ctx ++ [x])

/-- A decoder into a fresh value. -/
abbrev DecX := Stream → Except XErr Val × Stream

/-- What a reader of the stream gives, as a value, its errors wrapped (`/repo/rlp/decode.go:199-260, 360-367`). -/
def prim {α : Type} (w : Err → XErr) (f : α → Val) (dec : Stream → Except Err α × Stream) : DecX := fun s =>
  match dec s with
  | (.error e, s) => (.error (w e), s)
  | (.ok v, s) => (.ok (f v), s)

/-- The value in its place. -/
def liftX {α : Type} (f : α → Val) (dec : Stream → Except XErr α × Stream) : DecX := fun s =>
  match dec s with
  | (.error e, s) => (.error e, s)
  | (.ok v, s) => (.ok (f v), s)

/-- `decodeByteArray` (`/repo/rlp/decode.go:369-402`): the errors of `Kind` and of the reader stay as they are. -/
def byteArrX (n : Nat) : DecX := fun s =>
  match s.kind with
  | (.error e, s) => (.error (.plain e), s)
  | (.ok (.byte, _), s) =>
    if n ≠ 1 then (.error (.inType .wrongSize (.byteArr n) []), s) else (.ok (.bytes [s.byteval]), { s with ahead := none })
  | (.ok (.string, m), s) =>
    if n ≠ m then (.error (.inType .wrongSize (.byteArr n) []), s)
    else match s.readFull m with
      | (.error e, s) => (.error (.plain e), s)
      | (.ok b, s) =>
        if m = 1 ∧ b.getD 0 0 < 128 then (.error (wrap (.byteArr n) .canonSize), s) else (.ok (.bytes b), s)
  | (.ok (.list, _), s) => (.error (wrap (.byteArr n) .expectedString), s)

/-- `decodeSliceElems` (`/repo/rlp/decode.go:312-339`) from element `i` on. -/
def elemsX {α : Type} (dec : Stream → Except XErr α × Stream) : Nat → Nat → Stream → Except XErr (List α) × Stream
  | 0, _, s => (.error (.plain .outOfFuel), s)
  | f + 1, i, s =>
    match dec s with
    | (.error (.plain .eol), s) => (.ok [], s)
    | (.error e, s) => (.error (e.add (.idx i)), s)
    | (.ok v, s) =>
      match elemsX dec f (i + 1) s with
      | (.error e, s) => (.error e, s)
      | (.ok l, s) => (.ok (v :: l), s)

/-- `decodeListSlice` (`/repo/rlp/decode.go:297-310`); the errors of `ListEnd` stay as they are. -/
def sliceX {α : Type} (t : Ty) (dec : Stream → Except XErr α × Stream) (s : Stream) : Except XErr (List α) × Stream :=
  match s.list with
  | (.error e, s) => (.error (wrap t e), s)
  | (.ok n, s) =>
    if n = 0 then
      match s.listEnd with
      | (.error e, s) => (.error (.plain e), s)
      | (.ok _, s) => (.ok [], s)
    else
      match elemsX dec (s.r.length + 1) 0 s with
      | (.error e, s) => (.error e, s)
      | (.ok l, s) =>
        match s.listEnd with
        | (.error e, s) => (.error (.plain e), s)
        | (.ok _, s) => (.ok l, s)

/-- `decodeInterface` (`/repo/rlp/decode.go:517-539`), for nesting up to `f`. -/
def ifaceX : Nat → Stream → Except XErr Item × Stream
  | 0, s => (.error (.plain .outOfFuel), s)
  | f + 1, s =>
    match s.kind with
    | (.error e, s) => (.error (.plain e), s)
    | (.ok (.list, _), s) =>
      match sliceX (.slice .any) (ifaceX f) s with
      | (.error e, s) => (.error e, s)
      | (.ok l, s) => (.ok (.list l), s)
    | (.ok _, s) =>
      match s.bytes with
      | (.error e, s) => (.error (.plain e), s)
      | (.ok b, s) => (.ok (.str b), s)

/-- The loop of `decodeListArray` (`/repo/rlp/decode.go:345-356`) from element `i` on. -/
def arrX (t : Ty) (dec : DecX) : Nat → Nat → Stream → Except XErr (List Val) × Stream
  | 0, _, s => (.ok [], s)
  | n + 1, i, s =>
    match dec s with
    | (.error (.plain .eol), s) => (.error (.inType .tooFew t []), s)
    | (.error e, s) => (.error (e.add (.idx i)), s)
    | (.ok v, s) =>
      match arrX t dec n (i + 1) s with
      | (.error e, s) => (.error e, s)
      | (.ok l, s) => (.ok (v :: l), s)

/-- `List`, the elements or fields, `ListEnd` (`/repo/rlp/decode.go:341-358, 414-435`). -/
def inListX (t : Ty) (elems : Stream → Except XErr (List Val) × Stream) (s : Stream) : Except XErr (List Val) × Stream :=
  match s.list with
  | (.error e, s) => (.error (wrap t e), s)
  | (.ok _, s) =>
    match elems s with
    | (.error e, s) => (.error e, s)
    | (.ok l, s) =>
      match s.listEnd with
      | (.error e, s) => (.error (wrap t e), s)
      | (.ok _, s) => (.ok l, s)

/-- `makeNilPtrDecoder` (`/repo/rlp/decode.go:475-513`) for pointers to `t`. -/
def nilPtrX (t : Ty) (k : NilKind) (dec : DecX) : DecX := fun s =>
  match s.kind with
  | (.error e, s) => (.error (wrap (.ptr t) e), s)
  | (.ok (kd, n), s) =>
    if kd ≠ .byte ∧ n = 0 then
      if kd ≠ k.kind then (.error (.inType .wrongNil (.ptr t) []), s)
      else (.ok .nil, { s with ahead := none })
    else liftX .ptr dec s

mutual
/-- The decoder made by `makeDecoder` (`/repo/rlp/decode.go:156-539`), with its errors.  Big integers are decoded through a
pointer, and it is the type of the pointer that the error has (`/repo/rlp/decode.go:225-260`). -/
def decX (F : Nat) (named : Nat → DecX) (g : Tags) : Ty → DecX
  | .bool => prim (wrap .bool) .bool Stream.bool
  | .uint bits => prim (wrap (.uint bits)) (fun n : Nat => .num n) (Stream.uint · bits)
  | .big => prim (wrap (.ptr .big)) (fun n : Nat => .num n) (Stream.bigInt · none)
  | .u256 => prim (wrap (.ptr .u256)) (fun n : Nat => .num n) (Stream.bigInt · (some 32))
  | .str => prim (wrap .str) .bytes Stream.bytes
  | .bytes => prim (wrap .bytes) .bytes Stream.bytes
  | .byteArr n => byteArrX n
  | .raw => prim .plain .bytes Stream.raw
  | .any => liftX .any (ifaceX F)
  | .ptr t =>
    if t.isNum = false ∧ g.nilOK = true then nilPtrX t (typeNilKind t g) (decX F named {} t) else liftX .ptr (decX F named {} t)
  | .slice t =>
    if g.tail then liftX .list (fun s => elemsX (decX F named {} t) (s.r.length + 1) 0 s)
    else liftX .list (sliceX (.slice t) (decX F named {} t))
  | .array n t => liftX .list (inListX (.array n t) (arrX (.array n t) (decX F named {} t) n 0))
  | .struct fs => liftX .list (inListX (.struct fs) (fldsX F named (.struct fs) 0 fs))
  | .ref i => named i
/-- The loop over the fields of `t`, from field `k` on (`/repo/rlp/decode.go:418-432`). -/
def fldsX (F : Nat) (named : Nat → DecX) (t : Ty) : Nat → Flds → Stream → Except XErr (List Val) × Stream
  | _, .nil, s => (.ok [], s)
  | k, .cons g u fs, s =>
    match decX F named g u s with
    | (.error (.plain .eol), s) => if g.optional then (.ok (u.zero :: fs.zeros), s) else (.error (.inType .tooFew t []), s)
    | (.error e, s) => (.error (e.add (.fld t k)), s)
    | (.ok v, s) =>
      match fldsX F named t (k + 1) fs s with
      | (.error e, s) => (.error e, s)
      | (.ok l, s) => (.ok (v :: l), s)
end

section
variable (Γ : Nat → Flds)

/-- The decoders of the named types, for nesting up to `f`. -/
def namedX (F : Nat) : Nat → Nat → DecX
  | 0, _ => fun s => (.error (.plain .outOfFuel), s)
  | f + 1, i => liftX .list (inListX (.ref i) (fldsX F (namedX F f) (.ref i) 0 (Γ i)))

/-- `DecodeBytes` into a value of a type (`/repo/rlp/decode.go:92-106`), before the type is added to the context. -/
def decodeBytesX (t : Ty) (b : Bytes) : Except XErr Val :=
  match decX (b.length + 2) (namedX Γ (b.length + 2) (b.length + 1)) {} t (Stream.ofBytes b) with
  | (.error e, _) => .error e
  | (.ok v, s) => if 0 < s.r.length then .error (.plain .moreThanOne) else .ok v

end

/-! ### The same decoder -/

/-- What went wrong. -/
def XErr.err : XErr → Err
  | .plain e => e
  | .inType e _ _ => e

def strip {α : Type} : Except XErr α × Stream → Except Err α × Stream
  | (.error e, s) => (.error e.err, s)
  | (.ok v, s) => (.ok v, s)

@[simp] theorem wrap_err (t : Ty) (e : Err) : (wrap t e).err = e := by unfold wrap; split <;> rfl

@[simp] theorem add_err (x : Step) (e : XErr) : (e.add x).err = e.err := by cases e <;> rfl

/-- The end of a list is never reported as an error in a type. -/
def Clean {α : Type} (dec : Stream → Except XErr α × Stream) : Prop :=
  ∀ s s' e t ctx, dec s = (.error (.inType e t ctx), s') → e ≠ .eol

/-- The decoder with contexts and the one without. -/
structure Same {α : Type} (dx : Stream → Except XErr α × Stream) (d : Stream → Except Err α × Stream) : Prop where
  eq : ∀ s, strip (dx s) = d s
  clean : Clean dx

theorem wrap_clean {t u : Ty} {e e' : Err} {ctx : List Step} (h : wrap t e = .inType e' u ctx) : e' ≠ .eol := by
  unfold wrap at h
  split at h
  · next hw =>
    simp only [XErr.inType.injEq] at h
    obtain ⟨rfl, -, -⟩ := h
    rintro rfl
    simp [wraps] at hw
  · simp at h

theorem add_inType {x : Step} {e : XErr} {e' : Err} {t : Ty} {ctx : List Step} (h : e.add x = .inType e' t ctx) :
    ∃ c, e = .inType e' t c ∧ ctx = c ++ [x] := by
  cases e with
  | plain _ => simp [XErr.add] at h
  | inType a u c =>
    simp only [XErr.add, XErr.inType.injEq] at h
    obtain ⟨rfl, rfl, rfl⟩ := h
    exact ⟨c, rfl, rfl⟩

theorem same_prim {α : Type} {w : Err → XErr} {f : α → Val} {dec : Stream → Except Err α × Stream} (hw : ∀ e, (w e).err = e)
    (hc : ∀ e e' t ctx, w e = .inType e' t ctx → e' ≠ .eol) : Same (prim w f dec) (lift f dec) := by
  constructor
  · intro s
    unfold prim lift
    rcases dec s with ⟨e | v, s1⟩ <;> simp [strip, hw]
  · intro s s' e t ctx h
    unfold prim at h
    rcases hd : dec s with ⟨e1 | v, s1⟩ <;> rw [hd] at h <;> simp only [Prod.mk.injEq, Except.error.injEq, reduceCtorEq, false_and] at h
    exact hc _ _ _ _ h.1

theorem same_wrap {α : Type} {t : Ty} {f : α → Val} {dec : Stream → Except Err α × Stream} : Same (prim (wrap t) f dec) (lift f dec) :=
  same_prim (wrap_err t) (fun _ _ _ _ h => wrap_clean h)

theorem same_lift {α : Type} {f : α → Val} {dx : Stream → Except XErr α × Stream} {d : Stream → Except Err α × Stream} (h : Same dx d) :
    Same (liftX f dx) (lift f d) := by
  constructor
  · intro s
    unfold liftX lift
    rw [← h.eq s]
    rcases dx s with ⟨e | v, s1⟩ <;> rfl
  · intro s s' e t ctx he
    unfold liftX at he
    rcases hd : dx s with ⟨e1 | v, s1⟩ <;> rw [hd] at he <;> simp only [Prod.mk.injEq, Except.error.injEq, reduceCtorEq, false_and] at he
    rw [he.1] at hd
    exact h.clean _ _ _ _ _ hd

theorem same_byteArr (n : Nat) : Same (byteArrX n) (lift .bytes (Stream.readBytes · n)) := by
  constructor
  · intro s
    unfold byteArrX lift Stream.readBytes
    beta_reduce
    rcases s.kind with ⟨e | ⟨k, m⟩, s1⟩
    · rfl
    · cases k with
      | byte => simp only; split <;> rfl
      | string =>
        simp only
        split
        · rfl
        · rcases s1.readFull m with ⟨e | b, s2⟩
          · rfl
          · simp only; split
            · simp [strip]
            · rfl
      | list => simp [strip]
  · intro s s' e t ctx h
    unfold byteArrX at h
    rcases hk : s.kind with ⟨e | ⟨k, m⟩, s1⟩ <;> rw [hk] at h
    · simp at h
    · cases k with
      | byte =>
        simp only at h
        split at h <;> simp at h
        rintro rfl; simp at h
      | string =>
        simp only at h
        split at h
        · simp at h; rintro rfl; simp at h
        · rcases hr : s1.readFull m with ⟨e | b, s2⟩ <;> rw [hr] at h
          · simp at h
          · simp only at h
            split at h
            · simp only [Prod.mk.injEq, Except.error.injEq] at h
              exact wrap_clean h.1
            · simp at h
      | list =>
        simp only [Prod.mk.injEq, Except.error.injEq] at h
        exact wrap_clean h.1

/-- The loop sees the end of the list exactly when the loop without contexts does. -/
theorem Same.cases {α : Type} {dx : Stream → Except XErr α × Stream} {d : Stream → Except Err α × Stream} (h : Same dx d) (s : Stream) :
    (∃ s', dx s = (.error (.plain .eol), s') ∧ d s = (.error .eol, s')) ∨
    (∃ e s', e.err ≠ .eol ∧ dx s = (.error e, s') ∧ d s = (.error e.err, s')) ∨
    (∃ v s', dx s = (.ok v, s') ∧ d s = (.ok v, s')) := by
  have he := h.eq s
  rcases hd : dx s with ⟨e | v, s1⟩ <;> rw [hd] at he
  · by_cases h0 : e.err = .eol
    · cases e with
      | plain e =>
        simp only [XErr.err] at h0
        subst h0
        exact .inl ⟨s1, rfl, he.symm⟩
      | inType e t ctx => exact absurd h0 (h.clean _ _ _ _ _ hd)
    · exact .inr (.inl ⟨e, s1, h0, rfl, he.symm⟩)
  · exact .inr (.inr ⟨v, s1, rfl, he.symm⟩)

theorem ne_plain_eol {e : XErr} (h : e.err ≠ .eol) : e ≠ .plain .eol := by rintro rfl; exact h rfl

theorem elemsX_eol {α : Type} {dx : Stream → Except XErr α × Stream} {s s' : Stream} (h : dx s = (.error (.plain .eol), s')) (f i : Nat) :
    elemsX dx (f + 1) i s = (.ok [], s') := by rw [elemsX, h]

theorem elemsX_err {α : Type} {dx : Stream → Except XErr α × Stream} {s s' : Stream} {e : XErr} (hne : e.err ≠ .eol)
    (h : dx s = (.error e, s')) (f i : Nat) : elemsX dx (f + 1) i s = (.error (e.add (.idx i)), s') := by
  rw [elemsX, h]
  cases e with
  | plain e => cases e <;> first | rfl | exact absurd rfl hne
  | inType e t c => rfl

theorem sliceElems_of_err {α : Type} {d : Stream → Except Err α × Stream} {s s' : Stream} {e : Err} (hne : e ≠ .eol)
    (h : d s = (.error e, s')) (f : Nat) : sliceElems d (f + 1) s = (.error e, s') := by
  rw [sliceElems, h]
  cases e <;> first | rfl | exact absurd rfl hne

theorem same_elems {α : Type} {dx : Stream → Except XErr α × Stream} {d : Stream → Except Err α × Stream} (h : Same dx d) :
    ∀ f i, Same (elemsX dx f i) (sliceElems d f)
  | 0, i => ⟨fun s => rfl, fun s s' e t ctx he => by simp [elemsX] at he⟩
  | f + 1, i => by
    have ih := same_elems h f (i + 1)
    constructor
    · intro s
      rcases h.cases s with ⟨s', h1, h2⟩ | ⟨e, s', hne, h1, h2⟩ | ⟨v, s', h1, h2⟩
      · rw [elemsX_eol h1, sliceElems, h2]; rfl
      · rw [elemsX_err hne h1, sliceElems_of_err hne h2]; simp [strip]
      · rw [elemsX, sliceElems, h1, h2]
        simp only
        rw [← ih.eq s']
        rcases elemsX dx f (i + 1) s' with ⟨e | l, s2⟩ <;> rfl
    · intro s s' e t ctx he
      rcases h.cases s with ⟨s1, h1, h2⟩ | ⟨e1, s1, hne, h1, h2⟩ | ⟨v, s1, h1, h2⟩
      · rw [elemsX_eol h1] at he; simp at he
      · rw [elemsX_err hne h1] at he
        simp only [Prod.mk.injEq, Except.error.injEq] at he
        obtain ⟨c, rfl, -⟩ := add_inType he.1
        exact hne
      · rw [elemsX, h1] at he
        simp only at he
        rcases hx : elemsX dx f (i + 1) s1 with ⟨e1 | l, s2⟩ <;> rw [hx] at he <;>
          simp only [Prod.mk.injEq, Except.error.injEq, reduceCtorEq, false_and] at he
        rw [he.1] at hx
        exact ih.clean _ _ _ _ _ hx

theorem same_slice {α : Type} {dx : Stream → Except XErr α × Stream} {d : Stream → Except Err α × Stream} (t : Ty) (h : Same dx d) :
    Same (sliceX t dx) (listSlice d) := by
  constructor
  · intro s
    unfold sliceX listSlice
    rcases s.list with ⟨e | n, s1⟩
    · simp [strip]
    · simp only
      split
      · rcases s1.listEnd with ⟨e | _, s2⟩ <;> rfl
      · rw [← (same_elems h _ 0).eq s1]
        rcases elemsX dx (s1.r.length + 1) 0 s1 with ⟨e | l, s2⟩
        · rfl
        · simp only [strip]
          rcases s2.listEnd with ⟨e | _, s3⟩ <;> rfl
  · intro s s' e u ctx he
    unfold sliceX at he
    rcases hl : s.list with ⟨e1 | n, s1⟩ <;> rw [hl] at he <;> simp only at he
    · simp only [Prod.mk.injEq, Except.error.injEq] at he
      exact wrap_clean he.1
    · split at he
      · rcases hq : s1.listEnd with ⟨e1 | _, s2⟩ <;> rw [hq] at he <;> simp at he
      · rcases hx : elemsX dx (s1.r.length + 1) 0 s1 with ⟨e1 | l, s2⟩ <;> rw [hx] at he <;> simp only at he
        · simp only [Prod.mk.injEq, Except.error.injEq] at he
          rw [he.1] at hx
          exact (same_elems h _ 0).clean _ _ _ _ _ hx
        · rcases hq : s2.listEnd with ⟨e1 | _, s3⟩ <;> rw [hq] at he <;> simp at he

theorem same_iface : ∀ f, Same (ifaceX f) (decodeIface f)
  | 0 => ⟨fun s => rfl, fun s s' e t ctx he => by simp [ifaceX] at he⟩
  | f + 1 => by
    have ih := same_slice (.slice .any) (same_iface f)
    constructor
    · intro s
      rw [ifaceX, decodeIface]
      rcases s.kind with ⟨e | ⟨k, m⟩, s1⟩
      · rfl
      · cases k with
        | list =>
          simp only
          rw [← ih.eq s1]
          rcases sliceX (.slice .any) (ifaceX f) s1 with ⟨e | l, s2⟩ <;> rfl
        | byte => simp only; rcases s1.bytes with ⟨e | b, s2⟩ <;> rfl
        | string => simp only; rcases s1.bytes with ⟨e | b, s2⟩ <;> rfl
    · intro s s' e t ctx he
      rw [ifaceX] at he
      rcases hk : s.kind with ⟨e | ⟨k, m⟩, s1⟩ <;> rw [hk] at he
      · simp at he
      · cases k with
        | list =>
          simp only at he
          rcases hx : sliceX (.slice .any) (ifaceX f) s1 with ⟨e1 | l, s2⟩ <;> rw [hx] at he <;>
            simp only [Prod.mk.injEq, Except.error.injEq, reduceCtorEq, false_and] at he
          rw [he.1] at hx
          exact ih.clean _ _ _ _ _ hx
        | byte => simp only at he; rcases hq : s1.bytes with ⟨e | b, s2⟩ <;> rw [hq] at he <;> simp at he
        | string => simp only at he; rcases hq : s1.bytes with ⟨e | b, s2⟩ <;> rw [hq] at he <;> simp at he

theorem arrX_eol {t : Ty} {dx : DecX} {s s' : Stream} (h : dx s = (.error (.plain .eol), s')) (n i : Nat) :
    arrX t dx (n + 1) i s = (.error (.inType .tooFew t []), s') := by rw [arrX, h]

theorem arrX_err {t : Ty} {dx : DecX} {s s' : Stream} {e : XErr} (hne : e.err ≠ .eol)
    (h : dx s = (.error e, s')) (n i : Nat) : arrX t dx (n + 1) i s = (.error (e.add (.idx i)), s') := by
  rw [arrX, h]
  cases e with
  | plain e => cases e <;> first | rfl | exact absurd rfl hne
  | inType e t c => rfl

theorem arrElems_of_err {d : Dec} {s s' : Stream} {e : Err} (hne : e ≠ .eol)
    (h : d s = (.error e, s')) (n : Nat) : arrElems d (n + 1) s = (.error e, s') := by
  rw [arrElems, h]
  cases e <;> first | rfl | exact absurd rfl hne

theorem same_arr {t : Ty} {dx : DecX} {d : Dec} (h : Same dx d) : ∀ n i, Same (arrX t dx n i) (arrElems d n)
  | 0, i => ⟨fun s => rfl, fun s s' e t ctx he => by simp [arrX] at he⟩
  | n + 1, i => by
    have ih := same_arr (t := t) h n (i + 1)
    constructor
    · intro s
      rcases h.cases s with ⟨s', h1, h2⟩ | ⟨e, s', hne, h1, h2⟩ | ⟨v, s', h1, h2⟩
      · rw [arrX_eol h1, arrElems, h2]; rfl
      · rw [arrX_err hne h1, arrElems_of_err hne h2]; simp [strip]
      · rw [arrX, arrElems, h1, h2]
        simp only
        rw [← ih.eq s']
        rcases arrX t dx n (i + 1) s' with ⟨e | l, s2⟩ <;> rfl
    · intro s s' e u ctx he
      rcases h.cases s with ⟨s1, h1, h2⟩ | ⟨e1, s1, hne, h1, h2⟩ | ⟨v, s1, h1, h2⟩
      · rw [arrX_eol h1] at he
        simp only [Prod.mk.injEq, Except.error.injEq, XErr.inType.injEq] at he
        rw [← he.1.1]; simp
      · rw [arrX_err hne h1] at he
        simp only [Prod.mk.injEq, Except.error.injEq] at he
        obtain ⟨c, rfl, -⟩ := add_inType he.1
        exact hne
      · rw [arrX, h1] at he
        simp only at he
        rcases hx : arrX t dx n (i + 1) s1 with ⟨e1 | l, s2⟩ <;> rw [hx] at he <;>
          simp only [Prod.mk.injEq, Except.error.injEq, reduceCtorEq, false_and] at he
        rw [he.1] at hx
        exact ih.clean _ _ _ _ _ hx

theorem same_inList {t : Ty} {ex : Stream → Except XErr (List Val) × Stream} {el : Stream → Except Err (List Val) × Stream} (h : Same ex el) :
    Same (inListX t ex) (inList el) := by
  constructor
  · intro s
    unfold inListX inList
    rcases s.list with ⟨e | n, s1⟩
    · simp [strip]
    · simp only
      rw [← h.eq s1]
      rcases ex s1 with ⟨e | l, s2⟩
      · rfl
      · simp only [strip]
        rcases s2.listEnd with ⟨e | _, s3⟩
        · simp
        · rfl
  · intro s s' e u ctx he
    unfold inListX at he
    rcases hl : s.list with ⟨e1 | n, s1⟩ <;> rw [hl] at he <;> simp only at he
    · simp only [Prod.mk.injEq, Except.error.injEq] at he
      exact wrap_clean he.1
    · rcases hx : ex s1 with ⟨e1 | l, s2⟩ <;> rw [hx] at he <;> simp only at he
      · simp only [Prod.mk.injEq, Except.error.injEq] at he
        rw [he.1] at hx
        exact h.clean _ _ _ _ _ hx
      · rcases hq : s2.listEnd with ⟨e1 | _, s3⟩ <;> rw [hq] at he <;> simp only [Prod.mk.injEq, Except.error.injEq, reduceCtorEq, false_and] at he
        exact wrap_clean he.1

theorem same_nilPtr {t : Ty} {k : NilKind} {dx : DecX} {d : Dec} (h : Same dx d) : Same (nilPtrX t k dx) (nilPtr k d) := by
  constructor
  · intro s
    unfold nilPtrX nilPtr
    rcases s.kind with ⟨e | ⟨kd, n⟩, s1⟩
    · simp [strip]
    · simp only
      split
      · split <;> rfl
      · exact (same_lift h).eq s1
  · intro s s' e u ctx he
    unfold nilPtrX at he
    rcases hk : s.kind with ⟨e1 | ⟨kd, n⟩, s1⟩ <;> rw [hk] at he <;> simp only at he
    · simp only [Prod.mk.injEq, Except.error.injEq] at he
      exact wrap_clean he.1
    · split at he
      · split at he <;> simp only [Prod.mk.injEq, Except.error.injEq, XErr.inType.injEq, reduceCtorEq, false_and] at he
        rw [← he.1.1]; simp
      · exact (same_lift h).clean _ _ _ _ _ he

section
variable {F : Nat} {nx : Nat → DecX} {nm : Nat → Dec}

theorem fldsX_eol {t u : Ty} {g : Tags} {fs : Flds} {k : Nat} {s s' : Stream} (h : decX F nx g u s = (.error (.plain .eol), s')) :
    fldsX F nx t k (.cons g u fs) s =
      if g.optional then (.ok (u.zero :: fs.zeros), s') else (.error (.inType .tooFew t []), s') := by rw [fldsX, h]

theorem fldsX_err {t u : Ty} {g : Tags} {fs : Flds} {k : Nat} {s s' : Stream} {e : XErr} (hne : e.err ≠ .eol)
    (h : decX F nx g u s = (.error e, s')) : fldsX F nx t k (.cons g u fs) s = (.error (e.add (.fld t k)), s') := by
  rw [fldsX, h]
  cases e with
  | plain e => cases e <;> first | rfl | exact absurd rfl hne
  | inType e t c => rfl

theorem decFlds_of_err {u : Ty} {g : Tags} {fs : Flds} {s s' : Stream} {e : Err} (hne : e ≠ .eol)
    (h : decTy F nm g u s = (.error e, s')) : decFlds F nm (.cons g u fs) s = (.error e, s') := by
  rw [decFlds, h]
  cases e <;> first | rfl | exact absurd rfl hne

mutual
theorem same_ty (hn : ∀ i, Same (nx i) (nm i)) : ∀ (t : Ty) (g : Tags), Same (decX F nx g t) (decTy F nm g t)
  | .bool, g => by rw [decX, decTy]; exact same_wrap
  | .uint _, g => by rw [decX, decTy]; exact same_wrap
  | .big, g => by rw [decX, decTy]; exact same_wrap
  | .u256, g => by rw [decX, decTy]; exact same_wrap
  | .str, g => by rw [decX, decTy]; exact same_wrap
  | .bytes, g => by rw [decX, decTy]; exact same_wrap
  | .byteArr n, g => by rw [decX, decTy]; exact same_byteArr n
  | .raw, g => by rw [decX, decTy]; exact same_prim (fun _ => rfl) (fun _ _ _ _ h => by simp at h)
  | .any, g => by rw [decX, decTy]; exact same_lift (same_iface F)
  | .ptr t, g => by
    have ht := same_ty hn t {}
    rw [decX, decTy]
    split
    · exact same_nilPtr ht
    · exact same_lift ht
  | .slice t, g => by
    have ht := same_ty hn t {}
    rw [decX, decTy]
    split
    · refine same_lift ⟨fun s => (same_elems ht _ 0).eq s, fun s s' e u ctx h => (same_elems ht _ 0).clean s s' e u ctx h⟩
    · exact same_lift (same_slice _ ht)
  | .array n t, g => by rw [decX, decTy]; exact same_lift (same_inList (same_arr (same_ty hn t {}) n 0))
  | .struct fs, g => by rw [decX, decTy]; exact same_lift (same_inList (same_flds hn fs _ 0))
  | .ref i, g => by rw [decX, decTy]; exact hn i
theorem same_flds (hn : ∀ i, Same (nx i) (nm i)) : ∀ (fs : Flds) (t : Ty) (k : Nat), Same (fldsX F nx t k fs) (decFlds F nm fs)
  | .nil, t, k => ⟨fun s => by rw [fldsX, decFlds]; rfl, fun s s' e t ctx he => by rw [fldsX] at he; simp at he⟩
  | .cons g u fs, t, k => by
    have hu := same_ty hn u g
    have ih := same_flds hn fs t (k + 1)
    constructor
    · intro s
      rcases hu.cases s with ⟨s', h1, h2⟩ | ⟨e, s', hne, h1, h2⟩ | ⟨v, s', h1, h2⟩
      · rw [fldsX_eol h1, decFlds, h2]
        simp only
        split <;> rfl
      · rw [fldsX_err hne h1, decFlds_of_err hne h2]; simp [strip]
      · rw [fldsX, decFlds, h1, h2]
        simp only
        rw [← ih.eq s']
        rcases fldsX F nx t (k + 1) fs s' with ⟨e | l, s2⟩ <;> rfl
    · intro s s' e u ctx he
      rcases hu.cases s with ⟨s1, h1, h2⟩ | ⟨e1, s1, hne, h1, h2⟩ | ⟨v, s1, h1, h2⟩
      · rw [fldsX_eol h1] at he
        split at he <;> simp only [Prod.mk.injEq, Except.error.injEq, XErr.inType.injEq, reduceCtorEq, false_and] at he
        rw [← he.1.1]; simp
      · rw [fldsX_err hne h1] at he
        simp only [Prod.mk.injEq, Except.error.injEq] at he
        obtain ⟨c, rfl, -⟩ := add_inType he.1
        exact hne
      · rw [fldsX, h1] at he
        simp only at he
        rcases hx : fldsX F nx t (k + 1) fs s1 with ⟨e1 | l, s2⟩ <;> rw [hx] at he <;>
          simp only [Prod.mk.injEq, Except.error.injEq, reduceCtorEq, false_and] at he
        rw [he.1] at hx
        exact ih.clean _ _ _ _ _ hx
end
end

theorem same_named (Γ : Nat → Flds) (F : Nat) : ∀ f i, Same (namedX Γ F f i) (named Γ F f i)
  | 0, i => ⟨fun s => rfl, fun s s' e t ctx he => by simp [namedX] at he⟩
  | f + 1, i => by
    rw [namedX, named, decTy]
    exact same_lift (same_inList (same_flds (same_named Γ F f) (Γ i) _ 0))

/-- C162: the values, the inputs refused and the reasons are those of the decoder without contexts. -/
theorem C162_same (Γ : Nat → Flds) (t : Ty) (b : Bytes) :
    (match decodeBytesX Γ t b with | .ok v => .ok v | .error e => .error e.err) = decodeBytesTy Γ t b := by
  unfold decodeBytesX decodeBytesTy Stream.decodeTy
  rw [show (Stream.ofBytes b).r = b from rfl,
    ← (same_ty (F := b.length + 2) (same_named Γ (b.length + 2) (b.length + 1)) t {}).eq (Stream.ofBytes b)]
  rcases decX (b.length + 2) (namedX Γ (b.length + 2) (b.length + 1)) {} t (Stream.ofBytes b) with ⟨e | v, s⟩
  · rfl
  · simp only [strip]
    by_cases h : 0 < s.r.length
    · rw [if_pos h, if_pos h]; rfl
    · rw [if_neg h, if_neg h]

/-! ### The way to the type -/

/-- The type of the field with this number. -/
def _root_.Verif.Rlp.Flds.nth : Flds → Nat → Option (Tags × Ty)
  | .nil, _ => none
  | .cons g t _, 0 => some (g, t)
  | .cons _ _ fs, k + 1 => fs.nth k

/-- `Leads t p u`: from values of `t`, the way leads to values of `u`; pointers are followed. -/
inductive Leads (Γ : Nat → Flds) : Ty → List Step → Ty → Prop
  | here (t) : Leads Γ t [] t
  | ptr {t p u} (h : Leads Γ t p u) : Leads Γ (.ptr t) p u
  | slice {t p u} (i : Nat) (h : Leads Γ t p u) : Leads Γ (.slice t) (.idx i :: p) u
  | array {t p u n i} (hi : i < n) (h : Leads Γ t p u) : Leads Γ (.array n t) (.idx i :: p) u
  | struct {fs k g t p u} (hk : fs.nth k = some (g, t)) (h : Leads Γ t p u) : Leads Γ (.struct fs) (.fld (.struct fs) k :: p) u
  | ref {i k g t p u} (hk : (Γ i).nth k = some (g, t)) (h : Leads Γ t p u) : Leads Γ (.ref i) (.fld (.ref i) k :: p) u

/-- The type in the error: the one of the value, for big integers that of a pointer to it. -/
def Named (u w : Ty) : Prop := w = u ∨ (u = .big ∨ u = .u256) ∧ w = .ptr u

/-- The errors of a decoder into `t` say where they are. -/
def Ways (Γ : Nat → Flds) (t : Ty) (dx : DecX) : Prop :=
  ∀ s s' e w ctx, dx s = (.error (.inType e w ctx), s') → ∃ u, Named u w ∧ Leads Γ t ctx.reverse u

theorem wrap_inType {t w : Ty} {e e' : Err} {ctx : List Step} (h : wrap t e = .inType e' w ctx) : w = t ∧ ctx = [] := by
  unfold wrap at h
  split at h
  · simp only [XErr.inType.injEq] at h
    exact ⟨h.2.1.symm, h.2.2.symm⟩
  · simp at h

theorem prim_inType {α : Type} {t w : Ty} {f : α → Val} {dec : Stream → Except Err α × Stream} {s s' : Stream} {e : Err} {ctx : List Step}
    (h : prim (wrap t) f dec s = (.error (.inType e w ctx), s')) : w = t ∧ ctx = [] := by
  unfold prim at h
  rcases hd : dec s with ⟨e1 | v, s1⟩ <;> rw [hd] at h <;> simp only [Prod.mk.injEq, Except.error.injEq, reduceCtorEq, false_and] at h
  exact wrap_inType h.1

theorem liftX_inType {α : Type} {f : α → Val} {dx : Stream → Except XErr α × Stream} {s s' : Stream} {e : XErr}
    (h : liftX f dx s = (.error e, s')) : dx s = (.error e, s') := by
  unfold liftX at h
  rcases hd : dx s with ⟨e1 | v, s1⟩ <;> rw [hd] at h <;> simp only [Prod.mk.injEq, Except.error.injEq, reduceCtorEq, false_and] at h
  rw [h.1, h.2]

theorem byteArrX_inType {n : Nat} {s s' : Stream} {e : Err} {w : Ty} {ctx : List Step}
    (h : byteArrX n s = (.error (.inType e w ctx), s')) : w = .byteArr n ∧ ctx = [] := by
  unfold byteArrX at h
  rcases hk : s.kind with ⟨e | ⟨k, m⟩, s1⟩ <;> rw [hk] at h
  · simp at h
  · cases k with
    | byte =>
      simp only at h
      split at h <;> simp only [Prod.mk.injEq, Except.error.injEq, XErr.inType.injEq, reduceCtorEq, false_and] at h
      exact ⟨h.1.2.1.symm, h.1.2.2.symm⟩
    | string =>
      simp only at h
      split at h
      · simp only [Prod.mk.injEq, Except.error.injEq, XErr.inType.injEq] at h
        exact ⟨h.1.2.1.symm, h.1.2.2.symm⟩
      · rcases hr : s1.readFull m with ⟨e | b, s2⟩ <;> rw [hr] at h
        · simp at h
        · simp only at h
          split at h
          · simp only [Prod.mk.injEq, Except.error.injEq] at h
            exact wrap_inType h.1
          · simp at h
    | list =>
      simp only [Prod.mk.injEq, Except.error.injEq] at h
      exact wrap_inType h.1

theorem elemsX_inType {α : Type} {dx : Stream → Except XErr α × Stream} {e : Err} {w : Ty} {ctx : List Step} :
    ∀ {f i : Nat} {s s' : Stream}, elemsX dx f i s = (.error (.inType e w ctx), s') →
      ∃ j s1 s2 c, dx s1 = (.error (.inType e w c), s2) ∧ ctx = c ++ [.idx j]
  | 0, _, _, _, h => by simp [elemsX] at h
  | f + 1, i, s, s', h => by
    rcases hd : dx s with ⟨e1 | v, s1⟩
    · by_cases h0 : e1 = .plain .eol
      · subst h0; rw [elemsX_eol hd] at h; simp at h
      · have : elemsX dx (f + 1) i s = (.error (e1.add (.idx i)), s1) := by
          rw [elemsX, hd]
          cases e1 with
          | plain e => cases e <;> first | rfl | exact absurd rfl h0
          | inType e t c => rfl
        rw [this] at h
        simp only [Prod.mk.injEq, Except.error.injEq] at h
        obtain ⟨c, rfl, hc⟩ := add_inType h.1
        exact ⟨i, s, s1, c, hd, hc⟩
    · rw [elemsX, hd] at h
      simp only at h
      rcases hx : elemsX dx f (i + 1) s1 with ⟨e1 | l, s2⟩ <;> rw [hx] at h <;>
        simp only [Prod.mk.injEq, Except.error.injEq, reduceCtorEq, false_and] at h
      rw [h.1] at hx
      exact elemsX_inType hx

theorem sliceX_inType {α : Type} {t : Ty} {dx : Stream → Except XErr α × Stream} {e : Err} {w : Ty} {ctx : List Step}
    {s s' : Stream} (h : sliceX t dx s = (.error (.inType e w ctx), s')) :
    (w = t ∧ ctx = [] ∧ ∃ e' s1, s.list = (.error e', s1)) ∨
      ∃ j s1 s2 c, dx s1 = (.error (.inType e w c), s2) ∧ ctx = c ++ [.idx j] := by
  unfold sliceX at h
  rcases hl : s.list with ⟨e1 | n, s1⟩ <;> rw [hl] at h <;> simp only at h
  · simp only [Prod.mk.injEq, Except.error.injEq] at h
    obtain ⟨h1, h2⟩ := wrap_inType h.1
    exact .inl ⟨h1, h2, e1, s1, rfl⟩
  · split at h
    · rcases hq : s1.listEnd with ⟨e1 | _, s2⟩ <;> rw [hq] at h <;> simp at h
    · rcases hx : elemsX dx (s1.r.length + 1) 0 s1 with ⟨e1 | l, s2⟩ <;> rw [hx] at h <;> simp only at h
      · simp only [Prod.mk.injEq, Except.error.injEq] at h
        rw [h.1] at hx
        exact .inr (elemsX_inType hx)
      · rcases hq : s2.listEnd with ⟨e1 | _, s3⟩ <;> rw [hq] at h <;> simp at h

theorem kind_again {s s1 : Stream} {k : Kind} {n : Nat} (h : s.kind = (.ok (k, n), s1)) : s1.kind = (.ok (k, n), s1) := by
  unfold Stream.kind at h
  split at h
  · next ha =>
    simp only [Prod.mk.injEq, Except.ok.injEq] at h
    obtain ⟨⟨rfl, rfl⟩, rfl⟩ := h
    unfold Stream.kind
    rw [ha]
  · simp at h
  · split at h
    · simp at h
    · dsimp only at h
      split at h
      · simp at h
      · next h0 =>
        simp only [Prod.mk.injEq, Except.ok.injEq] at h
        obtain ⟨⟨rfl, rfl⟩, rfl⟩ := h
        unfold Stream.kind
        simp only [h0]

/-- Inside an interface no error says where it is. -/
theorem ifaceX_plain : ∀ {f : Nat} {s s' : Stream} {e : Err} {w : Ty} {ctx : List Step},
    ifaceX f s ≠ (.error (.inType e w ctx), s')
  | 0, s, s', e, w, ctx, h => by simp [ifaceX] at h
  | f + 1, s, s', e, w, ctx, h => by
    rw [ifaceX] at h
    rcases hk : s.kind with ⟨e | ⟨k, m⟩, s1⟩ <;> rw [hk] at h
    · simp at h
    · cases k with
      | list =>
        simp only at h
        rcases hx : sliceX (.slice .any) (ifaceX f) s1 with ⟨e1 | l, s2⟩ <;> rw [hx] at h <;>
          simp only [Prod.mk.injEq, Except.error.injEq, reduceCtorEq, false_and] at h
        rw [h.1] at hx
        rcases sliceX_inType hx with ⟨-, -, e', s3, hl⟩ | ⟨j, s3, s4, c, h1, -⟩
        · unfold Stream.list at hl
          rw [kind_again hk] at hl
          simp at hl
        · exact ifaceX_plain h1
      | byte => simp only at h; rcases hq : s1.bytes with ⟨e | b, s2⟩ <;> rw [hq] at h <;> simp at h
      | string => simp only at h; rcases hq : s1.bytes with ⟨e | b, s2⟩ <;> rw [hq] at h <;> simp at h

theorem arrX_inType {t : Ty} {dx : DecX} {e : Err} {w : Ty} {ctx : List Step} :
    ∀ {n i : Nat} {s s' : Stream}, arrX t dx n i s = (.error (.inType e w ctx), s') →
      (w = t ∧ ctx = []) ∨ ∃ j s1 s2 c, j < i + n ∧ dx s1 = (.error (.inType e w c), s2) ∧ ctx = c ++ [.idx j]
  | 0, _, _, _, h => by simp [arrX] at h
  | n + 1, i, s, s', h => by
    rcases hd : dx s with ⟨e1 | v, s1⟩
    · by_cases h0 : e1 = .plain .eol
      · subst h0
        rw [arrX_eol hd] at h
        simp only [Prod.mk.injEq, Except.error.injEq, XErr.inType.injEq] at h
        exact .inl ⟨h.1.2.1.symm, h.1.2.2.symm⟩
      · have : arrX t dx (n + 1) i s = (.error (e1.add (.idx i)), s1) := by
          rw [arrX, hd]
          cases e1 with
          | plain e => cases e <;> first | rfl | exact absurd rfl h0
          | inType e t c => rfl
        rw [this] at h
        simp only [Prod.mk.injEq, Except.error.injEq] at h
        obtain ⟨c, rfl, hc⟩ := add_inType h.1
        exact .inr ⟨i, s, s1, c, by omega, hd, hc⟩
    · rw [arrX, hd] at h
      simp only at h
      rcases hx : arrX t dx n (i + 1) s1 with ⟨e1 | l, s2⟩ <;> rw [hx] at h <;>
        simp only [Prod.mk.injEq, Except.error.injEq, reduceCtorEq, false_and] at h
      rw [h.1] at hx
      rcases arrX_inType hx with h1 | ⟨j, s3, s4, c, h1, h2, h3⟩
      · exact .inl h1
      · exact .inr ⟨j, s3, s4, c, by omega, h2, h3⟩

theorem inListX_inType {t : Ty} {ex : Stream → Except XErr (List Val) × Stream} {e : Err} {w : Ty} {ctx : List Step}
    {s s' : Stream} (h : inListX t ex s = (.error (.inType e w ctx), s')) :
    (w = t ∧ ctx = []) ∨ ∃ n s1 s2, s.list = (.ok n, s1) ∧ ex s1 = (.error (.inType e w ctx), s2) := by
  unfold inListX at h
  rcases hl : s.list with ⟨e1 | n, s1⟩ <;> rw [hl] at h <;> simp only at h
  · simp only [Prod.mk.injEq, Except.error.injEq] at h
    exact .inl (wrap_inType h.1)
  · rcases hx : ex s1 with ⟨e1 | l, s2⟩ <;> rw [hx] at h <;> simp only at h
    · simp only [Prod.mk.injEq, Except.error.injEq] at h
      rw [h.1] at hx
      exact .inr ⟨n, s1, s2, rfl, hx⟩
    · rcases hq : s2.listEnd with ⟨e1 | _, s3⟩ <;> rw [hq] at h <;> simp only [Prod.mk.injEq, Except.error.injEq, reduceCtorEq, false_and] at h
      exact .inl (wrap_inType h.1)

theorem nilPtrX_inType {t : Ty} {k : NilKind} {dx : DecX} {e : Err} {w : Ty} {ctx : List Step}
    {s s' : Stream} (h : nilPtrX t k dx s = (.error (.inType e w ctx), s')) :
    (w = .ptr t ∧ ctx = []) ∨ ∃ kd n s1, s.kind = (.ok (kd, n), s1) ∧ dx s1 = (.error (.inType e w ctx), s') := by
  unfold nilPtrX at h
  rcases hk : s.kind with ⟨e1 | ⟨kd, n⟩, s1⟩ <;> rw [hk] at h <;> simp only at h
  · simp only [Prod.mk.injEq, Except.error.injEq] at h
    exact .inl (wrap_inType h.1)
  · split at h
    · split at h <;> simp only [Prod.mk.injEq, Except.error.injEq, XErr.inType.injEq, reduceCtorEq, false_and] at h
      exact .inl ⟨h.1.2.1.symm, h.1.2.2.symm⟩
    · exact .inr ⟨kd, n, s1, rfl, liftX_inType h⟩

section
variable {Γ : Nat → Flds} {F : Nat} {nx : Nat → DecX}

theorem fldsX_cons {t u : Ty} {g : Tags} {fs : Flds} {k : Nat} {s s' : Stream} {e : Err} {w : Ty} {ctx : List Step}
    (h : fldsX F nx t k (.cons g u fs) s = (.error (.inType e w ctx), s')) :
    (w = t ∧ ctx = []) ∨ (∃ c s1, decX F nx g u s = (.error (.inType e w c), s1) ∧ ctx = c ++ [.fld t k]) ∨
      ∃ v s1, decX F nx g u s = (.ok v, s1) ∧ fldsX F nx t (k + 1) fs s1 = (.error (.inType e w ctx), s') := by
  rcases hd : decX F nx g u s with ⟨e1 | v, s1⟩
  · by_cases h0 : e1 = .plain .eol
    · subst h0
      rw [fldsX_eol hd] at h
      split at h <;> simp only [Prod.mk.injEq, Except.error.injEq, XErr.inType.injEq, reduceCtorEq, false_and] at h
      exact .inl ⟨h.1.2.1.symm, h.1.2.2.symm⟩
    · have : fldsX F nx t k (.cons g u fs) s = (.error (e1.add (.fld t k)), s1) := by
        rw [fldsX, hd]
        cases e1 with
        | plain e => cases e <;> first | rfl | exact absurd rfl h0
        | inType e t c => rfl
      rw [this] at h
      simp only [Prod.mk.injEq, Except.error.injEq] at h
      obtain ⟨c, rfl, hc⟩ := add_inType h.1
      exact .inr (.inl ⟨c, s1, rfl, hc⟩)
  · rw [fldsX, hd] at h
    simp only at h
    rcases hx : fldsX F nx t (k + 1) fs s1 with ⟨e1 | l, s2⟩ <;> rw [hx] at h <;>
      simp only [Prod.mk.injEq, Except.error.injEq, reduceCtorEq, false_and] at h
    rw [h.1, h.2] at hx
    exact .inr (.inr ⟨v, s1, rfl, hx⟩)

mutual
theorem ways_ty (hn : ∀ i, Ways Γ (.ref i) (nx i)) : ∀ (t : Ty) (g : Tags), Ways Γ t (decX F nx g t)
  | .bool, g, s, s', e, w, ctx, h => by
    rw [decX] at h; obtain ⟨rfl, rfl⟩ := prim_inType h; exact ⟨_, .inl rfl, .here _⟩
  | .uint _, g, s, s', e, w, ctx, h => by
    rw [decX] at h; obtain ⟨rfl, rfl⟩ := prim_inType h; exact ⟨_, .inl rfl, .here _⟩
  | .big, g, s, s', e, w, ctx, h => by
    rw [decX] at h; obtain ⟨rfl, rfl⟩ := prim_inType h; exact ⟨_, .inr ⟨.inl rfl, rfl⟩, .here _⟩
  | .u256, g, s, s', e, w, ctx, h => by
    rw [decX] at h; obtain ⟨rfl, rfl⟩ := prim_inType h; exact ⟨_, .inr ⟨.inr rfl, rfl⟩, .here _⟩
  | .str, g, s, s', e, w, ctx, h => by
    rw [decX] at h; obtain ⟨rfl, rfl⟩ := prim_inType h; exact ⟨_, .inl rfl, .here _⟩
  | .bytes, g, s, s', e, w, ctx, h => by
    rw [decX] at h; obtain ⟨rfl, rfl⟩ := prim_inType h; exact ⟨_, .inl rfl, .here _⟩
  | .byteArr n, g, s, s', e, w, ctx, h => by
    rw [decX] at h; obtain ⟨rfl, rfl⟩ := byteArrX_inType h; exact ⟨_, .inl rfl, .here _⟩
  | .raw, g, s, s', e, w, ctx, h => by
    rw [decX] at h
    unfold prim at h
    rcases hd : s.raw with ⟨e1 | v, s1⟩ <;> rw [hd] at h <;> simp at h
  | .any, g, s, s', e, w, ctx, h => by
    rw [decX] at h
    exact absurd (liftX_inType h) ifaceX_plain
  | .ptr t, g, s, s', e, w, ctx, h => by
    have ht := ways_ty hn t {}
    rw [decX] at h
    split at h
    · rcases nilPtrX_inType h with ⟨rfl, rfl⟩ | ⟨kd, n, s1, -, h2⟩
      · exact ⟨_, .inl rfl, .here _⟩
      · obtain ⟨u, h3, h4⟩ := ht _ _ _ _ _ h2
        exact ⟨u, h3, .ptr h4⟩
    · obtain ⟨u, h3, h4⟩ := ht _ _ _ _ _ (liftX_inType h)
      exact ⟨u, h3, .ptr h4⟩
  | .slice t, g, s, s', e, w, ctx, h => by
    have ht := ways_ty hn t {}
    rw [decX] at h
    split at h
    · obtain ⟨j, s1, s2, c, h1, rfl⟩ := elemsX_inType (liftX_inType h)
      obtain ⟨u, h3, h4⟩ := ht _ _ _ _ _ h1
      rw [List.reverse_append]
      exact ⟨u, h3, .slice j h4⟩
    · rcases sliceX_inType (liftX_inType h) with ⟨rfl, rfl, -⟩ | ⟨j, s1, s2, c, h1, rfl⟩
      · exact ⟨_, .inl rfl, .here _⟩
      · obtain ⟨u, h3, h4⟩ := ht _ _ _ _ _ h1
        rw [List.reverse_append]
        exact ⟨u, h3, .slice j h4⟩
  | .array n t, g, s, s', e, w, ctx, h => by
    have ht := ways_ty hn t {}
    rw [decX] at h
    rcases inListX_inType (liftX_inType h) with ⟨rfl, rfl⟩ | ⟨_, s1, s2, -, h1⟩
    · exact ⟨_, .inl rfl, .here _⟩
    · rcases arrX_inType h1 with ⟨rfl, rfl⟩ | ⟨j, s3, s4, c, h2, h3, rfl⟩
      · exact ⟨_, .inl rfl, .here _⟩
      · obtain ⟨u, h4, h5⟩ := ht _ _ _ _ _ h3
        rw [List.reverse_append]
        exact ⟨u, h4, .array (by omega) h5⟩
  | .struct fs, g, s, s', e, w, ctx, h => by
    rw [decX] at h
    rcases inListX_inType (liftX_inType h) with ⟨rfl, rfl⟩ | ⟨_, s1, s2, -, h1⟩
    · exact ⟨_, .inl rfl, .here _⟩
    · rcases ways_flds hn fs _ _ _ _ _ _ _ h1 with ⟨rfl, rfl⟩ | ⟨j, g', u, p, v, h2, h3, h4, h5⟩
      · exact ⟨_, .inl rfl, .here _⟩
      · rw [h5, Nat.zero_add]
        exact ⟨v, h3, .struct h2 h4⟩
  | .ref i, g, s, s', e, w, ctx, h => by rw [decX] at h; exact hn i s s' e w ctx h
theorem ways_flds (hn : ∀ i, Ways Γ (.ref i) (nx i)) : ∀ (fs : Flds) (t : Ty) (k : Nat) (s s' : Stream) (e : Err) (w : Ty) (ctx : List Step),
    fldsX F nx t k fs s = (.error (.inType e w ctx), s') → (w = t ∧ ctx = []) ∨
      ∃ j g u p v, fs.nth j = some (g, u) ∧ Named v w ∧ Leads Γ u p v ∧ ctx.reverse = .fld t (k + j) :: p
  | .nil, t, k, s, s', e, w, ctx, h => by rw [fldsX] at h; simp at h
  | .cons g u fs, t, k, s, s', e, w, ctx, h => by
    have hu := ways_ty hn u g
    rcases fldsX_cons h with h1 | ⟨c, s1, h1, rfl⟩ | ⟨v, s1, h1, h2⟩
    · exact .inl h1
    · obtain ⟨v, h3, h4⟩ := hu _ _ _ _ _ h1
      exact .inr ⟨0, g, u, c.reverse, v, rfl, h3, h4, by rw [List.reverse_append]; rfl⟩
    · rcases ways_flds hn fs t (k + 1) _ _ _ _ _ h2 with h3 | ⟨j, g', u', p, v', h3, h4, h5, h6⟩
      · exact .inl h3
      · exact .inr ⟨j + 1, g', u', p, v', h3, h4, h5, by rw [h6, Nat.add_right_comm, Nat.add_assoc]⟩
end

theorem ways_named (F : Nat) : ∀ f i, Ways Γ (.ref i) (namedX Γ F f i)
  | 0, i, s, s', e, w, ctx, h => by simp [namedX] at h
  | f + 1, i, s, s', e, w, ctx, h => by
    rw [namedX] at h
    rcases inListX_inType (liftX_inType h) with ⟨rfl, rfl⟩ | ⟨_, s1, s2, -, h1⟩
    · exact ⟨_, .inl rfl, .here _⟩
    · rcases ways_flds (ways_named F f) _ _ _ _ _ _ _ _ h1 with ⟨rfl, rfl⟩ | ⟨j, g', u, p, v, h2, h3, h4, h5⟩
      · exact ⟨_, .inl rfl, .here _⟩
      · rw [h5, Nat.zero_add]
        exact ⟨v, h3, .ref h2 h4⟩

end

/-- C162: whatever the input, the context of an error, the outermost part first, leads from the type decoded into to the type in
the error. -/
theorem C162_path {Γ : Nat → Flds} {t w : Ty} {b : Bytes} {e : Err} {ctx : List Step}
    (h : decodeBytesX Γ t b = .error (.inType e w ctx)) : ∃ u, Named u w ∧ Leads Γ t ctx.reverse u := by
  unfold decodeBytesX at h
  rcases hd : decX (b.length + 2) (namedX Γ (b.length + 2) (b.length + 1)) {} t (Stream.ofBytes b) with ⟨e1 | v, s⟩ <;> rw [hd] at h
  · simp only [Except.error.injEq] at h
    rw [h] at hd
    exact ways_ty (ways_named _ _) t {} _ _ _ _ _ hd
  · simp only at h
    split at h <;> simp at h

/-! ### The place in an item -/

mutual
/-- `Place g t i p g' u j`: from the item `i`, as a value of `t` in a field with tags `g`, the way leads to the item `j` as a value
of `u`; in every list on the way, what comes before are values of their types. -/
inductive Place (Γ : Nat → Flds) : Tags → Ty → Item → List Step → Tags → Ty → Item → Prop
  | here (g t i) : Place Γ g t i [] g t i
  | ptr {g t i p g' u j} (h : Place Γ {} t i p g' u j) : Place Γ g (.ptr t) i p g' u j
  | slice {g t p g' u j} {before after : List Item} {a : Item} (hb : ∀ x ∈ before, ∃ v, Enc Γ {} t v (enc x))
      (h : Place Γ {} t a p g' u j) :
      Place Γ g (.slice t) (.list (before ++ a :: after)) (.idx before.length :: p) g' u j
  | array {g t n p g' u j} {before after : List Item} {a : Item} (hn : before.length < n) (hb : ∀ x ∈ before, ∃ v, Enc Γ {} t v (enc x))
      (h : Place Γ {} t a p g' u j) :
      Place Γ g (.array n t) (.list (before ++ a :: after)) (.idx before.length :: p) g' u j
  | struct {g fs l p g' u j} (h : PlaceF Γ (.struct fs) 0 fs l p g' u j) : Place Γ g (.struct fs) (.list l) p g' u j
  | ref {g i l p g' u j} (h : PlaceF Γ (.ref i) 0 (Γ i) l p g' u j) : Place Γ g (.ref i) (.list l) p g' u j
/-- The same for the fields of `t` from field `k` on; a field with the tag `tail` takes all that is left. -/
inductive PlaceF (Γ : Nat → Flds) : Ty → Nat → Flds → List Item → List Step → Tags → Ty → Item → Prop
  | here {t k g u fs a l p g' w j} (hg : (g.tail && u.isSlice) = false) (h : Place Γ g u a p g' w j) :
      PlaceF Γ t k (.cons g u fs) (a :: l) (.fld t k :: p) g' w j
  | next {t k g u fs a l p g' w j} (hg : (g.tail && u.isSlice) = false) (hv : ∃ v, Enc Γ g u v (enc a))
      (h : PlaceF Γ t (k + 1) fs l p g' w j) : PlaceF Γ t k (.cons g u fs) (a :: l) p g' w j
  | tail {t k g u fs p g' w j} {before after : List Item} {a : Item} (hg : g.tail = true)
      (hb : ∀ x ∈ before, ∃ v, Enc Γ {} u v (enc x)) (h : Place Γ {} u a p g' w j) :
      PlaceF Γ t k (.cons g (.slice u) fs) (before ++ a :: after) (.fld t k :: .idx before.length :: p) g' w j
end

/-- No value's bytes begin those of another. -/
theorem rawOk_unique {x y r r' : Bytes} (hx : RawOk x) (hy : RawOk y) (h : x ++ r = y ++ r') (hl : (x ++ r).length < 2 ^ 64) : x = y := by
  have hs : ∀ n, (⟨x ++ r, 0, false, [], none, 0⟩ : Stream).fits n := fun n => ⟨by simp, by simp⟩
  obtain ⟨s1, e1, -⟩ := raw_fits (s := ⟨x ++ r, 0, false, [], none, 0⟩) (r := r) (by intro l hl; simp at hl) rfl hl hx rfl (hs _)
  obtain ⟨s2, e2, -⟩ := raw_fits (s := ⟨x ++ r, 0, false, [], none, 0⟩) (r := r') (by intro l hl; simp at hl) rfl hl hy h (hs _)
  rw [e1] at e2
  simp only [Prod.mk.injEq, Except.ok.injEq] at e2
  exact e2.1

/-- A stream at the beginning of an item that fits. -/
structure AtItem (N : Nat) (s : Stream) (i : Item) : Prop where
  wf : s.wf
  ahead : s.ahead = none
  len : s.r.length < N
  r : ∃ r, s.r = enc i ++ r
  fits : s.fits (enc i).length

theorem AtItem.succ {N : Nat} {s : Stream} {i : Item} (h : AtItem N s i) : AtItem (N + 1) s i :=
  ⟨h.wf, h.ahead, Nat.lt_succ_of_lt h.len, h.r, h.fits⟩

/-- A stream inside a list, before these items. -/
structure AtItems (N : Nat) (s : Stream) (l : List Item) : Prop where
  wf : s.wf
  ahead : s.ahead = none
  len : s.r.length < N
  r : ∃ r, s.r = encs l ++ r
  fits : s.fits (encs l).length
  top : s.stack.head? = some (encs l).length

theorem list_item {N : Nat} (hN : N < 2 ^ 63) {s s1 : Stream} {i : Item} {n : Nat} (h : AtItem (N + 1) s i) (hl : s.list = (.ok n, s1)) :
    ∃ l, i = .list l ∧ AtItems N s1 l := by
  obtain ⟨r, hr⟩ := h.r
  cases i with
  | str b =>
    exfalso
    rw [enc] at hr
    obtain ⟨s2, e1, -⟩ := C68_bytes h.wf h.ahead (by have := h.len; have := encStr_length b; rw [hr, List.length_append] at *; omega) hr (by have := h.fits; rwa [enc] at this)
    unfold Stream.list at hl
    unfold Stream.bytes at e1
    rcases hk : s.kind with ⟨e | ⟨k, m⟩, s3⟩ <;> rw [hk] at hl e1
    · simp at hl
    · simp only at hl
      split at hl
      · simp at hl
      · next hk' =>
        have : k = .list := by simpa using hk'
        subst this
        simp at e1
  | list l =>
    rw [enc] at hr
    have hf := h.fits
    rw [enc] at hf
    obtain ⟨s2, e1, e2, e3, e4, e5, e6, e7⟩ := list_fits hN h.wf h.ahead h.len hr hf
    rw [e1] at hl
    simp only [Prod.mk.injEq, Except.ok.injEq] at hl
    obtain ⟨-, rfl⟩ := hl
    exact ⟨l, rfl, e2, e3, e4, ⟨r, e5⟩, e6, e7⟩

theorem AtItems.first {N : Nat} {s : Stream} {a : Item} {l : List Item} (h : AtItems N s (a :: l)) : AtItem N s a := by
  obtain ⟨r, hr⟩ := h.r
  have hf := h.fits
  rw [encs] at hr hf
  rw [List.length_append] at hf
  exact ⟨h.wf, h.ahead, h.len, ⟨encs l ++ r, by rw [hr, List.append_assoc]⟩, hf.mono (by omega)⟩

/-- After a value has been read from the first item. -/
theorem AtItems.after {N : Nat} (hN : N < 2 ^ 63) {s s1 : Stream} {a : Item} {l : List Item} {x : Bytes} (h : AtItems N s (a :: l))
    (hx : RawOk x) (hc : Cons s x s1) : x = enc a ∧ AtItems N s1 l := by
  obtain ⟨r, hr⟩ := h.r
  have hlen := h.len
  have hf := h.fits
  have ht := h.top
  rw [encs, List.length_append] at hf ht
  rw [encs, List.append_assoc] at hr
  have hx : x = enc a := rawOk_unique hx (rawOk_enc a) (by rw [← hc.r, hr]) (by rw [← hc.r]; omega)
  subst hx
  have h1 := hc.r
  rw [hr] at h1
  have h2 := List.append_cancel_left h1
  exact ⟨rfl, hc.wf h.wf, hc.ahead, by have := hc.r_length; omega, ⟨r, h2.symm⟩, hc.fits h.wf hf, hc.top h.wf ht⟩

section
variable {Γ : Nat → Flds} {t : Ty} {dx : DecX} {d : Dec} {N : Nat}

theorem not_at_end (hs : Same dx d) (heol : AtEolR d N) {s s' : Stream} {e : Err} {w : Ty} {c : List Step} (h : AtItems N s [])
    (he : dx s = (.error (.inType e w c), s')) : False := by
  have h1 := heol s h.ahead h.len h.top
  rcases hs.cases s with ⟨s2, h2, -⟩ | ⟨e2, s2, hne, h2, h3⟩ | ⟨v, s2, h2, -⟩
  · rw [h2] at he; simp at he
  · rw [h1] at h3
    simp only [Prod.mk.injEq, Except.error.injEq] at h3
    exact hne h3.1.symm
  · rw [h2] at he; simp at he

/-- The next element: what comes out when it is read, unless the list is at its end. -/
theorem next_elem (hN : N < 2 ^ 63) (hs : Same dx d) (hd : SoundR (Enc Γ {} t) d N) (heol : AtEolR d N)
    {s s1 : Stream} {v : Val} {l : List Item} (h : AtItems N s l) (he : dx s = (.ok v, s1)) :
    ∃ a l', l = a :: l' ∧ Enc Γ {} t v (enc a) ∧ AtItems N s1 l' := by
  have hd1 : d s = (.ok v, s1) := by rw [← hs.eq s, he]; rfl
  cases l with
  | nil =>
    have h1 := heol s h.ahead h.len h.top
    rw [h1] at hd1; simp at hd1
  | cons a l =>
    obtain ⟨x, hx, hc⟩ := hd.ok h.wf h.ahead h.len hd1
    obtain ⟨rfl, h2⟩ := h.after hN (enc_rawOk rfl hx) hc
    exact ⟨a, l, rfl, hx, h2⟩

theorem elems_place (hN : N < 2 ^ 63) (hs : Same dx d) (hd : SoundR (Enc Γ {} t) d N) (heol : AtEolR d N)
    {e : Err} {w : Ty} {ctx : List Step} : ∀ {f k : Nat} {l : List Item} {s s' : Stream}, AtItems N s l →
      elemsX dx f k s = (.error (.inType e w ctx), s') →
      ∃ before a after s1 s2 c, l = before ++ a :: after ∧ (∀ x ∈ before, ∃ v, Enc Γ {} t v (enc x)) ∧
        ctx = c ++ [.idx (k + before.length)] ∧ AtItem N s1 a ∧ dx s1 = (.error (.inType e w c), s2)
  | 0, _, _, _, _, _, h => by simp [elemsX] at h
  | f + 1, k, l, s, s', hl, h => by
    rcases hs.cases s with ⟨s1, h1, -⟩ | ⟨e1, s1, hne, h1, -⟩ | ⟨v, s1, h1, -⟩
    · rw [elemsX_eol h1] at h; simp at h
    · rw [elemsX_err hne h1] at h
      simp only [Prod.mk.injEq, Except.error.injEq] at h
      obtain ⟨c, rfl, hc⟩ := add_inType h.1
      cases l with
      | nil => exact (not_at_end hs heol hl h1).elim
      | cons a l => exact ⟨[], a, l, s, s1, c, rfl, by simp, by simpa using hc, hl.first, h1⟩
    · obtain ⟨a, l', rfl, ha, hl'⟩ := next_elem hN hs hd heol hl h1
      rw [elemsX, h1] at h
      simp only at h
      rcases hx : elemsX dx f (k + 1) s1 with ⟨e1 | vs, s2⟩ <;> rw [hx] at h <;>
        simp only [Prod.mk.injEq, Except.error.injEq, reduceCtorEq, false_and] at h
      rw [h.1] at hx
      obtain ⟨before, b, after, s3, s4, c, rfl, hb, hc, h3, h4⟩ := elems_place hN hs hd heol hl' hx
      refine ⟨a :: before, b, after, s3, s4, c, rfl, ?_, by rw [hc, List.length_cons, Nat.add_right_comm, Nat.add_assoc], h3, h4⟩
      intro x hx
      rcases List.mem_cons.mp hx with rfl | hx
      · exact ⟨v, ha⟩
      · exact hb x hx

theorem arr_place (hN : N < 2 ^ 63) (hs : Same dx d) (hd : SoundR (Enc Γ {} t) d N) (heol : AtEolR d N)
    {T : Ty} {e : Err} {w : Ty} {ctx : List Step} : ∀ {n k : Nat} {l : List Item} {s s' : Stream}, AtItems N s l →
      arrX T dx n k s = (.error (.inType e w ctx), s') → (w = T ∧ ctx = []) ∨
      ∃ before a after s1 s2 c, l = before ++ a :: after ∧ before.length < n ∧ (∀ x ∈ before, ∃ v, Enc Γ {} t v (enc x)) ∧
        ctx = c ++ [.idx (k + before.length)] ∧ AtItem N s1 a ∧ dx s1 = (.error (.inType e w c), s2)
  | 0, _, _, _, _, _, h => by simp [arrX] at h
  | n + 1, k, l, s, s', hl, h => by
    rcases hs.cases s with ⟨s1, h1, -⟩ | ⟨e1, s1, hne, h1, -⟩ | ⟨v, s1, h1, -⟩
    · rw [arrX_eol h1] at h
      simp only [Prod.mk.injEq, Except.error.injEq, XErr.inType.injEq] at h
      exact .inl ⟨h.1.2.1.symm, h.1.2.2.symm⟩
    · rw [arrX_err hne h1] at h
      simp only [Prod.mk.injEq, Except.error.injEq] at h
      obtain ⟨c, rfl, hc⟩ := add_inType h.1
      cases l with
      | nil => exact (not_at_end hs heol hl h1).elim
      | cons a l => exact .inr ⟨[], a, l, s, s1, c, rfl, by simp, by simp, by simpa using hc, hl.first, h1⟩
    · obtain ⟨a, l', rfl, ha, hl'⟩ := next_elem hN hs hd heol hl h1
      rw [arrX, h1] at h
      simp only at h
      rcases hx : arrX T dx n (k + 1) s1 with ⟨e1 | vs, s2⟩ <;> rw [hx] at h <;>
        simp only [Prod.mk.injEq, Except.error.injEq, reduceCtorEq, false_and] at h
      rw [h.1] at hx
      rcases arr_place hN hs hd heol hl' hx with h1 | ⟨before, b, after, s3, s4, c, rfl, hn, hb, hc, h3, h4⟩
      · exact .inl h1
      refine .inr ⟨a :: before, b, after, s3, s4, c, rfl, by rw [List.length_cons]; omega, ?_,
        by rw [hc, List.length_cons, Nat.add_right_comm, Nat.add_assoc], h3, h4⟩
      intro x hx
      rcases List.mem_cons.mp hx with rfl | hx
      · exact ⟨v, ha⟩
      · exact hb x hx

end

/-- Looking at the header first changes nothing. -/
def PeeksX (dx : DecX) (N : Nat) : Prop := ∀ {s s1 : Stream} {k : Kind} {n : Nat}, s.r.length < N →
  s.kind = (.ok (k, n), s1) → s1.kind = (.ok (k, n), s1) → dx s1 = dx s

theorem prim_peek {α : Type} {w : Err → XErr} {f : α → Val} {dec : Stream → Except Err α × Stream} {s s1 : Stream} (h : dec s1 = dec s) :
    prim w f dec s1 = prim w f dec s := by unfold prim; rw [h]

theorem liftX_peek {α : Type} {f : α → Val} {dec : Stream → Except XErr α × Stream} {s s1 : Stream} (h : dec s1 = dec s) :
    liftX f dec s1 = liftX f dec s := by unfold liftX; rw [h]

theorem inListX_peek {T : Ty} {elems : Stream → Except XErr (List Val) × Stream} {s s1 : Stream} {k : Kind} {n : Nat}
    (h : s.kind = (.ok (k, n), s1)) (h1 : s1.kind = (.ok (k, n), s1)) : inListX T elems s1 = inListX T elems s := by
  unfold inListX; rw [list_peek h h1]

section
variable {F N : Nat} {nx : Nat → DecX}

theorem decX_peek (hF : N ≤ F) (hn : ∀ i, PeeksX (nx i) N) : ∀ (t : Ty) (g : Tags), (g.tail && t.isSlice) = false → PeeksX (decX F nx g t) N
  | .bool, g, _, s, s1, k, n, _, h, h1 => by rw [decX]; exact prim_peek (by unfold Stream.bool; rw [uint_peek 8 h h1])
  | .uint bits, g, _, s, s1, k, n, _, h, h1 => by rw [decX]; exact prim_peek (uint_peek bits h h1)
  | .big, g, _, s, s1, k, n, _, h, h1 => by rw [decX]; exact prim_peek (by unfold Stream.bigInt; rw [h, h1])
  | .u256, g, _, s, s1, k, n, _, h, h1 => by rw [decX]; exact prim_peek (by unfold Stream.bigInt; rw [h, h1])
  | .str, g, _, s, s1, k, n, _, h, h1 => by rw [decX]; exact prim_peek (by unfold Stream.bytes; rw [h, h1])
  | .bytes, g, _, s, s1, k, n, _, h, h1 => by rw [decX]; exact prim_peek (by unfold Stream.bytes; rw [h, h1])
  | .byteArr m, g, _, s, s1, k, n, _, h, h1 => by rw [decX]; unfold byteArrX; rw [h, h1]
  | .raw, g, _, s, s1, k, n, _, h, h1 => by rw [decX]; exact prim_peek (by unfold Stream.raw; rw [h, h1])
  | .any, g, _, s, s1, k, n, hl, h, h1 => by
    rw [decX]
    cases F with
    | zero => omega
    | succ F => exact liftX_peek (by rw [ifaceX, ifaceX, h, h1])
  | .ptr t, g, _, s, s1, k, n, hl, h, h1 => by
    rw [decX]
    split
    · unfold nilPtrX; rw [h, h1]
    · exact liftX_peek (decX_peek hF hn t {} rfl hl h h1)
  | .slice t, g, hg, s, s1, k, n, _, h, h1 => by
    have hg : g.tail = false := by simpa [Ty.isSlice] using hg
    rw [decX, if_neg (by simp [hg])]
    exact liftX_peek (by unfold sliceX; rw [list_peek h h1])
  | .array m t, g, _, s, s1, k, n, _, h, h1 => by rw [decX]; exact liftX_peek (inListX_peek h h1)
  | .struct fs, g, _, s, s1, k, n, _, h, h1 => by rw [decX]; exact liftX_peek (inListX_peek h h1)
  | .ref i, g, _, s, s1, k, n, hl, h, h1 => by rw [decX]; exact hn i hl h h1

end

/-- The errors of a decoder into `t`, in a field with tags `g`, lead to the item they are about. -/
def Finds (Γ : Nat → Flds) (N : Nat) (g : Tags) (t : Ty) (dx : DecX) : Prop :=
  ∀ s s' i e w ctx, AtItem N s i → dx s = (.error (.inType e w ctx), s') →
    ∃ g' u j, Named u w ∧ Place Γ g t i ctx.reverse g' u j ∧ ∀ v, ¬ Enc Γ g' u v (enc j)

/-- What is known about the decoders of the named types. -/
structure NamedX (Γ : Nat → Flds) (nx : Nat → DecX) (nm : Nat → Dec) (N : Nat) : Prop where
  ok : NamedOk Γ nm N
  same : ∀ i, Same (nx i) (nm i)
  peek : ∀ i, PeeksX (nx i) N
  finds : ∀ i, Finds Γ N {} (.ref i) (nx i)

section
variable {Γ : Nat → Flds} {F N : Nat} {nx : Nat → DecX} {nm : Nat → Dec}

/-- An error: the item is no value of the type. -/
theorem not_enc {g : Tags} {t : Ty} {dx : DecX} {d : Dec} (hs : Same dx d) (hc : ∀ v x, Enc Γ g t v x → CompleteR d N v x)
    {s s' : Stream} {i : Item} {e : XErr} (hi : AtItem N s i) (h : dx s = (.error e, s')) (v : Val) : ¬ Enc Γ g t v (enc i) := by
  intro hv
  obtain ⟨r, hr⟩ := hi.r
  obtain ⟨s2, h2, -⟩ := hc v _ hv hi.wf hi.ahead hi.len hr hi.fits
  have := hs.eq s
  rw [h, h2] at this
  simp [strip] at this

theorem flds_tail {g : Tags} {u : Ty} {fs : Flds} (h : (Flds.cons g u fs).ok = true) (hg : (g.tail && u.isSlice) = true) :
    g.tail = true ∧ (∃ u', u = .slice u') ∧ fs = .nil := by
  simp only [Flds.ok, Bool.and_eq_true] at h hg
  obtain ⟨⟨⟨⟨-, -⟩, h3⟩, -⟩, -⟩ := h
  rw [hg.1] at h3
  simp only [Bool.not_true, Bool.false_or, Bool.and_eq_true, beq_iff_eq] at h3
  refine ⟨hg.1, ?_, ?_⟩
  · cases u <;> simp [Ty.isSlice] at hg
    exact ⟨_, rfl⟩
  · cases fs with
    | nil => rfl
    | cons _ _ _ => simp [Flds.len] at h3

/-- Where the innermost part of the context is the value itself. -/
theorem found {g : Tags} {t w : Ty} {i : Item} (hw : Named t w) (hne : ∀ v, ¬ Enc Γ g t v (enc i)) :
    ∃ g' u j, Named u w ∧ Place Γ g t i ([] : List Step).reverse g' u j ∧ ∀ v, ¬ Enc Γ g' u v (enc j) :=
  ⟨g, t, i, hw, .here g t i, hne⟩

mutual
theorem finds_ty (hF : N ≤ F) (hF63 : F < 2 ^ 63) (hn : NamedX Γ nx nm N) : ∀ (t : Ty) (g : Tags), t.ok true = true →
    (g.tail && t.isSlice) = false → Finds Γ N g t (decX F nx g t)
  | .bool, g, hok, hg, s, s', i, e, w, ctx, hi, h => by
    have hne := not_enc (same_ty (F := F) hn.same _ g) (fun v x => decTy_complete hF hF63 hn.ok _ g v x hok hg) hi h
    rw [decX] at h; obtain ⟨rfl, rfl⟩ := prim_inType h; exact found (.inl rfl) hne
  | .uint _, g, hok, hg, s, s', i, e, w, ctx, hi, h => by
    have hne := not_enc (same_ty (F := F) hn.same _ g) (fun v x => decTy_complete hF hF63 hn.ok _ g v x hok hg) hi h
    rw [decX] at h; obtain ⟨rfl, rfl⟩ := prim_inType h; exact found (.inl rfl) hne
  | .big, g, hok, hg, s, s', i, e, w, ctx, hi, h => by
    have hne := not_enc (same_ty (F := F) hn.same _ g) (fun v x => decTy_complete hF hF63 hn.ok _ g v x hok hg) hi h
    rw [decX] at h; obtain ⟨rfl, rfl⟩ := prim_inType h; exact found (.inr ⟨.inl rfl, rfl⟩) hne
  | .u256, g, hok, hg, s, s', i, e, w, ctx, hi, h => by
    have hne := not_enc (same_ty (F := F) hn.same _ g) (fun v x => decTy_complete hF hF63 hn.ok _ g v x hok hg) hi h
    rw [decX] at h; obtain ⟨rfl, rfl⟩ := prim_inType h; exact found (.inr ⟨.inr rfl, rfl⟩) hne
  | .str, g, hok, hg, s, s', i, e, w, ctx, hi, h => by
    have hne := not_enc (same_ty (F := F) hn.same _ g) (fun v x => decTy_complete hF hF63 hn.ok _ g v x hok hg) hi h
    rw [decX] at h; obtain ⟨rfl, rfl⟩ := prim_inType h; exact found (.inl rfl) hne
  | .bytes, g, hok, hg, s, s', i, e, w, ctx, hi, h => by
    have hne := not_enc (same_ty (F := F) hn.same _ g) (fun v x => decTy_complete hF hF63 hn.ok _ g v x hok hg) hi h
    rw [decX] at h; obtain ⟨rfl, rfl⟩ := prim_inType h; exact found (.inl rfl) hne
  | .byteArr _, g, hok, hg, s, s', i, e, w, ctx, hi, h => by
    have hne := not_enc (same_ty (F := F) hn.same _ g) (fun v x => decTy_complete hF hF63 hn.ok _ g v x hok hg) hi h
    rw [decX] at h; obtain ⟨rfl, rfl⟩ := byteArrX_inType h; exact found (.inl rfl) hne
  | .raw, g, hok, hg, s, s', i, e, w, ctx, hi, h => by
    rw [decX] at h
    unfold prim at h
    rcases hd : s.raw with ⟨e1 | v, s1⟩ <;> rw [hd] at h <;> simp at h
  | .any, g, hok, hg, s, s', i, e, w, ctx, hi, h => by
    rw [decX] at h
    exact absurd (liftX_inType h) ifaceX_plain
  | .ptr t, g, hok, hg, s, s', i, e, w, ctx, hi, h => by
    have hne := not_enc (same_ty (F := F) hn.same _ g) (fun v x => decTy_complete hF hF63 hn.ok _ g v x hok hg) hi h
    have ht := finds_ty hF hF63 hn t {} hok rfl
    rw [decX] at h
    split at h
    · rcases nilPtrX_inType h with ⟨rfl, rfl⟩ | ⟨kd, n, s1, hk, h2⟩
      · exact found (.inl rfl) hne
      · rw [decX_peek hF hn.peek t {} rfl hi.len hk (kind_again hk)] at h2
        obtain ⟨g', u, j, h3, h4, h5⟩ := ht _ _ _ _ _ _ hi h2
        exact ⟨g', u, j, h3, .ptr h4, h5⟩
    · obtain ⟨g', u, j, h3, h4, h5⟩ := ht _ _ _ _ _ _ hi (liftX_inType h)
      exact ⟨g', u, j, h3, .ptr h4, h5⟩
  | .slice t, g, hok, hg, s, s', i, e, w, ctx, hi, h => by
    have hne := not_enc (same_ty (F := F) hn.same _ g) (fun v x => decTy_complete hF hF63 hn.ok _ g v x hok hg) hi h
    simp only [Ty.ok, Bool.and_eq_true] at hok
    have ht := finds_ty hF hF63 hn t {} hok.2 rfl
    have hgt : g.tail = false := by simpa [Ty.isSlice] using hg
    rw [decX, if_neg (by simp [hgt])] at h
    have h := liftX_inType h
    unfold sliceX at h
    rcases hl : s.list with ⟨e1 | n, s1⟩ <;> rw [hl] at h <;> simp only at h
    · simp only [Prod.mk.injEq, Except.error.injEq] at h
      obtain ⟨rfl, rfl⟩ := wrap_inType h.1
      exact found (.inl rfl) hne
    · obtain ⟨l, rfl, hil⟩ := list_item (by omega) hi.succ hl
      split at h
      · rcases hq : s1.listEnd with ⟨e1 | _, s2⟩ <;> rw [hq] at h <;> simp at h
      · rcases hx : elemsX (decX F nx {} t) (s1.r.length + 1) 0 s1 with ⟨e1 | vs, s2⟩ <;> rw [hx] at h <;> simp only at h
        · simp only [Prod.mk.injEq, Except.error.injEq] at h
          rw [h.1] at hx
          obtain ⟨before, a, after, s3, s4, c, rfl, hb, rfl, h3, h4⟩ := elems_place (by omega) (same_ty (F := F) hn.same t {})
            (decTy_sound hF hF63 hn.ok t {} hok.2) (decTy_atEol hF hn.ok.eol t {} rfl) hil hx
          obtain ⟨g', u, j, h5, h6, h7⟩ := ht _ _ _ _ _ _ h3 h4
          rw [List.reverse_append, Nat.zero_add]
          exact ⟨g', u, j, h5, .slice hb h6, h7⟩
        · rcases hq : s2.listEnd with ⟨e1 | _, s3⟩ <;> rw [hq] at h <;> simp at h
  | .array n t, g, hok, hg, s, s', i, e, w, ctx, hi, h => by
    have hne := not_enc (same_ty (F := F) hn.same _ g) (fun v x => decTy_complete hF hF63 hn.ok _ g v x hok hg) hi h
    simp only [Ty.ok, Bool.and_eq_true] at hok
    have ht := finds_ty hF hF63 hn t {} hok.2 rfl
    rw [decX] at h
    rcases inListX_inType (liftX_inType h) with ⟨rfl, rfl⟩ | ⟨_, s1, s2, hl, h1⟩
    · exact found (.inl rfl) hne
    · obtain ⟨l, rfl, hil⟩ := list_item (by omega) hi.succ hl
      rcases arr_place (by omega) (same_ty (F := F) hn.same t {})
        (decTy_sound hF hF63 hn.ok t {} hok.2) (decTy_atEol hF hn.ok.eol t {} rfl) hil h1 with
        ⟨rfl, rfl⟩ | ⟨before, a, after, s3, s4, c, rfl, hlt, hb, rfl, h3, h4⟩
      · exact found (.inl rfl) hne
      · obtain ⟨g', u, j, h5, h6, h7⟩ := ht _ _ _ _ _ _ h3 h4
        rw [List.reverse_append, Nat.zero_add]
        exact ⟨g', u, j, h5, .array hlt hb h6, h7⟩
  | .struct fs, g, hok, hg, s, s', i, e, w, ctx, hi, h => by
    have hne := not_enc (same_ty (F := F) hn.same _ g) (fun v x => decTy_complete hF hF63 hn.ok _ g v x hok hg) hi h
    simp only [Ty.ok] at hok
    rw [decX] at h
    rcases inListX_inType (liftX_inType h) with ⟨rfl, rfl⟩ | ⟨_, s1, s2, hl, h1⟩
    · exact found (.inl rfl) hne
    · obtain ⟨l, rfl, hil⟩ := list_item (by omega) hi.succ hl
      rcases finds_flds hF hF63 hn fs hok _ _ _ _ _ _ _ _ hil h1 with ⟨rfl, rfl⟩ | ⟨g', u, j, h3, h4, h5⟩
      · exact found (.inl rfl) hne
      · exact ⟨g', u, j, h3, .struct h4, h5⟩
  | .ref i, g, hok, hg, s, s', it, e, w, ctx, hi, h => by
    rw [decX] at h
    obtain ⟨g', u, j, h1, h2, h3⟩ := hn.finds i _ _ _ _ _ _ hi h
    have hne := not_enc (hn.same i) (fun v x => hn.ok.complete i v x) hi h
    generalize ctx.reverse = p at h2
    cases h2 with
    | here =>
      refine ⟨g, _, it, h1, .here g _ _, fun v hv => ?_⟩
      have h3 := h3 v
      generalize enc it = y at hv h3
      cases hv with
      | ref hv => exact h3 (.ref hv)
    | ref h2 => exact ⟨_, _, _, h1, .ref h2, h3⟩
theorem finds_flds (hF : N ≤ F) (hF63 : F < 2 ^ 63) (hn : NamedX Γ nx nm N) : ∀ (fs : Flds), fs.ok = true →
    ∀ (t : Ty) (k : Nat) (s s' : Stream) (l : List Item) (e : Err) (w : Ty) (ctx : List Step), AtItems N s l →
    fldsX F nx t k fs s = (.error (.inType e w ctx), s') → (w = t ∧ ctx = []) ∨
      ∃ g' u j, Named u w ∧ PlaceF Γ t k fs l ctx.reverse g' u j ∧ ∀ v, ¬ Enc Γ g' u v (enc j)
  | .nil, _, t, k, s, s', l, e, w, ctx, hl, h => by rw [fldsX] at h; simp at h
  | .cons g u fs, hok, t, k, s, s', l, e, w, ctx, hl, h => by
    have hok' := hok
    simp only [Flds.ok, Bool.and_eq_true] at hok'
    obtain ⟨⟨⟨⟨hok1, hok2⟩, hok3⟩, hok4⟩, hok5⟩ := hok'
    have hokt := ty_ok_mono hok1
    by_cases hg : (g.tail && u.isSlice) = true
    · obtain ⟨hgt, ⟨u', rfl⟩, rfl⟩ := flds_tail hok hg
      simp only [Ty.ok, Bool.and_eq_true] at hokt
      have ht := finds_ty hF hF63 hn u' {} hokt.2 rfl
      rcases fldsX_cons h with h1 | ⟨c, s1, h1, rfl⟩ | ⟨v, s1, h1, h2⟩
      · exact .inl h1
      · rw [decX, if_pos hgt] at h1
        obtain ⟨before, a, after, s3, s4, c', rfl, hb, rfl, h3, h4⟩ := elems_place (by omega) (same_ty (F := F) hn.same u' {})
          (decTy_sound hF hF63 hn.ok u' {} hokt.2) (decTy_atEol hF hn.ok.eol u' {} rfl) hl (liftX_inType h1)
        obtain ⟨g', u, j, h5, h6, h7⟩ := ht _ _ _ _ _ _ h3 h4
        rw [List.reverse_append, List.reverse_append, Nat.zero_add]
        exact .inr ⟨g', u, j, h5, .tail hgt hb h6, h7⟩
      · rw [fldsX] at h2; simp at h2
    · have hg : (g.tail && u.isSlice) = false := by simpa using hg
      have hs := same_ty (F := F) hn.same u g
      have heol := decTy_atEol hF hn.ok.eol u g hg
      rcases fldsX_cons h with h1 | ⟨c, s1, h1, rfl⟩ | ⟨v, s1, h1, h2⟩
      · exact .inl h1
      · cases l with
        | nil => exact (not_at_end hs heol hl h1).elim
        | cons a l =>
          obtain ⟨g', w', j, h5, h6, h7⟩ := finds_ty hF hF63 hn u g hokt hg _ _ _ _ _ _ hl.first h1
          rw [List.reverse_append]
          exact .inr ⟨g', w', j, h5, .here hg h6, h7⟩
      · have hd1 : decTy F nm g u s = (.ok v, s1) := by rw [← hs.eq s, h1]; rfl
        cases l with
        | nil =>
          have h0 := heol s hl.ahead hl.len hl.top
          rw [h0] at hd1; simp at hd1
        | cons a l =>
          obtain ⟨x, hx, hc⟩ := (decTy_sound hF hF63 hn.ok u g hokt).ok hl.wf hl.ahead hl.len hd1
          obtain ⟨rfl, h3⟩ := hl.after (by omega) (enc_rawOk hg hx) hc
          rcases finds_flds hF hF63 hn fs hok5 t (k + 1) _ _ _ _ _ _ h3 h2 with h4 | ⟨g', w', j, h5, h6, h7⟩
          · exact .inl h4
          · exact .inr ⟨g', w', j, h5, .next hg ⟨v, hx⟩ h6, h7⟩
end
end

theorem namedX_ok {Γ : Nat → Flds} {F : Nat} (hΓ : ∀ i, (Γ i).ok = true) (hF63 : F < 2 ^ 63) : ∀ f, f ≤ F →
    NamedX Γ (namedX Γ F f) (named Γ F f) f
  | 0, h => ⟨named_ok hΓ hF63 0 h, same_named Γ F 0, fun i _ _ _ _ h => by omega, fun i s s' it e w ctx hi => by have := hi.len; omega⟩
  | f + 1, h => by
    have ih := namedX_ok hΓ hF63 f (by omega)
    refine ⟨named_ok hΓ hF63 (f + 1) h, same_named Γ F (f + 1), fun i s s1 k n _ h h1 => ?_, ?_⟩
    · rw [namedX]; exact liftX_peek (inListX_peek h h1)
    · intro i s s' it e w ctx hi he
      have hne := not_enc (same_named Γ F (f + 1) i) (fun v x => (named_ok hΓ hF63 (f + 1) h).complete i v x) hi he
      rw [namedX] at he
      rcases inListX_inType (liftX_inType he) with ⟨rfl, rfl⟩ | ⟨_, s1, s2, hl, h1⟩
      · exact found (.inl rfl) hne
      · obtain ⟨l, rfl, hil⟩ := list_item (by omega) hi hl
        rcases finds_flds (by omega) hF63 ih (Γ i) (hΓ i) _ _ _ _ _ _ _ _ hil h1 with ⟨rfl, rfl⟩ | ⟨g', u, j, h3, h4, h5⟩
        · exact found (.inl rfl) hne
        · exact ⟨g', u, j, h3, .ref h4, h5⟩

/-- C162: in an encoded item, the context leads to an item that does not stand for a value of its type, and in all the lists on
the way what comes before does. -/
theorem C162_place {Γ : Nat → Flds} (hΓ : ∀ i, (Γ i).ok = true) {t w : Ty} (ho : t.ok true = true) {i : Item}
    (hb : (enc i).length < maxInput) {e : Err} {ctx : List Step} (h : decodeBytesX Γ t (enc i) = .error (.inType e w ctx)) :
    ∃ g u j, Named u w ∧ Place Γ {} t i ctx.reverse g u j ∧ ∀ v, ¬ Enc Γ g u v (enc j) := by
  unfold maxInput at hb
  unfold decodeBytesX at h
  rcases hd : decX ((enc i).length + 2) (namedX Γ ((enc i).length + 2) ((enc i).length + 1)) {} t (Stream.ofBytes (enc i)) with ⟨e1 | v, s⟩ <;>
    rw [hd] at h
  · simp only [Except.error.injEq] at h
    rw [h] at hd
    refine finds_ty (by omega) (by omega) (namedX_ok hΓ (by omega) _ (by omega)) t {} ho rfl _ _ _ _ _ _ ?_ hd
    exact ⟨ofBytes_wf _, rfl, Nat.lt_succ_self _, ⟨[], by simp [Stream.ofBytes]⟩, by simp [Stream.ofBytes], by simp [Stream.ofBytes]⟩
  · simp only at h
    split at h <;> simp at h


/-! ### The text -/

/-- A part of the context, as text (`/repo/rlp/decode.go:332, 351, 430`), given the names of the fields. -/
def Step.text (name : Ty → Nat → List Char) : Step → List Char
  | .idx i => '[' :: (Nat.toDigits 10 i ++ [']'])
  | .fld t k => '.' :: name t k

/-- The context in the text of the error, the outermost part first (`/repo/rlp/decode.go:114-123`). -/
def ctxText (name : Ty → Nat → List Char) (ctx : List Step) : List Char := (ctx.reverse.map (Step.text name)).flatten

/-- The characters that begin a part. -/
def special (c : Char) : Bool := c == '[' || c == '.'

theorem flatten_inj : ∀ {L M : List (List Char)}, (∀ x ∈ L, ∃ c y, x = c :: y ∧ special c = true ∧ ∀ d ∈ y, special d = false) →
    (∀ x ∈ M, ∃ c y, x = c :: y ∧ special c = true ∧ ∀ d ∈ y, special d = false) → L.flatten = M.flatten → L = M
  | [], [], _, _, _ => rfl
  | [], m :: M, _, hM, h => by
    obtain ⟨c, y, rfl, -, -⟩ := hM m (by simp)
    simp at h
  | l :: L, [], hL, _, h => by
    obtain ⟨c, y, rfl, -, -⟩ := hL l (by simp)
    simp at h
  | l :: L, m :: M, hL, hM, h => by
    obtain ⟨c, y, rfl, hc, hy⟩ := hL l (by simp)
    obtain ⟨d, z, rfl, hd, hz⟩ := hM m (by simp)
    simp only [List.flatten_cons, List.cons_append, List.cons.injEq] at h
    obtain ⟨rfl, h⟩ := h
    have key : ∀ (x : List Char) (K : List (List Char)), (∀ d ∈ x, special d = false) →
        (∀ x ∈ K, ∃ c y, x = c :: y ∧ special c = true ∧ ∀ d ∈ y, special d = false) →
        (x ++ K.flatten).takeWhile (fun d => !special d) = x := by
      intro x K hx hK
      rw [List.takeWhile_append_of_pos (by intro a ha; simp [hx a ha])]
      cases K with
      | nil => simp
      | cons k K =>
        obtain ⟨c, y, rfl, hc, -⟩ := hK k (by simp)
        simp [hc]
    have hyz : y = z := by
      rw [← key y L hy (fun x hx => hL x (by simp [hx])), ← key z M hz (fun x hx => hM x (by simp [hx])), h]
    subst hyz
    rw [flatten_inj (fun x hx => hL x (by simp [hx])) (fun x hx => hM x (by simp [hx])) (List.append_cancel_left h)]

/-- The fields of a struct type. -/
def fieldsOf (Γ : Nat → Flds) : Ty → Flds
  | .struct fs => fs
  | .ref i => Γ i
  | _ => .nil

/-- Names of fields: without the characters that begin a part, and different within a struct. -/
structure Names (Γ : Nat → Flds) (name : Ty → Nat → List Char) : Prop where
  plain : ∀ t k, ∀ d ∈ name t k, special d = false
  inj : ∀ t k k', ((fieldsOf Γ t).nth k).isSome → ((fieldsOf Γ t).nth k').isSome → name t k = name t k' → k = k'

theorem digits_plain (i : Nat) : ∀ d ∈ Nat.toDigits 10 i, special d = false := by
  intro d hd
  have := Nat.isDigit_of_mem_toDigits (by decide) (by decide) hd
  unfold special
  simp only [Bool.or_eq_false_iff, beq_eq_false_iff_ne]
  constructor <;> rintro rfl <;> simp at this

theorem text_shape {Γ : Nat → Flds} {name : Ty → Nat → List Char} (hn : Names Γ name) (p : List Step) :
    ∀ x ∈ p.map (Step.text name), ∃ c y, x = c :: y ∧ special c = true ∧ ∀ d ∈ y, special d = false := by
  intro x hx
  obtain ⟨q, -, rfl⟩ := List.mem_map.mp hx
  cases q with
  | idx i =>
    refine ⟨'[', Nat.toDigits 10 i ++ [']'], rfl, by decide, fun d hd => ?_⟩
    rcases List.mem_append.mp hd with hd | hd
    · exact digits_plain i d hd
    · simp only [List.mem_singleton] at hd; subst hd; decide
  | fld t k => exact ⟨'.', name t k, rfl, by decide, hn.plain t k⟩

theorem digits_inj {i j : Nat} (h : Nat.toDigits 10 i = Nat.toDigits 10 j) : i = j := by
  rw [← Nat.ofDigitChars_toDigits (b := 10) (n := i) (by decide) (by decide), ← Nat.ofDigitChars_toDigits (b := 10) (n := j) (by decide) (by decide), h]

theorem leads_inj {Γ : Nat → Flds} {name : Ty → Nat → List Char} (hn : Names Γ name) {t u : Ty} {p : List Step} (hp : Leads Γ t p u) :
    ∀ {q : List Step} {v : Ty}, Leads Γ t q v → p.map (Step.text name) = q.map (Step.text name) → p = q := by
  induction hp with
  | here t =>
    intro q v _ h
    have := h.symm
    simp only [List.map_nil, List.map_eq_nil_iff] at this
    exact this.symm
  | ptr hp ih =>
    intro q v hq h
    cases hq with
    | here => simpa using h
    | ptr hq => exact ih hq h
  | slice i hp ih =>
    intro q v hq h
    cases hq with
    | here => simp at h
    | slice j hq =>
      simp only [List.map_cons, List.cons.injEq, Step.text, true_and] at h
      rw [digits_inj (List.append_cancel_right h.1), ih hq h.2]
  | array hi hp ih =>
    intro q v hq h
    cases hq with
    | here => simp at h
    | array hj hq =>
      simp only [List.map_cons, List.cons.injEq, Step.text, true_and] at h
      rw [digits_inj (List.append_cancel_right h.1), ih hq h.2]
  | struct hk hp ih =>
    intro q v hq h
    cases hq with
    | here => simp at h
    | struct hk' hq =>
      simp only [List.map_cons, List.cons.injEq, Step.text, true_and] at h
      have := hn.inj _ _ _ (by simp [fieldsOf, hk]) (by simp [fieldsOf, hk']) h.1
      subst this
      rw [hk] at hk'
      simp only [Option.some.injEq, Prod.mk.injEq] at hk'
      obtain ⟨-, rfl⟩ := hk'
      rw [ih hq h.2]
  | ref hk hp ih =>
    intro q v hq h
    cases hq with
    | here => simp at h
    | ref hk' hq =>
      simp only [List.map_cons, List.cons.injEq, Step.text, true_and] at h
      have := hn.inj _ _ _ (by simp [fieldsOf, hk]) (by simp [fieldsOf, hk']) h.1
      subst this
      rw [hk] at hk'
      simp only [Option.some.injEq, Prod.mk.injEq] at hk'
      obtain ⟨-, rfl⟩ := hk'
      rw [ih hq h.2]

/-- C162: errors of decoding into the same type whose contexts have the same text are in the same place. -/
theorem C162_text {Γ : Nat → Flds} {name : Ty → Nat → List Char} (hn : Names Γ name) {t w w' : Ty} {b b' : Bytes} {e e' : Err}
    {ctx ctx' : List Step} (h : decodeBytesX Γ t b = .error (.inType e w ctx)) (h' : decodeBytesX Γ t b' = .error (.inType e' w' ctx'))
    (ht : ctxText name ctx = ctxText name ctx') : ctx = ctx' := by
  obtain ⟨u, -, hu⟩ := C162_path h
  obtain ⟨v, -, hv⟩ := C162_path h'
  have := leads_inj hn hu hv (flatten_inj (text_shape hn _) (text_shape hn _) ht)
  exact List.reverse_inj.mp this

/-! ### Examples -/

mutual
/-- Equality of types, to be computed. -/
def eqTy : Ty → Ty → Bool
  | .bool, .bool => true
  | .uint a, .uint b => a == b
  | .big, .big => true
  | .u256, .u256 => true
  | .str, .str => true
  | .bytes, .bytes => true
  | .byteArr a, .byteArr b => a == b
  | .raw, .raw => true
  | .any, .any => true
  | .ptr a, .ptr b => eqTy a b
  | .slice a, .slice b => eqTy a b
  | .array m a, .array n b => m == n && eqTy a b
  | .struct a, .struct b => eqFlds a b
  | .ref a, .ref b => a == b
  | _, _ => false
def eqFlds : Flds → Flds → Bool
  | .nil, .nil => true
  | .cons g a fs, .cons h b gs => g == h && (eqTy a b && eqFlds fs gs)
  | _, _ => false
end

mutual
theorem of_eqTy : ∀ (a b : Ty), eqTy a b = true → a = b
  | .ptr a, b, h => by cases b <;> simp [eqTy] at h ⊢; exact of_eqTy _ _ h
  | .slice a, b, h => by cases b <;> simp [eqTy] at h ⊢; exact of_eqTy _ _ h
  | .array m a, b, h => by cases b <;> simp [eqTy] at h ⊢; exact ⟨h.1, of_eqTy _ _ h.2⟩
  | .struct a, b, h => by cases b <;> simp [eqTy] at h ⊢; exact of_eqFlds _ _ h
  | .bool, b, h => by cases b <;> simp [eqTy] at h ⊢
  | .uint _, b, h => by cases b <;> simp [eqTy] at h ⊢; exact h
  | .big, b, h => by cases b <;> simp [eqTy] at h ⊢
  | .u256, b, h => by cases b <;> simp [eqTy] at h ⊢
  | .str, b, h => by cases b <;> simp [eqTy] at h ⊢
  | .bytes, b, h => by cases b <;> simp [eqTy] at h ⊢
  | .byteArr _, b, h => by cases b <;> simp [eqTy] at h ⊢; exact h
  | .raw, b, h => by cases b <;> simp [eqTy] at h ⊢
  | .any, b, h => by cases b <;> simp [eqTy] at h ⊢
  | .ref _, b, h => by cases b <;> simp [eqTy] at h ⊢; exact h
theorem of_eqFlds : ∀ (a b : Flds), eqFlds a b = true → a = b
  | .nil, b, h => by cases b <;> simp [eqFlds] at h ⊢
  | .cons g a fs, b, h => by
    cases b <;> simp [eqFlds] at h ⊢
    exact ⟨h.1, of_eqTy _ _ h.2.1, of_eqFlds _ _ h.2.2⟩
end

def eqStep : Step → Step → Bool
  | .idx i, .idx j => i == j
  | .fld t k, .fld u m => eqTy t u && k == m
  | _, _ => false

theorem of_eqStep {a b : Step} (h : eqStep a b = true) : a = b := by
  cases a <;> cases b <;> simp [eqStep] at h ⊢
  · exact h
  · exact ⟨of_eqTy _ _ h.1, h.2⟩

def eqSteps : List Step → List Step → Bool
  | [], [] => true
  | a :: l, b :: m => eqStep a b && eqSteps l m
  | _, _ => false

theorem of_eqSteps : ∀ {l m : List Step}, eqSteps l m = true → l = m
  | [], [], _ => rfl
  | [], _ :: _, h => by simp [eqSteps] at h
  | _ :: _, [], h => by simp [eqSteps] at h
  | a :: l, b :: m, h => by
    simp only [eqSteps, Bool.and_eq_true] at h
    rw [of_eqStep h.1, of_eqSteps h.2]

/-- The outcome is this error. -/
def isX (o : Except XErr Val) (x : XErr) : Bool :=
  match o, x with
  | .error (.plain e), .plain f => e == f
  | .error (.inType e t c), .inType f u d => e == f && (eqTy t u && eqSteps c d)
  | _, _ => false

theorem of_isX {o : Except XErr Val} {x : XErr} (h : isX o x = true) : o = .error x := by
  cases o with
  | ok v => simp [isX] at h
  | error e =>
    cases e <;> cases x <;> simp [isX] at h ⊢
    · exact h
    · exact ⟨h.1, of_eqTy _ _ h.2.1, of_eqSteps h.2.2⟩

/-- `struct { A uint8; B []struct { C string; D [2]uint16 } }` -/
def inner : Ty := .struct (.cons {} .str (.cons {} (.array 2 (.uint 16)) .nil))
def outer : Ty := .struct (.cons {} (.uint 8) (.cons {} (.slice inner) .nil))

/-- `{1, [{"a", [1, 2]}, {"b", [3, [ ]]}]}` -/
def sample : Item := .list [.str [1], .list [.list [.str [97], .list [.str [1], .str [2]]], .list [.str [98], .list [.str [3], .list []]]]]

example : decodeBytesX noTypes outer (enc sample) =
    .error (.inType .expectedString (.uint 16) [.idx 1, .fld inner 1, .idx 1, .fld outer 1]) := of_isX (by decide +kernel)

example : String.ofList (ctxText (fun t k => if eqTy t outer then [['A'], ['B']].getD k [] else [['C'], ['D']].getD k [])
    [.idx 1, .fld inner 1, .idx 0, .fld outer 1]) = ".B[0].D[1]" := by decide +kernel

/-- Too few elements: the struct is named, not the field that is missing. -/
example : decodeBytesX noTypes outer (enc (.list [.str [1], .list [.list [.str [97]]]])) =
    .error (.inType .tooFew inner [.idx 0, .fld outer 1]) := of_isX (by decide +kernel)

/-- Too many elements: the struct or the array is named. -/
example : decodeBytesX noTypes outer (enc (.list [.str [1], .list [.list [.str [97], .list [.str [1], .str [2]], .str [1]]]])) =
      .error (.inType .notAtEOL inner [.idx 0, .fld outer 1]) ∧
    decodeBytesX noTypes (.slice (.array 1 .str)) (enc (.list [.list [.str [1], .str [2]]])) =
      .error (.inType .notAtEOL (.array 1 .str) [.idx 0]) := ⟨of_isX (by decide +kernel), of_isX (by decide +kernel)⟩

/-- C162 refuted in general: errors of encoded items that do not say where they are: a boolean of value 2, and an
integer of more than 256 bits. -/
theorem C162_silent_refuted :
    (∃ t i, t.ok true = true ∧ decodeBytesX noTypes t (enc i) = .error (.plain .badBool)) ∧
    ∃ t i, t.ok true = true ∧ decodeBytesX noTypes t (enc i) = .error (.plain .uint256Large) :=
  ⟨⟨.slice .bool, .list [.str [1], .str [2]], rfl, of_isX (by decide +kernel)⟩,
    ⟨.slice .u256, .list [.str (List.replicate 33 1)], rfl, of_isX (by decide +kernel)⟩⟩

/-- C162 refuted: the same input at the same place, a size not in its shortest form, has a place in a string but none in an array. -/
theorem C162_kind_refuted : ∃ b, decodeBytesX noTypes (.slice .str) b = .error (.inType .canonSize .str [.idx 0]) ∧
    decodeBytesX noTypes (.slice (.byteArr 1)) b = .error (.plain .canonSize) :=
  ⟨[0xC3, 0xB8, 0x01, 0x90], of_isX (by decide +kernel), of_isX (by decide +kernel)⟩

/-- C162 refuted: for big integers the error has a type that is not at the place. -/
theorem C162_pointer_refuted : ∃ t b e w ctx, decodeBytesX noTypes t b = .error (.inType e w ctx) ∧ ¬ Leads noTypes t ctx.reverse w :=
  ⟨.slice .big, [0xC1, 0xC0], .expectedString, .ptr .big, [.idx 0], of_isX (by decide +kernel), by
    intro h
    cases h with
    | slice _ h => cases h⟩


end Verif.Rlp.ErrCtx

import Verif.Rlp.TypedThms

/-!
# Types with their own methods `EncodeRLP` and `DecodeRLP`

A type whose values, or whose pointers, have a method `EncodeRLP` is written by the method, and one whose pointers have a method
`DecodeRLP` is read by it, wherever it occurs inside other types.  The methods are arbitrary functions here; what is asked of them
is `Lawful`.  All other types are those of `Typed.lean`.

Simplifications: one own type has both methods; it is not of kind `uint8` (see C159 for these); the fields of the structs around
own types have no tags; what a method writes is appended to the buffer of the encoder.
-/

namespace Verif.Rlp.Own
open Verif

variable {Γ : Nat → Flds}

/-! ### Model -/

/-- A type with own methods. -/
structure Methods where
  /-- `EncodeRLP` (`/repo/rlp/encode.go:44-56`). -/
  write : Val → Buf → Res Buf
  /-- `DecodeRLP` (`/repo/rlp/decode.go:63-70`). -/
  read : Dec
  /-- `EncodeRLP` is a method of the pointer, not of the value. -/
  onPtr : Bool
  /-- The kind of the type is that of a string of the format (`DefaultNilValue`,
  `/repo/rlp/internal/rlpstruct/rlpstruct.go:47-53`). -/
  text : Bool

mutual
/-- Types that contain types with own methods. -/
inductive OTy where
  /-- A type without own methods in it. -/
  | base (t : Ty)
  /-- The type number `k` with own methods. -/
  | own (k : Nat)
  | ptr (t : OTy)
  | slice (t : OTy)
  | array (n : Nat) (t : OTy)
  | struct (ts : OTys)
/-- The fields of a struct. -/
inductive OTys where
  | nil
  | cons (t : OTy) (ts : OTys)
end

section
variable (Γ : Nat → Flds) (M : Nat → Methods)

/-- The byte `makePtrWriter` writes for a nil pointer (`/repo/rlp/encode.go:390-394`). -/
def nilO : OTy → UInt8
  | .base t => nilByte {} t
  | .own k => if (M k).text then 0x80 else 0xC0
  | _ => 0xC0

/-- The loop over the elements (`/repo/rlp/encode.go:330-334`). -/
def wrEach (f : Val → Buf → Res Buf) : List Val → Buf → Res Buf
  | [], b => .ok b
  | v :: l, b =>
    match f v b with
    | .ok c => wrEach f l c
    | r => r

mutual
/-- `makeWriter`, `makePtrWriter`, `makeEncoderWriter` (`/repo/rlp/encode.go:139-175, 302-429`); the second argument: the value can
be addressed (`CanAddr`), which holds behind a pointer, for the elements of slices, and for parts of such values. -/
def wrO : OTy → Bool → Val → Buf → Res Buf
  | .base t, _, v, b => wr Γ {} t v b
  | .own k, adr, v, b => if (M k).onPtr = true ∧ adr = false then .err else (M k).write v b
  | .ptr t, _, .nil, b => .ok (b.write [nilO M t])
  | .ptr t, _, .ptr v, b => wrO t true v b
  | .slice _, _, .nil, b => .ok (b.write [0xC0])
  | .slice t, _, .list l, b =>
    if l.length = 0 then .ok (b.write [0xC0])
    else match wrEach (wrO t true) l b.list.1 with
      | .ok c => .ok (c.listEnd b.list.2)
      | r => r
  | .array _ t, adr, .list l, b =>
    if l.length = 0 then .ok (b.write [0xC0])
    else match wrEach (wrO t adr) l b.list.1 with
      | .ok c => .ok (c.listEnd b.list.2)
      | r => r
  | .struct ts, adr, .list l, b =>
    match wrFO ts adr l b.list.1 with
    | .ok c => .ok (c.listEnd b.list.2)
    | r => r
  | _, _, _, _ => .panic
/-- The loop over the fields (`/repo/rlp/encode.go:357-366`). -/
def wrFO : OTys → Bool → List Val → Buf → Res Buf
  | .cons t ts, adr, v :: l, b =>
    match wrO t adr v b with
    | .ok c => wrFO ts adr l c
    | r => r
  | _, _, _, b => .ok b
end

/-- `EncodeToBytes` (`/repo/rlp/encode.go:77-85`): the value in the interface cannot be addressed. -/
def encodeO (t : OTy) (v : Val) : Res Bytes :=
  match wrO Γ M t false v Buf.empty with
  | .ok b => b.makeBytes
  | .err => .err
  | .panic => .panic

mutual
/-- `makeDecoder`, `decodeDecoder` (`/repo/rlp/decode.go:156-206, 263-360, 404-476, 541-543`); `F` as in `decTy`. -/
def decO (F : Nat) : OTy → Dec
  | .base t => decTy (F + 1) (named Γ (F + 1) F) {} t
  | .own k => (M k).read
  | .ptr t => lift .ptr (decO F t)
  | .slice t => lift .list (listSlice (decO F t))
  | .array n t => lift .list (inList (arrElems (decO F t) n))
  | .struct ts => lift .list (inList (fldsO F ts))
/-- The loop over the fields (`/repo/rlp/decode.go:418-433`). -/
def fldsO (F : Nat) : OTys → Stream → Except Err (List Val) × Stream
  | .nil, s => (.ok [], s)
  | .cons t ts, s =>
    match decO F t s with
    | (.error .eol, s) => (.error .tooFew, s)
    | (.error e, s) => (.error e, s)
    | (.ok v, s) =>
      match fldsO F ts s with
      | (.error e, s) => (.error e, s)
      | (.ok l, s) => (.ok (v :: l), s)
end

/-- `DecodeBytes` (`/repo/rlp/decode.go:92-106`). -/
def decodeBytesO (t : OTy) (b : Bytes) : Except Err Val :=
  match decO Γ M (b.length + 1) t (Stream.ofBytes b) with
  | (.error e, _) => .error e
  | (.ok v, s) => if 0 < s.r.length then .error .moreThanOne else .ok v

end

/-! ### Specification -/

/-- Encodings of elements, one after the other. -/
inductive RL (R : Val → Bytes → Prop) : List Val → Bytes → Prop
  | nil : RL R [] []
  | cons {v l x y} (h : R v x) (hl : RL R l y) : RL R (v :: l) (x ++ y)

mutual
/-- What bytes mean, given what they mean for the types without own methods (`B`) and for those with (`R`): the bytes of the
methods are put in place. -/
def OEnc (B : Ty → Val → Bytes → Prop) (R : Nat → Val → Bytes → Prop) : OTy → Val → Bytes → Prop
  | .base t, v, x => B t v x
  | .own k, v, x => R k v x
  | .ptr t, v, x => ∃ w, v = .ptr w ∧ OEnc B R t w x
  | .slice t, v, x => ∃ l y, v = .list l ∧ x = encList y ∧ RL (OEnc B R t) l y
  | .array n t, v, x => ∃ l y, v = .list l ∧ x = encList y ∧ RL (OEnc B R t) l y ∧ l.length = n
  | .struct ts, v, x => ∃ l y, v = .list l ∧ x = encList y ∧ OEncF B R ts l y
/-- The fields. -/
def OEncF (B : Ty → Val → Bytes → Prop) (R : Nat → Val → Bytes → Prop) : OTys → List Val → Bytes → Prop
  | .nil, l, x => l = [] ∧ x = []
  | .cons t ts, l, x => ∃ v m y z, l = v :: m ∧ x = y ++ z ∧ OEnc B R t v y ∧ OEncF B R ts m z
end

/-- What is asked of the methods of a type, if `R` says which bytes mean which value: at least one byte; `EncodeRLP` adds them;
`DecodeRLP` accepts exactly these, wherever they stand, and reports the end of a list only if it is called there. -/
structure Lawful (R : Val → Bytes → Prop) (o : Methods) : Prop where
  pos : ∀ v x, R v x → 0 < x.length
  write : ∀ v x, R v x → ∀ b, ∃ c, o.write v b = .ok c ∧ (x.length < 2 ^ 64 → Adds b c x)
  sound : SoundR R o.read maxInput
  complete : ∀ v x, R v x → CompleteR o.read maxInput v x
  atEnd : AtEolR o.read maxInput

mutual
/-- The types without own methods in it satisfy a condition. -/
def OTy.all (p : Ty → Bool) : OTy → Bool
  | .base t => p t
  | .own _ => true
  | .ptr t => t.all p
  | .slice t => t.all p
  | .array _ t => t.all p
  | .struct ts => ts.all p
def OTys.all (p : Ty → Bool) : OTys → Bool
  | .nil => true
  | .cons t ts => t.all p && ts.all p
end

def OTy.isByte : OTy → Bool
  | .base t => t.isByte
  | _ => false

mutual
/-- Types of Go: slices and arrays of bytes are in the universe as `base`. -/
def OTy.ok : OTy → Bool
  | .base t => t.ok true
  | .own _ => true
  | .ptr t => t.ok
  | .slice t => !t.isByte && t.ok
  | .array _ t => !t.isByte && t.ok
  | .struct ts => ts.ok
def OTys.ok : OTys → Bool
  | .nil => true
  | .cons t ts => t.ok && ts.ok
end

mutual
/-- A method of the pointer is needed for a part of the value that is not behind a pointer and not in a slice. -/
def exposed (M : Nat → Methods) : OTy → Bool
  | .base _ => false
  | .own k => (M k).onPtr
  | .ptr _ => false
  | .slice _ => false
  | .array n t => n != 0 && exposed M t
  | .struct ts => exposedF M ts
def exposedF (M : Nat → Methods) : OTys → Bool
  | .nil => false
  | .cons t ts => exposed M t || exposedF M ts
end

/-! ### Elements -/

section
variable {R : Val → Bytes → Prop} {dec : Dec} {N : Nat}

theorem sliceElemsR_snd (hd : SoundR R dec N) (f : Nat) {s s' : Stream} {l : List Val} (hw : s.wf) (ha : s.ahead = none)
    (hlen : s.r.length < N) (h : sliceElems dec f s = (.ok l, s')) :
    ∃ x, RL R l x ∧ Cons s x s' ∧ s'.stack.head? = some 0 := by
  induction f generalizing s l with
  | zero => simp [sliceElems] at h
  | succ f ih =>
    rw [sliceElems] at h
    cases hr : dec s with
    | mk o t =>
      rw [hr] at h
      cases o with
      | error e =>
        by_cases he : e = .eol
        · subst he
          simp only [Prod.mk.injEq, Except.ok.injEq] at h
          obtain ⟨rfl, rfl⟩ := h
          rcases hd.err hw ha hlen hr with ⟨_, rfl, h0⟩ | hh
          · exact ⟨[], .nil, cons_nil _ _ hw rfl rfl ha rfl rfl, h0⟩
          · exact absurd rfl hh.1
        · cases e <;> simp at h he
      | ok v =>
        simp only at h
        obtain ⟨x, hx, hc⟩ := hd.ok hw ha hlen hr
        cases hs : sliceElems dec f t with
        | mk o t2 =>
          rw [hs] at h
          cases o with
          | error e => simp at h
          | ok l2 =>
            simp only [Prod.mk.injEq, Except.ok.injEq] at h
            obtain ⟨rfl, rfl⟩ := h
            obtain ⟨y, g0, g1, g2⟩ := ih (hc.wf hw) hc.ahead (by have := hc.r_length; omega) hs
            exact ⟨x ++ y, .cons hx g0, hc.trans g1, g2⟩

theorem sliceElemsR_errR (hd : SoundR R dec N) (hp : ∀ v x, R v x → 0 < x.length) (f : Nat) {s s' : Stream} {e : Err}
    (hw : s.wf) (ha : s.ahead = none) (hlen : s.r.length < N) (hf : s.r.length < f)
    (h : sliceElems dec f s = (.error e, s')) : Hard e := by
  induction f generalizing s s' e with
  | zero => omega
  | succ f ih =>
    rw [sliceElems] at h
    cases hr : dec s with
    | mk o t =>
      rw [hr] at h
      cases o with
      | error e' =>
        by_cases he : e' = .eol
        · subst he
          simp at h
        · have he' : e' = e := by cases e' <;> simp at he h <;> exact h.1
          rcases hd.err hw ha hlen hr with ⟨h1, _⟩ | hh
          · exact absurd h1 he
          · rw [← he']; exact hh
      | ok v =>
        simp only at h
        obtain ⟨x, hx, hc⟩ := hd.ok hw ha hlen hr
        have hl := hc.r_length
        have hp' := hp v x hx
        cases hs : sliceElems dec f t with
        | mk o t2 =>
          rw [hs] at h
          cases o with
          | error e' =>
            simp only [Prod.mk.injEq, Except.error.injEq] at h
            rw [← h.1]
            exact ih (hc.wf hw) hc.ahead (by omega) (by omega) hs
          | ok l2 => simp at h

theorem listSliceR_snd (hd : SoundR R dec N) (hp : ∀ v x, R v x → 0 < x.length) (hN : N < 2 ^ 63) :
    SoundR (fun v x => ∃ l y, v = .list l ∧ x = encList y ∧ RL R l y) (lift .list (listSlice dec)) N := by
  apply sound_lift
  · intro s s' l hw ha hlen h
    unfold listSlice at h
    cases hl : s.list with
    | mk o u =>
      rw [hl] at h
      cases o with
      | error e => simp at h
      | ok n =>
        simp only at h
        obtain ⟨s1, hA, rfl, hn⟩ := list_ok hw ha hl
        have hw2 := push_wf (hA.wf hw) hn
        have hrl := hA.cons.r_length
        simp only at hrl
        split at h
        · next hn0 =>
          cases he : Stream.listEnd { s1 with stack := n :: s1.stack.modifyHead (sub64 · n), ahead := none } with
          | mk o t2 =>
            rw [he] at h
            cases o with
            | error e => simp at h
            | ok u =>
              simp only [Prod.mk.injEq, Except.ok.injEq] at h
              obtain ⟨rfl, rfl⟩ := h
              exact ⟨_, ⟨[], [], rfl, rfl, .nil⟩,
                list_done (by omega) hA (cons_nil _ _ hw2 rfl rfl rfl rfl rfl) (by simp [hn0]) he⟩
        · cases hs : sliceElems dec (s1.r.length + 1)
              { s1 with stack := n :: s1.stack.modifyHead (sub64 · n), ahead := none } with
          | mk o t2 =>
            rw [hs] at h
            cases o with
            | error e => simp at h
            | ok l2 =>
              simp only at h
              cases he : t2.listEnd with
              | mk o t3 =>
                rw [he] at h
                cases o with
                | error e => simp at h
                | ok u =>
                  simp only [Prod.mk.injEq, Except.ok.injEq] at h
                  obtain ⟨rfl, rfl⟩ := h
                  obtain ⟨y, g0, g1, g2⟩ := sliceElemsR_snd hd _ hw2 rfl (by simp only; omega) hs
                  exact ⟨_, ⟨_, y, rfl, rfl, g0⟩, list_done (by omega) hA g1 g2 he⟩
  · intro s s' e hw ha hlen h
    unfold listSlice at h
    cases hl : s.list with
    | mk o u =>
      rw [hl] at h
      cases o with
      | error e =>
        simp only [Prod.mk.injEq, Except.error.injEq] at h
        obtain ⟨rfl, rfl⟩ := h
        exact list_err ha hl
      | ok n =>
        simp only at h
        right
        obtain ⟨s1, hA, rfl, hn⟩ := list_ok hw ha hl
        have hw2 := push_wf (hA.wf hw) hn
        have hrl := hA.cons.r_length
        simp only at hrl
        split at h
        · cases he : Stream.listEnd { s1 with stack := n :: s1.stack.modifyHead (sub64 · n), ahead := none } with
          | mk o t2 =>
            rw [he] at h
            cases o with
            | error e =>
              simp only [Prod.mk.injEq, Except.error.injEq] at h
              rw [← h.1]; exact listEnd_err he
            | ok u => simp at h
        · cases hs : sliceElems dec (s1.r.length + 1)
              { s1 with stack := n :: s1.stack.modifyHead (sub64 · n), ahead := none } with
          | mk o t2 =>
            rw [hs] at h
            cases o with
            | error e =>
              simp only [Prod.mk.injEq, Except.error.injEq] at h
              rw [← h.1]
              exact sliceElemsR_errR hd hp _ hw2 rfl (by simp only; omega) (by simp only; omega) hs
            | ok l2 =>
              simp only at h
              cases he : t2.listEnd with
              | mk o t3 =>
                rw [he] at h
                cases o with
                | error e =>
                  simp only [Prod.mk.injEq, Except.error.injEq] at h
                  rw [← h.1]; exact listEnd_err he
                | ok u => simp at h

theorem arrElemsR_snd (hd : SoundR R dec N) (n : Nat) {s s' : Stream} {l : List Val} (hw : s.wf) (ha : s.ahead = none)
    (hlen : s.r.length < N) (h : arrElems dec n s = (.ok l, s')) :
    ∃ x, (RL R l x ∧ l.length = n) ∧ Cons s x s' := by
  induction n generalizing s l with
  | zero =>
    simp only [arrElems, Prod.mk.injEq, Except.ok.injEq] at h
    obtain ⟨rfl, rfl⟩ := h
    exact ⟨[], ⟨.nil, rfl⟩, cons_nil _ _ hw rfl rfl ha rfl rfl⟩
  | succ n ih =>
    rw [arrElems] at h
    cases hr : dec s with
    | mk o t =>
      rw [hr] at h
      cases o with
      | error e => cases e <;> simp at h
      | ok v =>
        simp only at h
        obtain ⟨x, hx, hc⟩ := hd.ok hw ha hlen hr
        cases hs : arrElems dec n t with
        | mk o t2 =>
          rw [hs] at h
          cases o with
          | error e => simp at h
          | ok l2 =>
            simp only [Prod.mk.injEq, Except.ok.injEq] at h
            obtain ⟨rfl, rfl⟩ := h
            obtain ⟨y, ⟨g0, g3⟩, g1⟩ := ih (hc.wf hw) hc.ahead (by have := hc.r_length; omega) hs
            exact ⟨x ++ y, ⟨.cons hx g0, by rw [List.length_cons, g3]⟩, hc.trans g1⟩

theorem arrElemsR_errR (hd : SoundR R dec N) (n : Nat) {s s' : Stream} {e : Err}
    (hw : s.wf) (ha : s.ahead = none) (hlen : s.r.length < N)
    (h : arrElems dec n s = (.error e, s')) : Hard e := by
  induction n generalizing s s' e with
  | zero => simp [arrElems] at h
  | succ n ih =>
    rw [arrElems] at h
    cases hr : dec s with
    | mk o t =>
      rw [hr] at h
      cases o with
      | error e' =>
        by_cases he : e' = .eol
        · subst he
          simp only [Prod.mk.injEq, Except.error.injEq] at h
          rw [← h.1]; exact ⟨by simp, by simp⟩
        · have he' : e' = e := by cases e' <;> simp at he h <;> exact h.1
          rcases hd.err hw ha hlen hr with ⟨h1, _⟩ | hh
          · exact absurd h1 he
          · rw [← he']; exact hh
      | ok v =>
        simp only at h
        obtain ⟨x, hx, hc⟩ := hd.ok hw ha hlen hr
        have hl := hc.r_length
        cases hs : arrElems dec n t with
        | mk o t2 =>
          rw [hs] at h
          cases o with
          | error e' =>
            simp only [Prod.mk.injEq, Except.error.injEq] at h
            rw [← h.1]
            exact ih (hc.wf hw) hc.ahead (by omega) hs
          | ok l2 => simp at h

/-- Elements from their encodings, up to the end of the list. -/
theorem sliceElemsR_fitsR (hd : SoundR R dec N) (heol : AtEolR dec N) {l : List Val} {x : Bytes} (hl : RL R l x)
    (hc : ∀ v ∈ l, ∀ y, R v y → CompleteR dec N v y) (f : Nat)
    (hf : l.length < f) {s : Stream} {r : Bytes} (hw : s.wf) (ha : s.ahead = none) (hlen : s.r.length < N)
    (hr : s.r = x ++ r) (hfit : s.fits x.length) (htop : s.stack.head? = some x.length) :
    ∃ s', sliceElems dec f s = (.ok l, s') ∧ s'.r = r ∧ s'.stack.head? = some 0 := by
  induction l generalizing s f x with
  | nil =>
    cases hl
    cases f with
    | zero => omega
    | succ f =>
      rw [sliceElems, heol s ha hlen htop]
      exact ⟨s, rfl, hr, htop⟩
  | cons v l ih =>
    cases hl with
    | cons h hl =>
      rename_i x y
      cases f with
      | zero => omega
      | succ f =>
        rw [List.length_append] at hfit htop
        obtain ⟨u, e1, e2, g1⟩ := CompleteR.cons (hc v (by simp) x h) hd hw ha hlen (r := y ++ r) (by rw [hr, List.append_assoc])
          (hfit.mono (by omega))
        obtain ⟨s', i1, i2, i3⟩ := ih hl (fun v hv => hc v (by simp [hv])) f (by rw [List.length_cons] at hf; omega) (g1.wf hw) g1.ahead
          (by have := g1.r_length; omega) e2 (g1.fits hw hfit) (g1.top hw htop)
        rw [sliceElems, e1]
        simp only
        rw [i1]
        exact ⟨s', rfl, i2, i3⟩

theorem arrElemsR_fitsR (hd : SoundR R dec N) {l : List Val} {x : Bytes} (hl : RL R l x)
    (hc : ∀ v ∈ l, ∀ y, R v y → CompleteR dec N v y)
    {s : Stream} {r : Bytes} (hw : s.wf) (ha : s.ahead = none) (hlen : s.r.length < N)
    (hr : s.r = x ++ r) (hfit : s.fits x.length) (htop : s.stack.head? = some x.length) :
    ∃ s', arrElems dec l.length s = (.ok l, s') ∧ s'.r = r ∧ s'.stack.head? = some 0 := by
  induction l generalizing s x with
  | nil =>
    cases hl
    exact ⟨s, rfl, hr, htop⟩
  | cons v l ih =>
    cases hl with
    | cons h hl =>
      rename_i x y
      rw [List.length_append] at hfit htop
      obtain ⟨u, e1, e2, g1⟩ := CompleteR.cons (hc v (by simp) x h) hd hw ha hlen (r := y ++ r) (by rw [hr, List.append_assoc])
        (hfit.mono (by omega))
      obtain ⟨s', i1, i2, i3⟩ := ih hl (fun v hv => hc v (by simp [hv])) (g1.wf hw) g1.ahead
        (by have := g1.r_length; omega) e2 (g1.fits hw hfit) (g1.top hw htop)
      rw [List.length_cons, arrElems, e1]
      simp only
      rw [i1]
      exact ⟨s', rfl, i2, i3⟩

theorem rl_length {l : List Val} {x : Bytes} (hp : ∀ v x, R v x → 0 < x.length) (hl : RL R l x) : l.length ≤ x.length := by
  induction l generalizing x with
  | nil => cases hl; simp
  | cons v l ih =>
    cases hl with
    | cons h hl =>
      have h1 := hp _ _ h
      have h2 := ih hl
      rw [List.length_append, List.length_cons]; omega

theorem listSliceR_fitsR (hd : SoundR R dec N) (hp : ∀ v x, R v x → 0 < x.length) (hN : N < 2 ^ 63)
    (heol : AtEolR dec N) {l : List Val} {y : Bytes} (hl : RL R l y)
    (hc : ∀ v ∈ l, ∀ y, R v y → CompleteR dec N v y) : CompleteR (lift .list (listSlice dec)) N (.list l) (encList y) := by
  apply complete_lift
  intro s r hw ha hlen hr hf
  obtain ⟨s1, e1, e2, e3, e4, e5, e6, e7⟩ := list_fits hN hw ha (by omega) hr hf
  have hle := rl_length hp hl
  unfold listSlice
  rw [e1]
  simp only
  by_cases h0 : y.length = 0
  · have hl0 : l = [] := List.length_eq_zero_iff.mp (by omega)
    have hy0 : y = [] := List.length_eq_zero_iff.mp h0
    subst hl0
    rw [if_pos h0]
    rw [h0] at e7
    obtain ⟨s3, g1, g2⟩ := listEnd_of e7
    rw [g1]
    exact ⟨s3, rfl, by rw [g2, e5, hy0]; rfl⟩
  · rw [if_neg h0]
    have hrl : s1.r.length = y.length + r.length := by rw [e5, List.length_append]
    obtain ⟨s2, f1, f2, f3⟩ := sliceElemsR_fitsR hd heol hl hc (s1.r.length + 1) (by omega) e2 e3 (by omega) e5 e6 e7
    obtain ⟨s3, g1, g2⟩ := listEnd_of f3
    rw [f1]
    simp only
    rw [g1]
    exact ⟨s3, rfl, by rw [g2, f2]⟩

end

/-! ### Decoding -/

section
variable {M : Nat → Methods} {R : Nat → Val → Bytes → Prop} {F : Nat}

mutual
theorem ok_all {t : OTy} (h : t.ok = true) : t.all (Ty.ok true) = true := by
  cases t with
  | base t => exact h
  | own k => rfl
  | ptr t => rw [OTy.ok] at h; rw [OTy.all]; exact ok_all h
  | slice t => rw [OTy.ok, Bool.and_eq_true] at h; rw [OTy.all]; exact ok_all h.2
  | array n t => rw [OTy.ok, Bool.and_eq_true] at h; rw [OTy.all]; exact ok_all h.2
  | struct ts => rw [OTy.ok] at h; rw [OTy.all]; exact oks_all h
theorem oks_all {ts : OTys} (h : ts.ok = true) : ts.all (Ty.ok true) = true := by
  cases ts with
  | nil => rfl
  | cons t ts =>
    rw [OTys.ok, Bool.and_eq_true] at h
    rw [OTys.all, ok_all h.1, oks_all h.2]; rfl
end

theorem oenc_pos (hM : ∀ k, Lawful (R k) (M k)) : ∀ {t : OTy} (v : Val) (x : Bytes), OEnc (Enc Γ {}) R t v x → 0 < x.length
  | .base t, v, x, h => encT_pos v x h
  | .own k, v, x, h => (hM k).pos v x h
  | .ptr t, v, x, h => by
    obtain ⟨w, rfl, h⟩ := h
    exact oenc_pos hM w x h
  | .slice t, v, x, h => by
    obtain ⟨l, y, rfl, rfl, h⟩ := h
    exact rawOk_pos (Or.inr (Or.inr ⟨y, rfl⟩))
  | .array n t, v, x, h => by
    obtain ⟨l, y, rfl, rfl, h⟩ := h
    exact rawOk_pos (Or.inr (Or.inr ⟨y, rfl⟩))
  | .struct ts, v, x, h => by
    obtain ⟨l, y, rfl, rfl, h⟩ := h
    exact rawOk_pos (Or.inr (Or.inr ⟨y, rfl⟩))

mutual
theorem decO_atEol (hΓ : ∀ i, (Γ i).ok = true) (hM : ∀ k, Lawful (R k) (M k)) (hF : F ≤ maxInput) :
    ∀ (t : OTy), AtEolR (decO Γ M F t) F
  | .base t => by
    rw [decO]
    exact decTy_atEol (by omega) (named_ok hΓ (by unfold maxInput at hF; omega) F (by omega)).eol t {} rfl
  | .own k => by
    rw [decO]
    intro s ha hl h0
    exact (hM k).atEnd s ha (by omega) h0
  | .ptr t => by
    rw [decO]
    intro s ha hl h0
    exact lift_of_err (decO_atEol hΓ hM hF t s ha hl h0)
  | .slice t => by
    rw [decO]
    intro s ha hl h0
    refine lift_of_err ?_
    unfold listSlice
    rw [list_eol ha h0]
  | .array n t => by
    rw [decO]
    intro s ha hl h0
    exact lift_of_err (inList_eol ha h0)
  | .struct ts => by
    rw [decO]
    intro s ha hl h0
    exact lift_of_err (inList_eol ha h0)
end

mutual
theorem decO_sound (hΓ : ∀ i, (Γ i).ok = true) (hM : ∀ k, Lawful (R k) (M k)) (hF : F ≤ maxInput) :
    ∀ (t : OTy), t.ok = true → SoundR (OEnc (Enc Γ {}) R t) (decO Γ M F t) F
  | .base t, ho => by
    rw [decO]
    exact (decTy_sound (by omega) (by unfold maxInput at hF; omega) (named_ok hΓ (by unfold maxInput at hF; omega) F (by omega)) t {} ho).imp
      fun v x h => h
  | .own k, _ => by
    rw [decO]
    exact ((hM k).sound.mono hF).imp fun v x h => h
  | .ptr t, ho => by
    rw [OTy.ok] at ho
    rw [decO]
    have ih := decO_sound hΓ hM hF t ho
    apply sound_lift
    · intro s s' a hw ha hl h
      obtain ⟨x, h1, h2⟩ := ih.ok hw ha hl h
      exact ⟨x, ⟨a, rfl, h1⟩, h2⟩
    · exact ih.err
  | .slice t, ho => by
    rw [OTy.ok, Bool.and_eq_true] at ho
    rw [decO]
    refine (listSliceR_snd (decO_sound hΓ hM hF t ho.2) (oenc_pos hM) (by unfold maxInput at hF; omega)).imp ?_
    rintro v x ⟨l, y, rfl, rfl, h⟩
    exact ⟨l, y, rfl, rfl, h⟩
  | .array n t, ho => by
    rw [OTy.ok, Bool.and_eq_true] at ho
    rw [decO]
    have ih := decO_sound hΓ hM hF t ho.2
    refine ((inList_sound (by unfold maxInput at hF; omega) (arrElemsR_snd ih n) (arrElemsR_errR ih n)).mono (Nat.le_succ F)).imp ?_
    rintro v x ⟨l, y, rfl, rfl, h1, h2⟩
    exact ⟨l, y, rfl, rfl, h1, h2⟩
  | .struct ts, ho => by
    rw [OTy.ok] at ho
    rw [decO]
    have ih := fldsO_sound hΓ hM hF ts ho
    refine ((inList_sound (by unfold maxInput at hF; omega) ih.1 ih.2).mono (Nat.le_succ F)).imp ?_
    rintro v x ⟨l, y, rfl, rfl, h1⟩
    exact ⟨l, y, rfl, rfl, h1⟩
theorem fldsO_sound (hΓ : ∀ i, (Γ i).ok = true) (hM : ∀ k, Lawful (R k) (M k)) (hF : F ≤ maxInput) :
    ∀ (ts : OTys), ts.ok = true →
      (∀ {s s' : Stream} {l : List Val}, s.wf → s.ahead = none → s.r.length < F → fldsO Γ M F ts s = (.ok l, s') →
        ∃ x, OEncF (Enc Γ {}) R ts l x ∧ Cons s x s') ∧
      (∀ {s s' : Stream} {e : Err}, s.wf → s.ahead = none → s.r.length < F → fldsO Γ M F ts s = (.error e, s') → Hard e)
  | .nil, _ => by
    constructor
    · intro s s' l hw ha hl h
      rw [fldsO, Prod.mk.injEq, Except.ok.injEq] at h
      obtain ⟨rfl, rfl⟩ := h
      exact ⟨[], ⟨rfl, rfl⟩, cons_nil _ _ hw rfl rfl ha rfl rfl⟩
    · intro s s' e hw ha hl h
      simp [fldsO] at h
  | .cons t ts, ho => by
    rw [OTys.ok, Bool.and_eq_true] at ho
    have hd := decO_sound hΓ hM hF t ho.1
    have ih := fldsO_sound hΓ hM hF ts ho.2
    constructor
    · intro s s' l hw ha hl h
      rw [fldsO] at h
      cases hr : decO Γ M F t s with
      | mk o u =>
        rw [hr] at h
        cases o with
        | error e => cases e <;> simp at h
        | ok v =>
          simp only at h
          obtain ⟨x, hx, hc⟩ := hd.ok hw ha hl hr
          cases hs : fldsO Γ M F ts u with
          | mk o t2 =>
            rw [hs] at h
            cases o with
            | error e => simp at h
            | ok l2 =>
              simp only [Prod.mk.injEq, Except.ok.injEq] at h
              obtain ⟨rfl, rfl⟩ := h
              obtain ⟨y, g0, g1⟩ := ih.1 (hc.wf hw) hc.ahead (by have := hc.r_length; omega) hs
              exact ⟨x ++ y, ⟨v, l2, x, y, rfl, rfl, hx, g0⟩, hc.trans g1⟩
    · intro s s' e hw ha hl h
      rw [fldsO] at h
      cases hr : decO Γ M F t s with
      | mk o u =>
        rw [hr] at h
        cases o with
        | error e' =>
          by_cases he : e' = .eol
          · subst he
            simp only [Prod.mk.injEq, Except.error.injEq] at h
            rw [← h.1]; exact ⟨by simp, by simp⟩
          · have he' : e' = e := by cases e' <;> simp at he h <;> exact h.1
            rcases hd.err hw ha hl hr with ⟨h1, _⟩ | hh
            · exact absurd h1 he
            · rw [← he']; exact hh
        | ok v =>
          simp only at h
          obtain ⟨x, hx, hc⟩ := hd.ok hw ha hl hr
          cases hs : fldsO Γ M F ts u with
          | mk o t2 =>
            rw [hs] at h
            cases o with
            | error e' =>
              simp only [Prod.mk.injEq, Except.error.injEq] at h
              rw [← h.1]
              exact ih.2 (hc.wf hw) hc.ahead (by have := hc.r_length; omega) hs
            | ok l2 => simp at h
end

mutual
theorem decO_complete (hΓ : ∀ i, (Γ i).ok = true) (hM : ∀ k, Lawful (R k) (M k)) (hF : F ≤ maxInput) :
    ∀ (t : OTy), t.ok = true → ∀ v x, OEnc (Enc Γ {}) R t v x → CompleteR (decO Γ M F t) F v x
  | .base t, ho, v, x, h => by
    rw [decO]
    exact decTy_complete (by omega) (by unfold maxInput at hF; omega) (named_ok hΓ (by unfold maxInput at hF; omega) F (by omega)) t {} v x ho rfl h
  | .own k, _, v, x, h => by
    rw [decO]
    intro hw ha hl hr hf
    exact (hM k).complete v x h hw ha (by omega) hr hf
  | .ptr t, ho, v, x, h => by
    obtain ⟨w, rfl, h⟩ := h
    rw [OTy.ok] at ho
    rw [decO]
    exact complete_lift (decO_complete hΓ hM hF t ho w x h)
  | .slice t, ho, v, x, h => by
    obtain ⟨l, y, rfl, rfl, h⟩ := h
    rw [OTy.ok, Bool.and_eq_true] at ho
    rw [decO]
    exact listSliceR_fitsR (decO_sound hΓ hM hF t ho.2) (oenc_pos hM) (by unfold maxInput at hF; omega) (decO_atEol hΓ hM hF t) h
      fun v _ y hy => decO_complete hΓ hM hF t ho.2 v y hy
  | .array n t, ho, v, x, h => by
    obtain ⟨l, y, rfl, rfl, h, rfl⟩ := h
    rw [OTy.ok, Bool.and_eq_true] at ho
    rw [decO]
    intro hw ha hl hr hf
    exact inList_fits (N := F) (by unfold maxInput at hF; omega)
      (fun hw ha hl hr hf ht => arrElemsR_fitsR (decO_sound hΓ hM hF t ho.2) h
        (fun v _ y hy => decO_complete hΓ hM hF t ho.2 v y hy) hw ha hl hr hf ht) hw ha (by omega) hr hf
  | .struct ts, ho, v, x, h => by
    obtain ⟨l, y, rfl, rfl, h⟩ := h
    rw [OTy.ok] at ho
    rw [decO]
    intro hw ha hl hr hf
    exact inList_fits (N := F) (by unfold maxInput at hF; omega)
      (fun hw ha hl hr hf ht => fldsO_complete hΓ hM hF ts ho l y h hw ha hl hr hf ht) hw ha (by omega) hr hf
theorem fldsO_complete (hΓ : ∀ i, (Γ i).ok = true) (hM : ∀ k, Lawful (R k) (M k)) (hF : F ≤ maxInput) :
    ∀ (ts : OTys), ts.ok = true → ∀ l x, OEncF (Enc Γ {}) R ts l x → ∀ {s : Stream} {r : Bytes}, s.wf → s.ahead = none →
      s.r.length < F → s.r = x ++ r → s.fits x.length → s.stack.head? = some x.length →
      ∃ s', fldsO Γ M F ts s = (.ok l, s') ∧ s'.r = r ∧ s'.stack.head? = some 0
  | .nil, _, l, x, h, s, r, hw, ha, hl, hr, hf, ht => by
    obtain ⟨rfl, rfl⟩ := h
    rw [fldsO]
    exact ⟨s, rfl, hr, ht⟩
  | .cons t ts, ho, l, x, h, s, r, hw, ha, hl, hr, hf, ht => by
    obtain ⟨v, m, y, z, rfl, rfl, h1, h2⟩ := h
    rw [OTys.ok, Bool.and_eq_true] at ho
    rw [List.length_append] at hf ht
    obtain ⟨u, e1, e2, g1⟩ := CompleteR.cons (decO_complete hΓ hM hF t ho.1 v y h1) (decO_sound hΓ hM hF t ho.1) hw ha hl
      (r := z ++ r) (by rw [hr, List.append_assoc]) (hf.mono (by omega))
    obtain ⟨s', i1, i2, i3⟩ := fldsO_complete hΓ hM hF ts ho.2 m z h2 (g1.wf hw) g1.ahead
      (by have := g1.r_length; omega) e2 (g1.fits hw hf) (g1.top hw ht)
    rw [fldsO, e1]
    simp only
    rw [i1]
    exact ⟨s', rfl, i2, i3⟩
end

/-! ### Encoding -/

theorem wrEach_writes {f : Val → Buf → Res Buf} {e : Bool} {S : Val → Bytes → Prop} (hf : ∀ v x, S v x → Writes (f v) e x)
    {l : List Val} {x : Bytes} (h : RL S l x) : Writes (wrEach f l) (l.length != 0 && e) x := by
  induction h with
  | nil => intro b; exact ⟨by simp, fun _ => ⟨b, rfl, fun _ => adds_nil b⟩⟩
  | @cons v l x y h hl ih =>
    intro b
    obtain ⟨a1, a2⟩ := hf v x h b
    have hlen : ((v :: l).length != 0) = true := by simp
    rw [hlen, Bool.true_and]
    refine ⟨fun he => ?_, fun he => ?_⟩
    · rw [wrEach, a1 he]
    · obtain ⟨c, e1, e2⟩ := a2 he
      obtain ⟨d, f1, f2⟩ := (ih c).2 (by simp [he])
      refine ⟨d, by rw [wrEach, e1]; exact f1, fun hx => ?_⟩
      rw [List.length_append] at hx
      exact adds_trans (e2 (by omega)) (f2 (by omega))

theorem writes_of_empty {f : Buf → Res Buf} {x : Bytes} {e : Bool} (n : Nat) (h : Writes f (n != 0 && e) x) (h0 : n = 0 → x = []) :
    Writes (fun b => if n = 0 then .ok (b.write [0xC0]) else match f b.list.1 with
      | .ok c => .ok (c.listEnd b.list.2)
      | r => r) (n != 0 && e) (encList x) := by
  by_cases hn : n = 0
  · rw [h0 hn]
    subst hn
    exact writes_ok (f := fun b => b.write [0xC0]) fun b _ => rfl
  · simp only [if_neg hn]
    exact writes_list h

theorem rl_nil {S : Val → Bytes → Prop} {l : List Val} {x : Bytes} (h : RL S l x) (hl : l.length = 0) : x = [] := by
  cases h with
  | nil => rfl
  | cons h hl' => simp at hl

mutual
theorem wrO_writes {B : Ty → Val → Bytes → Prop} {p : Ty → Bool}
    (hB : ∀ t, p t = true → ∀ v x, B t v x → Writes (wr Γ {} t v) false x) (hM : ∀ k, Lawful (R k) (M k)) :
    ∀ (t : OTy) (adr : Bool) (v : Val) (x : Bytes), t.all p = true → OEnc B R t v x →
      Writes (wrO Γ M t adr v) (exposed M t && !adr) x
  | .base t, adr, v, x, hp, h => by
    rw [exposed, Bool.false_and]
    intro b
    rw [wrO]
    exact hB t hp v x h b
  | .own k, adr, v, x, _, h => by
    rw [exposed]
    intro b
    rw [wrO]
    refine ⟨fun he => ?_, fun he => ?_⟩
    · rw [if_pos (by simpa using he)]
    · rw [if_neg (fun hh => by simp [hh.1, hh.2] at he)]
      exact (hM k).write v x h b
  | .ptr t, adr, v, x, hp, h => by
    obtain ⟨w, rfl, h⟩ := h
    rw [OTy.all] at hp
    have ih := wrO_writes hB hM t true w x hp h
    rw [Bool.not_true, Bool.and_false] at ih
    rw [exposed, Bool.false_and]
    intro b
    rw [wrO]
    exact ih b
  | .slice t, adr, v, x, hp, h => by
    obtain ⟨l, y, rfl, rfl, h⟩ := h
    rw [OTy.all] at hp
    have ih := wrEach_writes (e := false) (fun v x hv => by
      have := wrO_writes hB hM t true v x hp hv
      rwa [Bool.not_true, Bool.and_false] at this) h
    have := writes_of_empty l.length ih (rl_nil h)
    rw [Bool.and_false] at this
    rw [exposed, Bool.false_and]
    intro b
    rw [wrO]
    exact this b
  | .array n t, adr, v, x, hp, h => by
    obtain ⟨l, y, rfl, rfl, h, rfl⟩ := h
    rw [OTy.all] at hp
    have ih := wrEach_writes (fun v x hv => wrO_writes hB hM t adr v x hp hv) h
    have := writes_of_empty l.length ih (rl_nil h)
    rw [exposed, Bool.and_assoc]
    intro b
    rw [wrO]
    exact this b
  | .struct ts, adr, v, x, hp, h => by
    obtain ⟨l, y, rfl, rfl, h⟩ := h
    rw [OTy.all] at hp
    have := writes_list (wrFO_writes hB hM ts adr l y hp h)
    rw [exposed]
    intro b
    rw [wrO]
    exact this b
theorem wrFO_writes {B : Ty → Val → Bytes → Prop} {p : Ty → Bool}
    (hB : ∀ t, p t = true → ∀ v x, B t v x → Writes (wr Γ {} t v) false x) (hM : ∀ k, Lawful (R k) (M k)) :
    ∀ (ts : OTys) (adr : Bool) (l : List Val) (x : Bytes), ts.all p = true → OEncF B R ts l x →
      Writes (wrFO Γ M ts adr l) (exposedF M ts && !adr) x
  | .nil, adr, l, x, _, h => by
    obtain ⟨rfl, rfl⟩ := h
    intro b
    rw [exposedF, wrFO]
    exact ⟨by simp, fun _ => ⟨b, rfl, fun _ => adds_nil b⟩⟩
    all_goals simp
  | .cons t ts, adr, l, x, hp, h => by
    obtain ⟨v, m, y, z, rfl, rfl, h1, h2⟩ := h
    rw [OTys.all, Bool.and_eq_true] at hp
    intro b
    obtain ⟨a1, a2⟩ := wrO_writes hB hM t adr v y hp.1 h1 b
    have ih := wrFO_writes hB hM ts adr m z hp.2 h2
    rw [exposedF, wrFO, Bool.and_or_distrib_right]
    cases he : (exposed M t && !adr)
    · obtain ⟨c, e1, e2⟩ := a2 he
      rw [e1, Bool.false_or]
      obtain ⟨b1, b2⟩ := ih c
      refine ⟨b1, fun hh => ?_⟩
      obtain ⟨d, f1, f2⟩ := b2 hh
      refine ⟨d, f1, fun hx => ?_⟩
      rw [List.length_append] at hx
      exact adds_trans (e2 (by omega)) (f2 (by omega))
    · rw [a1 he]
      exact ⟨fun _ => rfl, by simp⟩
end

/-! ### Theorems -/

/-- **C164.**  With lawful methods, an input is accepted, with this value, exactly when it stands for the value. -/
theorem C164_accepts (hΓ : ∀ i, (Γ i).ok = true) (hM : ∀ k, Lawful (R k) (M k)) {t : OTy} (ho : t.ok = true) {b : Bytes}
    (hb : b.length < maxInput) (v : Val) : decodeBytesO Γ M t b = .ok v ↔ OEnc (Enc Γ {}) R t v b := by
  have hF : b.length + 1 ≤ maxInput := hb
  unfold decodeBytesO
  constructor
  · intro h
    cases hd : decO Γ M (b.length + 1) t (Stream.ofBytes b) with
    | mk o s =>
      rw [hd] at h
      cases o with
      | error e => simp at h
      | ok w =>
        simp only at h
        split at h
        · simp at h
        · next h0 =>
          simp only [Except.ok.injEq] at h
          subst h
          obtain ⟨x, h1, h2⟩ := (decO_sound hΓ hM hF t ho).ok (ofBytes_wf b) rfl (Nat.lt_succ_self _) hd
          have hr := h2.r
          have hs : s.r = [] := List.length_eq_zero_iff.mp (by omega)
          rw [hs, List.append_nil] at hr
          have hr : b = x := hr
          rw [hr]; exact h1
  · intro h
    obtain ⟨s', e1, e2⟩ := decO_complete hΓ hM hF t ho v b h (s := Stream.ofBytes b) (r := []) (ofBytes_wf b) rfl
      (Nat.lt_succ_self _) (by simp [Stream.ofBytes]) ⟨by simp [Stream.ofBytes], by simp [Stream.ofBytes]⟩
    rw [e1]
    simp [e2]

theorem rl_imp {S T : Val → Bytes → Prop} (h : ∀ v x, S v x → T v x) {l : List Val} {x : Bytes} (hl : RL S l x) : RL T l x := by
  induction hl with
  | nil => exact .nil
  | cons g _ ih => exact .cons (h _ _ g) ih

mutual
theorem oenc_imp {B C : Ty → Val → Bytes → Prop} {p : Ty → Bool} (hBC : ∀ t, p t = true → ∀ v x, B t v x → C t v x) :
    ∀ (t : OTy) (v : Val) (x : Bytes), t.all p = true → OEnc B R t v x → OEnc C R t v x
  | .base t, v, x, hp, h => hBC t hp v x h
  | .own k, v, x, _, h => h
  | .ptr t, v, x, hp, h => by
    obtain ⟨w, rfl, h⟩ := h
    exact ⟨w, rfl, oenc_imp hBC t w x hp h⟩
  | .slice t, v, x, hp, h => by
    obtain ⟨l, y, rfl, rfl, h⟩ := h
    exact ⟨l, y, rfl, rfl, rl_imp (fun v x h => oenc_imp hBC t v x hp h) h⟩
  | .array n t, v, x, hp, h => by
    obtain ⟨l, y, rfl, rfl, h, h2⟩ := h
    exact ⟨l, y, rfl, rfl, rl_imp (fun v x h => oenc_imp hBC t v x hp h) h, h2⟩
  | .struct ts, v, x, hp, h => by
    obtain ⟨l, y, rfl, rfl, h⟩ := h
    exact ⟨l, y, rfl, rfl, oencF_imp hBC ts l y hp h⟩
theorem oencF_imp {B C : Ty → Val → Bytes → Prop} {p : Ty → Bool} (hBC : ∀ t, p t = true → ∀ v x, B t v x → C t v x) :
    ∀ (ts : OTys) (l : List Val) (x : Bytes), ts.all p = true → OEncF B R ts l x → OEncF C R ts l x
  | .nil, l, x, _, h => h
  | .cons t ts, l, x, hp, h => by
    obtain ⟨v, m, y, z, rfl, rfl, h1, h2⟩ := h
    rw [OTys.all, Bool.and_eq_true] at hp
    exact ⟨v, m, y, z, rfl, rfl, oenc_imp hBC t v y hp.1 h1, oencF_imp hBC ts m z hp.2 h2⟩
end

/-- The encodings of values without nil and without negative numbers (see C110). -/
def PlainB (Γ : Nat → Flds) (t : Ty) (v : Val) (x : Bytes) : Prop := Plain Γ t v ∧ x = bytesOf Γ {} t v

theorem plain_enc (hΓ : ∀ i, (Γ i).ok = true) (t : Ty) (ho : t.ok true = true) (v : Val) (x : Bytes) (h : PlainB Γ t v x) :
    Enc Γ {} t v x := by
  obtain ⟨h1, rfl⟩ := h
  exact reads_enc hΓ (plain_reads h1 rfl) (plain_hasTy hΓ h1 ho).1 ho

theorem plain_writes (hΓ : ∀ i, (Γ i).ok = true) (t : Ty) (ho : t.ok true = true) (v : Val) (x : Bytes) (h : PlainB Γ t v x) :
    Writes (wr Γ {} t v) false x := by
  obtain ⟨h1, rfl⟩ := h
  have := plain_hasTy hΓ h1 ho
  have hw := wr_writes hΓ {} this.1 ho
  rwa [this.2] at hw

theorem encodeO_of {t : OTy} {v : Val} {x : Bytes} (h : Writes (wrO Γ M t false v) (exposed M t && !false) x) (hx : x.length < 2 ^ 64) :
    encodeO Γ M t v = if exposed M t = true then .err else .ok x := by
  rw [Bool.not_false, Bool.and_true] at h
  unfold encodeO
  cases he : exposed M t
  · obtain ⟨c, e1, e2⟩ := (h Buf.empty).2 he
    rw [e1, if_neg (by simp)]
    exact (adds_empty (e2 hx)).2.2
  · rw [(h Buf.empty).1 he, if_pos rfl]

/-- **C164.**  The encoder puts the bytes of the methods in place; it refuses exactly if a method of the pointer is needed for a
part of the value that is not behind a pointer and not in a slice. -/
theorem C164_encode (hΓ : ∀ i, (Γ i).ok = true) (hM : ∀ k, Lawful (R k) (M k)) {t : OTy} (ho : t.ok = true) {v : Val} {x : Bytes}
    (h : OEnc (PlainB Γ) R t v x) (hx : x.length < 2 ^ 64) :
    encodeO Γ M t v = if exposed M t = true then .err else .ok x :=
  encodeO_of (wrO_writes (plain_writes hΓ) hM t false v x (ok_all ho) h) hx

/-- **C164.**  A pointer to the value is always encoded, with the bytes of the value. -/
theorem C164_pointer (hΓ : ∀ i, (Γ i).ok = true) (hM : ∀ k, Lawful (R k) (M k)) {t : OTy} (ho : t.ok = true) {v : Val} {x : Bytes}
    (h : OEnc (PlainB Γ) R t v x) (hx : x.length < 2 ^ 64) : encodeO Γ M (.ptr t) (.ptr v) = .ok x := by
  have := C164_encode (t := .ptr t) hΓ hM (by rw [OTy.ok]; exact ho) (v := .ptr v) ⟨v, rfl, h⟩ hx
  rw [this, exposed, if_neg (by simp)]

/-- **C164.**  What was encoded, of a pointer to the value, is decoded to the value. -/
theorem C164_roundtrip (hΓ : ∀ i, (Γ i).ok = true) (hM : ∀ k, Lawful (R k) (M k)) {t : OTy} (ho : t.ok = true) {v : Val} {x : Bytes}
    (h : OEnc (PlainB Γ) R t v x) (hx : x.length < maxInput) :
    ∃ b, encodeO Γ M (.ptr t) (.ptr v) = .ok b ∧ decodeBytesO Γ M t b = .ok v :=
  ⟨x, C164_pointer hΓ hM ho h (by unfold maxInput at hx; omega),
    (C164_accepts hΓ hM ho hx v).mpr (oenc_imp (plain_enc hΓ) t v x (ok_all ho) h)⟩

theorem rl_functional {S : Val → Bytes → Prop} (hS : ∀ v x y, S v x → S v y → x = y) {l : List Val} {x y : Bytes}
    (h1 : RL S l x) (h2 : RL S l y) : x = y := by
  induction h1 generalizing y with
  | nil => cases h2; rfl
  | cons h hl ih =>
    cases h2 with
    | cons g gl => rw [hS _ _ _ h g, ih gl]

mutual
theorem oenc_functional (hO : ∀ i, (Γ i).noOptional = true) (hR : ∀ k v x y, R k v x → R k v y → x = y) :
    ∀ (t : OTy) (v : Val) (x y : Bytes), t.all Ty.noOptional = true → OEnc (Enc Γ {}) R t v x → OEnc (Enc Γ {}) R t v y → x = y
  | .base t, v, x, y, hp, h1, h2 => by
    rw [← enc_bytesOf hO h1 hp, ← enc_bytesOf hO h2 hp]
  | .own k, v, x, y, _, h1, h2 => hR k v x y h1 h2
  | .ptr t, v, x, y, hp, h1, h2 => by
    obtain ⟨w, rfl, h1⟩ := h1
    obtain ⟨w', h', h2⟩ := h2
    cases h'
    exact oenc_functional hO hR t w x y hp h1 h2
  | .slice t, v, x, y, hp, h1, h2 => by
    obtain ⟨l, x, rfl, rfl, h1⟩ := h1
    obtain ⟨l', y, h', rfl, h2⟩ := h2
    cases h'
    rw [rl_functional (fun v x y => oenc_functional hO hR t v x y hp) h1 h2]
  | .array n t, v, x, y, hp, h1, h2 => by
    obtain ⟨l, x, rfl, rfl, h1, _⟩ := h1
    obtain ⟨l', y, h', rfl, h2, _⟩ := h2
    cases h'
    rw [rl_functional (fun v x y => oenc_functional hO hR t v x y hp) h1 h2]
  | .struct ts, v, x, y, hp, h1, h2 => by
    obtain ⟨l, x, rfl, rfl, h1⟩ := h1
    obtain ⟨l', y, h', rfl, h2⟩ := h2
    cases h'
    rw [oencF_functional hO hR ts l x y hp h1 h2]
theorem oencF_functional (hO : ∀ i, (Γ i).noOptional = true) (hR : ∀ k v x y, R k v x → R k v y → x = y) :
    ∀ (ts : OTys) (l : List Val) (x y : Bytes), ts.all Ty.noOptional = true → OEncF (Enc Γ {}) R ts l x →
      OEncF (Enc Γ {}) R ts l y → x = y
  | .nil, l, x, y, _, h1, h2 => by rw [h1.2, h2.2]
  | .cons t ts, l, x, y, hp, h1, h2 => by
    obtain ⟨v, m, x1, x2, rfl, rfl, h1, g1⟩ := h1
    obtain ⟨v', m', y1, y2, h', rfl, h2, g2⟩ := h2
    cases h'
    rw [OTys.all, Bool.and_eq_true] at hp
    rw [oenc_functional hO hR t v x1 y1 hp.1 h1 h2, oencF_functional hO hR ts m x2 y2 hp.2 g1 g2]
end

/-- **C164.**  If every value has one encoding by its methods, and without optional fields, different inputs have different
values. -/
theorem C164_injective (hΓ : ∀ i, (Γ i).ok = true) (hO : ∀ i, (Γ i).noOptional = true) (hM : ∀ k, Lawful (R k) (M k))
    (hR : ∀ k v x y, R k v x → R k v y → x = y) {t : OTy} (ho : t.ok = true) (hot : t.all Ty.noOptional = true) {b c : Bytes}
    (hb : b.length < maxInput) (hc : c.length < maxInput) {v : Val} (h1 : decodeBytesO Γ M t b = .ok v)
    (h2 : decodeBytesO Γ M t c = .ok v) : b = c :=
  oenc_functional hO hR t v b c hot ((C164_accepts hΓ hM ho hb v).mp h1) ((C164_accepts hΓ hM ho hc v).mp h2)

/-- **C164.**  The method is not called for a nil pointer: one byte is written, whatever the method does. -/
theorem C164_nilPointer (k : Nat) : encodeO Γ M (.ptr (.own k)) .nil = .ok [if (M k).text then 0x80 else 0xC0] := by
  unfold encodeO
  rw [wrO, nilO]
  exact (adds_empty (adds_write Buf.empty _)).2.2

end

/-! ### The usual methods -/

/-- Methods that call `rlp.Encode` and `Stream.Decode` for another type. -/
def via (Γ : Nat → Flds) (u : Ty) (onPtr text : Bool) : Methods where
  write v b := wr Γ {} u v b
  read s := s.decodeTy Γ u
  onPtr := onPtr
  text := text

/-- Such methods are lawful, with the encodings of the other type. -/
theorem via_lawful (hΓ : ∀ i, (Γ i).ok = true) (hO : ∀ i, (Γ i).noOptional = true) {u : Ty} (ho : u.ok true = true)
    (hot : u.noOptional = true) (p q : Bool) : Lawful (Enc Γ {} u) (via Γ u p q) := by
  refine ⟨encT_pos, fun v x h => ?_, ⟨fun hw ha hl h => C111_stream hΓ ho hw ha hl h, fun {s} _ _ hw ha hl h => ?_⟩, fun v x h => ?_,
    fun s ha hl h0 => ?_⟩
  · obtain ⟨h1, h2⟩ := enc_hasTy hΓ h ho
    have hw := wr_writes hΓ {} h1 ho
    rw [h2, enc_bytesOf hO h hot] at hw
    exact fun b => (hw b).2 rfl
  · unfold maxInput at hl
    exact (decTy_sound (N := s.r.length + 1) (by omega) (by omega) (named_ok hΓ (by omega) _ (by omega)) u {} ho).err hw ha (by omega) h
  · intro s r hw ha hl hr hf
    exact C110_stream hΓ ho hw ha hl h hr hf
  · unfold maxInput at hl
    exact decTy_atEol (N := s.r.length + 1) (by omega) (named_ok hΓ (by omega) _ (by omega)).eol u {} rfl s ha (by omega) h0

/-! ### Examples -/

/-- Texts with methods that write and read them as strings, on the pointer, the type being a struct. -/
def texts : Nat → Methods := fun _ => via noTypes .str true false

theorem texts_lawful (k : Nat) : Lawful (Enc noTypes {} .str) (texts k) :=
  via_lawful (fun _ => rfl) (fun _ => rfl) rfl rfl true false

/-- `struct { A own; B []own; C *own }`. -/
def sample : OTy := .struct (.cons (.own 0) (.cons (.slice (.own 0)) (.cons (.ptr (.own 0)) .nil)))

def sampleVal : Val := .list [.bytes [1], .list [.bytes [2, 3], .bytes []], .ptr (.bytes [0x80])]

def sampleBytes : Bytes := [0xC8, 0x01, 0xC4, 0x82, 0x02, 0x03, 0x80, 0x81, 0x80]

/-- A value, a slice and a pointer of the type: behind a pointer it is encoded and decoded again, alone it is refused. -/
example : decodeBytesO noTypes texts sample sampleBytes = .ok sampleVal ∧ encodeO noTypes texts (.ptr sample) (.ptr sampleVal) = .ok sampleBytes ∧
    encodeO noTypes texts sample sampleVal = .err :=
  ⟨of_isOk (by decide +kernel), by decide +kernel, by decide +kernel⟩

/-- **C164, refuted.**  The documentation says that a method of the pointer may be called for nil pointers.  It is not called: for
lawful methods that write a string, the byte written for nil cannot be decoded. -/
theorem C164_nil_refuted : Lawful (Enc noTypes {} .str) (texts 0) ∧
    encodeO noTypes texts (.struct (.cons (.ptr (.own 0)) .nil)) (.list [.nil]) = .ok [0xC1, 0xC0] ∧
    decodeBytesO noTypes texts (.struct (.cons (.ptr (.own 0)) .nil)) [0xC1, 0xC0] = .error .expectedString :=
  ⟨texts_lawful 0, by decide +kernel, of_isErr (by decide +kernel)⟩

/-- Methods that write nothing, as the documentation permits. -/
def nothing : Nat → Methods := fun _ => { write := fun _ b => .ok b, read := fun s => (.ok .nil, s), onPtr := false, text := false }

/-- **C164, refuted.**  Methods that write nothing are permitted; slices with and without such values have the same encoding. -/
theorem C164_nothing_refuted : encodeO noTypes nothing (.slice (.own 0)) (.list [.nil, .nil]) = .ok [0xC0] ∧
    encodeO noTypes nothing (.slice (.own 0)) (.list []) = .ok [0xC0] ∧
    decodeBytesO noTypes nothing (.slice (.own 0)) [0xC0] = .ok (.list []) :=
  ⟨by decide +kernel, by decide +kernel, of_isOk (by decide +kernel)⟩

/-- Methods for a number in a list, with the calls of `List`, `Uint64`, `ListEnd` and every error returned. -/
def inOne : Nat → Methods := fun _ =>
  { write := fun v b => wr noTypes {} (.struct (.cons {} (.uint 64) .nil)) (.list [v]) b
    read := fun s => match s.list with
      | (.error e, s) => (.error e, s)
      | (.ok _, s) => match s.uint 64 with
        | (.error e, s) => (.error e, s)
        | (.ok n, s) => match s.listEnd with
          | (.error e, s) => (.error e, s)
          | (.ok _, s) => (.ok (.num n), s)
    onPtr := false
    text := false }

/-- **C164, refuted.**  A method that returns the error it gets from the stream inside its list reports the end of a list; the
decoder of slices takes this for the end of its own: `[[]]` is accepted as a slice without elements, as `[]` is, although the
element is refused alone and in a struct. -/
theorem C164_endOfList_refuted : decodeBytesO noTypes inOne (.slice (.own 0)) [0xC2, 0xC1, 0x05] = .ok (.list [.num 5]) ∧
    decodeBytesO noTypes inOne (.own 0) [0xC0] = .error .eol ∧
    decodeBytesO noTypes inOne (.struct (.cons (.own 0) .nil)) [0xC1, 0xC0] = .error .tooFew ∧
    decodeBytesO noTypes inOne (.slice (.own 0)) [0xC1, 0xC0] = .ok (.list []) ∧
    decodeBytesO noTypes inOne (.slice (.own 0)) [0xC0] = .ok (.list []) :=
  ⟨of_isOk (by decide +kernel), of_isErr (by decide +kernel), of_isErr (by decide +kernel), of_isOk (by decide +kernel),
    of_isOk (by decide +kernel)⟩

end Verif.Rlp.Own

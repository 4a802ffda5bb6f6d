import Verif.Rlp.Stream

/-!
# RLP: lists and nested values
-/

namespace Verif.Rlp
open Verif

/-! ### Lists of values -/

section
variable {α : Type} (E : α → Bytes) (dec : Stream → Except Err α × Stream)

/-- On streams with fewer than `N` unread bytes: what is accepted is the encoding of the value; the end of the list is reported
only there, with the stream unchanged. -/
structure Sound (N : Nat) : Prop where
  ok : ∀ {s s' : Stream} {v : α}, s.wf → s.ahead = none → s.r.length < N → dec s = (.ok v, s') →
    Cons s (E v) s' ∧ 0 < (E v).length
  err : ∀ {s s' : Stream} {e : Err}, s.wf → s.ahead = none → s.r.length < N → dec s = (.error e, s') → Errs s e s'

/-- The value is read from its encoding. -/
def Complete (N : Nat) (v : α) : Prop := ∀ {s : Stream} {r : Bytes}, s.wf → s.ahead = none → s.r.length < N →
  s.r = E v ++ r → s.fits (E v).length → ∃ s', dec s = (.ok v, s') ∧ s'.r = r

/-- The end of the list is reported. -/
def AtEol : Prop := ∀ s : Stream, s.ahead = none → s.stack.head? = some 0 → dec s = (.error .eol, s)

/-- The encodings, one after the other. -/
def flat (l : List α) : Bytes := l.flatMap E

variable {E dec}

theorem Sound.mono {N M : Nat} (h : Sound E dec N) (hm : M ≤ N) : Sound E dec M :=
  ⟨fun a b c d => h.ok a b (by omega) d, fun a b c d => h.err a b (by omega) d⟩

theorem flat_cons (v : α) (l : List α) : flat E (v :: l) = E v ++ flat E l := by simp [flat]

theorem sliceElems_ok {N : Nat} (hd : Sound E dec N) (f : Nat) {s s' : Stream} {l : List α} (hw : s.wf) (ha : s.ahead = none)
    (hlen : s.r.length < N) (h : sliceElems dec f s = (.ok l, s')) :
    Cons s (flat E l) s' ∧ s'.stack.head? = some 0 := by
  induction f generalizing s l with
  | zero => simp [sliceElems] at h
  | succ f ih =>
    rw [sliceElems] at h
    cases hr : dec s with
    | mk o t =>
      rw [hr] at h
      cases o with
      | error e =>
        by_cases he : e = .eol
        · subst he
          simp only [Prod.mk.injEq, Except.ok.injEq] at h
          obtain ⟨rfl, rfl⟩ := h
          rcases hd.err hw ha hlen hr with ⟨_, rfl, h0⟩ | hh
          · exact ⟨cons_nil _ _ hw rfl rfl ha rfl rfl, h0⟩
          · exact absurd rfl hh.1
        · cases e <;> simp at h he
      | ok v =>
        simp only at h
        obtain ⟨hc, _⟩ := hd.ok hw ha hlen hr
        cases hs : sliceElems dec f t with
        | mk o t2 =>
          rw [hs] at h
          cases o with
          | error e => simp at h
          | ok l2 =>
            simp only [Prod.mk.injEq, Except.ok.injEq] at h
            obtain ⟨rfl, rfl⟩ := h
            obtain ⟨g1, g2⟩ := ih (hc.wf hw) hc.ahead (by have := hc.r_length; omega) hs
            rw [flat_cons]
            exact ⟨hc.trans g1, g2⟩

/-- The loop ends: every element takes a byte. -/
theorem sliceElems_err {N : Nat} (hd : Sound E dec N) (f : Nat) {s s' : Stream} {e : Err} (hw : s.wf) (ha : s.ahead = none)
    (hlen : s.r.length < N) (hf : s.r.length < f) (h : sliceElems dec f s = (.error e, s')) : Hard e := by
  induction f generalizing s s' e with
  | zero => omega
  | succ f ih =>
    rw [sliceElems] at h
    cases hr : dec s with
    | mk o t =>
      rw [hr] at h
      cases o with
      | error e' =>
        by_cases he : e' = .eol
        · subst he
          simp at h
        · have he' : e' = e := by cases e' <;> simp at he h <;> exact h.1
          rcases hd.err hw ha hlen hr with ⟨h1, _⟩ | hh
          · exact absurd h1 he
          · rw [← he']; exact hh
      | ok v =>
        simp only at h
        obtain ⟨hc, hp⟩ := hd.ok hw ha hlen hr
        have hl := hc.r_length
        cases hs : sliceElems dec f t with
        | mk o t2 =>
          rw [hs] at h
          cases o with
          | error e' =>
            simp only [Prod.mk.injEq, Except.error.injEq] at h
            rw [← h.1]
            exact ih (hc.wf hw) hc.ahead (by omega) (by omega) hs
          | ok l2 => simp at h

theorem list_ok {s s' : Stream} {n : Nat} (hw : s.wf) (ha : s.ahead = none) (h : s.list = (.ok n, s')) :
    ∃ s1, Ahead s .list n s1 ∧ s' = { s1 with stack := n :: s1.stack.modifyHead (sub64 · n), ahead := none } ∧ n < 2 ^ 64 := by
  unfold Stream.list at h
  cases hk : s.kind with
  | mk o s1 =>
    rw [hk] at h
    cases o with
    | error e => simp at h
    | ok q =>
      obtain ⟨k, m⟩ := q
      have hA := kind_ok hw ha hk
      simp only at h
      split at h
      · simp at h
      · next hkl =>
        rw [not_not] at hkl
        subst hkl
        simp only [Prod.mk.injEq, Except.ok.injEq] at h
        obtain ⟨rfl, rfl⟩ := h
        refine ⟨s1, hA, ?_, hA.ok⟩
        cases s1.stack <;> rfl

/-- From the end of the inner list: what was consumed is the encoding of the list. -/
theorem list_done {s s1 s2 s3 : Stream} {n : Nat} {x : Bytes} (hlen : s.r.length < 2 ^ 63)
    (hA : Ahead s .list n s1)
    (hc : Cons { s1 with stack := n :: s1.stack.modifyHead (sub64 · n), ahead := none } x s2)
    (h0 : s2.stack.head? = some 0) (hl : s2.listEnd = (.ok (), s3)) : Cons s (encList x) s3 := by
  have hn : n < 2 ^ 64 := hA.ok
  have hst := hc.stack
  simp only [List.modifyHead_cons] at hst
  rw [hst] at h0
  simp only [List.head?_cons, Option.some.injEq] at h0
  have hrl := hc.r_length
  have hrl2 := hA.cons.r_length
  simp only at hrl hrl2
  have hxn : n = x.length := sub64_eq_zero hn (by omega) h0
  unfold Stream.listEnd at hl
  rw [hst] at hl
  simp only [h0] at hl
  rw [if_neg (by omega)] at hl
  simp only [Prod.mk.injEq, true_and] at hl
  subst hl
  have h1 := hA.cons
  simp only [hdr] at h1
  refine ⟨?_, ?_, rfl, ?_, ?_⟩
  · rw [h1.r, encList, ← hxn, List.append_assoc]
    simp only
    rw [← hc.r]
  · simp only; rw [hc.limited]; exact h1.limited
  · have e1 := h1.remaining
    have e2 := hc.remaining
    simp only at e1 e2
    have e3 := h1.limited
    simp only at e3
    rw [e3] at e2
    rw [encList, List.length_append, ← hxn]
    simp only
    by_cases hlm : s.limited = true
    · rw [if_pos hlm] at e1 e2 ⊢; omega
    · rw [if_neg hlm] at e1 e2 ⊢; omega
  · have e1 := h1.stack
    simp only at e1 ⊢
    rw [e1, encList, List.length_append, ← hxn]
    cases s.stack with
    | nil => rfl
    | cons a st => simp only [List.modifyHead_cons, sub64_sub64]

theorem push_wf {s1 : Stream} {n : Nat} (hw1 : s1.wf) (hn : n < 2 ^ 64) :
    ({ s1 with stack := n :: s1.stack.modifyHead (sub64 · n), ahead := none } : Stream).wf := by
  intro l hl
  simp only [List.mem_cons] at hl
  rcases hl with rfl | hl
  · exact hn
  · unfold Stream.wf at hw1
    cases hs : s1.stack with
    | nil => rw [hs] at hl; simp at hl
    | cons a st =>
      rw [hs] at hl hw1
      rw [List.modifyHead_cons] at hl
      rcases List.mem_cons.mp hl with rfl | hl
      · exact sub64_lt _ _
      · exact hw1 l (by simp [hl])

theorem listEnd_err {s s' : Stream} {e : Err} (h : s.listEnd = (.error e, s')) : Hard e := by
  unfold Stream.listEnd at h
  cases hs : s.stack with
  | nil =>
    rw [hs] at h
    simp only [Prod.mk.injEq, Except.error.injEq] at h
    rw [← h.1]; exact ⟨by simp, by simp⟩
  | cons l st =>
    rw [hs] at h
    simp only at h
    split at h
    · simp only [Prod.mk.injEq, Except.error.injEq] at h
      rw [← h.1]; exact ⟨by simp, by simp⟩
    · simp at h

theorem list_err {s s' : Stream} {e : Err} (ha : s.ahead = none) (h : s.list = (.error e, s')) : Errs s e s' := by
  unfold Stream.list at h
  cases hk : s.kind with
  | mk o s1 =>
    rw [hk] at h
    cases o with
    | error e =>
      simp only [Prod.mk.injEq, Except.error.injEq] at h
      obtain ⟨rfl, rfl⟩ := h
      exact kind_err ha hk
    | ok q =>
      simp only at h
      split at h
      · simp only [Prod.mk.injEq, Except.error.injEq] at h
        right
        rw [← h.1]; exact ⟨by simp, by simp⟩
      · simp at h

/-- A list of values is accepted only in its canonical encoding. -/
theorem listSlice_sound {N : Nat} (hd : Sound E dec N) (hN : N < 2 ^ 63) :
    Sound (fun l => encList (flat E l)) (listSlice dec) (N + 1) := by
  constructor
  · intro s s' l hw ha hlen h
    refine ⟨?_, by have := encList_length (flat E l); omega⟩
    unfold listSlice at h
    cases hl : s.list with
    | mk o t =>
      rw [hl] at h
      cases o with
      | error e => simp at h
      | ok n =>
        simp only at h
        obtain ⟨s1, hA, rfl, hn⟩ := list_ok hw ha hl
        have hw2 := push_wf (hA.wf hw) hn
        split at h
        · next hn0 =>
          cases he : Stream.listEnd { s1 with stack := n :: s1.stack.modifyHead (sub64 · n), ahead := none } with
          | mk o t2 =>
            rw [he] at h
            cases o with
            | error e => simp at h
            | ok u =>
              simp only [Prod.mk.injEq, Except.ok.injEq] at h
              obtain ⟨rfl, rfl⟩ := h
              have := list_done (by omega) hA (cons_nil _ _ hw2 rfl rfl rfl rfl rfl) (by simp [hn0]) he
              exact this
        · cases hs : sliceElems dec (s1.r.length + 1)
              { s1 with stack := n :: s1.stack.modifyHead (sub64 · n), ahead := none } with
          | mk o t2 =>
            rw [hs] at h
            cases o with
            | error e => simp at h
            | ok l2 =>
              simp only at h
              cases he : t2.listEnd with
              | mk o t3 =>
                rw [he] at h
                cases o with
                | error e => simp at h
                | ok u =>
                  simp only [Prod.mk.injEq, Except.ok.injEq] at h
                  obtain ⟨rfl, rfl⟩ := h
                  have hrl := hA.cons.r_length
                  have hp := hdr_pos .list n s1.byteval
                  simp only at hrl
                  obtain ⟨g1, g2⟩ := sliceElems_ok hd _ hw2 rfl (by simp only; omega) hs
                  exact list_done (by omega) hA g1 g2 he
  · intro s s' e hw ha hlen h
    unfold listSlice at h
    cases hl : s.list with
    | mk o t =>
      rw [hl] at h
      cases o with
      | error e =>
        simp only [Prod.mk.injEq, Except.error.injEq] at h
        obtain ⟨rfl, rfl⟩ := h
        exact list_err ha hl
      | ok n =>
        simp only at h
        right
        obtain ⟨s1, hA, rfl, hn⟩ := list_ok hw ha hl
        have hw2 := push_wf (hA.wf hw) hn
        split at h
        · cases he : Stream.listEnd { s1 with stack := n :: s1.stack.modifyHead (sub64 · n), ahead := none } with
          | mk o t2 =>
            rw [he] at h
            cases o with
            | error e =>
              simp only [Prod.mk.injEq, Except.error.injEq] at h
              rw [← h.1]; exact listEnd_err he
            | ok u => simp at h
        · cases hs : sliceElems dec (s1.r.length + 1)
              { s1 with stack := n :: s1.stack.modifyHead (sub64 · n), ahead := none } with
          | mk o t2 =>
            rw [hs] at h
            cases o with
            | error e =>
              simp only [Prod.mk.injEq, Except.error.injEq] at h
              rw [← h.1]
              have hrl := hA.cons.r_length
              have hp := hdr_pos .list n s1.byteval
              simp only at hrl
              exact sliceElems_err hd _ hw2 rfl (by simp only; omega) (by simp only; omega) hs
            | ok l2 =>
              simp only at h
              cases he : t2.listEnd with
              | mk o t3 =>
                rw [he] at h
                cases o with
                | error e =>
                  simp only [Prod.mk.injEq, Except.error.injEq] at h
                  rw [← h.1]; exact listEnd_err he
                | ok u => simp at h

theorem flat_length_le (hp : ∀ v, 0 < (E v).length) (l : List α) : l.length ≤ (flat E l).length := by
  induction l with
  | nil => simp
  | cons v l ih =>
    rw [flat_cons, List.length_append, List.length_cons]
    have := hp v
    omega

theorem sliceElems_fits {N : Nat} (hd : Sound E dec N) (heol : AtEol dec) (l : List α) (hc : ∀ v ∈ l, Complete E dec N v) (f : Nat)
    (hf : l.length < f) {s : Stream} {r : Bytes} (hw : s.wf) (ha : s.ahead = none) (hlen : s.r.length < N)
    (hr : s.r = flat E l ++ r) (hfit : s.fits (flat E l).length) (htop : s.stack.head? = some (flat E l).length) :
    ∃ s', sliceElems dec f s = (.ok l, s') ∧ s'.r = r := by
  induction l generalizing s f with
  | nil =>
    cases f with
    | zero => omega
    | succ f =>
      rw [sliceElems, heol s ha htop]
      exact ⟨s, rfl, hr⟩
  | cons v l ih =>
    cases f with
    | zero => omega
    | succ f =>
      rw [flat_cons] at hr hfit htop
      rw [List.length_append] at hfit htop
      obtain ⟨t, e1, e2⟩ := hc v (by simp) hw ha hlen (r := flat E l ++ r) (by rw [hr, List.append_assoc])
        (hfit.mono (by omega))
      obtain ⟨g1, _⟩ := hd.ok hw ha hlen e1
      have htop2 : t.stack.head? = some (flat E l).length := by
        rw [g1.stack]
        have hlt : ∀ a ∈ s.stack, a < 2 ^ 64 := hw
        cases hst : s.stack with
        | nil => rw [hst] at htop; simp at htop
        | cons a st =>
          rw [hst] at htop hlt
          simp only [List.head?_cons, Option.some.injEq] at htop
          rw [List.modifyHead_cons, List.head?_cons, sub64_le (by omega) (hlt a (by simp)), htop]
          congr 1; omega
      obtain ⟨s', i1, i2⟩ := ih (fun v hv => hc v (by simp [hv])) f (by rw [List.length_cons] at hf; omega) (g1.wf hw) g1.ahead
        (by have := g1.r_length; omega) e2 (g1.fits hw hfit) htop2
      rw [sliceElems, e1]
      simp only
      rw [i1]
      exact ⟨s', rfl, i2⟩

/-- A list of values is read from its encoding. -/
theorem listSlice_fits {N : Nat} (hd : Sound E dec N) (hN : N < 2 ^ 63) (heol : AtEol dec) (hp : ∀ v, 0 < (E v).length) (l : List α)
    (hc : ∀ v ∈ l, Complete E dec N v) : Complete (fun l => encList (flat E l)) (listSlice dec) (N + 1) l := by
  intro s r hw ha hlen hr hfit
  simp only at hr hfit
  have hll : (flat E l).length < 2 ^ 63 := by
    have := encList_length (flat E l)
    rw [hr, List.length_append] at hlen
    omega
  rw [encList] at hr hfit
  rw [List.length_append] at hfit
  obtain ⟨s1, e1, hA, e3, _⟩ := kind_fits (k := .list) (n := (flat E l).length) (x := 0) (r := flat E l ++ r) hw ha
    (by simp only [hdrOk]; omega) (by rw [hr, List.append_assoc]; rfl) hfit
  have hw1 : s1.wf := hA.wf hw
  have hlist : s.list = (.ok (flat E l).length,
      { s1 with stack := (flat E l).length :: s1.stack.modifyHead (sub64 · (flat E l).length), ahead := none }) := by
    unfold Stream.list
    rw [e1]
    simp only
    rw [if_neg (by simp)]
    cases s1.stack <;> rfl
  unfold listSlice
  rw [hlist]
  simp only
  by_cases h0 : (flat E l).length = 0
  · have hl0 : l = [] := by
      have := flat_length_le hp l
      exact List.length_eq_zero_iff.mp (by omega)
    subst hl0
    rw [if_pos h0]
    unfold Stream.listEnd
    simp only
    rw [if_neg (by omega)]
    exact ⟨_, rfl, e3⟩
  · rw [if_neg h0]
    have hw2 := push_wf (n := (flat E l).length) hw1 (by omega)
    have hfit2 : ({ s1 with stack := (flat E l).length :: s1.stack.modifyHead (sub64 · (flat E l).length), ahead := none } :
        Stream).fits (flat E l).length := ⟨by simp, fun hl => hA.limit hl⟩
    have hrl := hA.cons.r_length
    have hp2 := hdr_pos .list (flat E l).length s1.byteval
    simp only at hrl
    have hle := flat_length_le hp l
    have hrl3 : s1.r.length = (flat E l).length + r.length := by rw [e3, List.length_append]
    obtain ⟨s2, i1, i2⟩ := sliceElems_fits hd heol l hc (s1.r.length + 1) (by omega) hw2 rfl (by simp only; omega) e3 hfit2 rfl
    obtain ⟨j1, j2⟩ := sliceElems_ok hd _ hw2 rfl (by simp only; omega) i1
    rw [i1]
    simp only
    unfold Stream.listEnd
    cases hst : s2.stack with
    | nil => rw [hst] at j2; simp at j2
    | cons a st =>
      rw [hst] at j2
      simp only [List.head?_cons, Option.some.injEq] at j2
      subst j2
      simp only
      rw [if_neg (by omega)]
      exact ⟨_, rfl, i2⟩

theorem listSlice_atEol : AtEol (listSlice dec) := by
  intro s ha h0
  unfold listSlice Stream.list
  rw [kind_at_eol ha h0]

end

/-! ### Nested values -/

theorem flat_encs (l : List Item) : flat enc l = encs l := by
  induction l with
  | nil => rw [encs]; rfl
  | cons v l ih => rw [flat_cons, encs, ih]

/-- `Kind` again gives the same, so that looking first changes nothing. -/
theorem list_ahead {s s1 : Stream} {k : Kind} {n : Nat} (hk : s.kind = (.ok (k, n), s1)) (hA : Ahead s k n s1) :
    s1.list = s.list ∧ s1.bytes = s.bytes := by
  constructor
  · unfold Stream.list; rw [hA.kind, hk]
  · unfold Stream.bytes; rw [hA.kind, hk]

theorem decodeIface_unfold {f : Nat} {s s1 : Stream} {k : Kind} {n : Nat} (hw : s.wf) (ha : s.ahead = none)
    (hk : s.kind = (.ok (k, n), s1)) : decodeIface (f + 1) s =
      if k = .list then
        match listSlice (decodeIface f) s with
        | (.error e, s) => (.error e, s)
        | (.ok l, s) => (.ok (.list l), s)
      else
        match s.bytes with
        | (.error e, s) => (.error e, s)
        | (.ok b, s) => (.ok (.str b), s) := by
  have hA := kind_ok hw ha hk
  obtain ⟨h1, h2⟩ := list_ahead hk hA
  have h3 : listSlice (decodeIface f) s1 = listSlice (decodeIface f) s := by unfold listSlice; rw [h1]
  rw [decodeIface, hk]
  cases k with
  | list => simp only [if_true]; rw [h3]; rcases listSlice (decodeIface f) s with ⟨_ | _, _⟩ <;> rfl
  | byte => simp only [if_neg (show ¬ Kind.byte = Kind.list from by simp)]; rw [h2]; rcases s.bytes with ⟨_ | _, _⟩ <;> rfl
  | string => simp only [if_neg (show ¬ Kind.string = Kind.list from by simp)]; rw [h2]; rcases s.bytes with ⟨_ | _, _⟩ <;> rfl

/-- `decodeInterface` accepts nothing but the canonical encoding of what it gives, and has enough fuel. -/
theorem decodeIface_sound (f : Nat) (hf : f < 2 ^ 63) : Sound enc (decodeIface f) f := by
  induction f with
  | zero => exact ⟨fun _ _ h => by omega, fun _ _ h => by omega⟩
  | succ f ih =>
    have hls := listSlice_sound (ih (by omega)) (by omega)
    constructor
    · intro s s' v hw ha hlen h
      refine ⟨?_, enc_pos v⟩
      cases hk : s.kind with
      | mk o s1 =>
        cases o with
        | error e => rw [decodeIface, hk] at h; simp at h
        | ok q =>
          obtain ⟨k, n⟩ := q
          rw [decodeIface_unfold hw ha hk] at h
          split at h
          · cases hl : listSlice (decodeIface f) s with
            | mk o t =>
              rw [hl] at h
              cases o with
              | error e => simp at h
              | ok l =>
                simp only [Prod.mk.injEq, Except.ok.injEq] at h
                obtain ⟨rfl, rfl⟩ := h
                have := (hls.ok hw ha hlen hl).1
                rw [enc, ← flat_encs]
                exact this
          · cases hl : s.bytes with
            | mk o t =>
              rw [hl] at h
              cases o with
              | error e => simp at h
              | ok b =>
                simp only [Prod.mk.injEq, Except.ok.injEq] at h
                obtain ⟨rfl, rfl⟩ := h
                rw [enc]
                exact C69_bytes hw ha hl
    · intro s s' e hw ha hlen h
      cases hk : s.kind with
      | mk o s1 =>
        cases o with
        | error e =>
          rw [decodeIface, hk] at h
          simp only [Prod.mk.injEq, Except.error.injEq] at h
          obtain ⟨rfl, rfl⟩ := h
          exact kind_err ha hk
        | ok q =>
          obtain ⟨k, n⟩ := q
          rw [decodeIface_unfold hw ha hk] at h
          split at h
          · cases hl : listSlice (decodeIface f) s with
            | mk o t =>
              rw [hl] at h
              cases o with
              | error e =>
                simp only [Prod.mk.injEq, Except.error.injEq] at h
                obtain ⟨rfl, rfl⟩ := h
                exact hls.err hw ha hlen hl
              | ok l => simp at h
          · cases hl : s.bytes with
            | mk o t =>
              rw [hl] at h
              cases o with
              | error e =>
                simp only [Prod.mk.injEq, Except.error.injEq] at h
                obtain ⟨rfl, rfl⟩ := h
                exact bytes_err ha hl
              | ok b => simp at h

theorem decodeIface_atEol (f : Nat) : AtEol (decodeIface (f + 1)) := by
  intro s ha h0
  rw [decodeIface, kind_at_eol ha h0]

theorem decodeIface_complete (f : Nat) (hf : f < 2 ^ 63) (v : Item) : Complete enc (decodeIface f) f v := by
  induction f generalizing v with
  | zero => intro s r _ _ h; omega
  | succ f ih =>
    intro s r hw ha hlen hr hfit
    cases v with
    | str b =>
      rw [enc] at hr hfit
      have hb : b.length < 2 ^ 64 := by
        have := encStr_length b
        rw [hr, List.length_append] at hlen
        omega
      have hk : ∃ k n s1, s.kind = (.ok (k, n), s1) ∧ k ≠ .list := by
        rcases string_fits hw ha hb hr hfit with ⟨x, s1, _, _, e1, _⟩ | ⟨_, s1, s', e1, _⟩
        · exact ⟨_, _, _, e1, by simp⟩
        · exact ⟨_, _, _, e1, by simp⟩
      obtain ⟨k, n, s1, hk, hkl⟩ := hk
      obtain ⟨s', e1, e2⟩ := C68_bytes hw ha hb hr hfit
      rw [decodeIface_unfold hw ha hk, if_neg hkl, e1]
      exact ⟨s', rfl, e2⟩
    | list l =>
      rw [enc, ← flat_encs] at hr hfit
      have hpos := encList_length (flat enc l)
      have hlt : (flat enc l).length < 2 ^ 64 := by
        rw [hr, List.length_append] at hlen
        omega
      have hfit2 : s.fits ((hdr .list (flat enc l).length 0).length + (flat enc l).length) := by
        rw [encList, List.length_append] at hfit
        exact hfit
      obtain ⟨s1, hk, _⟩ := kind_fits (k := .list) (n := (flat enc l).length) (x := 0) (r := flat enc l ++ r) hw ha hlt
        (by rw [hr, encList, List.append_assoc]; rfl) hfit2
      have hs := listSlice_fits (decodeIface_sound f (by omega)) (by omega) (by
        intro s ha h0
        cases f with
        | zero =>
          exfalso
          rw [hr, List.length_append] at hlen
          omega
        | succ f => exact decodeIface_atEol f s ha h0) enc_pos l (fun v _ => ih (by omega) v) hw ha hlen hr hfit
      obtain ⟨s', e1, e2⟩ := hs
      rw [decodeIface_unfold hw ha hk, if_pos rfl, e1]
      exact ⟨s', rfl, e2⟩

/-! ### Whole inputs -/

theorem ofBytes_wf (b : Bytes) : (Stream.ofBytes b).wf := by intro l hl; simp [Stream.ofBytes] at hl

/-- **C68** Decoding the encoding of a nested value gives the value and leaves what follows it, at the top level of a stream or
inside a list with enough room. -/
theorem C68_decode {s : Stream} {v : Item} {r : Bytes} (hw : s.wf) (ha : s.ahead = none) (hlen : s.r.length < 2 ^ 63 - 2)
    (hr : s.r = enc v ++ r) (hf : s.fits (enc v).length) : ∃ s', s.decode = (.ok v, s') ∧ s'.r = r :=
  decodeIface_complete _ (by omega) v hw ha (by omega) hr hf

/-- **C68** `DecodeBytes` inverts `EncodeToBytes`. -/
theorem C68_decodeBytes (v : Item) (hlen : (enc v).length < 2 ^ 63 - 2) : decodeBytes (enc v) = .ok v := by
  obtain ⟨s', e1, e2⟩ := C68_decode (s := Stream.ofBytes (enc v)) (v := v) (r := []) (ofBytes_wf _) rfl hlen (by simp [Stream.ofBytes])
    ⟨by simp [Stream.ofBytes], by simp [Stream.ofBytes]⟩
  unfold decodeBytes
  rw [e1]
  simp [e2]

/-- **C69** What a stream accepts as a value is the encoding of the value it gives; exactly those bytes are consumed. -/
theorem C69_decode {s s' : Stream} {v : Item} (hw : s.wf) (ha : s.ahead = none) (hlen : s.r.length < 2 ^ 63 - 2)
    (h : s.decode = (.ok v, s')) : Cons s (enc v) s' :=
  ((decodeIface_sound _ (by omega)).ok hw ha (by omega) h).1

/-- **C69** `DecodeBytes` accepts a byte string only if it is the encoding of the value it gives. -/
theorem C69_decodeBytes {b : Bytes} {v : Item} (hlen : b.length < 2 ^ 63 - 2) (h : decodeBytes b = .ok v) : b = enc v := by
  unfold decodeBytes at h
  cases hd : (Stream.ofBytes b).decode with
  | mk o s =>
    rw [hd] at h
    cases o with
    | error e => simp at h
    | ok w =>
      simp only at h
      split at h
      · simp at h
      · next hs =>
        simp only [Except.ok.injEq] at h
        subst h
        have := (C69_decode (ofBytes_wf b) rfl hlen hd).r
        have hnil : s.r = [] := by
          rcases hr : s.r with _ | ⟨x, r⟩
          · rfl
          · rw [hr] at hs; simp at hs
        rw [hnil, List.append_nil] at this
        exact this

/-- **C69** Two different byte strings never decode to the same value. -/
theorem C69_injective {b c : Bytes} {v : Item} (hb : b.length < 2 ^ 63 - 2) (hc : c.length < 2 ^ 63 - 2)
    (h1 : decodeBytes b = .ok v) (h2 : decodeBytes c = .ok v) : b = c := by
  rw [C69_decodeBytes hb h1, C69_decodeBytes hc h2]

/-- **C68** Two different values never have the same encoding. -/
theorem C68_injective {v w : Item} (hlen : (enc v).length < 2 ^ 63 - 2) (h : enc v = enc w) : v = w := by
  have h1 := C68_decodeBytes v hlen
  have h2 := C68_decodeBytes w (h ▸ hlen)
  rw [h, h2] at h1
  exact (Except.ok.inj h1).symm

/-- The fuel of the model is enough: its absence is never what stops the decoder. -/
theorem decode_fuel {s s' : Stream} (hw : s.wf) (ha : s.ahead = none) (hlen : s.r.length < 2 ^ 63 - 2) :
    s.decode ≠ (.error .outOfFuel, s') := by
  intro h
  rcases (decodeIface_sound _ (by omega)).err hw ha (by omega) h with ⟨h, _⟩ | h
  · simp at h
  · exact h.2 rfl

/-- A value with an empty string, a byte, a byte that needs a header, an empty list and a nested list, with bytes behind. -/
def sample : Item := .list [.str [], .str [5], .str [0x80], .list [], .list [.str [1, 2], .list [.str [0]]]]

example : enc sample = [0xCB, 0x80, 0x05, 0x81, 0x80, 0xC0, 0xC5, 0x82, 1, 2, 0xC1, 0] := by decide +kernel
example : decodeBytes (enc sample) = .ok sample := C68_decodeBytes _ (by decide +kernel)
example : ∃ s', (Stream.ofBytes (enc sample ++ [7, 8])).decode = (.ok sample, s') ∧ s'.r = [7, 8] :=
  C68_decode (ofBytes_wf _) rfl (by decide +kernel) rfl ⟨by simp [Stream.ofBytes], by intro; decide +kernel⟩
example : decodeBytes [0x81, 0x05] = .error .canonSize := by rfl
example : decodeBytes [0xB8, 0x01, 0xFF] = .error .canonSize := by rfl
example : decodeBytes [0xC1, 0x05, 0x06] = .error .moreThanOne := by rfl
example : ¬ ∃ v, decodeBytes [0xC1, 0x81, 0x80] = .ok v := by
  rintro ⟨v, h⟩
  have h2 : decodeBytes [0xC1, 0x81, 0x80] = .error .elemTooLarge := by rfl
  rw [h2] at h
  simp at h

/-! ### Values and the list around them -/

/-- **C106** refuted. A list that holds a single byte, and that byte announces another list of one byte: the inner list does
not fit into the outer one, but `Kind` compares its size with the limit before the byte of the header is taken off, so the
inner list is entered, the limit of the outer one wraps around, and the byte behind both is given as an element. -/
theorem C106_within_refuted : ∃ s1 s2 s3, (Stream.ofBytes [0xC1, 0xC1, 0x05]).list = (.ok 1, s1) ∧ s1.list = (.ok 1, s2) ∧
    s2.bytes = (.ok [5], s3) ∧ s2.stack = [1, 2 ^ 64 - 1] := by
  refine ⟨_, _, _, rfl, rfl, rfl, ?_⟩
  decide +kernel

/-- The limit of the innermost list does not go up. -/
def Mono (s s' : Stream) : Prop := ∀ l, s.stack.head? = some l → ∃ l', s'.stack.head? = some l' ∧ l' ≤ l

theorem Mono.refl (s : Stream) : Mono s s := fun l h => ⟨l, h, Nat.le_refl _⟩

theorem Mono.of_eq {s s' : Stream} (h : s'.stack = s.stack) : Mono s s' := fun l hl => ⟨l, h ▸ hl, Nat.le_refl _⟩

theorem Mono.trans {s s' s'' : Stream} (h1 : Mono s s') (h2 : Mono s' s'') : Mono s s'' := by
  intro l hl
  obtain ⟨l', a, b⟩ := h1 l hl
  obtain ⟨l'', c, d⟩ := h2 l' a
  exact ⟨l'', c, by omega⟩

theorem willRead_mono (s : Stream) (n : Nat) : Mono s (s.willRead n).2 := by
  obtain ⟨r, rem, lim, stk, ah, bv⟩ := s
  intro l hl
  unfold Stream.willRead
  cases stk with
  | nil => simp at hl
  | cons a st =>
    simp only [List.head?_cons, Option.some.injEq] at hl
    subst hl
    simp only
    split
    · exact ⟨a, rfl, Nat.le_refl _⟩
    · split
      · split
        · exact ⟨_, rfl, Nat.sub_le _ _⟩
        · exact ⟨_, rfl, Nat.sub_le _ _⟩
      · exact ⟨_, rfl, Nat.sub_le _ _⟩

theorem readByte_mono (s : Stream) : Mono s s.readByte.2 := by
  have h := willRead_mono s 1
  unfold Stream.readByte
  generalize s.willRead 1 = q at *
  rcases q with ⟨_ | _, t⟩
  · exact h
  · simp only
    split
    · exact h
    · exact h.trans (.of_eq rfl)

theorem readFull_mono (s : Stream) (n : Nat) : Mono s (s.readFull n).2 := by
  have h := willRead_mono s n
  unfold Stream.readFull
  generalize s.willRead n = q at *
  rcases q with ⟨_ | _, t⟩
  · exact h
  · simp only
    split
    · exact h.trans (.of_eq rfl)
    · exact h.trans (.of_eq rfl)

theorem readUint_mono (s : Stream) (n : Nat) : Mono s (s.readUint n).2 := by
  have h := readFull_mono s n
  have h1 := readByte_mono s
  unfold Stream.readUint
  split
  · exact .of_eq rfl
  · generalize s.readByte = q at *
    rcases q with ⟨_ | _, t⟩ <;> exact h1
  · generalize s.readFull n = q at *
    rcases q with ⟨_ | _, t⟩
    · exact h
    · simp only
      split
      · exact h
      · exact h

theorem readLong_mono (s : Stream) (k : Kind) (n : Nat) : Mono s (s.readLong k n).2.2.2 := by
  have h := readUint_mono s n
  unfold Stream.readLong
  generalize s.readUint n = q at *
  rcases q with ⟨_ | _, t⟩ <;> exact h

theorem readKind_mono (s : Stream) : Mono s s.readKind.2.2.2 := by
  have h := readByte_mono s
  unfold Stream.readKind
  generalize s.readByte = q at *
  rcases q with ⟨_ | b, t⟩
  · exact h
  · simp only
    have ht : Mono s { t with byteval := 0 } := h.trans (.of_eq rfl)
    split
    · exact h.trans (.of_eq rfl)
    · split
      · exact ht
      · split
        · exact ht.trans (readLong_mono _ _ _)
        · split
          · exact ht
          · exact ht.trans (readLong_mono _ _ _)

theorem kind_mono (s : Stream) : Mono s s.kind.2 := by
  have h := readKind_mono s
  unfold Stream.kind
  split
  · exact .refl _
  · exact .refl _
  · split
    · exact .refl _
    · simp only
      split
      · exact h.trans (.of_eq rfl)
      · exact h.trans (.of_eq rfl)

theorem bytes_mono (s : Stream) : Mono s s.bytes.2 := by
  have h := kind_mono s
  unfold Stream.bytes
  generalize s.kind = q at *
  rcases q with ⟨_ | ⟨k, n⟩, t⟩
  · exact h
  · have h2 := readFull_mono t n
    cases k with
    | byte => exact h.trans (.of_eq rfl)
    | list => exact h
    | string =>
      simp only
      generalize t.readFull n = q at *
      rcases q with ⟨_ | b, u⟩
      · exact h.trans h2
      · simp only
        split
        · exact h.trans h2
        · exact h.trans h2

theorem bigInt_mono (s : Stream) (max : Option Nat) : Mono s (s.bigInt max).2 := by
  have h := kind_mono s
  unfold Stream.bigInt
  generalize s.kind = q at *
  rcases q with ⟨_ | ⟨k, n⟩, t⟩
  · exact h
  · have h2 := readFull_mono t n
    cases k with
    | byte => exact h.trans (.of_eq rfl)
    | list => exact h
    | string =>
      simp only
      split
      · exact h.trans (.of_eq rfl)
      · split
        · exact h
        · generalize t.readFull n = q at *
          rcases q with ⟨_ | b, u⟩
          · exact h.trans h2
          · simp only
            split
            · exact h.trans h2
            · exact h.trans h2

theorem uint_mono (s : Stream) (bits : Nat) : Mono s (s.uint bits).2 := by
  have h := kind_mono s
  unfold Stream.uint
  generalize s.kind = q at *
  rcases q with ⟨_ | ⟨k, n⟩, t⟩
  · exact h
  · have h2 := readUint_mono t n
    cases k with
    | byte =>
      simp only
      split
      · exact h
      · exact h.trans (.of_eq rfl)
    | list => exact h
    | string =>
      simp only
      split
      · exact h
      · generalize t.readUint n = q at *
        rcases q with ⟨e | b, u⟩
        · cases e <;> exact h.trans h2
        · simp only
          split
          · exact h.trans h2
          · exact h.trans h2

theorem raw_mono (s : Stream) : Mono s s.raw.2 := by
  have h := kind_mono s
  unfold Stream.raw
  generalize s.kind = q at *
  rcases q with ⟨_ | ⟨k, n⟩, t⟩
  · exact h
  · have h2 := readFull_mono t n
    cases k with
    | byte => exact h.trans (.of_eq rfl)
    | list =>
      simp only
      generalize t.readFull n = q at *
      rcases q with ⟨_ | b, u⟩ <;> exact h.trans h2
    | string =>
      simp only
      generalize t.readFull n = q at *
      rcases q with ⟨_ | b, u⟩ <;> exact h.trans h2

theorem Cons.within {s s' : Stream} {x : Bytes} (hc : Cons s x s') (hw : s.wf) (hm : Mono s s') (hx : x.length < 2 ^ 64) {l : Nat}
    (hl : s.stack.head? = some l) : x.length ≤ l := by
  obtain ⟨l', h1, h2⟩ := hm l hl
  have hw' : l < 2 ^ 64 := hw l (by
    cases hs : s.stack with
    | nil => rw [hs] at hl; simp at hl
    | cons a st =>
      rw [hs] at hl
      simp only [List.head?_cons, Option.some.injEq] at hl
      simp [hl])
  rw [hc.stack, List.head?_modifyHead, hl] at h1
  simp only [Option.map_some, Option.some.injEq] at h1
  unfold sub64 at h1
  omega

/-- **C106, for byte strings, integers and raw values.**  What `Bytes`, `Uint`, `BigInt` and `Raw` take fits into the rest of the
innermost list.  Missing: `List`, for which it is false (`C106_within_refuted`). -/
theorem C106_within_partial {s s' : Stream} {l : Nat} (hw : s.wf) (ha : s.ahead = none) (hlen : s.r.length < 2 ^ 63)
    (hl : s.stack.head? = some l) :
    (∀ b, s.bytes = (.ok b, s') → (encStr b).length ≤ l) ∧
    (∀ v bits, 8 ≤ bits → bits ≤ 64 → s.uint bits = (.ok v, s') → (encNat v).length ≤ l) ∧
    (∀ v max, s.bigInt max = (.ok v, s') → (encNat v).length ≤ l) ∧
    (∀ x, s.raw = (.ok x, s') → x.length ≤ l) := by
  have key : ∀ {x : Bytes}, Cons s x s' → Mono s s' → x.length ≤ l := fun hc hm =>
    hc.within hw hm (by have := hc.r_length; omega) hl
  refine ⟨fun b h => ?_, fun v bits h1 h2 h => ?_, fun v max h => ?_, fun x h => ?_⟩
  · exact key (C69_bytes hw ha h) (by have := bytes_mono s; rw [h] at this; exact this)
  · exact key (C69_uint hw ha h2 h1 h).1 (by have := uint_mono s bits; rw [h] at this; exact this)
  · exact key (C69_bigInt hw ha h).1 (by have := bigInt_mono s max; rw [h] at this; exact this)
  · exact key (C69_raw hw ha h).1 (by have := raw_mono s; rw [h] at this; exact this)

example : ∃ s' e, (Stream.list (Stream.ofBytes [0xC2, 0x82, 0x05, 0x06])).2.bytes = (.error e, s') := ⟨_, _, rfl⟩
example : ∃ s', (Stream.list (Stream.ofBytes [0xC3, 0x82, 0x05, 0x06])).2.bytes = (.ok [5, 6], s') := ⟨_, rfl⟩

end Verif.Rlp

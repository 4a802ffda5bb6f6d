import Verif.Rlp.Model

/-!
# Encoder buffers and their pool (/repo/rlp/encbuffer.go:36-45, 295-423, /repo/rlp/encode.go:61-88)

`EncoderBuffer` is a handle (a struct that can be copied) on a buffer, which comes from a pool that the whole process shares and
goes back to it when the handle is flushed.  The model has any number of handles, buffers and destinations; a program is a list of
operations on them.  Which buffer the pool hands out is part of an operation (`pick`): one that was put back, or a new one.

Simplifications: the destinations accept everything; an `EncoderBuffer` without a
buffer as destination is outside the model (`err`); `EncodeToReader` is not among the operations.  `sizebuf` is no part of the state
(it is written before it is read).
-/

namespace Verif.Rlp.Buffers
open Verif Verif.Rlp

/-- What is written through a handle (/repo/rlp/encbuffer.go:378-423); `listEnd` of an index that is not one panics. -/
inductive BOp where
  | raw (b : Bytes)
  | bool (b : Bool)
  | uint64 (i : UInt64)
  | bigInt (n : Nat)
  | uint256 (z0 z1 z2 z3 : UInt64)
  | bytes (b : Bytes)
  | list
  | listEnd (i : Nat)

/-- The effect on the buffer. -/
def BOp.apply : BOp → Buf → Option Buf
  | .raw x, b => some (b.write x)
  | .bool x, b => some (b.writeBool x)
  | .uint64 i, b => some (b.writeUint64 i)
  | .bigInt n, b => some (b.writeBigInt n)
  | .uint256 z0 z1 z2 z3, b => some (b.writeUint256 z0 z1 z2 z3)
  | .bytes x, b => some (b.writeBytes x)
  | .list, b => some b.list.1
  | .listEnd i, b => if i < b.lheads.length then some (b.listEnd i) else none

/-- Several operations in a row. -/
def applyAll : List BOp → Buf → Option Buf
  | [], b => some b
  | o :: os, b => match o.apply b with
    | none => none
    | some b' => applyAll os b'

/-- `EncoderBuffer` (/repo/rlp/encbuffer.go:312-317): the buffer, the destination, and whether the handle owns the buffer. -/
structure Handle where
  buf : Option Nat
  dst : Option Nat
  own : Bool
deriving DecidableEq

/-- The zero value. -/
def Handle.zero : Handle := ⟨none, none, false⟩

/-- The destination given to `Reset`: none, an ordinary writer, or a handle. -/
inductive Dst where
  | none
  | out (k : Nat)
  | handle (h : Nat)

/-- The operations of a program. -/
inductive Op where
  | new (h : Nat) (d : Dst) (pick : Option Nat)
  | reset (h : Nat) (d : Dst) (pick : Option Nat)
  | copy (h h' : Nat)
  | write (h : Nat) (o : BOp)
  | toBytes (h : Nat)
  | flush (h : Nat)
  | encode (k : Nat) (os : List BOp) (pick : Option Nat)

/-- Assignment to a variable. -/
def put {α : Type} (f : Nat → α) (k : Nat) (a : α) : Nat → α := fun j => if j = k then a else f j

/-- The state: the buffers, those in the pool, the handles, what the destinations have received, and the results of `ToBytes`. -/
structure St where
  bufs : List Buf
  pool : List Nat
  hs : Nat → Handle
  outs : Nat → Bytes
  seen : List (Res Bytes)

/-- `encBufferPool.Get()` and `reset` (/repo/rlp/encbuffer.go:36-45). -/
def get (s : St) (pick : Option Nat) : St × Nat :=
  match pick with
  | some i =>
    if i ∈ s.pool then ({ s with pool := s.pool.erase i, bufs := s.bufs.set i Buf.empty }, i)
    else ({ s with bufs := s.bufs ++ [Buf.empty] }, s.bufs.length)
  | none => ({ s with bufs := s.bufs ++ [Buf.empty] }, s.bufs.length)

/-- /repo/rlp/encbuffer.go:341-348: `Reset` when the destination is no buffer. -/
def resetPlain (s : St) (h : Nat) (w : Handle) (dst pick : Option Nat) : Res St :=
  match w.buf with
  | none =>
    let g := get s pick
    .ok { g.1 with hs := put s.hs h ⟨some g.2, dst, true⟩ }
  | some b => .ok { s with bufs := s.bufs.set b Buf.empty, hs := put s.hs h ⟨some b, dst, w.own⟩ }

/-- `Reset` (/repo/rlp/encbuffer.go:327-348) of the value `w` of the handle `h`; `encBufferFromWriter` (295-306). -/
def reset (s : St) (h : Nat) (w : Handle) (d : Dst) (pick : Option Nat) : Res St :=
  if w.buf.isSome ∧ w.own = false then .panic
  else
    match d with
    | .none => resetPlain s h w none pick
    | .out k => resetPlain s h w (some k) pick
    | .handle g =>
      match (s.hs g).buf with
      | none => .err
      | some b => .ok { s with hs := put s.hs h ⟨some b, none, false⟩ }

/-- The first half of `Flush` (/repo/rlp/encbuffer.go:352-356): the output. -/
def emitted (outs : Nat → Bytes) (dst : Option Nat) (b : Option Buf) : Nat → Bytes :=
  match dst, b with
  | some k, some b => put outs k (outs k ++ b.writeTo)
  | _, _ => outs

/-- `Flush` (/repo/rlp/encbuffer.go:352-363).  A destination is set only together with a buffer. -/
def flush (s : St) (h : Nat) : Res St :=
  match (s.hs h).buf with
  | none => .ok { s with hs := put s.hs h Handle.zero }
  | some b => .ok { s with
      outs := emitted s.outs (s.hs h).dst s.bufs[b]?
      pool := if (s.hs h).own then b :: s.pool else s.pool
      hs := put s.hs h Handle.zero }

/-- `Write`, … , `ListEnd` (/repo/rlp/encbuffer.go:378-423): a nil buffer panics. -/
def write (s : St) (h : Nat) (o : BOp) : Res St :=
  match (s.hs h).buf with
  | none => .panic
  | some b =>
    match s.bufs[b]? with
    | none => .panic
    | some e =>
      match o.apply e with
      | none => .panic
      | some e' => .ok { s with bufs := s.bufs.set b e' }

/-- `ToBytes` (/repo/rlp/encbuffer.go:366-368). -/
def toBytes (s : St) (h : Nat) : Res St :=
  match (s.hs h).buf with
  | none => .panic
  | some b =>
    match s.bufs[b]? with
    | none => .panic
    | some e => .ok { s with seen := s.seen ++ [e.makeBytes] }

/-- `Encode` to an ordinary writer (/repo/rlp/encode.go:61-73): the buffer is put back in any case. -/
def encode (s : St) (k : Nat) (os : List BOp) (pick : Option Nat) : Res St :=
  match applyAll os Buf.empty with
  | none => .panic
  | some e =>
    let g := get s pick
    .ok { g.1 with bufs := g.1.bufs.set g.2 e, pool := g.2 :: g.1.pool, outs := put s.outs k (s.outs k ++ e.writeTo) }

/-- One operation; `new` is `NewEncoderBuffer` (/repo/rlp/encbuffer.go:320-324). -/
def step (s : St) : Op → Res St
  | .new h d pick => reset s h Handle.zero d pick
  | .reset h d pick => reset s h (s.hs h) d pick
  | .copy h h' => .ok { s with hs := put s.hs h' (s.hs h) }
  | .write h o => write s h o
  | .toBytes h => toBytes s h
  | .flush h => flush s h
  | .encode k os pick => encode s k os pick

/-- A program. -/
def run (s : St) : List Op → Res St
  | [] => .ok s
  | o :: os =>
    match step s o with
    | .ok s' => run s' os
    | .err => .err
    | .panic => .panic

/-- The beginning: no buffers, no handles set. -/
def init : St := ⟨[], [], fun _ => Handle.zero, fun _ => [], []⟩

/-! ## Specification: every encoder has a buffer of its own

There is no pool: a buffer is made when it is needed and closed when its owner is flushed; nobody else ever gets it.  A program that
uses a closed buffer is misbehaving (`stale`). -/

/-- The result of a step. -/
inductive Out (α : Type) where
  | ok (a : α)
  | err
  | panic
  | stale

/-- A buffer and whether it is open. -/
structure Cell where
  buf : Buf
  isOpen : Bool

/-- The ideal state. -/
structure Ideal where
  cells : List Cell
  hs : Nat → Handle
  outs : Nat → Bytes
  seen : List (Res Bytes)

/-- The open buffer with a number. -/
def Ideal.open? (s : Ideal) (c : Nat) : Option Buf :=
  match s.cells[c]? with
  | some ⟨b, true⟩ => some b
  | _ => none

def iresetPlain (s : Ideal) (h : Nat) (w : Handle) (dst : Option Nat) : Out Ideal :=
  match w.buf with
  | none => .ok { s with cells := s.cells ++ [⟨Buf.empty, true⟩], hs := put s.hs h ⟨some s.cells.length, dst, true⟩ }
  | some c =>
    match s.open? c with
    | none => .stale
    | some _ => .ok { s with cells := s.cells.set c ⟨Buf.empty, true⟩, hs := put s.hs h ⟨some c, dst, w.own⟩ }

def ireset (s : Ideal) (h : Nat) (w : Handle) (d : Dst) : Out Ideal :=
  if w.buf.isSome ∧ w.own = false then .panic
  else
    match d with
    | .none => iresetPlain s h w none
    | .out k => iresetPlain s h w (some k)
    | .handle g =>
      match (s.hs g).buf with
      | none => .err
      | some b => .ok { s with hs := put s.hs h ⟨some b, none, false⟩ }

def iflush (s : Ideal) (h : Nat) : Out Ideal :=
  match (s.hs h).buf with
  | none => .ok { s with hs := put s.hs h Handle.zero }
  | some c =>
    if (s.hs h).own then
      match s.open? c with
      | none => .stale
      | some e => .ok { cells := s.cells.set c ⟨e, false⟩, outs := emitted s.outs (s.hs h).dst (some e), hs := put s.hs h Handle.zero,
                        seen := s.seen }
    else .ok { s with hs := put s.hs h Handle.zero }

def iwrite (s : Ideal) (h : Nat) (o : BOp) : Out Ideal :=
  match (s.hs h).buf with
  | none => .panic
  | some c =>
    match s.open? c with
    | none => .stale
    | some e =>
      match o.apply e with
      | none => .panic
      | some e' => .ok { s with cells := s.cells.set c ⟨e', true⟩ }

def itoBytes (s : Ideal) (h : Nat) : Out Ideal :=
  match (s.hs h).buf with
  | none => .panic
  | some c =>
    match s.open? c with
    | none => .stale
    | some e => .ok { s with seen := s.seen ++ [e.makeBytes] }

def iencode (s : Ideal) (k : Nat) (os : List BOp) : Out Ideal :=
  match applyAll os Buf.empty with
  | none => .panic
  | some e => .ok { s with outs := put s.outs k (s.outs k ++ e.writeTo) }

def istep (s : Ideal) : Op → Out Ideal
  | .new h d _ => ireset s h Handle.zero d
  | .reset h d _ => ireset s h (s.hs h) d
  | .copy h h' => .ok { s with hs := put s.hs h' (s.hs h) }
  | .write h o => iwrite s h o
  | .toBytes h => itoBytes s h
  | .flush h => iflush s h
  | .encode k os _ => iencode s k os

def irun (s : Ideal) : List Op → Out Ideal
  | [] => .ok s
  | o :: os =>
    match istep s o with
    | .ok s' => irun s' os
    | .err => .err
    | .panic => .panic
    | .stale => .stale

def iinit : Ideal := ⟨[], fun _ => Handle.zero, fun _ => [], []⟩

/-- The same result: the same outputs and answers, or the same failure. -/
def Agrees : Res St → Out Ideal → Prop
  | .ok s, .ok i => s.outs = i.outs ∧ s.seen = i.seen
  | .err, .err => True
  | .panic, .panic => True
  | _, _ => False

/-! ## Proofs -/

theorem put_same {α : Type} (f : Nat → α) (k : Nat) (a : α) : put f k a k = a := if_pos rfl

theorem put_apply {α : Type} (f : Nat → α) (k : Nat) (a : α) (j : Nat) : put f k a j = if j = k then a else f j := rfl

/-- Handles that stand for the same: `φ` says which buffer is which cell. -/
def Same (φ : Nat → Nat) (i : Ideal) (w v : Handle) : Prop :=
  w.dst = v.dst ∧ w.own = v.own ∧ w.buf.isSome = v.buf.isSome ∧ (v.buf = none → v.dst = none ∧ v.own = false) ∧
    ∀ b c, w.buf = some b → v.buf = some c → c < i.cells.length ∧ ((i.open? c).isSome → b = φ c) ∧ (v.own = false → v.dst = none)

structure Sim (φ : Nat → Nat) (s : St) (i : Ideal) : Prop where
  content : ∀ c e, i.open? c = some e → s.bufs[φ c]? = some e ∧ φ c ∉ s.pool
  inj : ∀ c c' e e', i.open? c = some e → i.open? c' = some e' → φ c = φ c' → c = c'
  nodup : s.pool.Nodup
  inside : ∀ b ∈ s.pool, b < s.bufs.length
  handles : ∀ h, Same φ i (s.hs h) (i.hs h)
  outs : s.outs = i.outs
  seen : s.seen = i.seen

theorem open_lt {i : Ideal} {c : Nat} {e : Buf} (h : i.open? c = some e) : c < i.cells.length := by
  unfold Ideal.open? at h
  by_contra hc
  rw [List.getElem?_eq_none (by omega)] at h
  cases h

theorem open_set (i : Ideal) (c : Nat) (e : Buf) (op : Bool) (hc : c < i.cells.length) (j : Nat) (hs : Nat → Handle) (outs : Nat → Bytes)
    (seen : List (Res Bytes)) : Ideal.open? ⟨i.cells.set c ⟨e, op⟩, hs, outs, seen⟩ j =
      if j = c then (if op then some e else none) else i.open? j := by
  unfold Ideal.open?
  simp only
  rw [List.getElem?_set]
  by_cases h : c = j
  · subst h
    rw [if_pos rfl, if_pos hc, if_pos rfl]
    cases op <;> rfl
  · rw [if_neg h, if_neg (fun e => h e.symm)]

theorem open_append (i : Ideal) (e : Buf) (j : Nat) (hs : Nat → Handle) (outs : Nat → Bytes)
    (seen : List (Res Bytes)) : Ideal.open? ⟨i.cells ++ [⟨e, true⟩], hs, outs, seen⟩ j =
      if j = i.cells.length then some e else i.open? j := by
  unfold Ideal.open?
  simp only
  by_cases h : j = i.cells.length
  · subst h; simp
  · rw [if_neg h]
    by_cases h2 : j < i.cells.length
    · rw [List.getElem?_append_left h2]
    · rw [List.getElem?_eq_none (by simp; omega), List.getElem?_eq_none (by omega)]

/-- What the pool hands out is empty, and nobody else has it. -/
theorem get_spec {φ : Nat → Nat} {s : St} {i : Ideal} (hS : Sim φ s i) (pick : Option Nat) :
    (get s pick).1.bufs[(get s pick).2]? = some Buf.empty ∧ (get s pick).2 ∉ (get s pick).1.pool ∧ (get s pick).1.pool.Nodup ∧
      (∀ b ∈ (get s pick).1.pool, b < (get s pick).1.bufs.length ∧ b ∈ s.pool) ∧
      (∀ c e, i.open? c = some e → (get s pick).1.bufs[φ c]? = some e ∧ φ c ≠ (get s pick).2) ∧
      (get s pick).1.hs = s.hs ∧ (get s pick).1.outs = s.outs ∧ (get s pick).1.seen = s.seen := by
  have hnew : ({ s with bufs := s.bufs ++ [Buf.empty] } : St).bufs[s.bufs.length]? = some Buf.empty ∧
      s.bufs.length ∉ s.pool ∧ s.pool.Nodup ∧ (∀ b ∈ s.pool, b < (s.bufs ++ [Buf.empty]).length ∧ b ∈ s.pool) ∧
      (∀ c e, i.open? c = some e → (s.bufs ++ [Buf.empty])[φ c]? = some e ∧ φ c ≠ s.bufs.length) ∧
      s.hs = s.hs ∧ s.outs = s.outs ∧ s.seen = s.seen := by
    refine ⟨by simp, fun h => absurd (hS.inside _ h) (by omega), hS.nodup, ?_, ?_, rfl, rfl, rfl⟩
    · intro b hb
      have := hS.inside b hb
      exact ⟨by simp; omega, hb⟩
    · intro c e hc
      obtain ⟨h1, _⟩ := hS.content c e hc
      have hl : φ c < s.bufs.length := by
        by_contra hn
        rw [List.getElem?_eq_none (by omega)] at h1
        cases h1
      exact ⟨by rw [List.getElem?_append_left hl]; exact h1, by omega⟩
  unfold get
  cases pick with
  | none => exact hnew
  | some p =>
    simp only
    by_cases hp : p ∈ s.pool
    · rw [if_pos hp]
      have hl := hS.inside p hp
      refine ⟨by simp [hl], ?_, hS.nodup.erase p, ?_, ?_, rfl, rfl, rfl⟩
      · intro h
        exact (List.Nodup.mem_erase_iff hS.nodup).1 h |>.1 rfl
      · intro b hb
        have := List.mem_of_mem_erase hb
        exact ⟨by simp; exact hS.inside b this, this⟩
      · intro c e hc
        obtain ⟨h1, h2⟩ := hS.content c e hc
        have hne : φ c ≠ p := by rintro rfl; exact h2 hp
        exact ⟨by rw [List.getElem?_set, if_neg (fun e => hne e.symm)]; exact h1, hne⟩
    · rw [if_neg hp]
      exact hnew

theorem Same.none_iff {φ : Nat → Nat} {i : Ideal} {w v : Handle} (h : Same φ i w v) : w.buf = none ↔ v.buf = none := by
  have := h.2.2.1
  cases hw : w.buf <;> cases hv : v.buf <;> simp_all

theorem zero_same (φ : Nat → Nat) (i : Ideal) : Same φ i Handle.zero Handle.zero := by
  refine ⟨rfl, rfl, rfl, fun _ => ⟨rfl, rfl⟩, ?_⟩
  intro b c h
  cases h

/-- `Same` survives when no closed cell opens and `φ` is unchanged on old cells. -/
theorem Same.mono {φ φ' : Nat → Nat} {i i' : Ideal} {w v : Handle} (h : Same φ i w v) (hl : i.cells.length ≤ i'.cells.length)
    (hφ : ∀ c, c < i.cells.length → (i'.open? c).isSome → (i.open? c).isSome ∧ φ' c = φ c) : Same φ' i' w v := by
  refine ⟨h.1, h.2.1, h.2.2.1, h.2.2.2.1, ?_⟩
  intro b c hb hc
  obtain ⟨h1, h2, h3⟩ := h.2.2.2.2 b c hb hc
  refine ⟨by omega, ?_, h3⟩
  intro ho
  obtain ⟨h4, h5⟩ := hφ c h1 ho
  rw [h5]
  exact h2 h4

theorem sim_resetPlain {φ : Nat → Nat} {s : St} {i : Ideal} (hS : Sim φ s i) (h : Nat) (w v : Handle) (hw : Same φ i w v)
    (hown : v.buf.isSome → v.own = true) (dst pick : Option Nat) :
    iresetPlain i h v dst = .stale ∨
      ∃ s' i' φ', resetPlain s h w dst pick = .ok s' ∧ iresetPlain i h v dst = .ok i' ∧ Sim φ' s' i' := by
  unfold iresetPlain resetPlain
  cases hv : v.buf with
  | none =>
    rw [hw.none_iff.2 hv]
    right
    obtain ⟨g1, g2, g3, g4, g5, g6, g7, g8⟩ := get_spec hS pick
    refine ⟨_, _, fun c => if c = i.cells.length then (get s pick).2 else φ c, rfl, rfl, ?_⟩
    have hφ : ∀ c, c < i.cells.length → (fun c => if c = i.cells.length then (get s pick).2 else φ c) c = φ c := by
      intro c hc
      simp only [if_neg (show c ≠ i.cells.length by omega)]
    constructor
    · intro c e he
      rw [open_append] at he
      by_cases hc : c = i.cells.length
      · simp only [if_pos hc] at he ⊢
        cases he
        exact ⟨g1, g2⟩
      · simp only [if_neg hc] at he ⊢
        exact ⟨(g5 c e he).1, fun hm => (hS.content c e he).2 (g4 _ hm).2⟩
    · intro c c' e e' he he' hφc
      rw [open_append] at he he'
      by_cases hc : c = i.cells.length <;> by_cases hc' : c' = i.cells.length
      · rw [hc, hc']
      · simp only [if_pos hc, if_neg hc'] at he he' hφc
        exact absurd hφc.symm (g5 c' e' he').2
      · simp only [if_neg hc, if_pos hc'] at he he' hφc
        exact absurd hφc (g5 c e he).2
      · simp only [if_neg hc, if_neg hc'] at he he' hφc
        exact hS.inj c c' e e' he he' hφc
    · exact g3
    · intro b hb; exact (g4 b hb).1
    · intro j
      simp only [put_apply]
      by_cases hj : j = h
      · simp only [if_pos hj]
        refine ⟨rfl, rfl, rfl, (by intro e; cases e), ?_⟩
        intro b c hb hc
        cases hb; cases hc
        exact ⟨by simp, fun _ => by simp, by intro e; cases e⟩
      · simp only [if_neg hj]
        refine (hS.handles j).mono (by simp) ?_
        intro c hc ho
        rw [open_append, if_neg (by omega)] at ho
        exact ⟨ho, hφ c hc⟩
    · exact g7 ▸ hS.outs
    · exact g8 ▸ hS.seen
  | some c =>
    obtain ⟨b, hb⟩ : ∃ b, w.buf = some b := by
      cases hb : w.buf with
      | none => rw [hw.none_iff.1 hb] at hv; cases hv
      | some b => exact ⟨b, rfl⟩
    rw [hb]
    simp only
    cases ho : i.open? c with
    | none => left; rfl
    | some e =>
      right
      obtain ⟨h1, h2, h3⟩ := hw.2.2.2.2 b c hb hv
      have hbφ : b = φ c := h2 (by rw [ho]; rfl)
      obtain ⟨k1, k2⟩ := hS.content c e ho
      have hbl : φ c < s.bufs.length := by
        by_contra hn
        rw [List.getElem?_eq_none (by omega)] at k1
        cases k1
      have hop : ∀ j, (Ideal.open? ⟨i.cells.set c ⟨Buf.empty, true⟩, put i.hs h ⟨some c, dst, v.own⟩, i.outs, i.seen⟩ j) =
          if j = c then some Buf.empty else i.open? j := by
        intro j; rw [open_set i c _ true h1]; rfl
      refine ⟨_, _, φ, rfl, rfl, ?_⟩
      subst hbφ
      constructor
      · intro c' e' he'
        rw [hop] at he'
        by_cases hc : c' = c
        · rw [if_pos hc] at he'
          cases he'
          subst hc
          exact ⟨by simp [hbl], k2⟩
        · rw [if_neg hc] at he'
          obtain ⟨m1, m2⟩ := hS.content c' e' he'
          refine ⟨?_, m2⟩
          show (s.bufs.set (φ c) Buf.empty)[φ c']? = _
          rw [List.getElem?_set, if_neg (fun eq => hc (hS.inj c' c e' e he' ho eq.symm))]
          exact m1
      · intro c1 c2 e1 e2 he1 he2 hφ
        rw [hop] at he1 he2
        have ex : ∀ c' e', (if c' = c then some Buf.empty else i.open? c') = some e' → ∃ e'', i.open? c' = some e'' := by
          intro c' e' he'
          by_cases hc : c' = c
          · exact ⟨e, hc ▸ ho⟩
          · rw [if_neg hc] at he'; exact ⟨e', he'⟩
        obtain ⟨f1, hf1⟩ := ex _ _ he1
        obtain ⟨f2, hf2⟩ := ex _ _ he2
        exact hS.inj c1 c2 f1 f2 hf1 hf2 hφ
      · exact hS.nodup
      · intro b' hb'; simp only [List.length_set]; exact hS.inside b' hb'
      · intro j
        simp only [put_apply]
        by_cases hj : j = h
        · simp only [if_pos hj]
          refine ⟨rfl, hw.2.1, rfl, (by intro e; cases e), ?_⟩
          intro b' c' hb' hc'
          cases hb'; cases hc'
          refine ⟨by simpa using h1, fun _ => rfl, ?_⟩
          intro hf
          rw [hown (by rw [hv]; rfl)] at hf
          cases hf
        · simp only [if_neg hj]
          refine (hS.handles j).mono (by simp) ?_
          intro c' hc' ho'
          refine ⟨?_, rfl⟩
          rw [hop] at ho'
          by_cases hc : c' = c
          · rw [hc, ho]; rfl
          · rw [if_neg hc] at ho'; exact ho'
      · exact hS.outs
      · exact hS.seen

theorem sim_reset {φ : Nat → Nat} {s : St} {i : Ideal} (hS : Sim φ s i) (h : Nat) (w v : Handle) (hw : Same φ i w v) (d : Dst)
    (pick : Option Nat) : ireset i h v d = .stale ∨ (reset s h w d pick = .panic ∧ ireset i h v d = .panic) ∨
      (reset s h w d pick = .err ∧ ireset i h v d = .err) ∨
      ∃ s' i' φ', reset s h w d pick = .ok s' ∧ ireset i h v d = .ok i' ∧ Sim φ' s' i' := by
  unfold ireset reset
  rw [hw.2.2.1, hw.2.1]
  by_cases hp : v.buf.isSome = true ∧ v.own = false
  · rw [if_pos hp, if_pos hp]; exact .inr (.inl ⟨rfl, rfl⟩)
  · rw [if_neg hp, if_neg hp]
    have hown : v.buf.isSome → v.own = true := by
      intro h1
      cases ho : v.own with
      | true => rfl
      | false => exact absurd ⟨h1, ho⟩ hp
    cases d with
    | none => rcases sim_resetPlain hS h w v hw hown none pick with h1 | h1
              · exact .inl h1
              · exact .inr (.inr (.inr h1))
    | out k => rcases sim_resetPlain hS h w v hw hown (some k) pick with h1 | h1
               · exact .inl h1
               · exact .inr (.inr (.inr h1))
    | handle g =>
      simp only
      have hg := hS.handles g
      cases hv : (i.hs g).buf with
      | none => rw [hg.none_iff.2 hv]; exact .inr (.inr (.inl ⟨rfl, rfl⟩))
      | some c =>
        obtain ⟨b, hb⟩ : ∃ b, (s.hs g).buf = some b := by
          cases hb : (s.hs g).buf with
          | none => rw [hg.none_iff.1 hb] at hv; cases hv
          | some b => exact ⟨b, rfl⟩
        rw [hb]
        refine .inr (.inr (.inr ⟨_, _, φ, rfl, rfl, ?_⟩))
        refine ⟨hS.content, hS.inj, hS.nodup, hS.inside, ?_, hS.outs, hS.seen⟩
        intro j
        simp only [put_apply]
        by_cases hj : j = h
        · simp only [if_pos hj]
          refine ⟨rfl, rfl, rfl, (by intro e; cases e), ?_⟩
          intro b' c' hb' hc'
          cases hb'; cases hc'
          obtain ⟨h1, h2, _⟩ := hg.2.2.2.2 b c hb hv
          exact ⟨h1, h2, fun _ => rfl⟩
        · simp only [if_neg hj]
          exact hS.handles j

theorem sim_write {φ : Nat → Nat} {s : St} {i : Ideal} (hS : Sim φ s i) (h : Nat) (o : BOp) :
    iwrite i h o = .stale ∨ (write s h o = .panic ∧ iwrite i h o = .panic) ∨
      ∃ s' i' φ', write s h o = .ok s' ∧ iwrite i h o = .ok i' ∧ Sim φ' s' i' := by
  unfold iwrite write
  have hg := hS.handles h
  cases hv : (i.hs h).buf with
  | none => rw [hg.none_iff.2 hv]; exact .inr (.inl ⟨rfl, rfl⟩)
  | some c =>
    obtain ⟨b, hb⟩ : ∃ b, (s.hs h).buf = some b := by
      cases hb : (s.hs h).buf with
      | none => rw [hg.none_iff.1 hb] at hv; cases hv
      | some b => exact ⟨b, rfl⟩
    rw [hb]
    simp only
    cases ho : i.open? c with
    | none => exact .inl rfl
    | some e =>
      obtain ⟨h1, h2, _⟩ := hg.2.2.2.2 b c hb hv
      have hbφ : b = φ c := h2 (by rw [ho]; rfl)
      subst hbφ
      obtain ⟨k1, k2⟩ := hS.content c e ho
      have hbl : φ c < s.bufs.length := by
        by_contra hn
        rw [List.getElem?_eq_none (by omega)] at k1
        cases k1
      simp only [k1]
      cases hap : o.apply e with
      | none => exact .inr (.inl ⟨rfl, rfl⟩)
      | some e' =>
        refine .inr (.inr ⟨_, _, φ, rfl, rfl, ?_⟩)
        have hop : ∀ j, (Ideal.open? ⟨i.cells.set c ⟨e', true⟩, i.hs, i.outs, i.seen⟩ j) = if j = c then some e' else i.open? j := by
          intro j; rw [open_set i c _ true h1]; rfl
        constructor
        · intro c' f hf
          rw [hop] at hf
          by_cases hc : c' = c
          · rw [if_pos hc] at hf
            cases hf
            subst hc
            exact ⟨by simp [hbl], k2⟩
          · rw [if_neg hc] at hf
            obtain ⟨m1, m2⟩ := hS.content c' f hf
            refine ⟨?_, m2⟩
            show (s.bufs.set (φ c) e')[φ c']? = _
            rw [List.getElem?_set, if_neg (fun eq => hc (hS.inj c' c f e hf ho eq.symm))]
            exact m1
        · intro c1 c2 e1 e2 he1 he2 hφ
          rw [hop] at he1 he2
          have ex : ∀ c' f, (if c' = c then some e' else i.open? c') = some f → ∃ e'', i.open? c' = some e'' := by
            intro c' f hf
            by_cases hc : c' = c
            · exact ⟨e, hc ▸ ho⟩
            · rw [if_neg hc] at hf; exact ⟨f, hf⟩
          obtain ⟨f1, hf1⟩ := ex _ _ he1
          obtain ⟨f2, hf2⟩ := ex _ _ he2
          exact hS.inj c1 c2 f1 f2 hf1 hf2 hφ
        · exact hS.nodup
        · intro b' hb'; simp only [List.length_set]; exact hS.inside b' hb'
        · intro j
          refine (hS.handles j).mono (by simp) ?_
          intro c' _ ho'
          refine ⟨?_, rfl⟩
          rw [hop] at ho'
          by_cases hc : c' = c
          · rw [hc, ho]; rfl
          · rw [if_neg hc] at ho'; exact ho'
        · exact hS.outs
        · exact hS.seen

theorem sim_toBytes {φ : Nat → Nat} {s : St} {i : Ideal} (hS : Sim φ s i) (h : Nat) :
    itoBytes i h = .stale ∨ (toBytes s h = .panic ∧ itoBytes i h = .panic) ∨
      ∃ s' i' φ', toBytes s h = .ok s' ∧ itoBytes i h = .ok i' ∧ Sim φ' s' i' := by
  unfold itoBytes toBytes
  have hg := hS.handles h
  cases hv : (i.hs h).buf with
  | none => rw [hg.none_iff.2 hv]; exact .inr (.inl ⟨rfl, rfl⟩)
  | some c =>
    obtain ⟨b, hb⟩ : ∃ b, (s.hs h).buf = some b := by
      cases hb : (s.hs h).buf with
      | none => rw [hg.none_iff.1 hb] at hv; cases hv
      | some b => exact ⟨b, rfl⟩
    rw [hb]
    simp only
    cases ho : i.open? c with
    | none => exact .inl rfl
    | some e =>
      obtain ⟨h1, h2, _⟩ := hg.2.2.2.2 b c hb hv
      have hbφ : b = φ c := h2 (by rw [ho]; rfl)
      subst hbφ
      simp only [(hS.content c e ho).1]
      refine .inr (.inr ⟨_, _, φ, rfl, rfl, ?_⟩)
      exact ⟨hS.content, hS.inj, hS.nodup, hS.inside, fun j => (hS.handles j).mono (Nat.le_refl _) fun c' _ ho' => ⟨ho', rfl⟩, hS.outs,
        by simp only [hS.seen]⟩

theorem sim_flush {φ : Nat → Nat} {s : St} {i : Ideal} (hS : Sim φ s i) (h : Nat) :
    iflush i h = .stale ∨ ∃ s' i' φ', flush s h = .ok s' ∧ iflush i h = .ok i' ∧ Sim φ' s' i' := by
  unfold iflush flush
  have hg := hS.handles h
  have hz : ∀ (i' : Ideal) (φ : Nat → Nat), (∀ j, Same φ i' (s.hs j) (i.hs j)) →
      ∀ j, Same φ i' (put s.hs h Handle.zero j) (put i.hs h Handle.zero j) := by
    intro i' φ hh j
    simp only [put_apply]
    by_cases hj : j = h
    · simp only [if_pos hj]; exact zero_same φ i'
    · simp only [if_neg hj]; exact hh j
  cases hv : (i.hs h).buf with
  | none =>
    rw [hg.none_iff.2 hv]
    refine .inr ⟨_, _, φ, rfl, rfl, hS.content, hS.inj, hS.nodup, hS.inside, hz _ _ ?_, hS.outs, hS.seen⟩
    exact fun j => (hS.handles j).mono (Nat.le_refl _) fun c' _ ho' => ⟨ho', rfl⟩
  | some c =>
    obtain ⟨b, hb⟩ : ∃ b, (s.hs h).buf = some b := by
      cases hb : (s.hs h).buf with
      | none => rw [hg.none_iff.1 hb] at hv; cases hv
      | some b => exact ⟨b, rfl⟩
    rw [hb, hg.2.1, hg.1]
    simp only
    obtain ⟨h1, h2, h3⟩ := hg.2.2.2.2 b c hb hv
    cases hown : (i.hs h).own with
    | false =>
      rw [h3 hown]
      refine .inr ⟨_, _, φ, rfl, rfl, hS.content, hS.inj, hS.nodup, hS.inside, hz _ _ ?_, hS.outs, hS.seen⟩
      exact fun j => (hS.handles j).mono (Nat.le_refl _) fun c' _ ho' => ⟨ho', rfl⟩
    | true =>
      simp only [if_true]
      cases ho : i.open? c with
      | none => exact .inl rfl
      | some e =>
        have hbφ : b = φ c := h2 (by rw [ho]; rfl)
        subst hbφ
        obtain ⟨k1, k2⟩ := hS.content c e ho
        have hbl : φ c < s.bufs.length := by
          by_contra hn
          rw [List.getElem?_eq_none (by omega)] at k1
          cases k1
        refine .inr ⟨_, _, φ, rfl, rfl, ?_⟩
        have hop : ∀ j hs outs seen, (Ideal.open? ⟨i.cells.set c ⟨e, false⟩, hs, outs, seen⟩ j) = if j = c then none else i.open? j := by
          intro j hs outs seen; rw [open_set i c _ false h1]; rfl
        constructor
        · intro c' f hf
          rw [hop] at hf
          by_cases hc : c' = c
          · rw [if_pos hc] at hf; cases hf
          · rw [if_neg hc] at hf
            obtain ⟨m1, m2⟩ := hS.content c' f hf
            refine ⟨m1, ?_⟩
            intro hm
            rcases List.mem_cons.1 hm with hm | hm
            · exact hc (hS.inj c' c f e hf ho hm)
            · exact m2 hm
        · intro c1 c2 e1 e2 he1 he2 hφ
          rw [hop] at he1 he2
          by_cases hc1 : c1 = c
          · rw [if_pos hc1] at he1; cases he1
          · by_cases hc2 : c2 = c
            · rw [if_pos hc2] at he2; cases he2
            · rw [if_neg hc1] at he1
              rw [if_neg hc2] at he2
              exact hS.inj c1 c2 e1 e2 he1 he2 hφ
        · exact List.nodup_cons.2 ⟨k2, hS.nodup⟩
        · intro b' hb'
          rcases List.mem_cons.1 hb' with rfl | hb'
          · exact hbl
          · exact hS.inside b' hb'
        · refine hz _ _ ?_
          intro j
          refine (hS.handles j).mono (by simp) ?_
          intro c' _ ho'
          refine ⟨?_, rfl⟩
          rw [hop] at ho'
          by_cases hc : c' = c
          · rw [if_pos hc] at ho'; cases ho'
          · rw [if_neg hc] at ho'; exact ho'
        · simp only [k1, hS.outs]
        · exact hS.seen

theorem sim_encode {φ : Nat → Nat} {s : St} {i : Ideal} (hS : Sim φ s i) (k : Nat) (os : List BOp) (pick : Option Nat) :
    (encode s k os pick = .panic ∧ iencode i k os = .panic) ∨
      ∃ s' i' φ', encode s k os pick = .ok s' ∧ iencode i k os = .ok i' ∧ Sim φ' s' i' := by
  unfold encode iencode
  cases applyAll os Buf.empty with
  | none => exact .inl ⟨rfl, rfl⟩
  | some e =>
    obtain ⟨g1, g2, g3, g4, g5, g6, g7, g8⟩ := get_spec hS pick
    refine .inr ⟨_, _, φ, rfl, rfl, ?_⟩
    constructor
    · intro c f hf
      obtain ⟨m1, m2⟩ := g5 c f hf
      refine ⟨?_, ?_⟩
      · show ((get s pick).1.bufs.set (get s pick).2 e)[φ c]? = _
        rw [List.getElem?_set, if_neg (fun eq => m2 eq.symm)]
        exact m1
      · intro hm
        rcases List.mem_cons.1 hm with hm | hm
        · exact m2 hm
        · exact (hS.content c f hf).2 (g4 _ hm).2
    · exact hS.inj
    · exact List.nodup_cons.2 ⟨g2, g3⟩
    · intro b hb
      simp only [List.length_set]
      rcases List.mem_cons.1 hb with rfl | hb
      · by_contra hn
        rw [List.getElem?_eq_none (by omega)] at g1
        cases g1
      · exact (g4 b hb).1
    · intro j
      show Same φ _ ((get s pick).1.hs j) _
      rw [g6]
      exact (hS.handles j).mono (Nat.le_refl _) fun c' _ ho' => ⟨ho', rfl⟩
    · simp only [hS.outs]
    · exact g8 ▸ hS.seen

theorem sim_step {φ : Nat → Nat} {s : St} {i : Ideal} (hS : Sim φ s i) (o : Op) :
    istep i o = .stale ∨ (step s o = .panic ∧ istep i o = .panic) ∨ (step s o = .err ∧ istep i o = .err) ∨
      ∃ s' i' φ', step s o = .ok s' ∧ istep i o = .ok i' ∧ Sim φ' s' i' := by
  cases o with
  | new h d pick => exact sim_reset hS h _ _ (zero_same φ i) d pick
  | reset h d pick => exact sim_reset hS h _ _ (hS.handles h) d pick
  | copy h h' =>
    refine .inr (.inr (.inr ⟨_, _, φ, rfl, rfl, hS.content, hS.inj, hS.nodup, hS.inside, ?_, hS.outs, hS.seen⟩))
    intro j
    simp only [put_apply]
    by_cases hj : j = h'
    · simp only [if_pos hj]; exact hS.handles h
    · simp only [if_neg hj]; exact hS.handles j
  | write h o =>
    rcases sim_write hS h o with h1 | h1 | h1
    · exact .inl h1
    · exact .inr (.inl h1)
    · exact .inr (.inr (.inr h1))
  | toBytes h =>
    rcases sim_toBytes hS h with h1 | h1 | h1
    · exact .inl h1
    · exact .inr (.inl h1)
    · exact .inr (.inr (.inr h1))
  | flush h =>
    rcases sim_flush hS h with h1 | h1
    · exact .inl h1
    · exact .inr (.inr (.inr h1))
  | encode k os pick =>
    rcases sim_encode hS k os pick with h1 | h1
    · exact .inr (.inl h1)
    · exact .inr (.inr (.inr h1))

theorem sim_run (os : List Op) : ∀ {φ : Nat → Nat} {s : St} {i : Ideal}, Sim φ s i → irun i os = .stale ∨ Agrees (run s os) (irun i os) := by
  induction os with
  | nil => intro φ s i hS; exact .inr ⟨hS.outs, hS.seen⟩
  | cons o os ih =>
    intro φ s i hS
    unfold irun run
    rcases sim_step hS o with h | ⟨h1, h2⟩ | ⟨h1, h2⟩ | ⟨s', i', φ', h1, h2, h3⟩
    · rw [h]; exact .inl rfl
    · rw [h1, h2]; exact .inr trivial
    · rw [h1, h2]; exact .inr trivial
    · rw [h1, h2]; exact ih h3

theorem sim_init : Sim id init iinit := by
  refine ⟨?_, ?_, List.nodup_nil, ?_, fun _ => zero_same _ _, rfl, rfl⟩
  · intro c e h; cases h
  · intro c c' e e' h; cases h
  · intro b hb; cases hb

/-- C130, encoders do not disturb each other: a program that uses no handle on a buffer after its owner was flushed has the results of the
ideal world without a pool, whichever buffers the pool hands out.  Missing: other programs, see `C130_copied_refuted`,
`C130_derived_refuted`. -/
theorem C130_independent_partial (os : List Op) (h : irun iinit os ≠ .stale) : Agrees (run init os) (irun iinit os) := by
  rcases sim_run os sim_init with h' | h'
  · exact absurd h' h
  · exact h'

/-- Two programs that differ only in what the pool hands out. -/
def forget : Op → Op
  | .new h d _ => .new h d none
  | .reset h d _ => .reset h d none
  | .encode k os _ => .encode k os none
  | o => o

theorem istep_forget (i : Ideal) (o : Op) : istep i (forget o) = istep i o := by cases o <;> rfl

theorem irun_forget (os : List Op) : ∀ i, irun i (os.map forget) = irun i os := by
  induction os with
  | nil => intro i; rfl
  | cons o os ih =>
    intro i
    rw [List.map_cons]
    unfold irun
    rw [istep_forget]
    cases istep i o <;> simp only [ih]

/-- C130, the choices of the pool have no effect on the results of such programs. -/
theorem C130_pool_partial (os os' : List Op) (he : os.map forget = os'.map forget) (h : irun iinit os ≠ .stale) (s s' : St)
    (h1 : run init os = .ok s) (h2 : run init os' = .ok s') : s.outs = s'.outs ∧ s.seen = s'.seen := by
  have e : irun iinit os = irun iinit os' := by rw [← irun_forget os, ← irun_forget os', he]
  have a := C130_independent_partial os h
  have b := C130_independent_partial os' (e ▸ h)
  rw [h1] at a
  rw [h2, ← e] at b
  cases hi : irun iinit os with
  | ok i => rw [hi] at a b; exact ⟨a.1.trans b.1.symm, a.2.trans b.2.symm⟩
  | err => rw [hi] at a; exact a.elim
  | panic => rw [hi] at a; exact a.elim
  | stale => exact absurd hi h

/-- The results of a program, for the concrete cases. -/
def results (r : Res St) (k : Nat) : Option (Bytes × List (Res Bytes)) :=
  match r with
  | .ok s => some (s.outs k, s.seen)
  | _ => none

/-- C130 fails for handles that were copied: after one copy is flushed the other still writes to the buffer, which now belongs to someone
else.  Encoder 2 has written the number 7 only, and its output is 7, 9. -/
theorem C130_copied_refuted : results (run init [.new 0 (.out 0) none, .copy 0 1, .flush 0, .new 2 (.out 5) (some 0), .write 2 (.uint64 7),
    .write 1 (.uint64 9), .flush 2]) 5 = some ([7, 9], []) := by decide +kernel

/-- C130 fails for handles that were flushed twice, through a copy: the buffer is in the pool twice, and two new encoders get it. -/
theorem C130_twice_refuted : results (run init [.new 0 (.out 0) none, .copy 0 1, .flush 0, .flush 1, .new 2 (.out 5) (some 0),
    .new 3 (.out 6) (some 0), .write 2 (.uint64 7), .write 3 (.uint64 9), .flush 2]) 5 = some ([7, 9], []) := by decide +kernel

/-- C130 fails for handles derived from another one: they still write to the buffer after its owner was flushed. -/
theorem C130_derived_refuted : results (run init [.new 0 (.out 0) none, .new 1 (.handle 0) none, .flush 0, .new 2 (.out 5) (some 0),
    .write 2 (.uint64 7), .write 1 (.uint64 9), .flush 2]) 5 = some ([7, 9], []) := by decide +kernel

/-- C130: an encoder that is reset to itself keeps its content and never delivers it. -/
theorem C130_self_refuted : results (run init [.new 0 (.out 5) none, .write 0 (.uint64 7), .reset 0 (.handle 0) none, .write 0 (.uint64 9),
    .toBytes 0, .flush 0]) 5 = some ([], [.ok [7, 9]]) := by decide +kernel

/-! A concrete case within the claim: two encoders in turn, one of them writing into the other, and an `Encode` between them; the second
buffer is one that was put back. -/
example : results (run init [.encode 9 [.uint64 3] none, .new 0 (.out 5) (some 0), .write 0 .list, .new 1 (.handle 0) none,
    .new 2 (.out 6) none, .write 2 (.uint64 8), .write 1 (.uint64 7), .flush 1, .flush 2, .encode 9 [.uint64 4] (some 1),
    .write 0 (.listEnd 0), .flush 0]) 5 = some ([0xC1, 7], []) := by decide +kernel
example : (match irun iinit [.encode 9 [.uint64 3] none, .new 0 (.out 5) (some 0), .write 0 .list, .new 1 (.handle 0) none,
    .new 2 (.out 6) none, .write 2 (.uint64 8), .write 1 (.uint64 7), .flush 1, .flush 2, .encode 9 [.uint64 4] (some 1),
    .write 0 (.listEnd 0), .flush 0] with | .ok i => some (i.outs 5, i.outs 6, i.outs 9) | _ => none) = some ([0xC1, 7], [8], [3, 4]) := by
  decide +kernel

end Verif.Rlp.Buffers

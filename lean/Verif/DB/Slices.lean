import Verif.DB.Props

/-!
# Property C172: databases and the memory of their callers (/repo/db/memdb.go, /repo/db/cacheddb.go)

The slices that a caller gives to a database and gets from it, as places in memory, and a caller that goes on writing into them.
The memory is a list of arrays to which allocations append; a slice is nil or the number of its array (windows into a larger array
and capacity are left out).  goleveldb copies what it is given and hands out copies (its documentation says so; trusted).
`cachedDB.Replace` is at the end.
-/

namespace Verif.DB.Slices
open Verif

/-! ### The memory -/

/-- What is seen through a slice. -/
def see (h : List Bytes) (r : Option Nat) : Option Bytes := r.bind (h[·]?)

/-- What a caller does, in terms of the slices it has, numbered in the order in which it got them: make a slice, copy bytes into a
slice, call the database (the result of `Get` is a new slice), collect commands in a batch and apply it. -/
inductive Step where
  | make (b : Bytes)
  | write (i : Nat) (b : Bytes)
  | put (i j : Nat)
  | get (i : Nat)
  | has (i : Nat)
  | del (i : Nat)
  | newBatch
  | bput (n i j : Nat)
  | bdel (n i : Nat)
  | apply (n : Nat)

/-! ### The model of `MemDB` -/

/-- `batcher` (`/repo/db/memdb.go:31-35`): the slices themselves. -/
inductive RCmd where
  | put (k v : Option Nat)
  | del (k : Option Nat)

/-- The memory, the slices of the caller, the map of a `MemDB` (`/repo/db/memdb.go:23-25`) from texts to slices, and batches
(`/repo/db/memdb.go:27-29`). -/
structure W where
  heap : List Bytes
  held : List (Option Nat)
  map : Assoc Nat
  batches : List (List RCmd)

/-- A slice of the caller; nil if there is no such slice. -/
def W.slice (w : W) (i : Nat) : Option Nat := (w.held[i]?).join

/-- `MemDB.Put` (`/repo/db/memdb.go:61-71`); the copy of the key is used as a text only. -/
def W.put (w : W) (k v : Option Nat) : W × Bool :=
  match copySlice (see w.heap k), copySlice (see w.heap v) with
  | some kb, some vb => ({ w with heap := w.heap ++ [vb], map := store w.map kb w.heap.length }, true)
  | _, _ => (w, false)

/-- `MemDB.Get` (`/repo/db/memdb.go:82-93`). -/
def W.get (w : W) (k : Option Nat) : W :=
  match copySlice ((load w.map (keyOf (see w.heap k))).bind (w.heap[·]?)) with
  | some b => { w with heap := w.heap ++ [b], held := w.held ++ [some w.heap.length] }
  | none => { w with held := w.held ++ [none] }

/-- `MemDB.Delete` (`/repo/db/memdb.go:95-99`). -/
def W.del (w : W) (k : Option Nat) : W := { w with map := remove w.map (keyOf (see w.heap k)) }

/-- One command of `MemDB.Batch` (`/repo/db/memdb.go:110-117`). -/
def W.cmd (w : W) : RCmd → W
  | .put k v => (w.put k v).1
  | .del k => w.del k

/-- A step of the caller; the flag is the result of `Put` and `Has`.  `memBatch.Put` and `Delete` (`/repo/db/memdb.go:125-133`)
keep the slices. -/
def W.step (w : W) : Step → W × Bool
  | .make b => ({ w with heap := w.heap ++ [b], held := w.held ++ [some w.heap.length] }, true)
  | .write i b =>
    match w.slice i with
    | some a => ({ w with heap := w.heap.modify a fun old => goCopy old b }, true)
    | none => (w, true)
  | .put i j => w.put (w.slice i) (w.slice j)
  | .get i => (w.get (w.slice i), true)
  | .has i => (w, (load w.map (keyOf (see w.heap (w.slice i)))).isSome)
  | .del i => (w.del (w.slice i), true)
  | .newBatch => ({ w with batches := w.batches ++ [[]] }, true)
  | .bput n i j => ({ w with batches := w.batches.modify n (· ++ [.put (w.slice i) (w.slice j)]) }, true)
  | .bdel n i => ({ w with batches := w.batches.modify n (· ++ [.del (w.slice i)]) }, true)
  | .apply n => (((w.batches[n]?).getD []).foldl W.cmd w, true)

/-- What a caller sees after each step: the flag and the contents of all slices it has. -/
def W.run (w : W) : List Step → List (Bool × List (Option Bytes))
  | [] => []
  | t :: ts => ((w.step t).2, (w.step t).1.held.map (see (w.step t).1.heap)) :: (w.step t).1.run ts

/-! ### Specification: contents only

The slices of the caller are values, each on its own; the database is a map.  `Late` is a database whose batches look at the
slices when they are applied, `Ideal` one whose batches take what they are given. -/

/-- A map with one entry changed. -/
def upd (m : Bytes → Option Bytes) (k : Bytes) (v : Option Bytes) : Bytes → Option Bytes := fun x => if k = x then v else m x

/-- A command on slices of the caller, by number. -/
inductive ICmd where
  | put (k v : Option Nat)
  | del (k : Option Nat)

/-- See above. -/
structure Late where
  held : List (Option Bytes)
  db : Bytes → Option Bytes
  batches : List (List ICmd)

/-- The number of a slice that there is. -/
def Late.ref (s : Late) (i : Nat) : Option Nat := if i < s.held.length then some i else none

/-- The content of a slice. -/
def Late.val (s : Late) (o : Option Nat) : Option Bytes := o.bind fun i => (s.held[i]?).join

/-- Storing and removing. -/
def Late.cmd (s : Late) : ICmd → Late
  | .put k v =>
    match s.val k, s.val v with
    | some kb, some vb => { s with db := upd s.db kb (some vb) }
    | _, _ => s
  | .del k => { s with db := upd s.db (keyOf (s.val k)) none }

/-- A step. -/
def Late.step (s : Late) : Step → Late × Bool
  | .make b => ({ s with held := s.held ++ [some b] }, true)
  | .write i b => ({ s with held := s.held.modify i (Option.map fun old => goCopy old b) }, true)
  | .put i j => (s.cmd (.put (s.ref i) (s.ref j)), (s.val (s.ref i)).isSome && (s.val (s.ref j)).isSome)
  | .get i => ({ s with held := s.held ++ [s.db (keyOf (s.val (s.ref i)))] }, true)
  | .has i => (s, (s.db (keyOf (s.val (s.ref i)))).isSome)
  | .del i => (s.cmd (.del (s.ref i)), true)
  | .newBatch => ({ s with batches := s.batches ++ [[]] }, true)
  | .bput n i j => ({ s with batches := s.batches.modify n (· ++ [.put (s.ref i) (s.ref j)]) }, true)
  | .bdel n i => ({ s with batches := s.batches.modify n (· ++ [.del (s.ref i)]) }, true)
  | .apply n => (((s.batches[n]?).getD []).foldl Late.cmd s, true)

/-- What the caller sees. -/
def Late.run (s : Late) : List Step → List (Bool × List (Option Bytes))
  | [] => []
  | t :: ts => ((s.step t).2, (s.step t).1.held) :: (s.step t).1.run ts

/-- See above. -/
structure Ideal where
  held : List (Option Bytes)
  db : Bytes → Option Bytes
  batches : List (List Cmd)

/-- The content of a slice. -/
def Ideal.val (s : Ideal) (i : Nat) : Option Bytes := (s.held[i]?).join

/-- Storing and removing. -/
def Ideal.cmd (s : Ideal) : Cmd → Ideal
  | .put k v =>
    match k, v with
    | some kb, some vb => { s with db := upd s.db kb (some vb) }
    | _, _ => s
  | .del k => { s with db := upd s.db (keyOf k) none }

/-- A step. -/
def Ideal.step (s : Ideal) : Step → Ideal × Bool
  | .make b => ({ s with held := s.held ++ [some b] }, true)
  | .write i b => ({ s with held := s.held.modify i (Option.map fun old => goCopy old b) }, true)
  | .put i j => (s.cmd (.put (s.val i) (s.val j)), (s.val i).isSome && (s.val j).isSome)
  | .get i => ({ s with held := s.held ++ [s.db (keyOf (s.val i))] }, true)
  | .has i => (s, (s.db (keyOf (s.val i))).isSome)
  | .del i => (s.cmd (.del (s.val i)), true)
  | .newBatch => ({ s with batches := s.batches ++ [[]] }, true)
  | .bput n i j => ({ s with batches := s.batches.modify n (· ++ [.put (s.val i) (s.val j)]) }, true)
  | .bdel n i => ({ s with batches := s.batches.modify n (· ++ [.del (s.val i)]) }, true)
  | .apply n => (((s.batches[n]?).getD []).foldl Ideal.cmd s, true)

/-- What the caller sees. -/
def Ideal.run (s : Ideal) : List Step → List (Bool × List (Option Bytes))
  | [] => []
  | t :: ts => ((s.step t).2, (s.step t).1.held) :: (s.step t).1.run ts

/-- A step that has nothing to do with batches. -/
def Step.noBatch : Step → Bool
  | .newBatch | .bput .. | .bdel .. | .apply .. => false
  | _ => true

/-- The caller does not write into slices that it has put into a batch (numbers `used`). -/
def Careful : List Nat → List Step → Prop
  | _, [] => True
  | used, .write i _ :: ts => i ∉ used ∧ Careful used ts
  | used, .bput _ i j :: ts => Careful (i :: j :: used) ts
  | used, .bdel _ i :: ts => Careful (i :: used) ts
  | used, _ :: ts => Careful used ts

/-! ### `MemDB` keeps to itself -/

/-- A slice in a batch and the number of the slice of the caller that it is. -/
def RelRef (hd : List (Option Nat)) (r o : Option Nat) : Prop := r = (o.bind (hd[·]?)).join ∧ ∀ i, o = some i → i < hd.length

inductive RelCmd (hd : List (Option Nat)) : RCmd → ICmd → Prop
  | put {r q o p} : RelRef hd r o → RelRef hd q p → RelCmd hd (.put r q) (.put o p)
  | del {r o} : RelRef hd r o → RelCmd hd (.del r) (.del o)

/-- The arrays of the caller are its own and those of the database are the database's. -/
structure Rel (w : W) (s : Late) : Prop where
  held : s.held = w.held.map (see w.heap)
  valid : ∀ (i a : Nat), w.held[i]? = some (some a) → a < w.heap.length
  inj : ∀ (i j a : Nat), w.held[i]? = some (some a) → w.held[j]? = some (some a) → i = j
  mapv : ∀ k a, load w.map k = some a → a < w.heap.length ∧ ∀ i : Nat, w.held[i]? ≠ some (some a)
  db : ∀ k, s.db k = (load w.map k).bind (w.heap[·]?)
  batches : List.Forall₂ (List.Forall₂ (RelCmd w.held)) w.batches s.batches

theorem relRef_see {w : W} {s : Late} (h : Rel w s) {r o : Option Nat} (hr : RelRef w.held r o) : see w.heap r = s.val o := by
  rw [hr.1, Late.val, h.held]
  cases o with
  | none => rfl
  | some i =>
    simp only [Option.bind_some, List.getElem?_map]
    cases w.held[i]? with
    | none => rfl
    | some r => cases r <;> rfl

theorem relRef_slice {w : W} {s : Late} (h : Rel w s) (i : Nat) : RelRef w.held (w.slice i) (s.ref i) := by
  have hl : s.held.length = w.held.length := by rw [h.held]; simp
  unfold RelRef W.slice Late.ref
  rw [hl]
  by_cases hi : i < w.held.length
  · rw [if_pos hi]
    exact ⟨rfl, by rintro j e; cases e; exact hi⟩
  · rw [if_neg hi, List.getElem?_eq_none (by omega)]
    exact ⟨rfl, by rintro j e; cases e⟩

theorem forall₂_imp {α β : Type} {R S : α → β → Prop} (hRS : ∀ a b, R a b → S a b) {l : List α} {m : List β} (h : List.Forall₂ R l m) :
    List.Forall₂ S l m := by
  induction h with
  | nil => exact .nil
  | cons a _ ih => exact .cons (hRS _ _ a) ih

theorem forall₂_snoc {α β : Type} {R : α → β → Prop} {l : List α} {m : List β} {a : α} {b : β} (h : List.Forall₂ R l m) (hab : R a b) :
    List.Forall₂ R (l ++ [a]) (m ++ [b]) := by
  induction h with
  | nil => exact .cons hab .nil
  | cons x _ ih => exact .cons x ih

theorem forall₂_modify {α β : Type} {R : α → β → Prop} {l : List α} {m : List β} {f : α → α} {g : β → β}
    (hfg : ∀ a b, R a b → R (f a) (g b)) (h : List.Forall₂ R l m) : ∀ n, List.Forall₂ R (l.modify n f) (m.modify n g) := by
  induction h with
  | nil => intro n; cases n <;> exact .nil
  | cons x hr ih =>
    intro n
    cases n with
    | zero => exact .cons (hfg _ _ x) hr
    | succ n => exact .cons x (ih n)

theorem forall₂_get {α β : Type} {R : α → β → Prop} {l : List (List α)} {m : List (List β)} (h : List.Forall₂ (List.Forall₂ R) l m) :
    ∀ n : Nat, List.Forall₂ R ((l[n]?).getD []) ((m[n]?).getD []) := by
  induction h with
  | nil => intro n; exact .nil
  | cons x _ ih =>
    intro n
    cases n with
    | zero => exact x
    | succ n => exact ih n

/-- Commands stay what they are when the caller gets more slices. -/
theorem relBatches_mono {hd hd' : List (Option Nat)} (hh : ∀ i : Nat, i < hd.length → hd'[i]? = hd[i]? ∧ i < hd'.length)
    {bs : List (List RCmd)} {cs : List (List ICmd)} (h : List.Forall₂ (List.Forall₂ (RelCmd hd)) bs cs) :
    List.Forall₂ (List.Forall₂ (RelCmd hd')) bs cs := by
  have hr : ∀ r o, RelRef hd r o → RelRef hd' r o := by
    rintro r o ⟨h1, h2⟩
    refine ⟨?_, fun i e => (hh i (h2 i e)).2⟩
    cases o with
    | none => exact h1
    | some i => rw [h1]; simp only [Option.bind_some, (hh i (h2 i rfl)).1]
  refine forall₂_imp (fun a b hab => forall₂_imp (fun c d hcd => ?_) hab) h
  cases hcd with
  | put a b => exact .put (hr _ _ a) (hr _ _ b)
  | del a => exact .del (hr _ _ a)

theorem see_append {h : List Bytes} {r : Option Nat} (b : List Bytes) (hv : ∀ a, r = some a → a < h.length) : see (h ++ b) r = see h r := by
  cases r with
  | none => rfl
  | some a => simp only [see, Option.bind_some, List.getElem?_append_left (hv a rfl)]

theorem held_append {w : W} (hv : ∀ (i a : Nat), w.held[i]? = some (some a) → a < w.heap.length) (b : List Bytes) :
    w.held.map (see (w.heap ++ b)) = w.held.map (see w.heap) := by
  refine List.map_congr_left fun r hr => see_append b fun a e => ?_
  obtain ⟨i, hi⟩ := List.mem_iff_getElem?.1 hr
  exact hv i a (by rw [hi, e])

/-- A new array of the database. -/
theorem rel_put {w : W} {s : Late} (h : Rel w s) {k v o p : Option Nat} (hk : RelRef w.held k o) (hv : RelRef w.held v p) :
    Rel (w.put k v).1 (s.cmd (.put o p)) ∧ (w.put k v).2 = ((s.val o).isSome && (s.val p).isSome) := by
  simp only [W.put, Late.cmd, copySlice_id, relRef_see h hk, relRef_see h hv]
  cases ho : s.val o with
  | none => exact ⟨h, rfl⟩
  | some kb =>
    cases hp : s.val p with
    | none => exact ⟨h, rfl⟩
    | some vb =>
      refine ⟨⟨?_, ?_, h.inj, ?_, ?_, ?_⟩, rfl⟩
      · simp only [held_append h.valid, h.held]
      · intro i a e; simp only [List.length_append, List.length_singleton]; have := h.valid i a e; omega
      · intro x a e
        simp only [load_store] at e
        simp only [List.length_append, List.length_singleton]
        split at e
        · cases e
          exact ⟨by omega, fun i e => absurd (h.valid i _ e) (by omega)⟩
        · obtain ⟨e1, e2⟩ := h.mapv x a e
          exact ⟨by omega, e2⟩
      · intro x
        simp only [upd, load_store]
        split
        · simp
        · rw [h.db x]
          cases hl : load w.map x with
          | none => rfl
          | some a => simp only [Option.bind_some, List.getElem?_append_left (h.mapv x a hl).1]
      · exact h.batches

theorem rel_del {w : W} {s : Late} (h : Rel w s) {k o : Option Nat} (hk : RelRef w.held k o) : Rel (w.del k) (s.cmd (.del o)) := by
  simp only [W.del, Late.cmd, relRef_see h hk]
  refine ⟨h.held, h.valid, h.inj, ?_, ?_, h.batches⟩
  · intro x a e
    rw [load_remove] at e
    split at e
    · cases e
    · exact h.mapv x a e
  · intro x
    simp only [upd, load_remove]
    split
    · rfl
    · exact h.db x

theorem put_held (w : W) (k v : Option Nat) : (w.put k v).1.held = w.held := by
  unfold W.put
  split <;> rfl

theorem cmd_held (w : W) (c : RCmd) : (w.cmd c).held = w.held := by
  cases c with
  | put k v => exact put_held w k v
  | del k => rfl

theorem rel_cmds {w : W} {s : Late} (h : Rel w s) {bs : List RCmd} {cs : List ICmd} (hb : List.Forall₂ (RelCmd w.held) bs cs) :
    Rel (bs.foldl W.cmd w) (cs.foldl Late.cmd s) := by
  generalize hw : w.held = hd at hb
  induction hb generalizing w s with
  | nil => exact h
  | @cons c d bs cs hc hr ih =>
    simp only [List.foldl_cons]
    refine ih (w := w.cmd c) (s := s.cmd d) ?_ (by rw [cmd_held, hw])
    rw [← hw] at hc
    cases hc with
    | put a b => exact (rel_put h a b).1
    | del a => exact rel_del h a

theorem rel_new {w : W} {s : Late} (h : Rel w s) (b : Bytes) :
    Rel { w with heap := w.heap ++ [b], held := w.held ++ [some w.heap.length] } { s with held := s.held ++ [some b] } := by
  refine ⟨?_, ?_, ?_, ?_, ?_, ?_⟩
  · simp only [List.map_append, held_append h.valid, h.held, List.map_cons, List.map_nil]
    simp [see]
  · intro i a e
    simp only [List.length_append, List.length_singleton]
    rcases Nat.lt_trichotomy i w.held.length with hi | hi | hi
    · rw [List.getElem?_append_left hi] at e
      have := h.valid i a e
      omega
    · subst hi
      simp only [List.getElem?_concat_length, Option.some.injEq] at e
      omega
    · rw [List.getElem?_eq_none (by simp; omega)] at e; cases e
  · have key : ∀ (i a : Nat), (w.held ++ [some w.heap.length])[i]? = some (some a) → (i < w.held.length ∧ w.held[i]? = some (some a)) ∨
        (i = w.held.length ∧ a = w.heap.length) := by
      intro i a e
      rcases Nat.lt_trichotomy i w.held.length with hi | hi | hi
      · rw [List.getElem?_append_left hi] at e; exact .inl ⟨hi, e⟩
      · subst hi
        simp only [List.getElem?_concat_length, Option.some.injEq] at e
        exact .inr ⟨rfl, e.symm⟩
      · rw [List.getElem?_eq_none (by simp; omega)] at e; cases e
    intro i j a e f
    rcases key i a e with ⟨i1, e1⟩ | ⟨i1, e1⟩ <;> rcases key j a f with ⟨j1, f1⟩ | ⟨j1, f1⟩
    · exact h.inj i j a e1 f1
    · exact absurd (h.valid i a e1) (by omega)
    · exact absurd (h.valid j a f1) (by omega)
    · omega
  · intro x a e
    obtain ⟨e1, e2⟩ := h.mapv x a e
    simp only [List.length_append, List.length_singleton]
    refine ⟨by omega, fun i hi => ?_⟩
    rcases Nat.lt_trichotomy i w.held.length with hl | hl | hl
    · rw [List.getElem?_append_left hl] at hi; exact e2 i hi
    · subst hl
      simp only [List.getElem?_concat_length, Option.some.injEq] at hi
      omega
    · rw [List.getElem?_eq_none (by simp; omega)] at hi; cases hi
  · intro x
    rw [h.db x]
    cases hl : load w.map x with
    | none => rfl
    | some a => simp only [Option.bind_some, List.getElem?_append_left (h.mapv x a hl).1]
  · exact relBatches_mono (fun i hi => ⟨List.getElem?_append_left hi, by simp; omega⟩) h.batches

theorem rel_nil {w : W} {s : Late} (h : Rel w s) : Rel { w with held := w.held ++ [none] } { s with held := s.held ++ [none] } := by
  have key : ∀ (i a : Nat), (w.held ++ [none])[i]? = some (some a) → w.held[i]? = some (some a) := by
    intro i a e
    rcases Nat.lt_trichotomy i w.held.length with hi | hi | hi
    · rwa [List.getElem?_append_left hi] at e
    · subst hi
      simp at e
    · rw [List.getElem?_eq_none (by simp; omega)] at e; cases e
  refine ⟨?_, fun i a e => h.valid i a (key i a e), fun i j a e f => h.inj i j a (key i a e) (key j a f), ?_, h.db, ?_⟩
  · simp [h.held, see]
  · intro x a e
    obtain ⟨e1, e2⟩ := h.mapv x a e
    exact ⟨e1, fun i hi => e2 i (key i a hi)⟩
  · exact relBatches_mono (fun i hi => ⟨List.getElem?_append_left hi, by simp; omega⟩) h.batches

theorem rel_write {w : W} {s : Late} (h : Rel w s) (i : Nat) (b : Bytes) :
    Rel (w.step (.write i b)).1 (s.step (.write i b)).1 := by
  simp only [W.step, Late.step, W.slice]
  cases hi : w.held[i]? with
  | none =>
    have : s.held.modify i (Option.map fun old => goCopy old b) = s.held := by
      apply List.ext_getElem?
      intro j
      rw [List.getElem?_modify]
      by_cases hj : i = j
      · subst hj; rw [h.held, List.getElem?_map, hi]; simp
      · simp [hj]
    simp only [Option.join_none, this]
    exact h
  | some r =>
    cases r with
    | none =>
      have : s.held.modify i (Option.map fun old => goCopy old b) = s.held := by
        apply List.ext_getElem?
        intro j
        rw [List.getElem?_modify]
        by_cases hj : i = j
        · subst hj; rw [h.held, List.getElem?_map, hi]; simp [see]
        · simp [hj]
      simp only [Option.join_some, this]
      exact h
    | some a =>
      simp only [Option.join_some]
      refine ⟨?_, ?_, h.inj, ?_, ?_, h.batches⟩
      · apply List.ext_getElem?
        intro j
        rw [List.getElem?_modify, h.held, List.getElem?_map, List.getElem?_map]
        cases hj : w.held[j]? with
        | none => simp
        | some q =>
          cases q with
          | none => by_cases e : i = j <;> simp [see, e]
          | some c =>
            simp only [Option.map_some, see, Option.bind_some, List.getElem?_modify]
            by_cases e : i = j
            · subst e
              rw [hi] at hj
              cases hj
              simp
            · have hne : a ≠ c := by
                rintro rfl
                exact e (h.inj i j a hi hj)
              simp [e, hne]
      · intro j c e; simp only [List.length_modify]; exact h.valid j c e
      · intro x c e; simp only [List.length_modify]; exact h.mapv x c e
      · intro x
        rw [h.db x]
        cases hl : load w.map x with
        | none => rfl
        | some c =>
          have hne : a ≠ c := by
            rintro rfl
            exact (h.mapv x a hl).2 i hi
          simp [List.getElem?_modify, hne]

theorem rel_step {w : W} {s : Late} (h : Rel w s) (t : Step) : Rel (w.step t).1 (s.step t).1 ∧ (w.step t).2 = (s.step t).2 := by
  cases t with
  | make b => exact ⟨rel_new h b, rfl⟩
  | write i b => refine ⟨rel_write h i b, ?_⟩; simp only [W.step, Late.step]; split <;> rfl
  | put i j => exact rel_put h (relRef_slice h i) (relRef_slice h j)
  | get i =>
    refine ⟨?_, rfl⟩
    simp only [W.step, W.get, Late.step, copySlice_id, relRef_see h (relRef_slice h i), ← h.db]
    cases s.db (keyOf (s.val (s.ref i))) with
    | none => exact rel_nil h
    | some b => exact rel_new h b
  | has i =>
    refine ⟨h, ?_⟩
    simp only [W.step, Late.step, relRef_see h (relRef_slice h i), h.db]
    cases hl : load w.map (keyOf (s.val (s.ref i))) with
    | none => rfl
    | some a => simp [(h.mapv _ a hl).1]
  | del i => exact ⟨rel_del h (relRef_slice h i), rfl⟩
  | newBatch =>
    refine ⟨⟨h.held, h.valid, h.inj, h.mapv, h.db, ?_⟩, rfl⟩
    exact forall₂_snoc (h.batches) .nil
  | bput n i j =>
    refine ⟨⟨h.held, h.valid, h.inj, h.mapv, h.db, ?_⟩, rfl⟩
    refine forall₂_modify (fun a b hab => forall₂_snoc hab ?_) (h.batches) n
    exact .put (relRef_slice h i) (relRef_slice h j)
  | bdel n i =>
    refine ⟨⟨h.held, h.valid, h.inj, h.mapv, h.db, ?_⟩, rfl⟩
    refine forall₂_modify (fun a b hab => forall₂_snoc hab ?_) (h.batches) n
    exact .del (relRef_slice h i)
  | apply n => exact ⟨rel_cmds h (forall₂_get h.batches n), rfl⟩

/-- The beginning: no slices, an empty database. -/
def W.new : W := ⟨[], [], [], []⟩
def Late.new : Late := ⟨[], fun _ => none, []⟩
def Ideal.new : Ideal := ⟨[], fun _ => none, []⟩

theorem rel_new0 : Rel W.new Late.new :=
  ⟨rfl, by intro i a e; simp [W.new] at e, by intro i j a e; simp [W.new] at e, by intro k a e; simp [W.new, load] at e,
    fun k => rfl, .nil⟩

theorem rel_run : ∀ (ts : List Step) (w : W) (s : Late), Rel w s → w.run ts = s.run ts
  | [], _, _, _ => rfl
  | t :: ts, w, s, h => by
    obtain ⟨h1, h2⟩ := rel_step h t
    simp only [W.run, Late.run]
    rw [h2, rel_run ts _ _ h1, h1.held]

/-- **C172, `MemDB`.** Whatever a caller does with its slices, before and after calls, it sees what it would see if the database
were a map of values and each of its slices were its own; only batches look at the slices when they are applied. -/
theorem C172_memory (ts : List Step) : W.new.run ts = Late.new.run ts := rel_run ts _ _ rel_new0

/-! ### Batches -/

/-- The content of a slice. -/
def valOf (hd : List (Option Bytes)) (o : Option Nat) : Option Bytes := o.bind fun i => (hd[i]?).join

/-- A command of a batch and the content that was given. -/
inductive Given (used : List Nat) (hd : List (Option Bytes)) : ICmd → Cmd → Prop
  | put {o p} : (∀ i, o = some i → i ∈ used ∧ i < hd.length) → (∀ i, p = some i → i ∈ used ∧ i < hd.length) →
      Given used hd (.put o p) (.put (valOf hd o) (valOf hd p))
  | del {o} : (∀ i, o = some i → i ∈ used ∧ i < hd.length) → Given used hd (.del o) (.del (valOf hd o))

structure Same (used : List Nat) (s : Late) (q : Ideal) : Prop where
  held : q.held = s.held
  db : q.db = s.db
  batches : List.Forall₂ (List.Forall₂ (Given used s.held)) s.batches q.batches

theorem Given.mono {used used' : List Nat} {s s' : List (Option Bytes)} (hu : ∀ i ∈ used, i ∈ used')
    (hh : ∀ i ∈ used, i < s.length → s'[i]? = s[i]? ∧ i < s'.length) {c : ICmd} {d : Cmd}
    (h : Given used s c d) : Given used' s' c d := by
  have hv : ∀ o : Option Nat, (∀ i, o = some i → i ∈ used ∧ i < s.length) → valOf s o = valOf s' o := by
    intro o ho
    cases o with
    | none => rfl
    | some i => simp only [valOf, Option.bind_some, (hh i (ho i rfl).1 (ho i rfl).2).1]
  have hb : ∀ o : Option Nat, (∀ i, o = some i → i ∈ used ∧ i < s.length) → (∀ i, o = some i → i ∈ used' ∧ i < s'.length) :=
    fun o ho i e => ⟨hu i (ho i e).1, (hh i (ho i e).1 (ho i e).2).2⟩
  cases h with
  | put a b => rw [hv _ a, hv _ b]; exact .put (hb _ a) (hb _ b)
  | del a => rw [hv _ a]; exact .del (hb _ a)

theorem same_mono {used used' : List Nat} {s s' : List (Option Bytes)} (hu : ∀ i ∈ used, i ∈ used')
    (hh : ∀ i ∈ used, i < s.length → s'[i]? = s[i]? ∧ i < s'.length) {bs : List (List ICmd)} {cs : List (List Cmd)}
    (h : List.Forall₂ (List.Forall₂ (Given used s)) bs cs) : List.Forall₂ (List.Forall₂ (Given used' s')) bs cs :=
  forall₂_imp (fun _ _ hab => forall₂_imp (fun _ _ hcd => hcd.mono hu hh) hab) h

theorem val_ref (s : Late) (i : Nat) : s.val (s.ref i) = (s.held[i]?).join := by
  unfold Late.val Late.ref
  by_cases hi : i < s.held.length
  · rw [if_pos hi]; rfl
  · rw [if_neg hi, List.getElem?_eq_none (by omega)]; rfl

theorem same_val {used : List Nat} {s : Late} {q : Ideal} (h : Same used s q) (i : Nat) : q.val i = s.val (s.ref i) := by
  rw [val_ref, Ideal.val, h.held]

theorem late_cmd_held (s : Late) (c : ICmd) : (s.cmd c).held = s.held := by
  cases c with
  | put k v => simp only [Late.cmd]; split <;> rfl
  | del k => rfl

theorem late_cmd_batches (s : Late) (c : ICmd) : (s.cmd c).batches = s.batches := by
  cases c with
  | put k v => simp only [Late.cmd]; split <;> rfl
  | del k => rfl

theorem ideal_cmd_held (s : Ideal) (c : Cmd) : (s.cmd c).held = s.held ∧ (s.cmd c).batches = s.batches := by
  cases c with
  | put k v => simp only [Ideal.cmd]; split <;> exact ⟨rfl, rfl⟩
  | del k => exact ⟨rfl, rfl⟩

theorem same_put {used : List Nat} {s : Late} {q : Ideal} (h : Same used s q) (o p : Option Nat) :
    Same used (s.cmd (.put o p)) (q.cmd (.put (s.val o) (s.val p))) := by
  refine ⟨by rw [late_cmd_held, (ideal_cmd_held q _).1, h.held], ?_, ?_⟩
  · simp only [Late.cmd, Ideal.cmd]
    cases s.val o <;> cases s.val p <;> simp [h.db]
  · rw [late_cmd_batches, (ideal_cmd_held q _).2, late_cmd_held]
    exact h.batches

theorem same_del {used : List Nat} {s : Late} {q : Ideal} (h : Same used s q) (o : Option Nat) :
    Same used (s.cmd (.del o)) (q.cmd (.del (s.val o))) :=
  ⟨h.held, by simp only [Late.cmd, Ideal.cmd, h.db], h.batches⟩

theorem same_cmds {used : List Nat} {s : Late} {q : Ideal} (h : Same used s q) {bs : List ICmd} {cs : List Cmd}
    (hb : List.Forall₂ (Given used s.held) bs cs) : Same used (bs.foldl Late.cmd s) (cs.foldl Ideal.cmd q) := by
  generalize hw : s.held = hd at hb
  induction hb generalizing s q with
  | nil => exact h
  | @cons c d bs cs hc hr ih =>
    simp only [List.foldl_cons]
    refine ih (s := s.cmd c) (q := q.cmd d) ?_ (by rw [late_cmd_held, hw])
    rw [← hw] at hc
    cases hc with
    | put a b => exact same_put h _ _
    | del a => exact same_del h _

theorem ref_used (s : Late) (i : Nat) (used : List Nat) (hi : i ∈ used) : ∀ j, s.ref i = some j → j ∈ used ∧ j < s.held.length := by
  intro j e
  unfold Late.ref at e
  split at e
  · cases e; exact ⟨hi, by assumption⟩
  · cases e

theorem same_snoc {used : List Nat} {s : Late} {q : Ideal} (h : Same used s q) (x : Option Bytes) :
    Same used { s with held := s.held ++ [x] } { q with held := q.held ++ [x] } :=
  ⟨by simp only [h.held], h.db, same_mono (fun i hi => hi) (fun i _ hi => ⟨List.getElem?_append_left hi, by simp; omega⟩) h.batches⟩

theorem same_run : ∀ (ts : List Step) (used : List Nat) (s : Late) (q : Ideal), Careful used ts → Same used s q → s.run ts = q.run ts
  | [], _, _, _, _, _ => rfl
  | t :: ts, used, s, q, hc, h => by
    suffices hs : ∃ used', Careful used' ts ∧ Same used' (s.step t).1 (q.step t).1 ∧ (s.step t).2 = (q.step t).2 by
      obtain ⟨used', a, b, c⟩ := hs
      simp only [Late.run, Ideal.run]
      rw [same_run ts used' _ _ a b, b.held, c]
    cases t with
    | make b => exact ⟨used, hc, same_snoc h _, rfl⟩
    | write i b =>
      refine ⟨used, hc.2, ⟨by simp only [Late.step, Ideal.step, h.held], h.db, ?_⟩, rfl⟩
      refine same_mono (fun i hi => hi) (fun j hj hl => ?_) h.batches
      have hne : i ≠ j := by rintro rfl; exact hc.1 hj
      simp only [Late.step, List.getElem?_modify, hne, List.length_modify]
      exact ⟨by simp, hl⟩
    | put i j =>
      refine ⟨used, hc, ?_, ?_⟩
      · simp only [Late.step, Ideal.step, same_val h]; exact same_put h _ _
      · simp only [Late.step, Ideal.step, same_val h]
    | get i =>
      refine ⟨used, hc, ?_, rfl⟩
      have := same_snoc h (s.db (keyOf (s.val (s.ref i))))
      simpa only [Late.step, Ideal.step, same_val h, h.db] using this
    | has i =>
      refine ⟨used, hc, h, ?_⟩
      simp only [Late.step, Ideal.step, same_val h, h.db]
    | del i =>
      refine ⟨used, hc, ?_, rfl⟩
      simp only [Late.step, Ideal.step, same_val h]; exact same_del h _
    | newBatch => exact ⟨used, hc, ⟨h.held, h.db, forall₂_snoc h.batches .nil⟩, rfl⟩
    | bput n i j =>
      refine ⟨_, hc, ⟨h.held, h.db, ?_⟩, rfl⟩
      refine forall₂_modify (R := List.Forall₂ (Given (i :: j :: used) s.held)) (fun a b hab => forall₂_snoc hab ?_)
        (same_mono (fun i hi => by simp [hi]) (fun i _ hi => ⟨rfl, hi⟩) h.batches) n
      rw [same_val h, same_val h]
      exact .put (ref_used s i _ (by simp)) (ref_used s j _ (by simp))
    | bdel n i =>
      refine ⟨_, hc, ⟨h.held, h.db, ?_⟩, rfl⟩
      refine forall₂_modify (R := List.Forall₂ (Given (i :: used) s.held)) (fun a b hab => forall₂_snoc hab ?_)
        (same_mono (fun i hi => by simp [hi]) (fun i _ hi => ⟨rfl, hi⟩) h.batches) n
      rw [same_val h]
      exact .del (ref_used s i _ (by simp))
    | apply n => exact ⟨used, hc, same_cmds h (forall₂_get h.batches n), rfl⟩

/-- **C172, batches of a `MemDB`.** If the caller does not write into slices it has put into a batch, every command stores what it
was given. -/
theorem C172_batch_partial (ts : List Step) (hc : Careful [] ts) : W.new.run ts = Ideal.new.run ts := by
  rw [C172_memory]
  exact same_run ts [] _ _ hc ⟨rfl, rfl, .nil⟩

/-- In particular without batches. -/
theorem C172_calls (ts : List Step) (h : ∀ t ∈ ts, t.noBatch = true) : W.new.run ts = Ideal.new.run ts := by
  refine C172_batch_partial ts ?_
  have : ∀ (ts : List Step), (∀ t ∈ ts, t.noBatch = true) → Careful [] ts := by
    intro ts
    induction ts with
    | nil => intro _; trivial
    | cons t ts ih =>
      intro h
      have h1 := h t (by simp)
      have h2 := ih fun x hx => h x (by simp [hx])
      cases t <;> first | exact h2 | exact ⟨by simp, h2⟩ | simp [Step.noBatch] at h1
  exact this ts h

/-- A caller that uses one slice for all values of a batch. -/
def reuse : List Step :=
  [.make [1], .make [2], .make [7], .newBatch, .bput 0 0 2, .write 2 [8], .bput 0 1 2, .apply 0, .get 0, .get 1]

/-- **C172, refuted for batches.** A caller that uses one slice for two values finds the second under both keys. -/
theorem C172_batch_refuted :
    (W.new.run reuse).getLast? = some (true, [some [1], some [2], some [8], some [8], some [8]]) ∧
    (Ideal.new.run reuse).getLast? = some (true, [some [1], some [2], some [8], some [7], some [8]]) := by decide +kernel

/-! ### The cached database -/

/-- Calls of a cached database: `evict` is what the cache drops by itself. -/
inductive CStep where
  | make (b : Bytes)
  | write (i : Nat) (b : Bytes)
  | put (i j : Nat)
  | get (i : Nat)
  | del (i : Nat)
  | evict (e : Bytes → Bool)

/-- The memory, the slices of the caller, the content of the base, and the cache (`/repo/db/cacheddb.go:51-61`), which holds
slices. -/
structure CW where
  heap : List Bytes
  held : List (Option Nat)
  base : Bytes → Option Bytes
  cache : Assoc (Option Nat)

/-- A slice of the caller. -/
def CW.slice (w : CW) (i : Nat) : Option Nat := (w.held[i]?).join

/-- The content of a slice of the caller as a text. -/
def CW.key (w : CW) (i : Nat) : Bytes := keyOf (see w.heap (w.slice i))

/-- A step; the database is as in `/repo/db/cacheddb.go:84-93` (`Put`), `108-125` (`Get`: what the base returns goes into the cache and
to the caller) and `127-133` (`Delete`), over goleveldb. -/
def CW.step (w : CW) : CStep → CW
  | .make b => { w with heap := w.heap ++ [b], held := w.held ++ [some w.heap.length] }
  | .write i b =>
    match w.slice i with
    | some a => { w with heap := w.heap.modify a fun old => goCopy old b }
    | none => w
  | .put i j => { w with base := upd w.base (w.key i) (some (w.key j)), cache := remove w.cache (w.key i) }
  | .get i =>
    match load w.cache (w.key i) with
    | some r => { w with held := w.held ++ [r] }
    | none =>
      match w.base (w.key i) with
      | none => { w with held := w.held ++ [none], cache := store w.cache (w.key i) none }
      | some b => { w with heap := w.heap ++ [b], held := w.held ++ [some w.heap.length], cache := store w.cache (w.key i) (some w.heap.length) }
  | .del i => { w with base := upd w.base (w.key i) none, cache := remove w.cache (w.key i) }
  | .evict e => { w with cache := w.cache.filter fun p => !e p.1 }

/-- What the caller sees. -/
def CW.run (w : CW) : List CStep → List (List (Option Bytes))
  | [] => []
  | t :: ts => (w.step t).held.map (see (w.step t).heap) :: (w.step t).run ts

/-- A map of values, and slices that are each their own. -/
structure CIdeal where
  held : List (Option Bytes)
  db : Bytes → Option Bytes

/-- The content of a slice as a text. -/
def CIdeal.key (s : CIdeal) (i : Nat) : Bytes := keyOf (s.held[i]?).join

/-- A step. -/
def CIdeal.step (s : CIdeal) : CStep → CIdeal
  | .make b => { s with held := s.held ++ [some b] }
  | .write i b => { s with held := s.held.modify i (Option.map fun old => goCopy old b) }
  | .put i j => { s with db := upd s.db (s.key i) (some (s.key j)) }
  | .get i => { s with held := s.held ++ [s.db (s.key i)] }
  | .del i => { s with db := upd s.db (s.key i) none }
  | .evict _ => s

/-- What the caller sees. -/
def CIdeal.run (s : CIdeal) : List CStep → List (List (Option Bytes))
  | [] => []
  | t :: ts => (s.step t).held :: (s.step t).run ts

/-- The caller writes only into slices that it has made itself; `n` is how many slices it has, `own` the numbers of those. -/
def OwnWrites : Nat → List Nat → List CStep → Prop
  | _, _, [] => True
  | n, own, .make _ :: ts => OwnWrites (n + 1) (n :: own) ts
  | n, own, .get _ :: ts => OwnWrites (n + 1) own ts
  | n, own, .write i _ :: ts => i ∈ own ∧ OwnWrites n own ts
  | n, own, _ :: ts => OwnWrites n own ts

structure CRel (own : List Nat) (w : CW) (s : CIdeal) : Prop where
  held : s.held = w.held.map (see w.heap)
  valid : ∀ (i a : Nat), w.held[i]? = some (some a) → a < w.heap.length
  own : ∀ i ∈ own, i < w.held.length ∧ ∀ a, w.held[i]? = some (some a) → (∀ j : Nat, w.held[j]? = some (some a) → j = i) ∧
    ∀ k, load w.cache k ≠ some (some a)
  db : s.db = w.base
  cache : ∀ k r, load w.cache k = some r → see w.heap r = w.base k ∧ ∀ a, r = some a → a < w.heap.length

theorem crel_key {own : List Nat} {w : CW} {s : CIdeal} (h : CRel own w s) (i : Nat) : w.key i = s.key i := by
  unfold CW.key CIdeal.key CW.slice
  rw [h.held, List.getElem?_map]
  cases w.held[i]? with
  | none => rfl
  | some r => cases r <;> rfl

theorem held_append' {hd : List (Option Nat)} {h : List Bytes} (hv : ∀ (i a : Nat), hd[i]? = some (some a) → a < h.length) (b : List Bytes) :
    hd.map (see (h ++ b)) = hd.map (see h) := by
  refine List.map_congr_left fun r hr => see_append b fun a e => ?_
  obtain ⟨i, hi⟩ := List.mem_iff_getElem?.1 hr
  exact hv i a (by rw [hi, e])

theorem snoc_cases {α : Type} {l : List α} {x y : α} {i : Nat} (h : (l ++ [x])[i]? = some y) :
    (i < l.length ∧ l[i]? = some y) ∨ (i = l.length ∧ x = y) := by
  rcases Nat.lt_trichotomy i l.length with hi | hi | hi
  · rw [List.getElem?_append_left hi] at h; exact .inl ⟨hi, h⟩
  · subst hi
    simp only [List.getElem?_concat_length, Option.some.injEq] at h
    exact .inr ⟨rfl, h⟩
  · rw [List.getElem?_eq_none (by simp; omega)] at h; cases h

theorem crel_make {own : List Nat} {w : CW} {s : CIdeal} (h : CRel own w s) (b : Bytes) :
    CRel (w.held.length :: own) (w.step (.make b)) (s.step (.make b)) := by
  refine ⟨?_, ?_, ?_, h.db, ?_⟩
  · simp only [CW.step, CIdeal.step, List.map_append, List.map_cons, List.map_nil, held_append' h.valid, h.held]
    simp [see]
  · intro i a e
    rcases snoc_cases e with ⟨_, e⟩ | ⟨_, e⟩
    · have := h.valid i a e; simp [CW.step]; omega
    · cases e; simp [CW.step]
  · intro i hi
    refine ⟨?_, fun a ha => ⟨fun j hj => ?_, fun k hk => ?_⟩⟩
    · rcases List.mem_cons.1 hi with rfl | hi
      · simp [CW.step]
      · have := (h.own i hi).1; simp [CW.step]; omega
    · rcases snoc_cases ha with ⟨hl, ha⟩ | ⟨hl, ha⟩ <;> rcases snoc_cases hj with ⟨hm, hj⟩ | ⟨hm, hj⟩
      · rcases List.mem_cons.1 hi with rfl | hi
        · omega
        · exact ((h.own i hi).2 a ha).1 j hj
      · cases hj; have := h.valid i _ ha; omega
      · cases ha; have := h.valid j _ hj; omega
      · omega
    · rcases snoc_cases ha with ⟨hl, ha⟩ | ⟨hl, ha⟩
      · rcases List.mem_cons.1 hi with rfl | hi
        · omega
        · exact ((h.own i hi).2 a ha).2 k hk
      · cases ha; have := (h.cache k _ hk).2 _ rfl; omega
  · intro k r hk
    obtain ⟨h1, h2⟩ := h.cache k r hk
    exact ⟨by simp only [CW.step]; rw [see_append [b] h2]; exact h1, fun a e => by have := h2 a e; simp [CW.step]; omega⟩

theorem crel_write {own : List Nat} {w : CW} {s : CIdeal} (h : CRel own w s) (i : Nat) (b : Bytes) (hi : i ∈ own) :
    CRel own (w.step (.write i b)) (s.step (.write i b)) ∧ (w.step (.write i b)).held = w.held := by
  obtain ⟨hl, ho⟩ := h.own i hi
  cases hs : w.held[i]? with
  | none => rw [List.getElem?_eq_none_iff] at hs; omega
  | some r =>
    cases r with
    | none =>
      have e : w.step (.write i b) = w := by simp [CW.step, CW.slice, hs]
      refine ⟨?_, by rw [e]⟩
      rw [e]
      refine ⟨?_, h.valid, h.own, h.db, h.cache⟩
      simp only [CIdeal.step, h.held]
      refine List.ext_getElem? fun j => ?_
      rw [List.getElem?_modify]
      by_cases hij : i = j
      · subst hij; simp [hs, see]
      · simp [hij]
    | some a =>
      obtain ⟨hu, hc⟩ := ho a hs
      have hsee : ∀ r : Option Nat, r ≠ some a → see (w.heap.modify a fun old => goCopy old b) r = see w.heap r := by
        intro r hr
        cases r with
        | none => rfl
        | some x =>
          have hx : a ≠ x := fun e => hr (by rw [e])
          simp [see, List.getElem?_modify, hx]
      have e : w.step (.write i b) = { w with heap := w.heap.modify a fun old => goCopy old b } := by
        simp [CW.step, CW.slice, hs]
      refine ⟨?_, by rw [e]⟩
      rw [e]
      refine ⟨?_, ?_, ?_, h.db, ?_⟩
      · simp only [CIdeal.step, h.held]
        refine List.ext_getElem? fun j => ?_
        rw [List.getElem?_modify, List.getElem?_map, List.getElem?_map]
        by_cases hij : i = j
        · subst hij
          simp only [hs, Option.map_some, see, Option.bind_some, List.getElem?_modify, if_true]
          cases w.heap[a]? <;> simp
        · simp only [hij, if_false, Option.map_eq_map, Option.map_id']
          cases hj : w.held[j]? with
          | none => rfl
          | some r =>
            have hr : r ≠ some a := fun e => hij (hu j (by rw [hj, e])).symm
            simp [hsee r hr]
      · intro j x hx
        have := h.valid j x hx
        simpa using this
      · exact h.own
      · intro k r hk
        obtain ⟨h1, h2⟩ := h.cache k r hk
        refine ⟨?_, fun x hx => by simpa using h2 x hx⟩
        show see (w.heap.modify a fun old => goCopy old b) r = w.base k
        rw [hsee r (fun e => hc k (by rw [hk, e])), h1]

theorem crel_snoc {own : List Nat} {w : CW} {s : CIdeal} (h : CRel own w s) {k : Bytes} {r : Option Nat} (hk : load w.cache k = some r) :
    CRel own { w with held := w.held ++ [r] } { s with held := s.held ++ [w.base k] } := by
  obtain ⟨h1, h2⟩ := h.cache k r hk
  refine ⟨by simp [h.held, h1], ?_, ?_, h.db, h.cache⟩
  · intro i a e
    rcases snoc_cases e with ⟨_, e⟩ | ⟨_, e⟩
    · exact h.valid i a e
    · exact h2 a e
  · intro i hi
    refine ⟨by have := (h.own i hi).1; simp; omega, fun a ha => ?_⟩
    rcases snoc_cases ha with ⟨hl, ha⟩ | ⟨hl, ha⟩
    · refine ⟨fun j hj => ?_, ((h.own i hi).2 a ha).2⟩
      rcases snoc_cases hj with ⟨_, hj⟩ | ⟨_, hj⟩
      · exact ((h.own i hi).2 a ha).1 j hj
      · exact absurd (by rw [hk, hj]) (((h.own i hi).2 a ha).2 k)
    · have := (h.own i hi).1; omega

theorem crel_fill {own : List Nat} {w : CW} {s : CIdeal} (h : CRel own w s) (k : Bytes) :
    (w.base k = none → CRel own { w with cache := store w.cache k none } s) ∧
    ∀ b, w.base k = some b → CRel own { w with heap := w.heap ++ [b], cache := store w.cache k (some w.heap.length) } s := by
  refine ⟨fun hb => ⟨h.held, h.valid, ?_, h.db, ?_⟩, fun b hb => ⟨?_, ?_, ?_, h.db, ?_⟩⟩
  · intro i hi
    refine ⟨(h.own i hi).1, fun a ha => ⟨((h.own i hi).2 a ha).1, fun x => ?_⟩⟩
    rw [load_store]
    split
    · simp
    · exact ((h.own i hi).2 a ha).2 x
  · intro x r hx
    simp only [load_store] at hx
    split at hx
    · next e => subst e; cases hx; exact ⟨by simp [see, hb], by simp⟩
    · exact h.cache x r hx
  · simp only [held_append' h.valid, h.held]
  · intro i a e
    have := h.valid i a e
    simp; omega
  · intro i hi
    refine ⟨(h.own i hi).1, fun a ha => ⟨((h.own i hi).2 a ha).1, fun x => ?_⟩⟩
    simp only [load_store]
    split
    · have := h.valid i a ha
      simp; omega
    · exact ((h.own i hi).2 a ha).2 x
  · intro x r hx
    simp only [load_store] at hx
    split at hx
    · next e => subst e; cases hx; exact ⟨by simp [see, hb], by simp⟩
    · obtain ⟨h1, h2⟩ := h.cache x r hx
      exact ⟨by simp only; rw [see_append [b] h2]; exact h1, fun a e => by have := h2 a e; simp; omega⟩

theorem crel_get {own : List Nat} {w : CW} {s : CIdeal} (h : CRel own w s) (i : Nat) :
    CRel own (w.step (.get i)) (s.step (.get i)) ∧ (w.step (.get i)).held.length = w.held.length + 1 := by
  have ek := crel_key h i
  have es : s.step (.get i) = { s with held := s.held ++ [w.base (w.key i)] } := by simp only [CIdeal.step, ← ek, h.db]
  rw [es]
  cases hl : load w.cache (w.key i) with
  | some r =>
    have e : w.step (.get i) = { w with held := w.held ++ [r] } := by simp [CW.step, hl]
    rw [e]
    exact ⟨crel_snoc h hl, by simp⟩
  | none =>
    cases hb : w.base (w.key i) with
    | none =>
      have e : w.step (.get i) = { w with held := w.held ++ [none], cache := store w.cache (w.key i) none } := by
        simp [CW.step, hl, hb]
      rw [e]
      refine ⟨?_, by simp⟩
      have := crel_snoc ((crel_fill h (w.key i)).1 hb) (k := w.key i) (r := none) (by simp [load_store])
      simpa only [hb] using this
    | some b =>
      have e : w.step (.get i) = { w with heap := w.heap ++ [b], held := w.held ++ [some w.heap.length], cache := store w.cache (w.key i) (some w.heap.length) } := by
        simp [CW.step, hl, hb]
      rw [e]
      refine ⟨?_, by simp⟩
      have := crel_snoc ((crel_fill h (w.key i)).2 b hb) (k := w.key i) (r := some w.heap.length) (by simp [load_store])
      simpa only [hb] using this

theorem crel_upd {own : List Nat} {w : CW} {s : CIdeal} (h : CRel own w s) (k : Bytes) (v : Option Bytes) :
    CRel own { w with base := upd w.base k v, cache := remove w.cache k } { s with db := upd s.db k v } := by
  refine ⟨h.held, h.valid, ?_, by simp only [h.db], ?_⟩
  · intro i hi
    refine ⟨(h.own i hi).1, fun a ha => ⟨((h.own i hi).2 a ha).1, fun x => ?_⟩⟩
    simp only [load_remove]
    split
    · simp
    · exact ((h.own i hi).2 a ha).2 x
  · intro x r hx
    simp only [load_remove] at hx
    split at hx
    · cases hx
    · next hne =>
      obtain ⟨h1, h2⟩ := h.cache x r hx
      refine ⟨?_, h2⟩
      simp only [upd]
      rw [if_neg hne, h1]

theorem crel_evict {own : List Nat} {w : CW} {s : CIdeal} (h : CRel own w s) (e : Bytes → Bool) :
    CRel own { w with cache := w.cache.filter fun p => !e p.1 } s := by
  have hf : ∀ x r, load (w.cache.filter fun p => !e p.1) x = some r → load w.cache x = some r := by
    intro x r hx
    rw [load_filter w.cache (fun b => !e b)] at hx
    split at hx
    · exact hx
    · cases hx
  refine ⟨h.held, h.valid, ?_, h.db, ?_⟩
  · intro i hi
    exact ⟨(h.own i hi).1, fun a ha => ⟨((h.own i hi).2 a ha).1, fun x hx => ((h.own i hi).2 a ha).2 x (hf x _ hx)⟩⟩
  · intro x r hx
    exact h.cache x r (hf x r hx)

theorem crel_run : ∀ (ts : List CStep) (own : List Nat) (w : CW) (s : CIdeal), OwnWrites w.held.length own ts → CRel own w s →
    w.run ts = s.run ts
  | [], _, _, _, _, _ => rfl
  | t :: ts, own, w, s, ho, h => by
    suffices hs : ∃ own', OwnWrites (w.step t).held.length own' ts ∧ CRel own' (w.step t) (s.step t) by
      obtain ⟨own', a, b⟩ := hs
      simp only [CW.run, CIdeal.run]
      rw [crel_run ts own' _ _ a b, b.held]
    cases t with
    | make b => exact ⟨w.held.length :: own, by have ho : OwnWrites (w.held.length + 1) (w.held.length :: own) ts := ho; simpa [CW.step] using ho, crel_make h b⟩
    | write i b => exact ⟨own, by rw [(crel_write h i b ho.1).2]; exact ho.2, (crel_write h i b ho.1).1⟩
    | put i j =>
      refine ⟨own, ho, ?_⟩
      simp only [CIdeal.step, ← crel_key h]
      exact crel_upd h _ _
    | get i => exact ⟨own, by rw [(crel_get h i).2]; exact ho, (crel_get h i).1⟩
    | del i =>
      refine ⟨own, ho, ?_⟩
      simp only [CIdeal.step, ← crel_key h]
      exact crel_upd h _ _
    | evict e => exact ⟨own, ho, crel_evict h e⟩

/-- **C172, the cached database.** If the caller writes only into slices that it has made itself, not into those that `Get` has
returned, it sees a map of values, whatever the cache drops. -/
theorem C172_cached_partial (ts : List CStep) (h : OwnWrites 0 [] ts) (m : Bytes → Option Bytes) :
    CW.run ⟨[], [], m, []⟩ ts = CIdeal.run ⟨[], m⟩ ts :=
  crel_run ts [] _ _ h ⟨rfl, by intro i a e; simp at e, by simp, rfl, by intro k r e; simp [load] at e⟩

/-- A caller that changes what it got. -/
def spoil : List CStep := [.make [1], .make [7], .put 0 1, .get 0, .write 2 [9], .get 0]

/-- **C172, refuted for the cached database.** `Get` hands out the slice that is in the cache: after the caller has written into
it, `Get` gives what the caller wrote, though the base still has the value that was put. -/
theorem C172_cached_refuted :
    (CW.run ⟨[], [], fun _ => none, []⟩ spoil).getLast? = some [some [1], some [7], some [9], some [9]] ∧
    (CIdeal.run ⟨[], fun _ => none⟩ spoil).getLast? = some [some [1], some [7], some [9], some [7]] ∧
    (spoil.foldl CW.step ⟨[], [], fun _ => none, []⟩).base [1] = some [7] := by decide +kernel

/-- With the values that the caller made itself it may do what it likes. -/
example : OwnWrites 0 [] [.make [1], .make [7], .put 0 1, .write 1 [8], .get 0, .write 0 [2], .put 0 2, .get 0] := by
  simp [OwnWrites]

example : (CW.run ⟨[], [], fun _ => none, []⟩ [.make [1], .make [7], .put 0 1, .write 1 [8], .get 0, .write 0 [2], .put 0 2, .get 0]).getLast? =
    some [some [2], some [8], some [7], some [7]] := by decide +kernel

example : Careful [] [.make [1], .make [7], .newBatch, .bput 0 0 1, .make [8], .write 2 [9], .apply 0, .get 0] := by
  simp [Careful]

example : (W.new.run [.make [1], .make [7], .put 0 1, .write 1 [9], .get 0, .write 2 [5], .get 0, .has 0, .del 0, .has 0]).map (·.1) =
    [true, true, true, true, true, true, true, true, true, false] ∧
    (W.new.run [.make [1], .make [7], .put 0 1, .write 1 [9], .get 0, .write 2 [5], .get 0]).getLast? =
      some (true, [some [1], some [9], some [5], some [7]]) := by decide +kernel

/-! ### Replacing the base -/

/-- `cachedDB` with its path (`/repo/db/cacheddb.go:51-61`). -/
structure Named (σ : Type) where
  path : Bytes
  db : Cached σ

/-- `cachedDB.Replace` (`/repo/db/cacheddb.go:160-177`): the new base with an empty cache (a new one, or the purged old one); the
old path and base go to the caller. -/
def Named.replace {σ : Type} (d : Named σ) (path : Bytes) (new : σ) : Named σ × Bytes × σ :=
  (⟨path, ⟨new, []⟩⟩, d.path, d.db.base)

/-- **C172, `Replace`.** After any calls and any dropping of the cache: the caller gets the old path and a database with
everything that was written before, and calls afterwards answer (`Has` up to C35) as the new database does, with nothing of the
old. -/
theorem C172_replace {σ : Type} {db : Database σ} {acc abs Inv} (h : Behaves db (fun _ => True) acc abs Inv) (s new : σ)
    (hs : Inv s) (hn : Inv new) (p q : Bytes) (before later : List ((Bytes → Bool) × Op)) :
    let d : Named σ := ⟨p, (runEvict db ⟨s, []⟩ before).1⟩
    let r := d.replace q new
    r.2.1 = p ∧ r.1.path = q ∧
    abs r.2.2 = after acc (abs s) ((before.map (·.2)).flatMap Op.cmds) ∧
    UpToHas (later.map (·.2)) (runEvict db r.1.db later).2 (answers acc (abs new) (later.map (·.2))) ∧
    abs (runEvict db r.1.db later).1.base = after acc (abs new) ((later.map (·.2)).flatMap Op.cmds) :=
  ⟨rfl, rfl, (C35_transparent_partial h s hs before).2, C35_transparent_partial h new hn later⟩

example : ((Named.replace ⟨[1], (runEvict memDB ⟨[], []⟩ [(fun _ => false, .put (some [5]) (some [6])), (fun _ => false, .get (some [5]))]).1⟩
    [2] []).2 = (([1] : Bytes), ([([5], [6])] : Assoc Bytes))) ∧
    (runEvict memDB (Named.replace ⟨[1], (runEvict memDB ⟨[], []⟩ [(fun _ => false, .put (some [5]) (some [6])), (fun _ => false,
      .get (some [5]))]).1⟩ [2] []).1.db [(fun _ => false, .get (some [5]))]).2 = [.value (.ok none)] := by decide +kernel

end Verif.DB.Slices

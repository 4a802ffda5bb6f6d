import Verif.Base

/-!
# Property C182: whose memory the hash is that a trie is opened at

`NewTrie` and its variants put the caller's slice into the root node (/repo/trie/trie.go:117-139, /repo/trie/node.go:273-286); the node is read
from the database at these bytes when it is first needed (/repo/trie/trie.go:574-602), and `HashValue` returns them until the trie is changed
(/repo/trie/node.go:537-540).  `Inherit` copies the slice (/repo/trie/trie.go:204-218), history trees copy it and read at once
(/repo/trie/historytree.go:69-98, 1097-1117).
-/

namespace Verif.Memory.Opening
open Verif

/-! ### The code -/

/-- Where a root hash is: in a buffer of the caller, or in an array of its own. -/
inductive Src where
  | shared (r : Nat)
  | copied (b : Bytes)

/-- An opened trie that is not changed: where its hash is, and the contents, once they have been read. -/
structure Obj where
  src : Src
  seen : Option Bytes

/-- The buffers of the callers, the opened tries, and what was told. -/
structure St where
  bufs : Nat → Bytes
  objs : Nat → Option Obj
  log : List Bytes

/-- The bytes of a hash now. -/
def Src.bytes (s : St) : Src → Bytes
  | .shared r => s.bufs r
  | .copied b => b

/-- What happens: a caller fills buffer `r`; opens trie `o` with it in one of three ways; looks at the contents; asks for the hash. -/
inductive Op where
  | fill (r : Nat) (b : Bytes)
  | newTrie (o r : Nat)
  | inherit (o r : Nat)
  | newTree (o r : Nat)
  | look (o : Nat)
  | hash (o : Nat)

/-- Trie `o` becomes `x`. -/
def St.set (s : St) (o : Nat) (x : Obj) : St := { s with objs := fun k => if k = o then some x else s.objs k }

/-- One of them; `db` gives the contents stored under a hash. -/
def step (db : Bytes → Bytes) (s : St) : Op → St
  | .fill r b => { s with bufs := fun k => if k = r then b else s.bufs k }
  | .newTrie o r => s.set o ⟨.shared r, none⟩
  | .inherit o r => s.set o ⟨.copied (s.bufs r), none⟩
  | .newTree o r => s.set o ⟨.copied (s.bufs r), some (db (s.bufs r))⟩
  | .look o =>
    match s.objs o with
    | none => s
    | some x =>
      let c := x.seen.getD (db (x.src.bytes s))
      { s.set o { x with seen := some c } with log := s.log ++ [c] }
  | .hash o =>
    match s.objs o with
    | none => s
    | some x => { s with log := s.log ++ [x.src.bytes s] }

/-- Nothing is opened. -/
def start : St := ⟨fun _ => [], fun _ => none, []⟩

/-! ### Specification -/

/-- The buffers, the hash each trie was opened at, and what was told. -/
structure Ideal where
  bufs : Nat → Bytes
  at_ : Nat → Option Bytes
  log : List Bytes

/-- A trie is opened at the bytes that the buffer has at that time. -/
def Ideal.step (db : Bytes → Bytes) (s : Ideal) : Op → Ideal
  | .fill r b => { s with bufs := fun k => if k = r then b else s.bufs k }
  | .newTrie o r | .inherit o r | .newTree o r => { s with at_ := fun k => if k = o then some (s.bufs r) else s.at_ k }
  | .look o => { s with log := s.log ++ ((s.at_ o).map db).toList }
  | .hash o => { s with log := s.log ++ (s.at_ o).toList }

/-- No buffer is filled again after a trie was opened with it by `NewTrie`. -/
def Careful : List Op → Prop
  | [] => True
  | .newTrie _ r :: os => (∀ b, Op.fill r b ∉ os) ∧ Careful os
  | _ :: os => Careful os

/-! ### Proof -/

variable {db : Bytes → Bytes}

/-- An opened trie is at its hash, and stays there during `os`. -/
def Good (db : Bytes → Bytes) (s : St) (os : List Op) (x : Obj) (h : Bytes) : Prop :=
  x.src.bytes s = h ∧ (∀ c, x.seen = some c → c = db h) ∧ ∀ r, x.src = .shared r → ∀ b, Op.fill r b ∉ os

/-- What holds before the calls `os`. -/
structure Inv (db : Bytes → Bytes) (s : St) (d : Ideal) (os : List Op) : Prop where
  bufs : s.bufs = d.bufs
  objs : ∀ o, match s.objs o, d.at_ o with
    | none, none => True
    | some x, some h => Good db s os x h
    | _, _ => False
  log : s.log = d.log

theorem Inv.open {s : St} {d : Ideal} {op : Op} {os : List Op} (h : Inv db s d (op :: os)) (o r : Nat) (x : Obj) (hx : Good db s os x (s.bufs r)) :
    Inv db (s.set o x) { d with at_ := fun k => if k = o then some (d.bufs r) else d.at_ k } os := by
  refine ⟨h.bufs, ?_, h.log⟩
  intro k
  by_cases hk : k = o
  · simp only [St.set, hk, if_true]
    rw [← h.bufs]
    obtain ⟨h1, h2, h3⟩ := hx
    refine ⟨?_, h2, h3⟩
    rw [← h1]
    cases x.src <;> rfl
  · have := h.objs k
    simp only [St.set, hk, if_false]
    revert this
    cases s.objs k <;> cases d.at_ k
    · exact id
    · exact id
    · exact id
    · rintro ⟨h1, h2, h3⟩
      refine ⟨?_, h2, fun r hr b hm => h3 r hr b (List.mem_cons_of_mem _ hm)⟩
      rw [← h1]
      rename_i x' _
      cases x'.src <;> rfl

theorem Inv.tail {s : St} {d : Ideal} {op : Op} {os : List Op} (h : Inv db s d (op :: os)) : Inv db s d os := by
  refine ⟨h.bufs, ?_, h.log⟩
  intro k
  have := h.objs k
  revert this
  cases s.objs k <;> cases d.at_ k
  · exact id
  · exact id
  · exact id
  · rintro ⟨h1, h2, h3⟩
    exact ⟨h1, h2, fun r hr b hm => h3 r hr b (List.mem_cons_of_mem _ hm)⟩

theorem Inv.step {s : St} {d : Ideal} {op : Op} {os : List Op} (h : Inv db s d (op :: os)) (hc : Careful (op :: os)) :
    Inv db (step db s op) (d.step db op) os := by
  cases op with
  | newTrie o r =>
    refine h.open o r _ ⟨rfl, (fun c hc => by cases hc), ?_⟩
    intro r' hr b
    cases hr
    exact hc.1 b
  | inherit o r => exact h.open o r _ ⟨rfl, (fun c hc => by cases hc), (fun r' hr => by cases hr)⟩
  | newTree o r =>
    refine h.open o r _ ⟨rfl, (fun c hc => ?_), (fun r' hr => by cases hr)⟩
    exact (Option.some.inj hc).symm
  | fill r b =>
    refine ⟨?_, ?_, h.log⟩
    · show (fun k => if k = r then b else s.bufs k) = _
      rw [h.bufs]
      rfl
    · intro k
      have := h.objs k
      show match s.objs k, d.at_ k with | none, none => True | some x, some h => Good db _ os x h | _, _ => False
      revert this
      cases s.objs k <;> cases d.at_ k
      · exact id
      · exact id
      · exact id
      · rename_i x hh
        rintro ⟨h1, h2, h3⟩
        refine ⟨?_, h2, fun r hr b hm => h3 r hr b (List.mem_cons_of_mem _ hm)⟩
        rw [← h1]
        cases hs : x.src with
        | copied b' => rfl
        | shared r' =>
          have hne : r' ≠ r := fun e => h3 r' hs b (by rw [e]; exact List.mem_cons_self)
          exact if_neg hne
  | hash o =>
    have ho := h.objs o
    have ht := h.tail
    show Inv db (match s.objs o with | none => s | some x => { s with log := s.log ++ [x.src.bytes s] }) { d with log := d.log ++ (d.at_ o).toList } os
    revert ho
    cases s.objs o <;> cases d.at_ o
    · intro _
      exact ⟨ht.bufs, ht.objs, by simpa using ht.log⟩
    · exact False.elim
    · exact False.elim
    · rintro ⟨h1, _, _⟩
      refine ⟨ht.bufs, ht.objs, ?_⟩
      show s.log ++ [_] = d.log ++ [_]
      rw [ht.log, h1]
  | look o =>
    have ho := h.objs o
    have ht := h.tail
    show Inv db (match s.objs o with
      | none => s
      | some x => { s.set o { x with seen := some (x.seen.getD (db (x.src.bytes s))) } with log := s.log ++ [x.seen.getD (db (x.src.bytes s))] })
      { d with log := d.log ++ ((d.at_ o).map db).toList } os
    revert ho
    cases hs : s.objs o <;> cases hd : d.at_ o
    · intro _
      exact ⟨ht.bufs, ht.objs, by simpa using ht.log⟩
    · exact False.elim
    · exact False.elim
    · rename_i x hh
      rintro ⟨h1, h2, h3⟩
      have hc : x.seen.getD (db (x.src.bytes s)) = db hh := by
        cases hx : x.seen with
        | none => rw [Option.getD_none, h1]
        | some c => rw [Option.getD_some, h2 c hx]
      simp only [hc]
      refine ⟨ht.bufs, ?_, ?_⟩
      · intro k
        by_cases hk : k = o
        · simp only [St.set, hk, if_true, hd]
          refine ⟨?_, ?_, ?_⟩
          · rw [← h1]
            cases x.src <;> simp [Src.bytes]
          · intro c hcs
            exact (Option.some.inj hcs).symm
          · intro r hr b hm
            exact h3 r hr b (List.mem_cons_of_mem _ hm)
        · have := ht.objs k
          simp only [St.set, hk, if_false]
          revert this
          cases s.objs k <;> cases d.at_ k
          · exact id
          · exact id
          · exact id
          · rename_i x' _
            rintro ⟨g1, g2, g3⟩
            refine ⟨?_, g2, g3⟩
            rw [← g1]
            cases x'.src <;> rfl
      · show s.log ++ [_] = d.log ++ [_]
        rw [ht.log]

theorem Careful.tail {op : Op} {os : List Op} (h : Careful (op :: os)) : Careful os := by
  cases op <;> first | exact h.2 | exact h

/-- **C182, as far as it holds.** Tries and history trees are opened with buffers that are filled again and again, except that no buffer is
filled after it was given to `NewTrie`: every trie has the contents and the hash that it was opened at. -/
theorem C182_opening_partial (db : Bytes → Bytes) (os : List Op) (hc : Careful os) :
    (os.foldl (step db) start).log = (os.foldl (Ideal.step db) ⟨fun _ => [], fun _ => none, []⟩).log := by
  have gen : ∀ (os : List Op) (s : St) (d : Ideal), Inv db s d os → Careful os → (os.foldl (Opening.step db) s).log = (os.foldl (Ideal.step db) d).log := by
    intro os
    induction os with
    | nil => intro s d h _; exact h.log
    | cons o os ih => intro s d h hc; exact ih _ _ (h.step hc) hc.tail
  exact gen os start _ ⟨rfl, fun _ => trivial, rfl⟩ hc

/-- Two tries opened with one buffer by `Inherit`, and one with another buffer by `NewTrie`. -/
example : ([Op.fill 0 [1], .inherit 5 0, .fill 0 [2], .newTree 6 0, .fill 0 [3], .fill 1 [4], .newTrie 7 1, .look 5, .look 6, .look 7, .hash 5].foldl
    (step fun h => 9 :: h) start).log = [[9, 1], [9, 2], [9, 4], [1]] := by decide +kernel

/-- **C182 is false for `NewTrie`**: a trie opened with a buffer that is filled again before the first look has the contents stored under the new
bytes; one that was looked at before has its contents, but reports the new bytes as its hash. -/
theorem C182_newTrie_refuted (db : Bytes → Bytes) (o r : Nat) (h h' : Bytes) :
    ([Op.fill r h, .newTrie o r, .fill r h', .look o].foldl (step db) start).log = [db h'] ∧
      ([Op.fill r h, .newTrie o r, .look o, .fill r h', .look o, .hash o].foldl (step db) start).log = [db h, db h, h'] := by
  constructor <;> simp [step, start, St.set, Src.bytes]

end Verif.Memory.Opening

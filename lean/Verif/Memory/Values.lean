import Verif.Base

/-!
# Property C183: values of tries that callers change in place

A trie keeps the value it is given (/repo/trie/node.go:444-462) and `Get` returns that value (/repo/trie/trie.go:252-275): for pointers and slices
the caller and the trie share memory.  The encoding of a value is kept when it is first needed (/repo/trie/node.go:566-591), and forgotten by
`setValue` (line 460) and when nodes are rebuilt.  `Clone` commits and opens the stored trie (/repo/trie/trie.go:161-178), so its values are new.
-/

namespace Verif.Memory.Values
open Verif

/-! ### The code -/

/-- The values in memory by their encodings now; for each key the value and the encoding that was kept; what was told. -/
structure St (A : Type) where
  cells : Nat → Bytes
  slots : Nat → Option (Nat × Option Bytes)
  log : List A

/-- What is told: a value, or a hash. -/
inductive Ans where
  | value (v : Option Bytes)
  | hash (h : Bytes)
  deriving DecidableEq

/-- What happens: a caller changes the value `c`; puts it under `k`; deletes `k`; gets `k`; asks for the hash; clones the trie and gets `k` from the
clone; or a node is rebuilt and forgets the encoding of its value. -/
inductive Op where
  | poke (c : Nat) (v : Bytes)
  | put (k c : Nat)
  | del (k : Nat)
  | get (k : Nat)
  | hash
  | clone (k : Nat)
  | forget (k : Nat)

/-- `f` with another value at `k`. -/
def upd {α : Type} (f : Nat → α) (k : Nat) (v : α) : Nat → α := fun x => if x = k then v else f x

/-- `valueHash` (`/repo/trie/node.go:566-591`): the encoding that is kept, or that of the value now. -/
def stream {A : Type} (s : St A) (k : Nat) : Option Bytes := (s.slots k).map fun x => x.2.getD (s.cells x.1)

/-- All encodings are kept (`computeHash`, `saveOneNode`; `/repo/trie/node.go:842-903`, `/repo/trie/trie.go:693-706`). -/
def keepAll {A : Type} (s : St A) : St A := { s with slots := fun k => (s.slots k).map fun x => (x.1, some (x.2.getD (s.cells x.1))) }

/-- One of them; `F` is the hash of a trie with the given encodings. -/
def step (F : (Nat → Option Bytes) → Bytes) (s : St Ans) : Op → St Ans
  | .poke c v => { s with cells := upd s.cells c v }
  | .put k c => { s with slots := upd s.slots k (some (c, none)) }
  | .del k => { s with slots := upd s.slots k none }
  | .get k => { s with log := s.log ++ [.value ((s.slots k).map fun x => s.cells x.1)] }
  | .hash => { keepAll s with log := s.log ++ [.hash (F (stream s))] }
  | .clone k => { keepAll s with log := s.log ++ [.value (stream s k)] }
  | .forget k => { s with slots := upd s.slots k ((s.slots k).map fun x => (x.1, none)) }

/-- An empty trie. -/
def start : St Ans := ⟨fun _ => [], fun _ => none, []⟩

/-! ### Specification -/

/-- The values in memory, a map of encodings, and what was told. -/
structure Ideal where
  cells : Nat → Bytes
  map : Nat → Option Bytes
  log : List Ans

/-- A value is what it was when it was put. -/
def Ideal.step (F : (Nat → Option Bytes) → Bytes) (s : Ideal) : Op → Ideal
  | .poke c v => { s with cells := upd s.cells c v }
  | .put k c => { s with map := upd s.map k (some (s.cells c)) }
  | .del k => { s with map := upd s.map k none }
  | .get k | .clone k => { s with log := s.log ++ [.value (s.map k)] }
  | .hash => { s with log := s.log ++ [.hash (F s.map)] }
  | .forget _ => s

/-- No value is changed after it was put. -/
def Careful : List Op → Prop
  | [] => True
  | .put _ c :: os => (∀ v, Op.poke c v ∉ os) ∧ Careful os
  | _ :: os => Careful os

/-! ### Proof -/

variable {F : (Nat → Option Bytes) → Bytes}

/-- The map is that of the specification, and stays so during `os`. -/
structure Inv (s : St Ans) (d : Ideal) (os : List Op) : Prop where
  cells : s.cells = d.cells
  now : ∀ k, (s.slots k).map (fun x => s.cells x.1) = d.map k
  kept : ∀ k x b, s.slots k = some x → x.2 = some b → b = s.cells x.1
  safe : ∀ k x, s.slots k = some x → ∀ v, Op.poke x.1 v ∉ os
  log : s.log = d.log

theorem upd_ne {α : Type} {f : Nat → α} {k x : Nat} {v : α} (h : x ≠ k) : upd f k v x = f x := if_neg h

theorem upd_same {α : Type} {f : Nat → α} {k : Nat} {v : α} : upd f k v k = v := if_pos rfl

theorem Inv.tail {s : St Ans} {d : Ideal} {o : Op} {os : List Op} (h : Inv s d (o :: os)) : Inv s d os :=
  ⟨h.cells, h.now, h.kept, fun k x hx v hm => h.safe k x hx v (List.mem_cons_of_mem _ hm), h.log⟩

theorem Inv.streams {s : St Ans} {d : Ideal} {os : List Op} (h : Inv s d os) : stream s = d.map := by
  funext k
  rw [← h.now k, stream]
  cases hs : s.slots k with
  | none => rfl
  | some x =>
    simp only [Option.map_some, Option.some.injEq]
    cases hx : x.2 with
    | none => rfl
    | some b => rw [Option.getD_some, h.kept k x b hs hx]

theorem Inv.keepAll {s : St Ans} {d : Ideal} {os : List Op} (h : Inv s d os) : Inv (keepAll s) d os := by
  have hslot : ∀ k x, (Values.keepAll s).slots k = some x → ∃ y, s.slots k = some y ∧ x = (y.1, some (y.2.getD (s.cells y.1))) := by
    intro k x hx
    obtain ⟨y, hy, e⟩ := Option.map_eq_some_iff.1 hx
    exact ⟨y, hy, e.symm⟩
  refine ⟨h.cells, ?_, ?_, ?_, h.log⟩
  · intro k
    rw [← h.now k]
    show ((s.slots k).map _).map _ = _
    rw [Option.map_map]
    rfl
  · intro k x b hx hb
    obtain ⟨y, hy, rfl⟩ := hslot k x hx
    have e : y.2.getD (s.cells y.1) = b := Option.some.inj hb
    rw [← e]
    cases hy2 : y.2 with
    | none => rfl
    | some b' => rw [Option.getD_some]; exact h.kept k y b' hy hy2
  · intro k x hx
    obtain ⟨y, hy, rfl⟩ := hslot k x hx
    exact h.safe k y hy

theorem Inv.tell {s : St Ans} {d : Ideal} {os : List Op} (h : Inv s d os) {a b : Ans} (e : a = b) :
    Inv { s with log := s.log ++ [a] } { d with log := d.log ++ [b] } os :=
  ⟨h.cells, h.now, h.kept, h.safe, by rw [e]; exact congrArg (· ++ [b]) h.log⟩

theorem Inv.step {s : St Ans} {d : Ideal} {o : Op} {os : List Op} (h : Inv s d (o :: os)) (hc : Careful (o :: os)) :
    Inv (step F s o) (d.step F o) os := by
  have ht := h.tail
  cases o with
  | poke c v =>
    have hne : ∀ k x, s.slots k = some x → x.1 ≠ c := fun k x hx e => h.safe k x hx v (by rw [e]; exact List.mem_cons_self)
    refine ⟨?_, ?_, ?_, ht.safe, ht.log⟩
    · show upd s.cells c v = upd d.cells c v
      rw [h.cells]
    · intro k
      show (s.slots k).map (fun x => upd s.cells c v x.1) = d.map k
      rw [← h.now k]
      cases hs : s.slots k with
      | none => rfl
      | some x => rw [Option.map_some, Option.map_some, upd_ne (hne k x hs)]
    · intro k x b hx hb
      show b = upd s.cells c v x.1
      rw [upd_ne (hne k x hx)]
      exact h.kept k x b hx hb
  | put k c =>
    refine ⟨h.cells, ?_, ?_, ?_, h.log⟩
    · intro j
      show (upd s.slots k (some (c, none)) j).map (fun x => s.cells x.1) = upd d.map k (some (d.cells c)) j
      by_cases hj : j = k
      · rw [hj, upd_same, upd_same, ← h.cells]
        rfl
      · rw [upd_ne hj, upd_ne hj]
        exact h.now j
    · intro j x b hx hb
      change upd s.slots k (some (c, none)) j = some x at hx
      by_cases hj : j = k
      · rw [hj, upd_same] at hx
        cases hx
        cases hb
      · rw [upd_ne hj] at hx
        exact h.kept j x b hx hb
    · intro j x hx
      change upd s.slots k (some (c, none)) j = some x at hx
      by_cases hj : j = k
      · rw [hj, upd_same] at hx
        cases hx
        exact hc.1
      · rw [upd_ne hj] at hx
        exact ht.safe j x hx
  | del k =>
    refine ⟨h.cells, ?_, ?_, ?_, h.log⟩
    · intro j
      show (upd s.slots k none j).map (fun x => s.cells x.1) = upd d.map k none j
      by_cases hj : j = k
      · rw [hj, upd_same, upd_same]
        rfl
      · rw [upd_ne hj, upd_ne hj]
        exact h.now j
    · intro j x b hx hb
      change upd s.slots k none j = some x at hx
      by_cases hj : j = k
      · rw [hj, upd_same] at hx
        cases hx
      · rw [upd_ne hj] at hx
        exact h.kept j x b hx hb
    · intro j x hx
      change upd s.slots k none j = some x at hx
      by_cases hj : j = k
      · rw [hj, upd_same] at hx
        cases hx
      · rw [upd_ne hj] at hx
        exact ht.safe j x hx
  | forget k =>
    have hsub : ∀ j x, upd s.slots k ((s.slots k).map fun x => (x.1, none)) j = some x → ∃ y, s.slots j = some y ∧ y.1 = x.1 ∧ (x.2 = none ∨ x.2 = y.2) := by
      intro j x hx
      by_cases hj : j = k
      · rw [hj, upd_same] at hx
        obtain ⟨y, hy, e⟩ := Option.map_eq_some_iff.1 hx
        exact ⟨y, by rw [hj]; exact hy, by rw [← e], Or.inl (by rw [← e])⟩
      · rw [upd_ne hj] at hx
        exact ⟨x, hx, rfl, Or.inr rfl⟩
    refine ⟨h.cells, ?_, ?_, ?_, h.log⟩
    · intro j
      show (upd s.slots k _ j).map (fun x => s.cells x.1) = d.map j
      rw [← h.now j]
      by_cases hj : j = k
      · rw [hj, upd_same, Option.map_map]
        rfl
      · rw [upd_ne hj]
    · intro j x b hx hb
      obtain ⟨y, hy, e, hn | hn⟩ := hsub j x hx
      · rw [hn] at hb
        cases hb
      · rw [← e]
        exact h.kept j y b hy (by rw [← hn]; exact hb)
    · intro j x hx v
      obtain ⟨y, hy, e, _⟩ := hsub j x hx
      rw [← e]
      exact ht.safe j y hy v
  | get k => exact ht.tell (congrArg Ans.value (ht.now k))
  | hash => exact ht.keepAll.tell (congrArg (fun m => Ans.hash (F m)) ht.streams)
  | clone k => exact ht.keepAll.tell (congrArg (fun m => Ans.value (m k)) ht.streams)

theorem Careful.tail {o : Op} {os : List Op} (h : Careful (o :: os)) : Careful os := by
  cases o <;> first | exact h.2 | exact h

/-- **C183, as far as it holds.** If no value is changed after it was put, then `Get`, `HashValue` and clones always tell the values as they were
put, in whatever order, however often values are put under other keys, deleted and put again, and whenever kept encodings are forgotten. -/
theorem C183_values_partial (F : (Nat → Option Bytes) → Bytes) (os : List Op) (hc : Careful os) :
    (os.foldl (step F) start).log = (os.foldl (Ideal.step F) ⟨fun _ => [], fun _ => none, []⟩).log := by
  have gen : ∀ (os : List Op) (s : St Ans) (d : Ideal), Inv s d os → Careful os → (os.foldl (Values.step F) s).log = (os.foldl (Ideal.step F) d).log := by
    intro os
    induction os with
    | nil => intro s d h _; exact h.log
    | cons o os ih => intro s d h hc; exact ih _ _ (h.step hc) hc.tail
  exact gen os start _ ⟨rfl, fun _ => rfl, fun k x b hx => (by cases hx), fun k x hx => (by cases hx), rfl⟩ hc

/-- Two keys with one value, a deletion and a clone. -/
example : ([Op.poke 0 [5], .put 1 0, .put 2 0, .hash, .poke 3 [6], .put 2 3, .del 1, .get 1, .get 2, .clone 2, .hash].foldl
    (step fun m => (m 1).getD [0] ++ (m 2).getD [0]) start).log =
    [.hash [5, 5], .value none, .value (some [6]), .value (some [6]), .hash [0, 6]] := by decide +kernel

theorem stream_keepAll (s : St Ans) (f : Nat → Bytes) (l : List Ans) : stream ⟨f, (keepAll s).slots, l⟩ = stream s := by
  funext k
  simp only [stream, keepAll, Option.map_map]
  rfl

theorem stream_put (F : (Nat → Option Bytes) → Bytes) (s : St Ans) (k c : Nat) :
    stream (step F s (.put k c)) = upd (stream s) k (some (s.cells c)) := by
  funext j
  by_cases hj : j = k
  · simp [step, stream, upd, hj]
  · simp [step, stream, upd, hj]

/-- **C183 is false when a caller changes a value that was put or returned by `Get`**: after `HashValue` the trie shows the new value, but its hash
and its clones have the old one; before it, `HashValue` has the new one although nothing was put. -/
theorem C183_change_refuted (F : (Nat → Option Bytes) → Bytes) (k c : Nat) (v v' : Bytes) :
    ([Op.poke c v, .put k c, .hash, .poke c v', .get k, .hash, .clone k].foldl (step F) start).log =
      [.hash (F (upd (fun _ => none) k (some v))), .value (some v'), .hash (F (upd (fun _ => none) k (some v))), .value (some v)] ∧
    ([Op.poke c v, .put k c, .poke c v', .hash].foldl (step F) start).log = [.hash (F (upd (fun _ => none) k (some v')))] := by
  have e : ∀ s : St Ans, s.slots = (fun _ => none) → stream s = fun _ => none := by
    intro s hs
    funext j
    rw [stream, hs]
    rfl
  constructor
  · simp only [List.foldl_cons, List.foldl_nil]
    generalize hS : step F (step F start (.poke c v)) (.put k c) = S
    have hs : stream S = upd (fun _ => none) k (some v) := by
      rw [← hS, stream_put, e _ rfl]
      simp [step, upd]
    have hl : S.log = [] := by rw [← hS]; rfl
    have hk : S.slots k = some (c, none) := by rw [← hS]; exact upd_same
    simp only [step, stream_keepAll, hs, hl, upd_same]
    simp [keepAll, hk, upd]
  · simp only [List.foldl_cons, List.foldl_nil]
    show [Ans.hash (F (stream _))] = _
    have : stream (step F (step F (step F start (.poke c v)) (.put k c)) (.poke c v')) = upd (fun _ => none) k (some v') := by
      funext j
      by_cases hj : j = k
      · simp [step, stream, upd, hj]
      · simp [step, stream, start, upd, hj]
    rw [this]

/-- **C183.** Putting the changed value again makes `Get`, the hash and clones agree on this key, whatever happened before. -/
theorem C183_again (F : (Nat → Option Bytes) → Bytes) (s : St Ans) (k c : Nat) :
    let t := step F s (.put k c)
    (step F t (.get k)).log = s.log ++ [.value (some (s.cells c))] ∧ (step F t (.clone k)).log = s.log ++ [.value (some (s.cells c))] ∧
      (step F t .hash).log = s.log ++ [.hash (F (upd (stream s) k (some (s.cells c))))] := by
  refine ⟨?_, ?_, ?_⟩
  · simp [step, upd]
  · simp [step, upd, stream]
  · show s.log ++ [.hash (F (stream (step F s (.put k c))))] = _
    rw [stream_put]

end Verif.Memory.Values

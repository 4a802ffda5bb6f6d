import Verif.Conc.Mutex

/-!
# The serialised trie (`/repo/trie/synctrie.go`): C82

The wrapped trie is arbitrary: each of its methods is any sequence of memory steps.  A panic of the wrapped trie is one of
the results; the deferred `Unlock` runs then as well.  What a caller does with the iterator returned by `ValueIterator` happens
outside of the lock and is not covered.
-/

namespace Verif.SyncTrie
open Verif Verif.Conc

/-- `ITrie` (`/repo/trie/interfaces.go`): `V` are values, `W` trie values, `X` proofs, `I` iterators. -/
structure ITrie (S V W X I : Type) where
  hashValue : Prog S (Res Bytes)
  get : Option Bytes → Prog S (Res (Option V))
  put : Option Bytes → V → Prog S (Res Bool)
  putValue : W → Prog S (Res Bool)
  delete : Option Bytes → Prog S (Res (Bool × Option V))
  isDirty : Prog S (Res Bool)
  commit : Prog S (Res Unit)
  getProof : Option Bytes → Prog S (Res (Option (V × X)))
  getExistenceProof : Option Bytes → Prog S (Res (Bool × X))
  valueIterator : Prog S (Res I)

/-- The calls. -/
inductive Call (V W : Type) where
  | hashValue
  | get (k : Option Bytes)
  | put (k : Option Bytes) (v : V)
  | putValue (v : W)
  | delete (k : Option Bytes)
  | isDirty
  | commit
  | getProof (k : Option Bytes)
  | getExistenceProof (k : Option Bytes)
  | valueIterator

/-- Their results. -/
inductive Out (V X I : Type) where
  | hash (r : Res Bytes)
  | val (r : Res (Option V))
  | bool (r : Res Bool)
  | deleted (r : Res (Bool × Option V))
  | unit (r : Res Unit)
  | proof (r : Res (Option (V × X)))
  | exist (r : Res (Bool × X))
  | iter (r : Res I)

/-- The result of a body, wrapped. -/
def mapP {S A B : Type} (f : A → B) : Prog S A → Prog S B
  | .ret a => .ret (f a)
  | .step w k => .step w fun s => mapP f (k s)

variable {S V W X I : Type}

/-- The call made on the wrapped trie. -/
def ITrie.body (T : ITrie S V W X I) : Call V W → Prog S (Out V X I)
  | .hashValue => mapP .hash T.hashValue
  | .get k => mapP .val (T.get k)
  | .put k v => mapP .bool (T.put k v)
  | .putValue v => mapP .bool (T.putValue v)
  | .delete k => mapP .deleted (T.delete k)
  | .isDirty => mapP .bool T.isDirty
  | .commit => mapP .unit T.commit
  | .getProof k => mapP .proof (T.getProof k)
  | .getExistenceProof k => mapP .exist (T.getExistenceProof k)
  | .valueIterator => mapP .iter T.valueIterator

/-- `SyncTrie.HashValue` (`/repo/trie/synctrie.go:32-36`). -/
def hashValue (T : ITrie S V W X I) : Code S (Out V X I) := .lock (inside (mapP .hash T.hashValue))

/-- `SyncTrie.Get` (`/repo/trie/synctrie.go:38-43`). -/
def get (T : ITrie S V W X I) (k : Option Bytes) : Code S (Out V X I) := .lock (inside (mapP .val (T.get k)))

/-- `SyncTrie.Put` (`/repo/trie/synctrie.go:45-50`). -/
def put (T : ITrie S V W X I) (k : Option Bytes) (v : V) : Code S (Out V X I) := .lock (inside (mapP .bool (T.put k v)))

/-- `SyncTrie.PutValue` (`/repo/trie/synctrie.go:52-57`). -/
def putValue (T : ITrie S V W X I) (v : W) : Code S (Out V X I) := .lock (inside (mapP .bool (T.putValue v)))

/-- `SyncTrie.Delete` (`/repo/trie/synctrie.go:59-64`). -/
def delete (T : ITrie S V W X I) (k : Option Bytes) : Code S (Out V X I) := .lock (inside (mapP .deleted (T.delete k)))

/-- `SyncTrie.IsDirty` (`/repo/trie/synctrie.go:66-71`). -/
def isDirty (T : ITrie S V W X I) : Code S (Out V X I) := .lock (inside (mapP .bool T.isDirty))

/-- `SyncTrie.Commit` (`/repo/trie/synctrie.go:73-78`). -/
def commit (T : ITrie S V W X I) : Code S (Out V X I) := .lock (inside (mapP .unit T.commit))

/-- `SyncTrie.GetProof` (`/repo/trie/synctrie.go:80-85`). -/
def getProof (T : ITrie S V W X I) (k : Option Bytes) : Code S (Out V X I) := .lock (inside (mapP .proof (T.getProof k)))

/-- `SyncTrie.GetExistenceProof` (`/repo/trie/synctrie.go:87-92`). -/
def getExistenceProof (T : ITrie S V W X I) (k : Option Bytes) : Code S (Out V X I) :=
  .lock (inside (mapP .exist (T.getExistenceProof k)))

/-- `SyncTrie.ValueIterator` (`/repo/trie/synctrie.go:94-99`). -/
def valueIterator (T : ITrie S V W X I) : Code S (Out V X I) := .lock (inside (mapP .iter T.valueIterator))

/-- The code of each call. -/
def code (T : ITrie S V W X I) : Call V W → Code S (Out V X I)
  | .hashValue => hashValue T
  | .get k => get T k
  | .put k v => put T k v
  | .putValue v => putValue T v
  | .delete k => delete T k
  | .isDirty => isDirty T
  | .commit => commit T
  | .getProof k => getProof T k
  | .getExistenceProof k => getExistenceProof T k
  | .valueIterator => valueIterator T

theorem code_guarded (T : ITrie S V W X I) (c : Call V W) : code T c = guarded (T.body c) := by
  cases c <;> rfl

/-- C82: in every execution of any number of goroutines there is an order of calls which, made one after another on the wrapped
trie, gives every caller the results it got; it contains the calls of each goroutine in their order (with at most one that is
about to return), and of two calls of which one had returned before the other began the first comes first: a later
point of the execution only appends to the order. -/
theorem C82_serialised (T : ITrie S V W X I) (s0 : S) (todo : Nat → List (Call V W)) (c c' : Sys S (Call V W) (Out V X I))
    (h : SSteps (code T) (sInitial _ _ s0 todo) c) (h' : SSteps (code T) c c') :
    ∃ log ext s s', Replays T.body s0 log s ∧ Replays T.body s0 (log ++ ext) s' ∧
      (∀ t, entries t log = c.done t ∨ ∃ o r, c.cur t = some (o, .ret r) ∧ entries t log = c.done t ++ [(o, r)]) ∧
      (∀ t, entries t (log ++ ext) = c'.done t ∨
        ∃ o r, c'.cur t = some (o, .ret r) ∧ entries t (log ++ ext) = c'.done t ++ [(o, r)]) ∧
      (c'.mutex = none → c'.shared = s') ∧
      ∀ t, todo t = (c'.done t).map Prod.fst ++ (c'.cur t).toList.map Prod.fst ++ c'.todo t := by
  obtain ⟨log, h1⟩ := sInv_steps (code_guarded T) (sInv_initial T.body s0 todo) h
  rw [List.nil_append] at h1
  obtain ⟨ext, h2⟩ := sInv_steps (code_guarded T) h1 h'
  obtain ⟨s, r1, _⟩ := h1.seq
  obtain ⟨s', r2, f2, _⟩ := h2.seq
  exact ⟨log, ext, s, s', r1, r2, h1.entries, h2.entries, f2, h2.calls⟩

/-- C82: no execution gets stuck while calls are left. -/
theorem C82_progress (T : ITrie S V W X I) (s0 : S) (todo : Nat → List (Call V W)) (c : Sys S (Call V W) (Out V X I))
    (h : SSteps (code T) (sInitial _ _ s0 todo) c) (t : Nat) (ht : (c.done t).map Prod.fst ≠ todo t) :
    ∃ c', SStep (code T) c c' := by
  obtain ⟨log, h1⟩ := sInv_steps (code_guarded T) (sInv_initial T.body s0 todo) h
  exact h1.progress t ht

/-! ### An example: a wrapped trie whose `Put` is two memory steps -/

/-- A cell with a counter of writes; `Put` writes the value and the counter in two steps. -/
def cell : ITrie (Nat × Nat) Nat Nat Unit Unit where
  hashValue := .step id fun s => .ret (.ok (natBE 2 s.1))
  get := fun _ => .step id fun s => .ret (.ok (if s.2 = 0 then none else some s.1))
  put := fun _ v => .step (fun s => (v, s.2)) fun _ => .step (fun s => (s.1, s.2 + 1)) fun _ => .ret (.ok true)
  putValue := fun _ => .ret .panic
  delete := fun _ => .step (fun _ => (0, 0)) fun s => .ret (.ok (decide (s.2 ≠ 0), if s.2 = 0 then none else some s.1))
  isDirty := .step id fun s => .ret (.ok (decide (s.2 ≠ 0)))
  commit := .ret (.ok ())
  getProof := fun _ => .ret (.ok none)
  getExistenceProof := fun _ => .ret .err
  valueIterator := .ret (.ok ())

/-- Goroutine 0 puts 5, goroutine 1 reads; the reader is blocked between the two steps of the writer and then sees 5. -/
example : ∃ c, SSteps (code cell) (sInitial _ _ (0, 0) fun t =>
      if t = 0 then [.put (some [1]) 5] else if t = 1 then [.get (some [1])] else []) c ∧
    c.done 0 = [(.put (some [1]) 5, .bool (.ok true))] ∧ c.done 1 = [(.get (some [1]), .val (.ok (some 5)))] ∧ c.shared = (5, 1) := by
  exact ⟨_, SSteps.tail (SSteps.tail (SSteps.tail (SSteps.tail (SSteps.tail (SSteps.tail (SSteps.tail (SSteps.tail
      (SSteps.tail (SSteps.tail (SSteps.tail (SSteps.refl _)
      (.call 0 (.put (some [1]) 5) [] rfl rfl))
      (.call 1 (.get (some [1])) [] rfl rfl))
      (.lock 0 (.put (some [1]) 5) _ rfl))
      (.act 0 (.put (some [1]) 5) _ _ rfl))
      (.act 0 (.put (some [1]) 5) _ _ rfl))
      (.unlock 0 (.put (some [1]) 5) _ rfl))
      (.lock 1 (.get (some [1])) _ rfl))
      (.ret 0 (.put (some [1]) 5) _ rfl))
      (.act 1 (.get (some [1])) _ _ rfl))
      (.unlock 1 (.get (some [1])) _ rfl))
      (.ret 1 (.get (some [1])) _ rfl), rfl, rfl, rfl⟩

end Verif.SyncTrie

import Verif.Base

/-!
# Property C181: whose memory a hash is

Hashes are returned as slices.  `Trie.HashValue` returns the hash that the root node keeps (/repo/trie/node.go:537-547, /repo/trie/trie.go:220-237);
`HashObject` and `EncodeAndHash` of nil and the empty `SmallCombinedTrie` return the variable `NilHashSlice` of the package
(/repo/hasher.go:25-32, 47-54, /repo/trie/combinedtrie.go:93-96); history trees return copies (/repo/trie/historytree.go:318-329, 1325-1420);
everything else that is returned is new.  Here slices are numbers of arrays and a caller may write into whatever was given out.
-/

namespace Verif.Memory.Hashes
open Verif

/-! ### The code -/

/-- The digest, and the hashes of tries, history trees and lists of hashes; they use the nil hash where something is missing, so it is an
argument. -/
structure Env where
  H : Bytes → Bytes
  trie : Bytes → Bytes → Bytes
  tree : Bytes → Bytes → Bytes
  merkle : Bytes → List Bytes → Bytes

/-- The arrays, of which number 0 is `NilHashSlice`; contents and kept hashes of tries and history trees (`Branchs[""]` of the root); the
slices given out and the bytes they had then. -/
structure St where
  arrays : Nat → Bytes
  next : Nat
  tries : Nat → Bytes × Option Nat
  trees : Nat → Bytes × Option Nat
  outs : List Nat
  log : List Bytes

/-- `f` with another value at `k`. -/
def upd {α : Type} (f : Nat → α) (k : Nat) (v : α) : Nat → α := fun x => if x = k then v else f x

/-- The next array gets the bytes `b`. -/
def fresh (s : St) (b : Bytes) : St := { s with arrays := upd s.arrays s.next b, next := s.next + 1 }

/-- `Trie.HashValue` (`/repo/trie/trie.go:220-237`, `/repo/trie/node.go:537-547`). -/
def hashTrie (E : Env) (s : St) (t : Nat) : St × Nat :=
  match (s.tries t).2 with
  | some r => (s, r)
  | none => ({ fresh s (E.trie (s.arrays 0) (s.tries t).1) with tries := upd s.tries t ((s.tries t).1, some s.next) }, s.next)

/-- `HistoryTree.HashValue` (`/repo/trie/historytree.go:318-329, 1325-1420`): a copy is kept (line 1418), later calls copy it (line 1359). -/
def hashTree (E : Env) (s : St) (t : Nat) : St × Nat :=
  match (s.trees t).2 with
  | some r => (fresh s (s.arrays r), s.next)
  | none =>
    let h := E.tree (s.arrays 0) (s.trees t).1
    (fresh { fresh s h with trees := upd s.trees t ((s.trees t).1, some s.next) } h, s.next + 1)

/-- The hashes of the sub-tries (`/repo/trie/combinedtrie.go:97-108`). -/
def collect (E : Env) (s : St) : List Nat → St × List Bytes
  | [] => (s, [])
  | t :: ts =>
    let a := hashTrie E s t
    let b := collect E a.1 ts
    (b.1, a.1.arrays a.2 :: b.2)

/-- `SmallCombinedTrie.HashValue` (`/repo/trie/combinedtrie.go:93-126, 136-140`) over the sub-tries `ts`. -/
def hashCombined (E : Env) (s : St) (ts : List Nat) : St × Nat :=
  if ts = [] then (s, 0)
  else
    let c := collect E s ts
    (fresh c.1 (E.merkle (c.1.arrays 0) c.2), c.1.next)

/-- `HashObject` (`/repo/hasher.go:25-44`) and `EncodeAndHash` (lines 47-61) of nil or of a value with the encoding `b`. -/
def hashObject (E : Env) (s : St) : Option Bytes → St × Nat
  | none => (s, 0)
  | some b => (fresh s (E.H b), s.next)

/-- What happens: a trie or history tree changes, a hash is asked for, or a caller writes into the slice given out as the `i`-th one. -/
inductive Op where
  | changeTrie (t : Nat) (c : Bytes)
  | changeTree (t : Nat) (c : Bytes)
  | trie (t : Nat)
  | tree (t : Nat)
  | combined (ts : List Nat)
  | object (o : Option Bytes)
  | write (i : Nat) (b : Bytes)

/-- The slice is given out. -/
def give (r : St × Nat) : St := { r.1 with outs := r.1.outs ++ [r.2], log := r.1.log ++ [r.1.arrays r.2] }

/-- One of them; a change forgets the hash that was kept (`/repo/trie/node.go:365-386`, `/repo/trie/historytree.go:1076-1095`). -/
def step (E : Env) (s : St) : Op → St
  | .changeTrie t c => { s with tries := upd s.tries t (c, none) }
  | .changeTree t c => { s with trees := upd s.trees t (c, none) }
  | .trie t => give (hashTrie E s t)
  | .tree t => give (hashTree E s t)
  | .combined ts => give (hashCombined E s ts)
  | .object o => give (hashObject E s o)
  | .write i b =>
    match s.outs[i]? with
    | none => s
    | some r => { s with arrays := upd s.arrays r b }

/-- At the start `NilHashSlice` is the digest of nothing (`/repo/types.go:77`). -/
def start (E : Env) : St := ⟨upd (fun _ => []) 0 (E.H []), 1, fun _ => ([], none), fun _ => ([], none), [], []⟩

/-! ### Specification -/

/-- Contents only, and the hashes told so far. -/
structure Ideal where
  tries : Nat → Bytes
  trees : Nat → Bytes
  log : List Bytes

/-- Hashes are functions of the contents; writes of callers concern nobody. -/
def Ideal.step (E : Env) (s : Ideal) : Op → Ideal
  | .changeTrie t c => { s with tries := upd s.tries t c }
  | .changeTree t c => { s with trees := upd s.trees t c }
  | .trie t => { s with log := s.log ++ [E.trie (E.H []) (s.tries t)] }
  | .tree t => { s with log := s.log ++ [E.tree (E.H []) (s.trees t)] }
  | .combined ts => { s with log := s.log ++ [if ts = [] then E.H [] else E.merkle (E.H []) (ts.map fun t => E.trie (E.H []) (s.tries t))] }
  | .object o => { s with log := s.log ++ [E.H (o.getD [])] }
  | .write _ _ => s

/-- Whether the caller may write into what the call returns: not for tries, for nil and for no sub-tries at all. -/
def own : Op → Option Bool
  | .changeTrie _ _ | .changeTree _ _ | .write _ _ => none
  | .trie _ => some false
  | .tree _ => some true
  | .combined ts => some (decide (ts ≠ []))
  | .object o => some o.isSome

/-! ### Proof -/

variable {E : Env}

/-- The arrays that the package keeps. -/
def Held (s : St) (r : Nat) : Prop := r = 0 ∨ (∃ t, (s.tries t).2 = some r) ∨ ∃ t, (s.trees t).2 = some r

/-- Kept hashes are right, and callers have no right to write into them. -/
structure Inv (E : Env) (s : St) (d : Ideal) (K : List Bool) : Prop where
  nil : s.arrays 0 = E.H []
  tries : ∀ t, (s.tries t).1 = d.tries t
  trees : ∀ t, (s.trees t).1 = d.trees t
  keptTrie : ∀ t r, (s.tries t).2 = some r → s.arrays r = E.trie (E.H []) (d.tries t)
  keptTree : ∀ t r, (s.trees t).2 = some r → s.arrays r = E.tree (E.H []) (d.trees t)
  held : ∀ r, Held s r → r < s.next
  outs : ∀ r ∈ s.outs, r < s.next
  free : ∀ (i r : Nat), s.outs[i]? = some r → K[i]? = some true → ¬ Held s r
  len : s.outs.length = K.length
  log : s.log = d.log

theorem upd_ne {α : Type} {f : Nat → α} {k x : Nat} {v : α} (h : x ≠ k) : upd f k v x = f x := if_neg h

theorem upd_same {α : Type} {f : Nat → α} {k : Nat} {v : α} : upd f k v k = v := if_pos rfl

theorem Inv.pos {s : St} {d : Ideal} {K : List Bool} (h : Inv E s d K) : 0 < s.next := h.held 0 (Or.inl rfl)

theorem Inv.fresh {s : St} {d : Ideal} {K : List Bool} (h : Inv E s d K) (b : Bytes) :
    Inv E (fresh s b) d K ∧ (fresh s b).arrays s.next = b ∧ ¬ Held (fresh s b) s.next := by
  have hne : ∀ r, Held s r → r ≠ s.next := fun r hr => Nat.ne_of_lt (h.held r hr)
  refine ⟨⟨?_, h.tries, h.trees, ?_, ?_, ?_, ?_, h.free, h.len, h.log⟩, upd_same, fun hh => hne _ hh rfl⟩
  · exact (upd_ne (hne 0 (Or.inl rfl))).trans h.nil
  · intro t r hr
    exact (upd_ne (hne r (Or.inr (Or.inl ⟨t, hr⟩)))).trans (h.keptTrie t r hr)
  · intro t r hr
    exact (upd_ne (hne r (Or.inr (Or.inr ⟨t, hr⟩)))).trans (h.keptTree t r hr)
  · intro r hr
    exact Nat.lt_succ_of_lt (h.held r hr)
  · intro r hr
    exact Nat.lt_succ_of_lt (h.outs r hr)

theorem Inv.hashTrie {s : St} {d : Ideal} {K : List Bool} (h : Inv E s d K) (t : Nat) :
    Inv E (hashTrie E s t).1 d K ∧ (hashTrie E s t).1.arrays (hashTrie E s t).2 = E.trie (E.H []) (d.tries t) ∧
      (hashTrie E s t).2 < (hashTrie E s t).1.next := by
  rw [Hashes.hashTrie]
  cases hr : (s.tries t).2 with
  | some r => exact ⟨h, h.keptTrie t r hr, h.held r (Or.inr (Or.inl ⟨t, hr⟩))⟩
  | none =>
    have hval : E.trie (s.arrays 0) (s.tries t).1 = E.trie (E.H []) (d.tries t) := by rw [h.nil, h.tries]
    obtain ⟨h1, h2, h3⟩ := h.fresh (E.trie (s.arrays 0) (s.tries t).1)
    refine ⟨⟨h1.nil, ?_, h1.trees, ?_, h1.keptTree, ?_, h1.outs, ?_, h1.len, h1.log⟩, h2.trans hval, Nat.lt_succ_self _⟩
    · intro k
      by_cases hk : k = t
      · show (upd s.tries t _ k).1 = _
        rw [hk, upd_same]
        exact h.tries t
      · show (upd s.tries t _ k).1 = _
        rw [upd_ne hk]
        exact h.tries k
    · intro k r hk
      change (upd s.tries t ((s.tries t).1, some s.next) k).2 = some r at hk
      by_cases he : k = t
      · rw [he, upd_same] at hk
        have : s.next = r := Option.some.inj hk
        rw [he, ← this]
        exact h2.trans hval
      · rw [upd_ne he] at hk
        exact h1.keptTrie k r hk
    · rintro r (hz | ⟨k, hk⟩ | hk)
      · exact h1.held r (Or.inl hz)
      · change (upd s.tries t ((s.tries t).1, some s.next) k).2 = some r at hk
        by_cases he : k = t
        · rw [he, upd_same] at hk
          have : s.next = r := Option.some.inj hk
          rw [← this]
          exact Nat.lt_succ_self _
        · rw [upd_ne he] at hk
          exact h1.held r (Or.inr (Or.inl ⟨k, hk⟩))
      · exact h1.held r (Or.inr (Or.inr hk))
    · rintro i r hi hK (hz | ⟨k, hk⟩ | hk)
      · exact h1.free i r hi hK (Or.inl hz)
      · change (upd s.tries t ((s.tries t).1, some s.next) k).2 = some r at hk
        by_cases he : k = t
        · rw [he, upd_same] at hk
          have e : s.next = r := Option.some.inj hk
          have := h.outs r (List.mem_of_getElem? hi)
          omega
        · rw [upd_ne he] at hk
          exact h1.free i r hi hK (Or.inr (Or.inl ⟨k, hk⟩))
      · exact h1.free i r hi hK (Or.inr (Or.inr hk))

/-- A hash is kept by a history tree. -/
theorem Inv.keep {s : St} {d : Ideal} {K : List Bool} (h : Inv E s d K) (t : Nat) :
    Inv E { Hashes.fresh s (E.tree (s.arrays 0) (s.trees t).1) with trees := upd s.trees t ((s.trees t).1, some s.next) } d K := by
  have hval : E.tree (s.arrays 0) (s.trees t).1 = E.tree (E.H []) (d.trees t) := by rw [h.nil, h.trees]
  obtain ⟨h1, h2, h3⟩ := h.fresh (E.tree (s.arrays 0) (s.trees t).1)
  refine ⟨h1.nil, h1.tries, ?_, h1.keptTrie, ?_, ?_, h1.outs, ?_, h1.len, h1.log⟩
  · intro k
    show (upd s.trees t _ k).1 = _
    by_cases hk : k = t
    · rw [hk, upd_same]
      exact h.trees t
    · rw [upd_ne hk]
      exact h.trees k
  · intro k r hk
    change (upd s.trees t ((s.trees t).1, some s.next) k).2 = some r at hk
    by_cases he : k = t
    · rw [he, upd_same] at hk
      have : s.next = r := Option.some.inj hk
      rw [he, ← this]
      exact h2.trans hval
    · rw [upd_ne he] at hk
      exact h1.keptTree k r hk
  · rintro r (hz | hk | ⟨k, hk⟩)
    · exact h1.held r (Or.inl hz)
    · exact h1.held r (Or.inr (Or.inl hk))
    · change (upd s.trees t ((s.trees t).1, some s.next) k).2 = some r at hk
      by_cases he : k = t
      · rw [he, upd_same] at hk
        have : s.next = r := Option.some.inj hk
        rw [← this]
        exact Nat.lt_succ_self _
      · rw [upd_ne he] at hk
        exact h1.held r (Or.inr (Or.inr ⟨k, hk⟩))
  · rintro i r hi hK (hz | hk | ⟨k, hk⟩)
    · exact h1.free i r hi hK (Or.inl hz)
    · exact h1.free i r hi hK (Or.inr (Or.inl hk))
    · change (upd s.trees t ((s.trees t).1, some s.next) k).2 = some r at hk
      by_cases he : k = t
      · rw [he, upd_same] at hk
        have e : s.next = r := Option.some.inj hk
        have := h.outs r (List.mem_of_getElem? hi)
        omega
      · rw [upd_ne he] at hk
        exact h1.free i r hi hK (Or.inr (Or.inr ⟨k, hk⟩))

theorem Inv.hashTree {s : St} {d : Ideal} {K : List Bool} (h : Inv E s d K) (t : Nat) :
    Inv E (hashTree E s t).1 d K ∧ (hashTree E s t).1.arrays (hashTree E s t).2 = E.tree (E.H []) (d.trees t) ∧
      (hashTree E s t).2 < (hashTree E s t).1.next ∧ ¬ Held (hashTree E s t).1 (hashTree E s t).2 := by
  rw [Hashes.hashTree]
  cases hr : (s.trees t).2 with
  | some r =>
    obtain ⟨h1, h2, h3⟩ := h.fresh (s.arrays r)
    exact ⟨h1, h2.trans (h.keptTree t r hr), Nat.lt_succ_self _, h3⟩
  | none =>
    obtain ⟨h1, h2, h3⟩ := (h.keep t).fresh (E.tree (s.arrays 0) (s.trees t).1)
    refine ⟨h1, h2.trans ?_, Nat.lt_succ_self _, h3⟩
    rw [h.nil, h.trees]

theorem Inv.collect {d : Ideal} {K : List Bool} (ts : List Nat) : ∀ {s : St}, Inv E s d K →
    Inv E (collect E s ts).1 d K ∧ (collect E s ts).2 = ts.map fun t => E.trie (E.H []) (d.tries t) := by
  induction ts with
  | nil => intro s h; exact ⟨h, rfl⟩
  | cons t ts ih =>
    intro s h
    obtain ⟨h1, h2, _⟩ := h.hashTrie t
    obtain ⟨g1, g2⟩ := ih h1
    exact ⟨g1, by rw [Hashes.collect, List.map_cons, ← g2, ← h2]⟩

/-- A slice is given out. -/
theorem Inv.give {s : St} {d : Ideal} {K : List Bool} (h : Inv E s d K) {r : Nat} {b : Bytes} {w : Bool} (hr : r < s.next) (hb : s.arrays r = b)
    (hw : w = true → ¬ Held s r) : Inv E (give (s, r)) { d with log := d.log ++ [b] } (K ++ [w]) := by
  refine ⟨h.nil, h.tries, h.trees, h.keptTrie, h.keptTree, h.held, ?_, ?_, ?_, ?_⟩
  · intro x hx
    rcases List.mem_append.1 hx with hx | hx
    · exact h.outs x hx
    · rw [List.mem_singleton.1 hx]
      exact hr
  · intro i x hi hK
    change (s.outs ++ [r])[i]? = some x at hi
    by_cases hlt : i < s.outs.length
    · rw [List.getElem?_append_left hlt] at hi
      rw [List.getElem?_append_left (h.len ▸ hlt)] at hK
      exact h.free i x hi hK
    · rw [List.getElem?_append_right (Nat.le_of_not_lt hlt)] at hi
      rw [List.getElem?_append_right (h.len ▸ Nat.le_of_not_lt hlt), ← h.len] at hK
      cases hz : i - s.outs.length with
      | zero =>
        rw [hz] at hi hK
        have e1 : r = x := Option.some.inj hi
        have e2 : w = true := Option.some.inj hK
        rw [← e1]
        exact hw e2
      | succ n =>
        rw [hz] at hi
        cases hi
  · show (s.outs ++ [r]).length = _
    rw [List.length_append, List.length_append, h.len]
    rfl
  · show s.log ++ [s.arrays r] = _
    rw [h.log, hb]

theorem Inv.write {s : St} {d : Ideal} {K : List Bool} (h : Inv E s d K) {i : Nat} (b : Bytes) (hi : K[i]? ≠ some false) :
    Inv E (step E s (.write i b)) d K := by
  show Inv E (match s.outs[i]? with | none => s | some r => { s with arrays := upd s.arrays r b }) d K
  cases ho : s.outs[i]? with
  | none => exact h
  | some r =>
    have hlt : i < K.length := by
      rw [← h.len]
      exact (List.getElem?_eq_some_iff.1 ho).1
    have hK : K[i]? = some true := by
      rw [List.getElem?_eq_getElem hlt] at hi ⊢
      cases hv : K[i] with
      | true => rfl
      | false => rw [hv] at hi; exact absurd rfl hi
    have hfree := h.free i r ho hK
    have hne : ∀ x, Held s x → x ≠ r := fun x hx e => hfree (e ▸ hx)
    refine ⟨?_, h.tries, h.trees, ?_, ?_, h.held, h.outs, h.free, h.len, h.log⟩
    · exact (upd_ne (hne 0 (Or.inl rfl))).trans h.nil
    · intro t x hx
      exact (upd_ne (hne x (Or.inr (Or.inl ⟨t, hx⟩)))).trans (h.keptTrie t x hx)
    · intro t x hx
      exact (upd_ne (hne x (Or.inr (Or.inr ⟨t, hx⟩)))).trans (h.keptTree t x hx)

theorem Inv.changeTrie {s : St} {d : Ideal} {K : List Bool} (h : Inv E s d K) (t : Nat) (c : Bytes) :
    Inv E (step E s (.changeTrie t c)) (d.step E (.changeTrie t c)) K := by
  have hsub : ∀ k r, (upd s.tries t (c, none) k).2 = some r → k ≠ t ∧ (s.tries k).2 = some r := by
    intro k r hk
    by_cases he : k = t
    · rw [he, upd_same] at hk
      cases hk
    · rw [upd_ne he] at hk
      exact ⟨he, hk⟩
  have hh : ∀ r, Held (step E s (.changeTrie t c)) r → Held s r := by
    rintro r (hz | ⟨k, hk⟩ | hk)
    · exact Or.inl hz
    · exact Or.inr (Or.inl ⟨k, (hsub k r hk).2⟩)
    · exact Or.inr (Or.inr hk)
  refine ⟨h.nil, ?_, h.trees, ?_, h.keptTree, fun r hr => h.held r (hh r hr), h.outs, fun i r hi hK hr => h.free i r hi hK (hh r hr), h.len, h.log⟩
  · intro k
    show (upd s.tries t (c, none) k).1 = upd d.tries t c k
    by_cases he : k = t
    · rw [he, upd_same, upd_same]
    · rw [upd_ne he, upd_ne he]
      exact h.tries k
  · intro k r hk
    obtain ⟨he, hk⟩ := hsub k r hk
    show s.arrays r = E.trie (E.H []) (upd d.tries t c k)
    rw [upd_ne he]
    exact h.keptTrie k r hk

theorem Inv.changeTree {s : St} {d : Ideal} {K : List Bool} (h : Inv E s d K) (t : Nat) (c : Bytes) :
    Inv E (step E s (.changeTree t c)) (d.step E (.changeTree t c)) K := by
  have hsub : ∀ k r, (upd s.trees t (c, none) k).2 = some r → k ≠ t ∧ (s.trees k).2 = some r := by
    intro k r hk
    by_cases he : k = t
    · rw [he, upd_same] at hk
      cases hk
    · rw [upd_ne he] at hk
      exact ⟨he, hk⟩
  have hh : ∀ r, Held (step E s (.changeTree t c)) r → Held s r := by
    rintro r (hz | hk | ⟨k, hk⟩)
    · exact Or.inl hz
    · exact Or.inr (Or.inl hk)
    · exact Or.inr (Or.inr ⟨k, (hsub k r hk).2⟩)
  refine ⟨h.nil, h.tries, ?_, h.keptTrie, ?_, fun r hr => h.held r (hh r hr), h.outs, fun i r hi hK hr => h.free i r hi hK (hh r hr), h.len, h.log⟩
  · intro k
    show (upd s.trees t (c, none) k).1 = upd d.trees t c k
    by_cases he : k = t
    · rw [he, upd_same, upd_same]
    · rw [upd_ne he, upd_ne he]
      exact h.trees k
  · intro k r hk
    obtain ⟨he, hk⟩ := hsub k r hk
    show s.arrays r = E.tree (E.H []) (upd d.trees t c k)
    rw [upd_ne he]
    exact h.keptTree k r hk

theorem Inv.step {s : St} {d : Ideal} {K : List Bool} (h : Inv E s d K) (o : Op) (ho : ∀ i b, o = .write i b → K[i]? ≠ some false) :
    Inv E (step E s o) (d.step E o) (K ++ (own o).toList) := by
  cases o with
  | changeTrie t c => simpa [own] using h.changeTrie t c
  | changeTree t c => simpa [own] using h.changeTree t c
  | write i b => simpa [own, Ideal.step] using h.write b (ho i b rfl)
  | trie t =>
    obtain ⟨h1, h2, h3⟩ := h.hashTrie t
    exact h1.give h3 h2 (by simp)
  | tree t =>
    obtain ⟨h1, h2, h3, h4⟩ := h.hashTree t
    exact h1.give h3 h2 (fun _ => h4)
  | object v =>
    cases v with
    | none => exact h.give h.pos h.nil (by simp)
    | some b =>
      obtain ⟨h1, h2, h3⟩ := h.fresh (E.H b)
      exact h1.give (Nat.lt_succ_self _) h2 (fun _ => h3)
  | combined ts =>
    by_cases hts : ts = []
    · subst hts
      exact h.give h.pos h.nil (by simp)
    · obtain ⟨h1, h2⟩ := h.collect ts
      obtain ⟨g1, g2, g3⟩ := h1.fresh (E.merkle ((Hashes.collect E s ts).1.arrays 0) (Hashes.collect E s ts).2)
      have := g1.give (w := decide (ts ≠ [])) (Nat.lt_succ_self _) g2 (fun _ => g3)
      rw [h1.nil, h2] at this
      simp only [Hashes.step, hashCombined, if_neg hts, own, Option.toList, Ideal.step]
      rw [h1.nil, h2]
      exact this

/-- **C181, as far as it holds.** Callers write what they like into hashes of history trees, of tries of tries with sub-tries and of values that
are not nil: every hash that anyone is told, at any time, is the hash of the contents.  Missing: hashes of tries and of nothing. -/
theorem C181_hashes_partial (E : Env) (os : List Op) (hw : ∀ i b, Op.write i b ∈ os → (os.filterMap own)[i]? ≠ some false) :
    (os.foldl (step E) (start E)).log = (os.foldl (Ideal.step E) ⟨fun _ => [], fun _ => [], []⟩).log := by
  have gen : ∀ (os : List Op) (s : St) (d : Ideal) (K : List Bool), Inv E s d K →
      (∀ i b, Op.write i b ∈ os → (K ++ os.filterMap own)[i]? ≠ some false) →
      (os.foldl (Hashes.step E) s).log = (os.foldl (Ideal.step E) d).log := by
    intro os
    induction os with
    | nil => intro s d K h _; exact h.log
    | cons o os ih =>
      intro s d K h hw
      have hcons : (o :: os).filterMap own = (own o).toList ++ os.filterMap own := by
        rw [List.filterMap_cons]
        cases own o <;> rfl
      refine ih _ _ _ (h.step o ?_) ?_
      · rintro i b rfl hK
        refine hw i b List.mem_cons_self ?_
        rw [List.getElem?_append_left (List.getElem?_eq_some_iff.1 hK).1]
        exact hK
      · intro i b hm
        rw [List.append_assoc, ← hcons]
        exact hw i b (List.mem_cons_of_mem _ hm)
  refine gen os (start E) _ [] ?_ (by simpa using hw)
  refine ⟨rfl, fun _ => rfl, fun _ => rfl, ?_, ?_, ?_, ?_, ?_, rfl, rfl⟩
  · intro t r hr; cases hr
  · intro t r hr; cases hr
  · rintro r (rfl | ⟨t, hr⟩ | ⟨t, hr⟩)
    · exact Nat.zero_lt_one
    · cases hr
    · cases hr
  · intro r hr; cases hr
  · intro i r hi
    simp [start] at hi

/-! ### Cases and refutations -/

/-- Digests for examples. -/
def toy : Env := ⟨fun b => 7 :: b, fun n c => n ++ 1 :: c, fun n c => n ++ 2 :: c, fun n hs => hs.flatten ++ n⟩

/-- The hash of a history tree is overwritten by a caller, and nobody notices. -/
example : ([Op.changeTree 0 [5], .tree 0, .write 0 [0], .tree 0].foldl (step toy) (start toy)).log = [[7, 2, 5], [7, 2, 5]] := by decide +kernel

/-- The condition of the theorem is met by that case and by a trie of tries. -/
example : ([Op.changeTrie 0 [5], .combined [0], .write 0 [0], .trie 0, .object (some [9]), .write 2 [], .combined [0]].foldl (step toy) (start toy)).log =
    [[7, 1, 5, 7], [7, 1, 5], [7, 9], [7, 1, 5, 7]] := by decide +kernel

/-- **C181 is false for tries**: for every trie, every digest and everything else: a caller who writes into the hash of a trie decides what the
trie reports next. -/
theorem C181_trie_refuted (E : Env) (t : Nat) (c b : Bytes) :
    ([Op.changeTrie t c, .trie t, .write 0 b, .trie t].foldl (step E) (start E)).log = [E.trie (E.H []) c, b] := by
  simp [step, start, hashTrie, give, fresh, upd]

/-- **C181 is false for the hash of nothing**: a caller who writes into the hash of nil, or of a trie of tries without sub-tries, changes the nil
hash of the whole program: the next trie, history tree or nil value anywhere is hashed with what they wrote. -/
theorem C181_nil_refuted (E : Env) (t : Nat) (c b : Bytes) (o : Op) (ho : o = .object none ∨ o = .combined []) :
    ([Op.changeTree t c, .changeTrie t c, o, .write 0 b, .tree t, .trie t, .object none].foldl (step E) (start E)).log =
      [E.H [], E.tree b c, E.trie b c, b] := by
  rcases ho with rfl | rfl
  · simp [step, start, hashTrie, hashTree, hashObject, give, fresh, upd]
  · simp [step, start, hashTrie, hashTree, hashObject, hashCombined, give, fresh, upd]

/-- With the digests of the examples these are other hashes. -/
example : toy.tree [0] [5] ≠ toy.tree (toy.H []) [5] := by decide +kernel

end Verif.Memory.Hashes

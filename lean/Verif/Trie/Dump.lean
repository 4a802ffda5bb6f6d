import Verif.Trie.Copy

/-!
# Dumping a trie to another database

`Trie.Dump` (`/repo/trie/trie.go:965-1045`) walks over all nodes of a trie, copies the stored bytes of each node and value to another
database, and calls a function with each key and the stored bytes of its value.

Simplifications: as for the iterators (`Verif.Trie.Iterator`), a stack entry holds its own copy of a node, and children that have been left
behind are not collapsed.  Loading what is not in the storage is an error.  The adapters of the trie are there and can be rebased; in the
other database an absent map of values stands for a value adapter that cannot be rebased.
-/

namespace Verif.Trie.Store
open Verif Verif.Merkle Verif.Trie

variable {V : Type}

/-! ### The code -/

/-- `common.InvalidHash` (`/repo/hash.go:1014-1017`); `N` is the hash of nothing. -/
def badHash (E : Env V) (N : Bytes) (h : Bytes) : Bool :=
  decide (h.length < 32) || decide (h = List.replicate 32 0) || decide (h = N) || decide (h = emptyHash E)

/-- `Trie.expandNode` (`/repo/trie/trie.go:575-605`). -/
def openNode (E : Env V) (D : Disk) (g : UInt64) : BNode V → BNode V × Bool
  | .nil => (.nil, true)
  | .mk i c => if isCollapsed E i c then expandNode E D g i c else (.mk i c, true)

/-- The other database, and the calls of `valueCallback` so far: the key, which may be nil, and the bytes of the value. -/
structure Dumped where
  disk : Disk
  calls : List (Option Bytes × Bytes)

/-- The part of the loop that copies the value (`/repo/trie/trie.go:1012-1041`); `q` is the path of the node with its prefix, `cb` whether
there is a callback. -/
def dumpValue (F : Faults) (D : Disk) (cb : Bool) (q : List Nib) (i : Info V) (S : Dumped) : Res Dumped :=
  if 32 ≤ (i.vhash.getD []).length ∧ (S.disk.values.isSome || cb) = true then
    match D.values with
    | none => .panic
    | some f =>
      match load f i.vhash with
      | none => .err
      | some b =>
        let r := if 0 < b.length then saveTo S.disk.values F.value (i.vhash.getD []) b else (S.disk.values, true)
        if r.2 = false then .err
        else
          let S1 : Dumped := ⟨{ S.disk with values := r.1 }, S.calls⟩
          if cb then
            let calls := if q = [] then S1.calls ++ [(none, b)] else S1.calls
            if q.length % 2 ≠ 0 then .err
            else .ok ⟨S1.disk, calls ++ [(some (prefixToKeystring (q.map nibByte)), b)]⟩
          else .ok S1
  else .ok S

/-- The body of the loop for a node (`/repo/trie/trie.go:993-1042`); `q` is the path of the node without its prefix. -/
def dumpNode (E : Env V) (N : Bytes) (F : Faults) (D : Disk) (g : UInt64) (cb : Bool) (q : List Nib) (n : BNode V) (S : Dumped) :
    Res (BNode V × Dumped) :=
  match n with
  | .nil => .panic
  | .mk i c =>
    if badHash E N (i.hash.getD []) then .ok (.mk i c, S)
    else
      match D.nodes.bind fun f => load f i.hash with
      | none => .err
      | some b =>
        let r := if 0 < b.length then saveTo S.disk.nodes F.node (i.hash.getD []) b else (S.disk.nodes, true)
        if r.2 = false then .err
        else
          let x := openNode E D g (.mk i c)
          if x.2 = false then .err
          else
            match x.1 with
            | .nil => .panic
            | .mk i' c' =>
              match dumpValue F D cb (q ++ i'.pre) i' ⟨{ S.disk with nodes := r.1 }, S.calls⟩ with
              | .ok S2 => .ok (.mk i' c', S2)
              | .err => .err
              | .panic => .panic

/-- The loop over the siblings (`/repo/trie/iterator.go:179-199`); the node that is found is not touched. -/
def siblings0 : List (Tr V) → Option (List (Tr V))
  | [] => none
  | t :: rest =>
    match firstKid t.node t.from with
    | some j => some (⟨some j, t.node⟩ :: rest)
    | none => siblings0 rest

/-- `depthFirstNextStep` without selector (`/repo/trie/iterator.go:163-200`). -/
def forward0 : List (Tr V) → Option (List (Tr V))
  | [] => none
  | t :: rest =>
    match firstKid t.current 0 with
    | some j => some (⟨some j, t.current⟩ :: t :: rest)
    | none => siblings0 (t :: rest)

/-- The current node has become `n`. -/
def update (st : List (Tr V)) (n : BNode V) : List (Tr V) :=
  match st with
  | [] => []
  | t :: rest =>
    match t.index with
    | none => ⟨none, n⟩ :: rest
    | some j => ⟨some j, t.node.setKid j n⟩ :: rest

/-- The loop (`/repo/trie/trie.go:988-1043`) at the node the stack points to, for at most so many nodes. -/
def dumpLoop (E : Env V) (N : Bytes) (F : Faults) (D : Disk) (g : UInt64) (cb : Bool) : Nat → List (Tr V) → Dumped → Res Dumped
  | 0, _, _ => .err
  | f + 1, st, S =>
    match dumpNode E N F D g cb (pathOf st) (here st) S with
    | .ok r =>
      match forward0 (update st r.1) with
      | none => .ok r.2
      | some st' => dumpLoop E N F D g cb f st' r.2
    | .err => .err
    | .panic => .panic

/-- `Trie.Dump` (`/repo/trie/trie.go:965-1045`). -/
def BTrie.dump (E : Env V) (N : Bytes) (F : Faults) (D : Disk) (t : BTrie V) (cb : Bool) (fuel : Nat) (dst : Disk) : Res Dumped :=
  match t.root with
  | .nil => .ok ⟨dst, []⟩
  | .mk i c =>
    if isEmptyB E i c then .ok ⟨dst, []⟩
    else if i.dirty then .err
    else dumpLoop E N F D t.gen cb fuel [⟨none, .mk i c⟩] ⟨dst, []⟩

/-! ### The specification -/

/-- All nodes with the path before their prefix, a node before its children. -/
def spots : List Nib → Node V → List (List Nib × Node V)
  | _, .nil => []
  | q, .mk p v c => (q, .mk p v c) :: nibbles.flatMap fun j => spots (q ++ p ++ [j]) (c j)

/-- The hashes that mean nothing are not hashes of nodes of the tree. -/
def Apt (E : Env V) (N : Bytes) (a : Node V) : Prop :=
  ∀ e ∈ spots [] a, nh E e.2 ≠ List.replicate 32 0 ∧ nh E e.2 ≠ N

/-- Every node of a tree in memory. -/
def Every (P : Info V → Prop) : BNode V → Prop
  | .nil => True
  | .mk i c => P i ∧ ∀ j, Every P (c j)

/-- A clean node has the hash of its value. -/
def neat (i : Info V) : Prop := i.dirty = false → i.value.isSome = true → i.vhash.isSome = true

/-- A tree of clean nodes that have the hashes of their values. -/
abbrev Clean (b : BNode V) : Prop := Every (fun i => i.dirty = false ∧ neat i) b

/-! ### Clean nodes -/

variable {E : Env V} {D : Disk}

/-- What expanding needs. -/
structure Good (P : Info V → Prop) : Prop where
  new : ∀ h g, P ⟨[], none, false, h, none, none, g⟩
  put : ∀ (i : Info V) pre h g, P i → P { i with pre := pre, hash := h, gen := g }
  value : ∀ (i : Info V) x, P i → i.vhash.isSome = true → P { i with value := some x }
  vhash : ∀ (i : Info V) w, P i → i.value = none → P { i with vhash := w }

theorem good_neat : Good (neat (V := V)) := ⟨by simp [neat], fun _ _ _ _ h => h, fun _ _ _ h _ _ => h, fun i w _ h => by simp [neat, h]⟩

theorem good_clean : Good (fun i : Info V => i.dirty = false ∧ neat i) :=
  ⟨by simp [neat], fun _ _ _ _ h => h, fun _ _ h0 h => ⟨h0.1, fun _ _ => h⟩, fun i w h0 h => ⟨h0.1, by simp [neat, h]⟩⟩

theorem Every.imp {P Q : Info V → Prop} (h : ∀ i, P i → Q i) : ∀ b : BNode V, Every P b → Every Q b := by
  intro b
  induction b with
  | nil => intro _; trivial
  | mk i c ih => exact fun hb => ⟨h i hb.1, fun j => ih j (hb.2 j)⟩

theorem every_new {P : Info V → Prop} (hP : Good P) (h : Option Bytes) (g : UInt64) : Every P (newNode (V := V) h g) :=
  ⟨hP.new h g, fun _ => trivial⟩

theorem every_setKid {P : Info V → Prop} {c : Nib → BNode V} {k : Nib} {b : BNode V} (h : ∀ j, Every P (c j)) (hb : Every P b) (j : Nib) :
    Every P (setKid c k b j) := by
  rw [setKid]
  split
  · exact hb
  · exact h j

theorem every_deserB {P : Info V → Prop} (hP : Good P) {i : Info V} {c : Nib → BNode V} {bs : Bytes} {n : BNode V} (hv : i.value = none)
    (h0 : Every P (.mk i c)) (h : deserB E i c bs = some n) : Every P n ∧ ∃ i' c', n = .mk i' c' ∧ i'.value = none := by
  rw [deserB, Option.bind_eq_some_iff] at h
  obtain ⟨h0, -, h⟩ := h
  rw [Option.bind_eq_some_iff] at h
  obtain ⟨k, h1, h⟩ := h
  rw [Option.map_eq_some_iff] at h
  obtain ⟨w, h2, rfl⟩ := h
  rename_i h4
  refine ⟨⟨hP.put _ _ _ _ (hP.vhash i w h4.1 hv), ?_⟩, _, _, rfl, hv⟩
  split at h1
  · rw [Option.map_eq_some_iff] at h1
    obtain ⟨r, -, rfl⟩ := h1
    intro j
    simp only [kidsOf]
    split
    · exact every_new hP _ _
    · trivial
  · injection h1 with h1
    subst h1
    exact h4.2

theorem every_expandValue {P : Info V → Prop} (hP : Good P) {i : Info V} {c : Nib → BNode V} (h : Every P (.mk i c)) :
    Every P (expandValue E D i c).1 := by
  rw [expandValue]
  split
  · next hc =>
    split
    · exact h
    · split
      · exact h
      · refine ⟨hP.value i _ h.1 ?_, h.2⟩
        simp only [isValueCollapsed, Bool.and_eq_true, decide_eq_true_eq] at hc
        cases hv : i.vhash with
        | none => rw [hv] at hc; simp at hc
        | some x => rfl
  · exact h

theorem every_expandNode {P : Info V → Prop} (hP : Good P) (g : UInt64) {i : Info V} {c : Nib → BNode V} (h : Every P (.mk i c))
    (hc : isCollapsed E i c = true) : Every P (expandNode E D g i c).1 := by
  have hv : i.value = none := by
    simp only [isCollapsed, Bool.and_eq_true, Option.isNone_iff_eq_none] at hc
    exact hc.1.2
  rw [expandNode]
  split
  · exact h
  · split
    · exact ⟨hP.put i i.pre i.hash g h.1, h.2⟩
    · next n hn =>
      rw [Option.bind_eq_some_iff] at hn
      obtain ⟨bs, -, hn⟩ := hn
      obtain ⟨h1, i', c', rfl, hv'⟩ := every_deserB hP (by exact hv) (by exact ⟨hP.put i i.pre i.hash g h.1, h.2⟩) hn
      simp only [afterDecode]
      generalize hi2 : (if inErrorStatus E i' c' = true then { i' with hash := some (emptyHash E) } else i') = i2
      have h2 : Every P (.mk i2 c') := by
        rw [← hi2]
        split
        · exact ⟨hP.put i' i'.pre _ i'.gen h1.1, h1.2⟩
        · exact h1
      split
      · exact h2
      · exact every_expandValue hP h2

theorem every_open {P : Info V → Prop} (hP : Good P) {b : BNode V} (g : UInt64) (h : Every P b) : Every P (openNode E D g b).1 := by
  cases b with
  | nil => exact h
  | mk i c =>
    rw [openNode]
    split
    · next hc => exact every_expandNode hP g h hc
    · exact h

theorem every_fullExpand {P : Info V → Prop} (hP : Good P) {b : BNode V} (g : UInt64) (h : Every P b) : Every P (fullExpand E D g b).1 := by
  cases b with
  | nil => exact h
  | mk i c =>
    rw [fullExpand]
    split
    · next hc => exact every_expandNode hP g h hc
    · exact every_expandValue hP h

theorem clean_new (h : Option Bytes) (g : UInt64) : Clean (newNode (V := V) h g) := every_new good_clean h g

/-- An opened node. -/
theorem open_spec (hE : E.Lawful) (g : UInt64) {b : BNode V} {p : List Nib} {v : Option V} {c : Nib → Node V}
    (h : Rep E D b (.mk p v c)) (hw : WFRoot (.mk p v c)) (hcl : Clean b) :
    ∃ i d, openNode E D g b = (.mk i d, true) ∧ InfoOK E D i p v c ∧ (∀ j, Rep E D (d j) (c j)) ∧ Clean (.mk i d) ∧ i.vhash = v.map E.vh := by
  have key : ∃ i d, openNode E D g b = (.mk i d, true) ∧ InfoOK E D i p v c ∧ (∀ j, Rep E D (d j) (c j)) := by
    cases b with
    | nil => exact absurd h (by simp [Rep])
    | mk i d =>
      by_cases hc : isCollapsed E i d = true
      · obtain ⟨i', d', h1, h2⟩ := expand_spec hE g h hw
        rw [fullExpand, if_pos hc] at h1
        exact ⟨i', d', by rw [openNode, if_pos hc, h1], h2.ok, h2.kids⟩
      · obtain ⟨p', v', c', he, hr⟩ := h
        cases he
        rcases hr with hr | ⟨h1, h2⟩
        · exact absurd (hashOnly_collapsed hE hr) hc
        · exact ⟨i, d, by rw [openNode, if_neg hc], h1, h2⟩
  obtain ⟨i, d, h1, h2, h3⟩ := key
  have h4 : Clean (.mk i d) := by
    have := every_open (E := E) (D := D) good_clean g hcl
    rwa [h1] at this
  refine ⟨i, d, h1, h2, h3, h4, ?_⟩
  rcases h2.value with ⟨e1, e2⟩ | ⟨e1, e2, x, e3, e4⟩
  · rcases e2 with e2 | e2
    · cases v with
      | none => rw [e2]; rfl
      | some x =>
        have := h4.1.2 h4.1.1 (by rw [e1]; rfl)
        rw [e2] at this
        cases this
    · exact e2
  · rw [e3, e4]; rfl

/-! ### One node -/

/-- What happens for one node, in terms of the tree. -/
def dumpOne (E : Env V) (F : Faults) (cb : Bool) (S : Dumped) : List Nib × Node V → Res Dumped
  | (_, .nil) => .ok S
  | (q, .mk p v c) =>
    match saveTo S.disk.nodes F.node (nh E (.mk p v c)) (serA E p v c) with
    | (_, false) => .err
    | (n, true) =>
      match v with
      | none => .ok ⟨⟨n, S.disk.values⟩, S.calls⟩
      | some x =>
        if (S.disk.values.isSome || cb) = true then
          match (if 0 < (E.enc x).length then saveTo S.disk.values F.value (E.vh x) (E.enc x) else (S.disk.values, true)) with
          | (_, false) => .err
          | (w, true) =>
            if cb then
              if (q ++ p).length % 2 ≠ 0 then .err
              else .ok ⟨⟨n, w⟩, (if q ++ p = [] then S.calls ++ [(none, E.enc x)] else S.calls) ++
                [(some (prefixToKeystring ((q ++ p).map nibByte)), E.enc x)]⟩
            else .ok ⟨⟨n, w⟩, S.calls⟩
        else .ok ⟨⟨n, S.disk.values⟩, S.calls⟩

/-- The same for many nodes. -/
def dumpAll (E : Env V) (F : Faults) (cb : Bool) : List (List Nib × Node V) → Dumped → Res Dumped
  | [], S => .ok S
  | e :: l, S =>
    match dumpOne E F cb S e with
    | .ok S' => dumpAll E F cb l S'
    | .err => .err
    | .panic => .panic

theorem serA_pos (p : List Nib) (v : Option V) (c : Nib → Node V) : 0 < (serA E p v c).length := by
  rw [serA, Header.ser]
  simp only [List.length_append, List.length_cons]
  omega

theorem badHash_of (hE : E.Lawful) {N : Bytes} {a : Node V} (h0 : nh E a ≠ List.replicate 32 0) (hN : nh E a ≠ N)
    (he : nh E a ≠ emptyHash E) : badHash E N (nh E a) = false := by
  have := nh_len hE a
  simp only [badHash, Bool.or_eq_false_iff, decide_eq_false_iff_not]
  exact ⟨⟨⟨by omega, h0⟩, hN⟩, he⟩

theorem dumpValue_spec (hE : E.Lawful) (F : Faults) (cb : Bool) (q p : List Nib) {v : Option V} {c : Nib → Node V} {i : Info V}
    (hv : i.vhash = v.map E.vh) (hst : Stored E D (.mk p v c)) (S : Dumped) (n : Option (Bytes → Option Bytes))
    (hs : saveTo S.disk.nodes F.node (nh E (.mk p v c)) (serA E p v c) = (n, true)) :
    dumpValue F D cb (q ++ p) i ⟨{ S.disk with nodes := n }, S.calls⟩ = dumpOne E F cb S (q, .mk p v c) := by
  rw [dumpOne, hs, dumpValue, hv]
  cases v with
  | none =>
    rw [if_neg (by simp)]
  | some x =>
    obtain ⟨f, hf, hx⟩ := hst.2.1 x rfl
    simp only [Option.map_some, Option.getD_some, hE.hv x]
    by_cases hc : (S.disk.values.isSome || cb) = true
    · rw [if_pos ⟨Nat.le_refl _, hc⟩, if_pos hc, hf]
      simp only [load, Option.getD_some, hx]
      generalize (if 0 < (E.enc x).length then saveTo S.disk.values F.value (E.vh x) (E.enc x) else (S.disk.values, true)) = r
      obtain ⟨w, ok⟩ := r
      cases ok with
      | false => rfl
      | true => rfl
    · rw [if_neg (fun h => hc h.2), if_neg hc]

theorem dumpNode_spec (hE : E.Lawful) {N : Bytes} (F : Faults) (g : UInt64) (cb : Bool) (q : List Nib) {b : BNode V} {p : List Nib}
    {v : Option V} {c : Nib → Node V} (h : Rep E D b (.mk p v c)) (hw : WFRoot (.mk p v c)) (hcl : Clean b) (hst : Stored E D (.mk p v c))
    (hemp : isEmpty p v c = false) (h0 : nh E (.mk p v c) ≠ List.replicate 32 0) (hN : nh E (.mk p v c) ≠ N) (S : Dumped) :
    ∃ i d, InfoOK E D i p v c ∧ (∀ j, Rep E D (d j) (c j)) ∧ Clean (.mk i d) ∧
      dumpNode E N F D g cb q b S = (match dumpOne E F cb S (q, .mk p v c) with
        | .ok S' => .ok (.mk i d, S')
        | .err => .err
        | .panic => .panic) := by
  obtain ⟨i, d, h1, h2, h3, h4, h5⟩ := open_spec hE g h hw hcl
  refine ⟨i, d, h2, h3, h4, ?_⟩
  cases b with
  | nil => exact absurd h (by simp [Rep])
  | mk j e =>
    have hh : j.hash = some (nh E (.mk p v c)) := by
      obtain ⟨p', v', c', he, hr⟩ := h
      cases he
      rcases hr with hr | ⟨k1, k2⟩
      · exact hr.hash
      · rcases k1.clean hcl.1.1 with k | k
        · rw [hemp] at k; cases k
        · exact k.1
    obtain ⟨f, hf, hb⟩ := hst.1
    rw [dumpNode, hh]
    simp only [Option.getD_some, badHash_of hE h0 hN hst.2.2.1, if_false, hf, Option.bind_some, load, hb, serA_pos, if_true, h1, Bool.false_eq_true]
    generalize hs : saveTo S.disk.nodes F.node (nh E (.mk p v c)) (serA E p v c) = r
    obtain ⟨n, ok⟩ := r
    cases ok with
    | false =>
      rw [dumpOne, hs]
      rfl
    | true =>
      simp only [if_neg (show ¬ (true = false) by decide)]
      rw [h2.pre, dumpValue_spec hE F cb q p h5 hst S n hs]

/-! ### The walk -/

/-- The nodes below the children from position `k` on. -/
def spotsFrom (q : List Nib) (c : Nib → Node V) (k : Nat) : List (List Nib × Node V) :=
  (nibbles.drop k).flatMap fun j => spots (q ++ [j]) (c j)

theorem spots_nil_of {c : Nib → Node V} {q : List Nib} {a : List Nib} (h : ∀ i ∈ a, (c i).isSome = false) :
    a.flatMap (fun j => spots (q ++ [j]) (c j)) = [] := by
  rw [List.flatMap_eq_nil_iff]
  intro i hi
  rw [(isSome_false _).1 (h i hi)]
  rfl

theorem spotsFrom_some {q : List Nib} {c : Nib → Node V} {k : Nat} {j : Nib}
    (h : (nibbles.drop k).find? (fun j => (c j).isSome) = some j) :
    spotsFrom q c k = spots (q ++ [j]) (c j) ++ spotsFrom q c (j.val + 1) ∧ (c j).isSome = true := by
  obtain ⟨a, h1, h2, h3⟩ := drop_find h
  refine ⟨?_, h3⟩
  rw [spotsFrom, h1, List.flatMap_append, spots_nil_of h2, List.flatMap_cons, spotsFrom]
  rfl

theorem spotsFrom_none {q : List Nib} {c : Nib → Node V} {k : Nat}
    (h : (nibbles.drop k).find? (fun j => (c j).isSome) = none) : spotsFrom q c k = [] :=
  spots_nil_of fun i hi => by
    have := List.find?_eq_none.1 h i hi
    simpa using this

/-- A node in memory whose children are there, and the tree it stands for. -/
structure Opened (E : Env V) (D : Disk) (i : Info V) (d : Nib → BNode V) (p : List Nib) (v : Option V) (c : Nib → Node V) : Prop where
  ok : InfoOK E D i p v c
  kids : ∀ j, Rep E D (d j) (c j)
  clean : Clean (.mk i d)
  wf : WFRoot (.mk p v c)

theorem Opened.rep {i : Info V} {d : Nib → BNode V} {p : List Nib} {v : Option V} {c : Nib → Node V} (h : Opened E D i d p v c) :
    Rep E D (.mk i d) (.mk p v c) := ⟨p, v, c, rfl, Or.inr ⟨h.ok, h.kids⟩⟩

/-- A stack, and the nodes behind the positions its entries point to. -/
inductive Walk0 (E : Env V) (D : Disk) : List (Tr V) → List (List Nib × Node V) → Prop
  | nil : Walk0 E D [] []
  | cons {t : Tr V} {rest r i d p v c} : Walk0 E D rest r → t.node = .mk i d → Opened E D i d p v c →
      Walk0 E D (t :: rest) (spotsFrom (pathOf rest ++ p) c t.from ++ r)

/-- A stack, the tree its current node stands for, and the nodes behind that tree. -/
inductive Facing (E : Env V) (D : Disk) : List (Tr V) → Node V → List (List Nib × Node V) → Prop
  | root {b a} : Rep E D b a → Clean b → WFRoot a → Facing E D [⟨none, b⟩] a []
  | child {rest r i d p v c j} : Walk0 E D rest r → Opened E D i d p v c → (c j).isSome = true →
      Facing E D (⟨some j, .mk i d⟩ :: rest) (c j) (spotsFrom (pathOf rest ++ p) c (j.val + 1) ++ r)

theorem Facing.here {st : List (Tr V)} {a : Node V} {rem : List (List Nib × Node V)} (h : Facing E D st a rem) :
    Rep E D (here st) a ∧ Clean (here st) ∧ WFRoot a := by
  cases h with
  | root h1 h2 h3 => exact ⟨h1, h2, h3⟩
  | @child rest r i d p v c j hw ho hj => exact ⟨ho.kids j, ho.clean.2 j, WF.root (WFRoot.child ho.wf j) hj⟩

theorem siblings0_spec {st : List (Tr V)} {r : List (List Nib × Node V)} (h : Walk0 E D st r) :
    (siblings0 st = none ∧ r = []) ∨
    ∃ st' a rem, siblings0 st = some st' ∧ r = spots (pathOf st') a ++ rem ∧ a.isSome = true ∧ Facing E D st' a rem := by
  induction h with
  | nil => exact Or.inl ⟨rfl, rfl⟩
  | @cons t rest r i d p v c hr ht ho ih =>
    rw [siblings0, ht, firstKid_eq ho.kids]
    cases hk : (nibbles.drop t.from).find? fun j => (c j).isSome with
    | some j =>
      right
      obtain ⟨h1, h2⟩ := spotsFrom_some (q := pathOf rest ++ p) hk
      refine ⟨_, _, _, rfl, ?_, h2, Facing.child hr ho h2⟩
      rw [h1, List.append_assoc]
      simp only [pathOf, Tr.path, BNode.pre, ho.ok.pre, List.append_assoc]
    | none =>
      rw [spotsFrom_none hk, List.nil_append]
      exact ih

/-- From a node that has been opened to the next one. -/
theorem forward0_spec {st : List (Tr V)} {p : List Nib} {v : Option V} {c : Nib → Node V} {rem : List (List Nib × Node V)}
    (h : Facing E D st (.mk p v c) rem) {i : Info V} {d : Nib → BNode V} (ho : Opened E D i d p v c) :
    (forward0 (update st (.mk i d)) = none ∧ spotsFrom (pathOf st ++ p) c 0 ++ rem = []) ∨
    ∃ st' a rem', forward0 (update st (.mk i d)) = some st' ∧
      spotsFrom (pathOf st ++ p) c 0 ++ rem = spots (pathOf st') a ++ rem' ∧ a.isSome = true ∧ Facing E D st' a rem' := by
  generalize ha : Node.mk p v c = a at h
  cases h with
  | @root b _ h1 h2 h3 =>
    have hw := Walk0.cons (t := ⟨none, .mk i d⟩) Walk0.nil rfl ho
    have hf : firstKid (.nil : BNode V) 0 = none := by
      rw [firstKid, List.find?_eq_none]
      intro x _
      simp [BNode.kid, BNode.isSome]
    have : forward0 (update [⟨none, b⟩] (.mk i d)) = siblings0 [⟨none, .mk i d⟩] := by
      rw [update, forward0, Tr.current]
      simp only [hf]
    rw [this]
    exact siblings0_spec hw
  | @child rest r i' d' p' v' c' j hw ho' hj =>
    have hu : update (⟨some j, .mk i' d'⟩ :: rest) (.mk i d) = ⟨some j, .mk i' (setKid d' j (.mk i d))⟩ :: rest := rfl
    have hop : Opened E D i' (setKid d' j (.mk i d)) p' v' c' := by
      refine ⟨ho'.ok, ?_, ⟨ho'.clean.1, ?_⟩, ho'.wf⟩
      · intro k
        rw [setKid]
        split
        · next hk => subst hk; rw [← ha]; exact ho.rep
        · exact ho'.kids k
      · intro k
        rw [setKid]
        split
        · exact ho.clean
        · exact ho'.clean.2 k
    have hw1 := Walk0.cons (t := ⟨some j, .mk i' (setKid d' j (.mk i d))⟩) hw rfl hop
    have hpath : pathOf (⟨some j, .mk i' (setKid d' j (.mk i d))⟩ :: rest) = pathOf (⟨some j, .mk i' d'⟩ :: rest) := rfl
    rw [hu, forward0, Tr.current]
    simp only [BNode.kid]
    rw [show setKid d' j (.mk i d) j = .mk i d by simp [setKid], firstKid_eq ho.kids]
    cases hk : (nibbles.drop 0).find? fun j => (c j).isSome with
    | some k =>
      right
      obtain ⟨h1, h2⟩ := spotsFrom_some (q := pathOf (⟨some j, .mk i' d'⟩ :: rest) ++ p) hk
      refine ⟨_, _, _, rfl, ?_, h2, Facing.child hw1 ho h2⟩
      rw [h1, List.append_assoc, hpath]
      simp only [pathOf, Tr.path, BNode.pre, ho.ok.pre, List.append_assoc]
      rfl
    | none =>
      rw [spotsFrom_none hk, List.nil_append]
      exact siblings0_spec hw1

theorem spots_mk (q p : List Nib) (v : Option V) (c : Nib → Node V) :
    spots q (.mk p v c) = (q, .mk p v c) :: spotsFrom (q ++ p) c 0 := rfl

/-- A node that may be dumped. -/
def Fit (E : Env V) (N : Bytes) (D : Disk) (a : Node V) : Prop :=
  Stored E D a ∧ nh E a ≠ List.replicate 32 0 ∧ nh E a ≠ N ∧ ∀ p v c, a = .mk p v c → isEmpty p v c = false

theorem dumpLoop_spec (hE : E.Lawful) {N : Bytes} (F : Faults) (g : UInt64) (cb : Bool) : ∀ (f : Nat) {st : List (Tr V)} {a : Node V}
    {rem : List (List Nib × Node V)} (S : Dumped), Facing E D st a rem → (spots (pathOf st) a ++ rem).length ≤ f →
    (∀ e ∈ spots (pathOf st) a ++ rem, Fit E N D e.2) →
    dumpLoop E N F D g cb f st S = dumpAll E F cb (spots (pathOf st) a ++ rem) S := by
  intro f
  induction f with
  | zero =>
    intro st a rem S h hl
    cases a with
    | nil => exact h.here.2.2.elim
    | mk p v c => rw [spots_mk] at hl; simp at hl
  | succ f ih =>
    intro st a rem S h hl hfit
    obtain ⟨h1, h2, h3⟩ := h.here
    cases a with
    | nil => exact h3.elim
    | mk p v c =>
      rw [spots_mk, List.cons_append] at hl hfit ⊢
      obtain ⟨f1, f2, f3, f4⟩ := hfit _ List.mem_cons_self
      obtain ⟨i, d, k1, k2, k3, k4⟩ := dumpNode_spec hE F g cb (pathOf st) h1 h3 h2 f1 (f4 _ _ _ rfl) f2 f3 S
      rw [dumpLoop, k4, dumpAll]
      cases hd : dumpOne E F cb S (pathOf st, .mk p v c) with
      | err => rfl
      | panic => rfl
      | ok S' =>
        simp only
        rcases forward0_spec h ⟨k1, k2, k3, h3⟩ with ⟨e1, e2⟩ | ⟨st', a', rem', e1, e2, e3, e4⟩
        · rw [e1, e2]
          rfl
        · rw [e1, e2]
          simp only
          refine ih S' e4 ?_ ?_
          · rw [e2] at hl
            simpa using hl
          · intro e he
            exact hfit e (List.mem_cons_of_mem _ (by rw [e2]; exact he))

/-! ### What has been copied -/

/-- What the other database has may be overwritten only with what the storage has. -/
def Agrees (D T T' : Disk) : Prop :=
  (∀ f, T.nodes = some f → ∃ f', T'.nodes = some f' ∧ ∀ k, f' k = f k ∨ ∃ s, D.nodes = some s ∧ f' k = s k) ∧
  (∀ f, T.values = some f → ∃ f', T'.values = some f' ∧ ∀ k, f' k = f k ∨ ∃ s, D.values = some s ∧ f' k = s k)

theorem Agrees.refl (D T : Disk) : Agrees D T T := ⟨fun f h => ⟨f, h, fun _ => Or.inl rfl⟩, fun f h => ⟨f, h, fun _ => Or.inl rfl⟩⟩

theorem Agrees.trans {D T T' T'' : Disk} (h : Agrees D T T') (h' : Agrees D T' T'') : Agrees D T T'' := by
  constructor
  · intro f hf
    obtain ⟨f1, e1, k1⟩ := h.1 f hf
    obtain ⟨f2, e2, k2⟩ := h'.1 f1 e1
    refine ⟨f2, e2, fun k => ?_⟩
    rcases k2 k with a | a
    · rcases k1 k with b | ⟨s, b1, b2⟩
      · exact Or.inl (a.trans b)
      · exact Or.inr ⟨s, b1, a.trans b2⟩
    · exact Or.inr a
  · intro f hf
    obtain ⟨f1, e1, k1⟩ := h.2 f hf
    obtain ⟨f2, e2, k2⟩ := h'.2 f1 e1
    refine ⟨f2, e2, fun k => ?_⟩
    rcases k2 k with a | a
    · rcases k1 k with b | ⟨s, b1, b2⟩
      · exact Or.inl (a.trans b)
      · exact Or.inr ⟨s, b1, a.trans b2⟩
    · exact Or.inr a

/-- What the copy has of a node. -/
def Copied (E : Env V) (T : Disk) : Node V → Prop
  | .nil => True
  | .mk p v c => (∃ f, T.nodes = some f ∧ f (nh E (.mk p v c)) = some (serA E p v c)) ∧
      ∀ x, v = some x → E.enc x ≠ [] → ∃ f, T.values = some f ∧ f (E.vh x) = some (E.enc x)

theorem saveTo_agrees {s : Bytes → Option Bytes} {f n : Option (Bytes → Option Bytes)} {bad : Bytes → Bool} {h b : Bytes}
    (hs : saveTo f bad h b = (n, true)) (hb : s h = some b) (g : Bytes → Option Bytes) (hg : f = some g) :
    ∃ f', n = some f' ∧ f' h = some b ∧ ∀ k, f' k = g k ∨ f' k = s k := by
  subst hg
  rw [saveTo] at hs
  split at hs
  · simp at hs
  · obtain ⟨rfl, -⟩ := Prod.mk.inj hs
    refine ⟨_, rfl, if_pos rfl, fun k => ?_⟩
    by_cases hk : k = h
    · right; rw [hk, hb]; exact if_pos rfl
    · left; simp only [if_neg hk]

theorem dumpOne_ok {F : Faults} {cb : Bool} {S S' : Dumped} {q : List Nib} {a : Node V} (hst : Stored E D a) (hT : S.disk.ok)
    (h : dumpOne E F cb S (q, a) = .ok S') : S'.disk.ok ∧ Agrees D S.disk S'.disk ∧ Copied E S'.disk a := by
  cases a with
  | nil =>
    cases h
    exact ⟨hT, Agrees.refl _ _, trivial⟩
  | mk p v c =>
    obtain ⟨⟨s, hs, hb⟩, hval, -, -⟩ := hst
    obtain ⟨g, hg⟩ := Option.isSome_iff_exists.1 hT.1
    obtain ⟨w, hw⟩ := Option.isSome_iff_exists.1 hT.2
    rw [dumpOne] at h
    generalize hsv : saveTo S.disk.nodes F.node (nh E (.mk p v c)) (serA E p v c) = r at h
    obtain ⟨n, ok⟩ := r
    cases ok with
    | false => cases h
    | true =>
      obtain ⟨f', rfl, hf1, hf2⟩ := saveTo_agrees hsv hb g hg
      have hA1 : ∀ f, S.disk.nodes = some f → ∃ f2, some f' = some f2 ∧ ∀ k, f2 k = f k ∨ ∃ s, D.nodes = some s ∧ f2 k = s k := by
        intro f hf
        rw [hg] at hf
        cases hf
        refine ⟨f', rfl, fun k => ?_⟩
        rcases hf2 k with h | h
        · exact Or.inl h
        · exact Or.inr ⟨s, hs, h⟩
      cases v with
      | none =>
        cases h
        exact ⟨⟨rfl, hT.2⟩, ⟨hA1, fun f hf => ⟨f, hf, fun _ => Or.inl rfl⟩⟩, ⟨f', rfl, hf1⟩, by simp⟩
      | some x =>
        obtain ⟨sv, hsv1, hsv2⟩ := hval x rfl
        simp only [hT.2, Bool.true_or, if_true] at h
        have key : ∀ calls w', S' = ⟨⟨some f', w'⟩, calls⟩ →
            (if 0 < (E.enc x).length then saveTo S.disk.values F.value (E.vh x) (E.enc x) else (S.disk.values, true)) = (w', true) →
            S'.disk.ok ∧ Agrees D S.disk S'.disk ∧ Copied E S'.disk (.mk p (some x) c) := by
          rintro calls w' rfl hif
          by_cases hx : 0 < (E.enc x).length
          · rw [if_pos hx] at hif
            obtain ⟨f2, rfl, g1, g2⟩ := saveTo_agrees hif hsv2 w hw
            refine ⟨⟨rfl, rfl⟩, ⟨hA1, fun f hf => ?_⟩, ⟨f', rfl, hf1⟩, ?_⟩
            · rw [hw] at hf
              cases hf
              refine ⟨f2, rfl, fun k => ?_⟩
              rcases g2 k with h | h
              · exact Or.inl h
              · exact Or.inr ⟨sv, hsv1, h⟩
            · rintro y hy -
              cases hy
              exact ⟨f2, rfl, g1⟩
          · rw [if_neg hx] at hif
            obtain ⟨rfl, -⟩ := Prod.mk.inj hif
            refine ⟨⟨rfl, hT.2⟩, ⟨hA1, fun f hf => ⟨f, hf, fun _ => Or.inl rfl⟩⟩, ⟨f', rfl, hf1⟩, ?_⟩
            rintro y hy hne
            cases hy
            exact absurd (List.length_pos_of_ne_nil hne) hx
        generalize hif : (if 0 < (E.enc x).length then saveTo S.disk.values F.value (E.vh x) (E.enc x) else (S.disk.values, true)) = r at h key
        obtain ⟨w', ok⟩ := r
        cases ok with
        | false => cases h
        | true =>
          simp only at h
          split at h
          · split at h
            · cases h
            · cases h
              exact key _ _ rfl rfl
          · cases h
            exact key _ _ rfl rfl

theorem copied_agrees {T T' : Disk} {a : Node V} (hst : Stored E D a) (h : Agrees D T T') (hc : Copied E T a) : Copied E T' a := by
  cases a with
  | nil => trivial
  | mk p v c =>
    obtain ⟨⟨s, hs, hb⟩, hval, -, -⟩ := hst
    obtain ⟨⟨f, h1, h2⟩, h3⟩ := hc
    constructor
    · obtain ⟨f', k1, k2⟩ := h.1 f h1
      refine ⟨f', k1, ?_⟩
      rcases k2 (nh E (.mk p v c)) with e | ⟨s', e1, e2⟩
      · rw [e, h2]
      · rw [hs] at e1
        cases e1
        rw [e2, hb]
    · intro x hx hne
      obtain ⟨g, g1, g2⟩ := h3 x hx hne
      obtain ⟨sv, s1, s2⟩ := hval x hx
      obtain ⟨f', k1, k2⟩ := h.2 g g1
      refine ⟨f', k1, ?_⟩
      rcases k2 (E.vh x) with e | ⟨s', e1, e2⟩
      · rw [e, g2]
      · rw [s1] at e1
        cases e1
        rw [e2, s2]

theorem dumpAll_ok {F : Faults} {cb : Bool} : ∀ (l : List (List Nib × Node V)) {S S' : Dumped}, (∀ e ∈ l, Stored E D e.2) → S.disk.ok →
    dumpAll E F cb l S = .ok S' → S'.disk.ok ∧ Agrees D S.disk S'.disk ∧ ∀ e ∈ l, Copied E S'.disk e.2 := by
  intro l
  induction l with
  | nil =>
    intro S S' _ hT h
    cases h
    exact ⟨hT, Agrees.refl _ _, by simp⟩
  | cons e l ih =>
    intro S S' hst hT h
    rw [dumpAll] at h
    cases hd : dumpOne E F cb S e with
    | err => rw [hd] at h; cases h
    | panic => rw [hd] at h; cases h
    | ok S1 =>
      rw [hd] at h
      obtain ⟨q, a⟩ := e
      obtain ⟨h1, h2, h3⟩ := dumpOne_ok (hst _ List.mem_cons_self) hT hd
      obtain ⟨h4, h5, h6⟩ := ih (fun e he => hst e (List.mem_cons_of_mem _ he)) h1 h
      refine ⟨h4, h2.trans h5, ?_⟩
      intro e he
      rcases List.mem_cons.1 he with rfl | he
      · exact copied_agrees (hst _ List.mem_cons_self) h5 h3
      · exact h6 e he

/-! ### The calls -/

/-- The calls for one node. -/
def callsOf (E : Env V) : List Nib × Node V → List (Option Bytes × Bytes)
  | (q, .mk p (some x) _) => (if q ++ p = [] then [(none, E.enc x)] else []) ++ [(some (prefixToKeystring ((q ++ p).map nibByte)), E.enc x)]
  | _ => []

/-- The path and the value of a node. -/
def entry0 : List Nib × Node V → List Nib × Option V
  | (q, .nil) => (q, none)
  | (q, .mk p v _) => (q ++ p, v)

theorem dumpOne_calls {F : Faults} {S S' : Dumped} {e : List Nib × Node V} (h : dumpOne E F true S e = .ok S') :
    S'.calls = S.calls ++ callsOf E e := by
  obtain ⟨q, a⟩ := e
  cases a with
  | nil => cases h; simp [callsOf]
  | mk p v c =>
    rw [dumpOne] at h
    generalize saveTo S.disk.nodes F.node (nh E (.mk p v c)) (serA E p v c) = r at h
    obtain ⟨n, ok⟩ := r
    cases ok with
    | false => cases h
    | true =>
      cases v with
      | none => cases h; simp [callsOf]
      | some x =>
        simp only [Bool.or_true, if_true] at h
        generalize (if 0 < (E.enc x).length then saveTo S.disk.values F.value (E.vh x) (E.enc x) else (S.disk.values, true)) = r at h
        obtain ⟨w, ok⟩ := r
        cases ok with
        | false => cases h
        | true =>
          simp only at h
          split at h
          · cases h
          · cases h
            rw [callsOf]
            by_cases hq : q ++ p = []
            · simp only [if_pos hq, List.append_assoc]
            · simp only [if_neg hq, List.nil_append]

theorem dumpAll_calls {F : Faults} : ∀ (l : List (List Nib × Node V)) {S S' : Dumped}, dumpAll E F true l S = .ok S' →
    S'.calls = S.calls ++ l.flatMap (callsOf E) := by
  intro l
  induction l with
  | nil => intro S S' h; cases h; simp
  | cons e l ih =>
    intro S S' h
    rw [dumpAll] at h
    cases hd : dumpOne E F true S e with
    | err => rw [hd] at h; cases h
    | panic => rw [hd] at h; cases h
    | ok S1 =>
      rw [hd] at h
      rw [ih h, dumpOne_calls hd, List.append_assoc, List.flatMap_cons]

theorem saveTo_noFault (f : Option (Bytes → Option Bytes)) (h b : Bytes) : ∃ n, saveTo f (fun _ => false) h b = (n, true) := by
  cases f with
  | none => exact ⟨_, rfl⟩
  | some s => exact ⟨_, rfl⟩

theorem dumpAll_total (cb : Bool) : ∀ (l : List (List Nib × Node V)) (S : Dumped),
    (∀ e ∈ l, (entry0 e).2.isSome = true → (entry0 e).1.length % 2 = 0) → ∃ S', dumpAll E noFaults cb l S = .ok S' := by
  intro l
  induction l with
  | nil => intro S _; exact ⟨S, rfl⟩
  | cons e l ih =>
    intro S hev
    have : ∃ S1, dumpOne E noFaults cb S e = .ok S1 := by
      have he := hev e List.mem_cons_self
      obtain ⟨q, a⟩ := e
      cases a with
      | nil => exact ⟨_, rfl⟩
      | mk p v c =>
        rw [dumpOne]
        obtain ⟨n, hn⟩ := saveTo_noFault S.disk.nodes (nh E (.mk p v c)) (serA E p v c)
        rw [show (noFaults).node = fun _ => false from rfl, hn]
        cases v with
        | none => exact ⟨_, rfl⟩
        | some x =>
          have hl : (q ++ p).length % 2 = 0 := he rfl
          simp only
          split
          · obtain ⟨w, hw⟩ := saveTo_noFault S.disk.values (E.vh x) (E.enc x)
            rw [show (noFaults).value = fun _ => false from rfl, hw]
            have : ∃ w', (if 0 < (E.enc x).length then (w, true) else (S.disk.values, true)) = (w', true) := by
              split <;> exact ⟨_, rfl⟩
            obtain ⟨w', hw'⟩ := this
            rw [hw']
            simp only
            split
            · rw [if_neg (by omega)]
              exact ⟨_, rfl⟩
            · exact ⟨_, rfl⟩
          · exact ⟨_, rfl⟩
    obtain ⟨S1, h1⟩ := this
    rw [dumpAll, h1]
    exact ih S1 fun e he => hev e (List.mem_cons_of_mem _ he)

/-! ### The nodes of the tree -/

theorem spots_visits (q : List Nib) (a : Node V) : visits q a = (spots q a).map entry0 := by
  induction a generalizing q with
  | nil => rfl
  | mk p v c ih =>
    rw [visits, spots, List.map_cons, List.map_flatMap]
    congr 1
    refine List.flatMap_congr ?_
    intro j _
    exact ih j _

theorem spots_prefix (q : List Nib) (a : Node V) : ∀ e ∈ spots q a, q <+: e.1 := by
  induction a generalizing q with
  | nil => intro e he; cases he
  | mk p v c ih =>
    intro e he
    rw [spots] at he
    rcases List.mem_cons.1 he with rfl | he
    · exact List.prefix_refl _
    · obtain ⟨j, -, hj⟩ := List.mem_flatMap.1 he
      refine List.IsPrefix.trans ?_ (ih j _ e hj)
      rw [List.append_assoc]
      exact List.prefix_append _ _

theorem spots_sub (q : List Nib) (a : Node V) : ∀ e ∈ spots q a, Sub e.2 a ∧ e.2.isSome = true := by
  induction a generalizing q with
  | nil => intro e he; cases he
  | mk p v c ih =>
    intro e he
    rw [spots] at he
    rcases List.mem_cons.1 he with rfl | he
    · exact ⟨Sub.refl _, rfl⟩
    · obtain ⟨j, -, hj⟩ := List.mem_flatMap.1 he
      exact ⟨Sub.child j (ih j _ e hj).1, (ih j _ e hj).2⟩

theorem stored_sub {a n : Node V} (h : Sub n a) (hst : Stored E D a) : Stored E D n := by
  induction h with
  | refl => exact hst
  | child j _ ih => exact ih (hst.2.2.2 j)

/-- A tree whose nodes are all copied is stored. -/
theorem stored_copied {T : Disk} (q : List Nib) (a : Node V) (hst : Stored E D a) (hc : ∀ e ∈ spots q a, Copied E T e.2)
    (henc : ∀ e ∈ visits q a, ∀ x, e.2 = some x → E.enc x ≠ []) : Stored E T a := by
  induction a generalizing q with
  | nil => trivial
  | mk p v c ih =>
    rw [spots] at hc
    rw [visits] at henc
    obtain ⟨h1, h2⟩ := hc _ List.mem_cons_self
    refine ⟨h1, fun x hx => h2 x hx (henc _ List.mem_cons_self x hx), hst.2.2.1, fun j => ?_⟩
    refine ih j (q ++ p ++ [j]) (hst.2.2.2 j) ?_ ?_
    · intro e he
      exact hc e (List.mem_cons_of_mem _ (List.mem_flatMap.2 ⟨j, List.mem_finRange j, he⟩))
    · intro e he
      exact henc e (List.mem_cons_of_mem _ (List.mem_flatMap.2 ⟨j, List.mem_finRange j, he⟩))

theorem calls_list (l : List (List Nib × Node V)) (h : ∀ e ∈ l, e.1 ≠ []) :
    l.flatMap (callsOf E) = (somes (((l.map entry0).filter fun e => e.2.isSome).map keyed)).map fun e => (some e.1, E.enc e.2) := by
  induction l with
  | nil => rfl
  | cons e l ih =>
    have h1 := h e List.mem_cons_self
    rw [List.flatMap_cons, ih fun e he => h e (List.mem_cons_of_mem _ he), List.map_cons]
    obtain ⟨q, a⟩ := e
    cases a with
    | nil => rfl
    | mk p v c =>
      cases v with
      | none => rfl
      | some x =>
        have : q ++ p ≠ [] := by
          intro hq
          exact h1 (List.append_eq_nil_iff.1 hq).1
        rw [callsOf, if_neg this]
        rfl

theorem calls_tree {t : MTrie V} {m : Bytes → Option V} (h : Inv t m) : ∃ l, Listing l m ∧
    (spots [] t.root).flatMap (callsOf E) =
      (match m [] with | some x => [(none, E.enc x)] | none => []) ++ l.map fun e => (some e.1, E.enc e.2) := by
  obtain ⟨h1, h2⟩ := (listing h).2
  refine ⟨_, (somes_spec h1 h2).1, ?_⟩
  have hl := h.look []
  have hw := h.wf
  rw [spots_visits]
  revert hl hw
  generalize t.root = a
  intro hl hw
  cases a with
  | nil => exact hw.elim
  | mk p v c =>
    rw [spots_mk, List.nil_append, List.flatMap_cons]
    have hr : ∀ e ∈ spotsFrom p c 0, e.1 ≠ [] := by
      intro e he hn
      obtain ⟨j, -, hj⟩ := List.mem_flatMap.1 he
      have := spots_prefix _ _ e hj
      rw [hn, List.prefix_nil] at this
      simp at this
    rw [calls_list _ hr]
    cases v with
    | none =>
      have : m [] = none := by
        rw [← hl]
        cases p with
        | nil => rfl
        | cons a p => rfl
      rw [this]
      rfl
    | some x =>
      rw [callsOf, List.nil_append]
      by_cases hp : p = []
      · subst hp
        have : m [] = some x := by rw [← hl]; rfl
        rw [this]
        rfl
      · have : m [] = none := by
          rw [← hl]
          cases p with
          | nil => exact absurd rfl hp
          | cons a p => rfl
        rw [this, if_neg hp]
        rfl

/-! ### The nodes in memory -/

theorem neat_dirty {i : Info V} (h : i.dirty = true) : neat i := by
  intro h'
  rw [h] at h'
  cases h'

theorem neat_touch (i : Info V) (p : List Nib) : neat { i.touch with pre := p } := neat_dirty rfl

theorem neat_put (i : Info V) (p : List Nib) (x : V) : neat { i.put x with pre := p } := neat_dirty rfl

theorem neat_unset {i : Info V} (h : neat i) : neat i.unset := by
  rw [Info.unset]
  split
  · exact neat_dirty rfl
  · exact h

theorem neat_if {i : Info V} (h : neat i) (b : Bool) : neat (if b then i.touch else i) := by
  cases b with
  | true => exact neat_dirty rfl
  | false => exact h

theorem every_noKids {P : Info V → Prop} (j : Nib) : Every P (noKids (V := V) j) := trivial

theorem neat_leaf (g : UInt64) (p : List Nib) (x : V) : Every neat (leafB g p x) := ⟨neat_dirty rfl, every_noKids⟩

theorem neat_getF (g : UInt64) : ∀ (f : Nat) (n : BNode V) (q : List Nib), Every neat n → Every neat (getF E D g f n q).1 := by
  intro f
  induction f with
  | zero => intro n q h; exact h
  | succ f ih =>
    intro n q h
    have hx := every_fullExpand (E := E) (D := D) good_neat g h
    rw [getF]
    split
    · trivial
    · next he => rw [he] at hx; exact hx
    · next i c he =>
      rw [he] at hx
      split
      · exact hx
      · split
        · exact hx
        · split
          · split
            · exact hx
            · next k q' _ =>
              split
              · exact hx
              · exact ⟨hx.1, every_setKid hx.2 (ih _ _ (hx.2 k))⟩
          · exact hx

theorem neat_insertAt (g : UInt64) (rec : BNode V → List Nib → PutResB V) (hrec : ∀ n q, Every neat n → Every neat (rec n q).node)
    {i : Info V} {c : Nib → BNode V} (h : Every neat (.mk i c)) (q : List Nib) (x : V) : Every neat (insertAt E g rec i c q x).node := by
  rw [insertAt]
  simp only
  split
  · exact ⟨neat_dirty rfl, h.2⟩
  · split
    · exact ⟨neat_dirty rfl, h.2⟩
    · split
      · split
        · exact ⟨neat_dirty rfl, h.2⟩
        · split
          · exact ⟨neat_dirty rfl, every_setKid h.2 (neat_leaf _ _ _)⟩
          · exact ⟨neat_if (i := { i with gen := g }) h.1 _, every_setKid h.2 (hrec _ _ (h.2 _))⟩
      · next j p' _ =>
        have hold : ∀ k, Every neat (setKid noKids j (.mk { ({ i with gen := g } : Info V).touch with pre := p' } c) k) :=
          every_setKid every_noKids ⟨neat_dirty rfl, h.2⟩
        split
        · exact ⟨neat_dirty rfl, hold⟩
        · exact ⟨neat_dirty rfl, every_setKid hold (neat_leaf _ _ _)⟩

theorem neat_insertF (g : UInt64) (x : V) : ∀ (f : Nat) (n : BNode V) (q : List Nib), Every neat n → Every neat (insertF E D g x f n q).node := by
  intro f
  induction f with
  | zero => intro n q h; exact h
  | succ f ih =>
    intro n q h
    have hx := every_fullExpand (E := E) (D := D) good_neat g h
    rw [insertF]
    split
    · trivial
    · next he => rw [he] at hx; exact hx
    · next i c he =>
      rw [he] at hx
      exact neat_insertAt g _ ih hx q x

theorem neat_mergeB (g : UInt64) {i : Info V} {c : Nib → BNode V} (h : Every neat (.mk i c)) {r : BNode V × Bool}
    (hr : mergeB E D g i c = some r) : Every neat r.1 := by
  rw [mergeB] at hr
  split at hr
  · cases hr; exact h
  · split at hr
    · next k _ =>
      have hx := every_fullExpand (E := E) (D := D) good_neat g (h.2 k)
      split at hr
      · next i2 c2 he =>
        rw [he] at hx
        cases hr
        refine ⟨?_, ?_⟩
        · simp only
          split
          · exact neat_dirty rfl
          · exact neat_dirty rfl
        · intro j
          simp only [lift]
          split
          · exact hx.2 j
          · exact every_setKid (b := .nil) h.2 trivial j
      · cases hr
    · cases hr; exact h

theorem neat_removeValueB (g : UInt64) {i : Info V} {c : Nib → BNode V} (h : Every neat (.mk i c)) {r : DelResB V}
    (hr : removeValueB E D g i c = some r) : Every neat r.node := by
  have hu : Every neat (.mk i.unset c) := ⟨neat_unset h.1, h.2⟩
  rw [removeValueB] at hr
  split at hr
  · cases hr; exact hu
  · rw [Option.map_eq_some_iff] at hr
    obtain ⟨m, h1, rfl⟩ := hr
    exact neat_mergeB g hu h1

theorem neat_deleteUp (g : UInt64) {i : Info V} {c : Nib → BNode V} (h : Every neat (.mk i c)) {k : Nib} {x r : DelResB V} (hx : Every neat x.node)
    (hr : deleteUp E D g i c k x = some r) : Every neat r.node := by
  rw [deleteUp] at hr
  have hc : ∀ j, Every neat ((if x.changed && x.remove then setKid c k .nil else setKid c k x.node) j) := by
    split
    · exact every_setKid (b := .nil) h.2 trivial
    · exact every_setKid h.2 hx
  generalize (if x.changed && x.remove then setKid c k .nil else setKid c k x.node) = c' at hr hc
  split at hr
  · cases hr
    exact ⟨neat_if h.1 _, hc⟩
  · rw [Option.map_eq_some_iff] at hr
    obtain ⟨m, h1, rfl⟩ := hr
    exact neat_mergeB g ⟨neat_if h.1 _, hc⟩ h1

theorem neat_deleteF (g : UInt64) : ∀ (f : Nat) (n : BNode V) (q : List Nib) (r : DelResB V), Every neat n → deleteF E D g f n q = some r →
    Every neat r.node := by
  intro f
  induction f with
  | zero => intro n q r h hr; cases hr; exact h
  | succ f ih =>
    intro n q r h hr
    have hx := every_fullExpand (E := E) (D := D) good_neat g h
    rw [deleteF] at hr
    split at hr
    · cases hr; trivial
    · next he => cases hr; rw [he] at hx; exact hx
    · next i c he =>
      rw [he] at hx
      have hx' : Every neat (.mk { i with gen := g } c) := ⟨hx.1, hx.2⟩
      rw [deleteAt] at hr
      split at hr
      · cases hr; exact hx
      · simp only at hr
        split at hr
        · exact neat_removeValueB g hx' hr
        · split at hr
          · split at hr
            · exact neat_removeValueB g hx' hr
            · split at hr
              · cases hr; exact hx'
              · rw [Option.bind_eq_some_iff] at hr
                obtain ⟨y, h1, h2⟩ := hr
                exact neat_deleteUp g hx' (ih _ _ _ (hx.2 _) h1) h2
          · cases hr; exact hx'

theorem valueHashed_dirty (i : Info V) : (valueHashed E i).dirty = i.dirty := by
  rw [valueHashed]
  split
  · rfl
  · split <;> rfl

theorem valueHashed_vhash (i : Info V) (h : (valueHashed E i).value.isSome = true) : (valueHashed E i).vhash.isSome = true := by
  revert h
  rw [valueHashed]
  split
  · next hv => rw [hv]; intro h; cases h
  · split
    · next h =>
      intro _
      simp only [Bool.and_eq_true] at h
      exact h.1
    · intro _; rfl

theorem every_hashed {P : Info V → Prop} (h1 : ∀ i h, P i → P { i with hash := h }) (h2 : ∀ i, P i → P (valueHashed E i)) :
    ∀ b : BNode V, Every P b → Every P (hashed E b) := by
  intro b
  induction b with
  | nil => intro h; exact h
  | mk i c ih =>
    intro h
    rw [hashed]
    split
    · exact h
    · exact ⟨h1 _ _ (h2 i h.1), fun j => ih j (h.2 j)⟩

theorem neat_hashed (b : BNode V) (h : Every neat b) : Every neat (hashed E b) :=
  every_hashed (fun _ _ h => h) (fun i _ _ hv => valueHashed_vhash i hv) b h

theorem clean_hashed (b : BNode V) (h : Clean b) : Clean (hashed E b) :=
  every_hashed (P := fun i => i.dirty = false ∧ neat i) (fun _ _ h => h)
    (fun i hi => ⟨by rw [valueHashed_dirty]; exact hi.1, fun _ hv => valueHashed_vhash i hv⟩) b h

theorem every_collapse {P : Info V → Prop} (hP : ∀ (i : Info V) h vh vs, P i → P { i with hash := h, value := none, vhash := vh, vstream := vs })
    {i : Info V} {c : Nib → BNode V} (h : Every P (.mk i c)) : Every P (collapse E i c) ∧ Every P (collapseValue E i c) := by
  constructor
  · rw [collapse]
    split
    · exact h
    · exact ⟨hP i _ _ _ h.1, every_noKids⟩
  · rw [collapseValue]
    split
    · exact h
    · exact ⟨hP i i.hash _ _ h.1, h.2⟩

theorem neat_folded (i : Info V) (h vh vs : Option Bytes) : neat (V := V) { i with hash := h, value := none, vhash := vh, vstream := vs } := by
  simp [neat]

theorem neat_foldSome (b : BNode V) : ∀ (sel selV : List Nib → Bool), Every neat b → Every neat (foldSome E sel selV b) := by
  induction b with
  | nil => intro _ _ h; exact h
  | mk i c ih =>
    intro sel selV h
    have hc : Every neat (.mk i fun j => foldSome E (fun q => sel (j :: q)) (fun q => selV (j :: q)) (c j)) := ⟨h.1, fun j => ih j _ _ (h.2 j)⟩
    rw [foldSome]
    split
    · exact hc
    · split
      · exact (every_collapse (fun i h vh vs _ => neat_folded i h vh vs) hc).1
      · split
        · exact (every_collapse (fun i h vh vs _ => neat_folded i h vh vs) hc).2
        · exact hc

theorem clean_saveHere (L : Limits) (g : UInt64) (D : Disk) {i : Info V} {c : Nib → BNode V} (hi : neat i) (hc : ∀ j, Clean (c j)) :
    Clean (saveHere E noFaults L g D i c).1 := by
  rw [saveHere]
  split
  · rw [saveOne]
    have hsv : (saveValue noFaults D (valueHashed E i)).2 = true := by
      rw [saveValue]
      split
      · obtain ⟨n, hn⟩ := saveTo_noFault D.values ((valueHashed E i).vhash.getD []) ((valueHashed E i).vstream.getD [])
        simp only
        rw [show (noFaults).value = fun _ => false from rfl, hn]
      · rfl
    simp only [hsv, if_neg (show ¬ (true = false) by decide)]
    have hx : ∃ i2 c2, hashed E (.mk (valueHashed E i) c) = .mk i2 c2 ∧ (i2.value.isSome = true → i2.vhash.isSome = true) ∧ ∀ j, Clean (c2 j) := by
      rw [hashed]
      split
      · exact ⟨_, _, rfl, valueHashed_vhash i, hc⟩
      · exact ⟨_, _, rfl, valueHashed_vhash (valueHashed E i), fun j => clean_hashed _ (hc j)⟩
    obtain ⟨i2, c2, e1, e2, e3⟩ := hx
    rw [e1]
    simp only
    obtain ⟨n, hn⟩ := saveTo_noFault (saveValue noFaults D (valueHashed E i)).1.nodes (i2.hash.getD []) (serB E (valueHashed E i) c)
    rw [show (noFaults).node = fun _ => false from rfl, hn]
    simp only [if_neg (show ¬ (true = false) by decide)]
    exact ⟨⟨rfl, fun _ => e2⟩, fun j => clean_hashed _ (e3 j)⟩
  · next hd =>
    have hcl : Clean (.mk i c) := ⟨⟨by simpa using hd, hi⟩, hc⟩
    have hco := every_collapse (E := E) (P := fun i : Info V => i.dirty = false ∧ neat i) (fun i h vh vs hi => ⟨hi.1, neat_folded i h vh vs⟩) hcl
    split
    · exact hco.1
    · split
      · exact hco.2
      · exact hcl

theorem clean_save (L : Limits) (g : UInt64) (b : BNode V) : ∀ D : Disk, Every neat b → Clean (save E noFaults L g b D).1 := by
  induction b with
  | nil => intro _ _; trivial
  | mk i c ih =>
    intro D h
    rw [save]
    refine clean_saveHere L g _ h.1 ?_
    have key : ∀ (l : List Nib) (s : (Nib → BNode V) × Disk), (∀ j, j ∉ l → Clean (s.1 j)) → (∀ j, (c j).isSome = false → Clean (s.1 j)) →
        ∀ j, Clean ((l.foldl (fun (s : (Nib → BNode V) × Disk) j =>
          if (c j).isSome then
            let x := save E noFaults L g (c j) s.2
            (setKid s.1 j x.1, x.2.1)
          else s) s).1 j) := by
      intro l
      induction l with
      | nil => intro s h1 _ j; exact h1 j (by simp)
      | cons k l ihl =>
        intro s h1 h2
        rw [List.foldl_cons]
        refine ihl _ ?_ ?_
        · intro j hj
          split
          · simp only [setKid]
            split
            · exact ih k _ (h.2 k)
            · next hjk => exact h1 j (by simp [hjk, hj])
          · next hk =>
            by_cases hjk : j = k
            · subst hjk
              exact h2 j (by simpa using hk)
            · exact h1 j (by simp [hjk, hj])
        · intro j hj
          split
          · simp only [setKid]
            split
            · exact ih k _ (h.2 k)
            · exact h2 j hj
          · exact h2 j hj
    refine key nibbles (c, D) (fun j hj => absurd (List.mem_finRange j) hj) ?_
    intro j hj
    cases hcj : c j with
    | nil => simp only [hcj]; trivial
    | mk i' c' => rw [hcj] at hj; cases hj

theorem neat_step (s : Sess V) (op : SOp V) (h : Every neat s.t.root) : Every neat (sstep E noFaults s op).1.t.root := by
  cases op with
  | get k => exact neat_getF _ _ _ _ h
  | put k x => exact neat_insertF _ _ _ _ _ h
  | del k =>
    rw [sstep]
    split
    · exact h
    · next r hr =>
      rw [BTrie.del, Option.map_eq_some_iff] at hr
      obtain ⟨m, h1, rfl⟩ := hr
      have := neat_deleteF _ _ _ _ _ h h1
      simp only
      split
      · cases hm : m.node with
        | nil => trivial
        | mk i c =>
          rw [hm] at this
          rw [clearPrefixB]
          split
          · exact this
          · exact ⟨neat_dirty rfl, this.2⟩
      · exact this
  | hash => exact neat_hashed _ h
  | commit L => exact Every.imp (fun _ h => h.2) _ (clean_save L _ _ _ h)
  | fold n v => exact neat_foldSome _ _ _ h
  | reopen L g => exact every_new good_neat _ _

theorem neat_after (ops : List (SOp V)) (D : Disk) : Every neat (after E D ops).t.root := by
  have : ∀ (ops : List (SOp V)) (s : Sess V), Every neat s.t.root → Every neat (srun E noFaults s ops).t.root := by
    intro ops
    induction ops with
    | nil => intro s h; exact h
    | cons op ops ih => intro s h; exact ih _ (neat_step s op h)
  exact this ops _ (every_new good_neat _ _)

/-! ### C137 -/

/-- The tree of the calls. -/
def treeOf (ops : List (SOp V)) : Node V := ((newTrie (V := V)).run (ops.filterMap SOp.call)).root

/-- The trie after a commit and the storage; `again` stands for opening it once more at its root hash, as `Clone` does. -/
def committed (E : Env V) (L : Limits) (D : Disk) (again : Bool) (ops : List (SOp V)) : BTrie V × Disk :=
  if again then
    let r := (after E D ops).t.clone E noFaults L (after E D ops).D
    (r.2.2, r.2.1)
  else
    let r := (after E D ops).t.commit E noFaults L (after E D ops).D
    (r.1, r.2.1)

theorem committed_spec (hE : E.Lawful) {ops : List (SOp V)} (hk : ClearOps [] ops) (hA : Apart E (along ops)) {D : Disk} (hD : D.ok)
    (L : Limits) (again : Bool) : Inv ((newTrie (V := V)).run (ops.filterMap SOp.call)) (contents ops) ∧
      ((after E D ops).t.hash E).2 = nh E (treeOf ops) ∧
      Rep E (committed E L D again ops).2 (committed E L D again ops).1.root (treeOf ops) ∧ Clean (committed E L D again ops).1.root ∧
      ∀ p v c, treeOf ops = .mk p v c → isEmpty p v c = false → Stored E (committed E L D again ops).2 (treeOf ops) := by
  have hs := (outs_spec hE hA (noFaults_harmless E _) ops [] ⟨openTrie none, D⟩ ⟨hD, rep_openNil⟩
    fun pre hp => ⟨pre, hp, rfl⟩).2
  have hinv := clear_inv ops [] inv_nil hk
  rw [List.nil_append] at hs hinv
  refine ⟨hinv, ?_⟩
  obtain ⟨h1, h2, -, h3, h4⟩ := commit_step hE (hA.ghost hE) (noFaults_harmless E _) L hs.disk hs.rep hinv.wf
    ⟨hinv.wf.isSome, _, ⟨ops, List.prefix_refl _, rfl⟩, Sub.refl _⟩
  refine ⟨(hash_step hs.rep hinv.wf).1, ?_⟩
  cases again with
  | false => exact ⟨h3, clean_save L _ _ _ (neat_after ops D), h4⟩
  | true =>
    refine ⟨?_, clean_new _ _, h4⟩
    have := rep_open hinv.wf h4 ((after E D ops).t.commit E noFaults L (after E D ops).D).1.gen
    rw [← (hash_step h3 hinv.wf).1] at this
    exact this

theorem empty_hash {p : List Nib} {v : Option V} {c : Nib → Node V} (h : isEmpty p v c = true) : nh E (.mk p v c) = emptyHash E := by
  obtain ⟨rfl, rfl, hc⟩ := (isEmpty_iff _ _ _).1 h
  rw [show c = noChild from funext hc]
  rfl

theorem isEmptyB_true (hE : E.Lawful) {i : Info V} {d : Nib → BNode V} {p : List Nib} {v : Option V} {c : Nib → Node V}
    (h : Rep E D (.mk i d) (.mk p v c)) (he : isEmpty p v c = true) : isEmptyB E i d = true := by
  obtain ⟨p', v', c', e, hr⟩ := h
  cases e
  have hh := empty_hash (E := E) he
  obtain ⟨rfl, rfl, hc⟩ := (isEmpty_iff _ _ _).1 he
  rcases hr with hr | ⟨h1, h2⟩
  · exact absurd hh hr.stored.2.2.1
  · have hv : i.value = none ∧ i.vhash = none := by
      rcases h1.value with ⟨e1, e2⟩ | ⟨e1, -, x, e3, -⟩
      · exact ⟨e1, by rcases e2 with e2 | e2 <;> simpa using e2⟩
      · cases e3
    have hk : hasKids d = false := by
      rw [hasKids, List.any_eq_false]
      intro j _
      have := (h2 j).isSome
      rw [hc] at this
      simp [this, Node.isSome]
    have hem : isEmptyNodeHash E i.hash = true := by
      cases hi : i.hash with
      | none => simp [isEmptyNodeHash]
      | some x => rw [h1.hash x hi, isEmptyNodeHash_some hE, hh]; simp
    simp [isEmptyB, h1.pre, hk, hv.1, hv.2, hem]

theorem isEmptyB_false (hE : E.Lawful) {i : Info V} {d : Nib → BNode V} {p : List Nib} {v : Option V} {c : Nib → Node V}
    (h : Rep E D (.mk i d) (.mk p v c)) (hcl : Clean (.mk i d)) (he : isEmpty p v c = false) (hs : Stored E D (.mk p v c)) :
    isEmptyB E i d = false := by
  have hh : i.hash = some (nh E (.mk p v c)) := by
    obtain ⟨p', v', c', e, hr⟩ := h
    cases e
    rcases hr with hr | ⟨k1, k2⟩
    · exact hr.hash
    · rcases k1.clean hcl.1.1 with k | k
      · rw [he] at k; cases k
      · exact k.1
  rw [isEmptyB, hh, isEmptyNodeHash_some hE, decide_eq_false hs.2.2.1]
  simp

/-- A dump is what happens at the nodes of the tree, one after the other. -/
theorem dump_spec (hE : E.Lawful) {ops : List (SOp V)} (hk : ClearOps [] ops) (hA : Apart E (along ops)) {D : Disk} (hD : D.ok)
    (L : Limits) (again : Bool) (N : Bytes) (hN : Apt E N (treeOf ops)) (F : Faults) (cb : Bool) (T : Disk) (n : Nat) (hn : (spots [] (treeOf ops)).length ≤ n) :
    (∃ p v c, treeOf ops = .mk p v c ∧ isEmpty p v c = true) ∧
      (committed E L D again ops).1.dump E N F (committed E L D again ops).2 cb n T = .ok ⟨T, []⟩ ∨
    Stored E (committed E L D again ops).2 (treeOf ops) ∧ (committed E L D again ops).1.dump E N F (committed E L D again ops).2 cb n T =
      dumpAll E F cb (spots [] (treeOf ops)) ⟨T, []⟩ := by
  obtain ⟨hinv, -, hrep, hcl, hst⟩ := committed_spec hE hk hA hD L again
  have hw : WFRoot (treeOf ops) := hinv.wf
  cases ht : treeOf ops with
  | nil => rw [ht] at hw; exact hw.elim
  | mk p v c =>
    rw [ht] at hst hw hrep hn hN
    rw [BTrie.dump]
    cases hb : (committed E L D again ops).1.root with
    | nil => rw [hb] at hrep; exact absurd hrep (by simp [Rep])
    | mk i d =>
    rw [hb] at hrep hcl
    simp only
    cases he : isEmpty p v c with
    | true =>
      left
      refine ⟨⟨p, v, c, rfl, he⟩, ?_⟩
      rw [if_pos (isEmptyB_true hE hrep he)]
    | false =>
      right
      have hs := hst p v c rfl he
      refine ⟨hs, ?_⟩
      rw [isEmptyB_false hE hrep hcl he hs, hcl.1.1]
      simp only [Bool.false_eq_true, if_false]
      have := dumpLoop_spec hE (N := N) F (committed E L D again ops).1.gen cb n ⟨T, []⟩ (Facing.root hrep hcl hw)
        (by rw [List.append_nil]; exact hn) ?_
      · rw [List.append_nil] at this
        exact this
      · intro e he
        rw [List.append_nil] at he
        obtain ⟨h1, h2⟩ := spots_sub _ _ e he
        have h3 := stored_sub h1 hs
        refine ⟨h3, (hN e he).1, (hN e he).2, ?_⟩
        intro p' v' c' heq
        cases hem : isEmpty p' v' c' with
        | false => rfl
        | true =>
          rw [heq] at h3
          exact absurd (empty_hash hem) h3.2.2.1

theorem visits_contents {t : MTrie V} {m : Bytes → Option V} (h : Inv t m) {e : List Nib × Option V} (he : e ∈ visits [] t.root) {x : V}
    (hx : e.2 = some x) : ∃ k, m k = some x := by
  obtain ⟨q, w⟩ := e
  simp only at hx
  subst hx
  obtain ⟨s, hs1, hs2⟩ := (mem_visits _ _ _ _).1 he
  rw [List.nil_append] at hs1
  subst hs1
  obtain ⟨k, rfl⟩ := h.keys _ (by rw [hs2]; rfl)
  exact ⟨k, by rw [← h.look]; exact hs2⟩

/-- C137, the copy.  Whatever fails on the way, a dump that reports success has copied the whole trie: opened at the same root hash over the
other database alone, it answers all further calls as the original does.  What that database held before is kept, except where it differed from
the storage.  Missing: values whose encoding is empty, see `C137_empty_refuted`. -/
theorem C137_copy_partial (hE : E.Lawful) (ops ops2 : List (SOp V)) (hk : ClearOps [] (ops ++ ops2)) (hA : Apart E (along (ops ++ ops2)))
    (D T : Disk) (hD : D.ok) (hT : T.ok) (L : Limits) (again : Bool) (N : Bytes) (hN : Apt E N (treeOf ops))
    (henc : ∀ k x, contents ops k = some x → E.enc x ≠ []) (F : Faults) (cb : Bool) :
    ∃ M, ∀ n, M ≤ n → ∀ S, (committed E L D again ops).1.dump E N F (committed E L D again ops).2 cb n T = .ok S →
      outs E noFaults ⟨openTrie (some ((after E D ops).t.hash E).2), S.disk⟩ ops2 = expect E (ops.filterMap SOp.call) ops2 ∧
      Agrees (committed E L D again ops).2 T S.disk := by
  obtain ⟨hinv, hh, -, -, -⟩ := committed_spec hE (clearOps_append ops ops2 [] hk).1 (apart_append hA) hD L again
  refine ⟨(spots [] (treeOf ops)).length, fun n hn S hS => ?_⟩
  rw [hh]
  have hw : WFRoot (treeOf ops) := hinv.wf
  rcases dump_spec hE (clearOps_append ops ops2 [] hk).1 (apart_append hA) hD L again N hN F cb T n hn with ⟨⟨p, v, c, h1, h2⟩, h3⟩ | ⟨h1, h2⟩
  · rw [h3] at hS
    cases hS
    refine ⟨further hE hk hA hT (rep_open hw ?_ _), Agrees.refl _ _⟩
    intro p' v' c' h4 h5
    rw [h1] at h4
    cases h4
    rw [h2] at h5
    cases h5
  · rw [h2] at hS
    obtain ⟨k1, k2, k3⟩ := dumpAll_ok _ (fun e he => stored_sub (spots_sub _ _ e he).1 h1) hT hS
    refine ⟨further hE hk hA k1 (rep_open hw (fun _ _ _ _ _ => ?_) _), k2⟩
    refine stored_copied [] _ h1 k3 ?_
    intro e he x hx
    obtain ⟨k, hk⟩ := visits_contents hinv he hx
    exact henc k x hk

/-- **C137, success.**  When no `Save` fails, a dump succeeds, with or without callback. -/
theorem C137_success (hE : E.Lawful) (ops : List (SOp V)) (hk : ClearOps [] ops) (hA : Apart E (along ops))
    (D T : Disk) (hD : D.ok) (L : Limits) (again : Bool) (N : Bytes) (hN : Apt E N (treeOf ops)) (cb : Bool) :
    ∃ M, ∀ n, M ≤ n → ∃ S, (committed E L D again ops).1.dump E N noFaults (committed E L D again ops).2 cb n T = .ok S := by
  obtain ⟨hinv, -, -, -, -⟩ := committed_spec hE hk hA hD L again
  refine ⟨(spots [] (treeOf ops)).length, fun n hn => ?_⟩
  rcases dump_spec hE hk hA hD L again N hN noFaults cb T n hn with ⟨-, h3⟩ | ⟨-, h2⟩
  · exact ⟨_, h3⟩
  · rw [h2]
    refine dumpAll_total cb _ _ ?_
    intro e he hs
    obtain ⟨k, hk⟩ := (listing hinv).1 (entry0 e) (by rw [spots_visits]; exact List.mem_map_of_mem he) hs
    rw [hk, keyToPrefix_length]
    omega

/-- C137, the calls.  A dump that reports success has called the function with the keys in ascending order, each with the encoding of
its value; and before that, for a value at the empty key, once more without key.  No value is skipped, however it is encoded. -/
theorem C137_calls_partial (hE : E.Lawful) (ops : List (SOp V)) (hk : ClearOps [] ops) (hA : Apart E (along ops))
    (D T : Disk) (hD : D.ok) (L : Limits) (again : Bool) (N : Bytes) (hN : Apt E N (treeOf ops)) (F : Faults) :
    ∃ M l, Listing l (contents ops) ∧ ∀ n, M ≤ n → ∀ S, (committed E L D again ops).1.dump E N F (committed E L D again ops).2 true n T = .ok S →
      S.calls = (match contents ops [] with | some x => [(none, E.enc x)] | none => []) ++ l.map fun e => (some e.1, E.enc e.2) := by
  obtain ⟨hinv, -, -, -, -⟩ := committed_spec hE hk hA hD L again
  obtain ⟨l, h1, h2⟩ := calls_tree (E := E) hinv
  refine ⟨(spots [] (treeOf ops)).length, l, h1, fun n hn S hS => ?_⟩
  rw [← h2]
  rcases dump_spec hE hk hA hD L again N hN F true T n hn with ⟨⟨p, v, c, e1, e2⟩, h3⟩ | ⟨-, h3⟩
  · rw [h3] at hS
    cases hS
    obtain ⟨rfl, rfl, hc⟩ := (isEmpty_iff _ _ _).1 e2
    rw [treeOf] at e1
    rw [e1, spots_mk, spotsFrom, spots_nil_of fun i _ => by rw [hc]; rfl]
    rfl
  · rw [h3] at hS
    exact dumpAll_calls _ hS

/-! ### Cases -/

/-- The hash of nothing. -/
def toyN : Bytes := toyE.H []

/-- C137 fails for the calls if there is a value at the empty key: the function is called twice with it. -/
theorem C137_calls_refuted : ∃ ops : List (SOp Bytes), ClearOps [] ops ∧ Apart toyE (along ops) ∧ Apt toyE toyN (treeOf ops) ∧
    contents ops [] = some [1] ∧ (match (committed toyE realLimits freshDisk false ops).1.dump toyE toyN noFaults
      (committed toyE realLimits freshDisk false ops).2 true 9 freshDisk with
      | .ok S => decide (S.calls = [(none, [1]), (some [], [1]), (some [0x12], [2])])
      | _ => false) = true :=
  ⟨emptyKeyCalls, emptyKeyCalls_clear, apart_of (by decide +kernel) (by decide +kernel) (by decide +kernel), by unfold Apt; decide +kernel,
    by decide +kernel, by decide +kernel⟩

/-- A value whose encoding is empty. -/
def hollowCalls : List (SOp Bytes) := [.put [0x12] [], .put [0x34] [1]]

theorem hollowCalls_clear : ClearOps [] hollowCalls := by
  refine ⟨?_, ?_, trivial⟩ <;>
  · intro k hk
    simp [SOp.key] at hk
    subst hk
    right
    intro k' h1 h2
    simp [spec, specStep, SOp.call] at h1 <;> aesop

/-- C137 fails for a value whose encoding is empty: the dump reports success, and the copy does not have the value. -/
theorem C137_empty_refuted : ∃ ops : List (SOp Bytes), ClearOps [] ops ∧ Apart toyE (along ops) ∧ Apt toyE toyN (treeOf ops) ∧
    contents ops [0x12] = some [] ∧ ((after toyE freshDisk ops).t.get toyE (after toyE freshDisk ops).D [0x12]).2 = some [] ∧
    (match (committed toyE realLimits freshDisk false ops).1.dump toyE toyN noFaults (committed toyE realLimits freshDisk false ops).2 true 9 freshDisk with
      | .ok S => decide (((openTrie (some ((after toyE freshDisk ops).t.hash toyE).2)).get toyE S.disk [0x12]).2 = none)
      | _ => false) = true :=
  ⟨hollowCalls, hollowCalls_clear, apart_of (by decide +kernel) (by decide +kernel) (by decide +kernel), by unfold Apt; decide +kernel,
    by decide +kernel, by decide +kernel, by decide +kernel⟩

/-- The hypotheses hold for keys that share their beginnings. -/
example : Apt toyE toyN (treeOf nested) := by unfold Apt; decide +kernel

/-- The copy of four keys has the values; the calls come in the order of the keys. -/
example : (match (committed toyE realLimits freshDisk false nested).1.dump toyE toyN noFaults (committed toyE realLimits freshDisk false nested).2 true 9
        freshDisk with
      | .ok S => decide (((openTrie (some ((after toyE freshDisk nested).t.hash toyE).2)).get toyE S.disk [0x12, 0x34]).2 = some [2] ∧
          S.calls = [(some [0x11, 0xFF], [4]), (some [0x12], [1]), (some [0x12, 0x01], [3]), (some [0x12, 0x34], [2])])
      | _ => false) = true := by decide +kernel

/-- A `Save` that fails is reported. -/
example : (match (committed toyE realLimits freshDisk false nested).1.dump toyE toyN
        ⟨fun _ => false, fun h => decide (h = toyE.vh [3])⟩ (committed toyE realLimits freshDisk false nested).2 false 9 freshDisk with
      | .err => true
      | _ => false) = true := by decide +kernel

theorem filled_value {i : Info V} {c : Nib → BNode V} {x : V} (h : i.value = some x) : isEmptyB E i c = false := by
  simp [isEmptyB, h]

theorem filled_kid {i : Info V} {c : Nib → BNode V} {k : Nib} {i' : Info V} {c' : Nib → BNode V} (h : c k = .mk i' c') : isEmptyB E i c = false := by
  have : hasKids c = true := by
    cases hk : hasKids c with
    | true => rfl
    | false => rw [(hasKids_false c).1 hk k] at h; cases h
  simp [isEmptyB, this]

theorem insertF_dirty (D : Disk) (g : UInt64) (x : V) (f : Nat) (n : BNode V) (q : List Nib) (h : (insertF E D g x f n q).changed = true) :
    ∃ i c, (insertF E D g x f n q).node = .mk i c ∧ i.dirty = true ∧ isEmptyB E i c = false := by
  induction f generalizing n q with
  | zero => rw [insertF] at h; cases h
  | succ f ih =>
    rw [insertF] at h ⊢
    match hx : fullExpand E D g n with
    | (.nil, b) => rw [hx] at h; cases b <;> cases h
    | (.mk i c, false) => rw [hx] at h; cases h
    | (.mk i c, true) =>
      rw [hx] at h
      simp only at h ⊢
      simp only [insertAt] at h ⊢
      split
      · exact ⟨_, _, rfl, rfl, filled_value rfl⟩
      · next hq =>
        rw [if_neg hq] at h
        split
        · exact ⟨_, _, rfl, rfl, filled_value rfl⟩
        · next he =>
          rw [if_neg he] at h
          split
          · next hd =>
            simp only [hd] at h
            split
            · exact ⟨_, _, rfl, rfl, filled_value rfl⟩
            · next k q' hd' =>
              simp only [hd'] at h
              split
              · exact ⟨_, _, rfl, rfl, filled_kid (k := k) (by simp only [setKid, if_pos, leafB]; rfl)⟩
              · next hk =>
                rw [if_neg hk] at h
                obtain ⟨i', c', e, -, -⟩ := ih (c k) q' h
                refine ⟨_, _, rfl, ?_, filled_kid (k := k) (i' := i') (c' := c') (by simp only [setKid, if_pos]; exact e)⟩
                simp only at h
                rw [if_pos h]; rfl
          · next j p' hd =>
            split
            · exact ⟨_, _, rfl, rfl, filled_value rfl⟩
            · next k q' hd' => exact ⟨_, _, rfl, rfl, filled_kid (k := k) (by simp only [setKid, if_pos, leafB]; rfl)⟩

/-- **C137, changes.**  A trie in which a value has just been stored is not dumped: whatever trie, storage and destination, the dump fails. -/
theorem C137_uncommitted (D : Disk) (t : BTrie V) (key : Bytes) (x : V) (h : (t.put E D key x).2 = true) (N : Bytes) (F : Faults) (cb : Bool)
    (fuel : Nat) (dst : Disk) : (t.put E D key x).1.dump E N F D cb fuel dst = .err := by
  obtain ⟨i, c, e, hd, he⟩ := insertF_dirty D t.gen x _ t.root (keyToPrefix key) h
  have : (t.put E D key x).1.root = .mk i c := e
  rw [BTrie.dump, this]
  simp only [he, hd]
  rfl

/-- A trie with changes that have not been committed is refused. -/
example : (match (after toyE freshDisk nested).t.dump toyE toyN noFaults (after toyE freshDisk nested).D true 9 freshDisk with
      | .err => true
      | _ => false) = true := by decide +kernel

end Verif.Trie.Store

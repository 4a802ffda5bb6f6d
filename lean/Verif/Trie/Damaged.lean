import Verif.Trie.StoreProps
import Verif.Trie.Binding

/-!
# Property C169: a trie over a storage that is not to be trusted

A trie is opened at a root hash and reads its nodes and values from a storage (`/repo/trie/trie.go:575-617`,
`/repo/trie/node.go:476-512`).  The code looks up bytes under a hash and decodes them; it does not compute the hash of what
it has read.  The storage here is an arbitrary function from keys to bytes.

Nothing is modelled anew: `openTrie`, `BTrie.get`, `BTrie.hash` of `Verif.Trie.Store`.  Simplifications as there.
-/

namespace Verif.Trie.Store.Damaged
open Verif Verif.Merkle Verif.Trie Verif.Trie.Store

variable {V : Type} {E : Env V} {D : Disk}

/-! ### Calls of Get one after the other -/

/-- The answers of calls of `Get`. -/
def gets (E : Env V) (D : Disk) : BTrie V → List Bytes → List (Option V)
  | _, [] => []
  | t, k :: ks => (t.get E D k).2 :: gets E D (t.get E D k).1 ks

/-- The trie after calls of `Get`. -/
def after (E : Env V) (D : Disk) (t : BTrie V) (ks : List Bytes) : BTrie V := ks.foldl (fun t k => (t.get E D k).1) t

/-! ### A forged entry for the root -/

/-- Two nodes alike but for their cached hash. -/
inductive Alike (h h' : Bytes) : BNode V → BNode V → Prop
  | mk (i : Info V) (c : Nib → BNode V) : Alike h h' (.mk { i with hash := some h } c) (.mk { i with hash := some h' } c)

/-- A node with the hash of the empty trie. -/
def HasEmptyHash (E : Env V) (b : BNode V) : Prop := ∃ i c, b = .mk i c ∧ i.hash = some (emptyHash E)

theorem expandValue_alike {h h' : Bytes} (i : Info V) (c : Nib → BNode V) :
    ∃ (i2 : Info V) (ok : Bool), expandValue E D { i with hash := some h } c = (.mk { i2 with hash := some h } c, ok) ∧
      expandValue E D { i with hash := some h' } c = (.mk { i2 with hash := some h' } c, ok) := by
  unfold expandValue
  have e : ∀ x, isValueCollapsed { i with hash := x } = isValueCollapsed i := fun _ => rfl
  rw [e (some h), e (some h')]
  cases isValueCollapsed i with
  | true =>
    simp only [if_true]
    cases D.values with
    | none => exact ⟨i, true, rfl, rfl⟩
    | some f =>
      simp only
      cases (load f i.vhash).bind E.dec with
      | none => exact ⟨i, false, rfl, rfl⟩
      | some x => exact ⟨{ i with value := some x }, true, rfl, rfl⟩
  | false => exact ⟨i, true, rfl, rfl⟩

theorem expandValue_hash (i : Info V) (c : Nib → BNode V) :
    ∃ (i2 : Info V) (ok : Bool), expandValue E D i c = (.mk i2 c, ok) ∧ i2.hash = i.hash := by
  unfold expandValue
  split
  · cases D.values with
    | none => exact ⟨i, true, rfl, rfl⟩
    | some f =>
      simp only
      cases (load f i.vhash).bind E.dec with
      | none => exact ⟨i, false, rfl, rfl⟩
      | some x => exact ⟨{ i with value := some x }, true, rfl, rfl⟩
  · exact ⟨i, true, rfl, rfl⟩

theorem afterDecode_alike {h h' : Bytes} (hn : isEmptyNodeHash E (some h) = false) (hn' : isEmptyNodeHash E (some h') = false)
    (i : Info V) (c : Nib → BNode V) :
    ∃ (ok : Bool) (x y : BNode V), afterDecode E D (.mk { i with hash := some h } c) = (x, ok) ∧
      afterDecode E D (.mk { i with hash := some h' } c) = (y, ok) ∧ (x = y ∧ HasEmptyHash E y ∨ Alike h h' x y) := by
  simp only [afterDecode]
  have e : inErrorStatus E { i with hash := some h } c = inErrorStatus E { i with hash := some h' } c := by
    simp [inErrorStatus, hn, hn', isValueCollapsed]
  rw [e]
  cases hb : inErrorStatus E { i with hash := some h' } c with
  | true =>
    simp only [if_true]
    split
    · exact ⟨_, _, _, rfl, rfl, Or.inl ⟨rfl, _, _, rfl, rfl⟩⟩
    · obtain ⟨i2, ok, h1, h2⟩ := expandValue_hash (E := E) (D := D) { i with hash := some (emptyHash E) } c
      exact ⟨ok, _, _, h1, h1, Or.inl ⟨rfl, _, _, rfl, h2⟩⟩
  | false =>
    simp only [Bool.false_eq_true, if_false]
    have e2 : isCollapsed E { i with hash := some h } c = isCollapsed E { i with hash := some h' } c := by
      simp [isCollapsed, hn, hn']
    rw [e2]
    split
    · exact ⟨false, _, _, rfl, rfl, Or.inr (.mk i c)⟩
    · obtain ⟨i2, ok, h1, h2⟩ := expandValue_alike (E := E) (D := D) (h := h) (h' := h') i c
      exact ⟨ok, _, _, h1, h2, Or.inr (.mk i2 c)⟩

theorem deserB_alike (i : Info V) (c : Nib → BNode V) (bs : Bytes) :
    (∃ (i2 : Info V) (c2 : Nib → BNode V), ∀ x, deserB E { i with hash := some x } c bs =
      some (.mk { i2 with hash := some x } c2)) ∨ ∀ x, deserB E { i with hash := some x } c bs = none := by
  unfold deserB
  cases Header.deser E.R bs with
  | none => exact Or.inr fun _ => rfl
  | some hr =>
    simp only [Option.bind_some]
    cases hk : (if ntHasChildren hr.1.nt then (readKids hr.1 nibbles hr.2).map fun r => (kidsOf i.gen r.1, r.2)
        else some (c, hr.2)) with
    | none => exact Or.inr fun _ => rfl
    | some k =>
      simp only [Option.bind_some]
      cases hv : readValueHash hr.1.nt i.vhash k.2 with
      | none => exact Or.inr fun _ => rfl
      | some w => exact Or.inl ⟨{ i with pre := hr.1.prefix, vhash := w }, k.1, fun _ => rfl⟩

theorem fullExpand_alike {h h' : Bytes} (hn : isEmptyNodeHash E (some h) = false) (hn' : isEmptyNodeHash E (some h') = false)
    {f : Bytes → Option Bytes} (hf : D.nodes = some f) (hb : f h = f h') (g : UInt64) {x y : BNode V} (ha : Alike h h' x y) :
    ∃ (ok : Bool) (x' y' : BNode V), fullExpand E D g x = (x', ok) ∧ fullExpand E D g y = (y', ok) ∧
      (x' = y' ∧ HasEmptyHash E y' ∨ Alike h h' x' y') := by
  obtain ⟨i, c⟩ := ha
  simp only [fullExpand]
  have e2 : isCollapsed E { i with hash := some h } c = isCollapsed E { i with hash := some h' } c := by
    simp [isCollapsed, hn, hn']
  rw [e2]
  split
  · simp only [expandNode, hf, load, Option.getD_some, hb]
    cases f h' with
    | none => exact ⟨false, _, _, rfl, rfl, Or.inr (.mk { i with gen := g } c)⟩
    | some bs =>
      simp only [Option.bind_some]
      rcases deserB_alike (E := E) { i with gen := g } c bs with ⟨i2, c2, hd⟩ | hd
      · have h1 := hd h
        have h2 := hd h'
        simp only at h1 h2
        rw [h1, h2]
        exact afterDecode_alike hn hn' i2 c2
      · have h1 := hd h
        have h2 := hd h'
        simp only at h1 h2
        rw [h1, h2]
        exact ⟨false, _, _, rfl, rfl, Or.inr (.mk { i with gen := g } c)⟩
  · obtain ⟨i2, ok, h1, h2⟩ := expandValue_alike (E := E) (D := D) (h := h) (h' := h') i c
    exact ⟨ok, _, _, h1, h2, Or.inr (.mk i2 c)⟩

theorem isEmptyB_hash {h : Bytes} (hn : isEmptyNodeHash E (some h) = false) (i : Info V) (c : Nib → BNode V) :
    isEmptyB E { i with hash := some h } c = false := by
  simp [isEmptyB, hn]

theorem getF_keeps (g : UInt64) (n : Nat) (b : BNode V) (q : List Nib) {i : Info V} {c : Nib → BNode V} {ok : Bool}
    (hb : fullExpand E D g b = (.mk i c, ok)) : ∃ c', (getF E D g (n + 1) b q).1 = .mk i c' := by
  rw [getF, hb]
  cases ok with
  | false => exact ⟨c, rfl⟩
  | true =>
    simp only
    split
    · exact ⟨c, rfl⟩
    · split
      · exact ⟨c, rfl⟩
      · split
        · split
          · exact ⟨c, rfl⟩
          · split
            · exact ⟨c, rfl⟩
            · exact ⟨_, rfl⟩
        · exact ⟨c, rfl⟩

/-- Bytes that are found under two hashes: tries opened at them give the same values and stay alike. -/
theorem getB_alike {h h' : Bytes} (hn : isEmptyNodeHash E (some h) = false) (hn' : isEmptyNodeHash E (some h') = false)
    {f : Bytes → Option Bytes} (hf : D.nodes = some f) (hb : f h = f h') (g : UInt64) (q : List Nib) {x y : BNode V}
    (ha : Alike h h' x y) :
    (getB E D g x q).2 = (getB E D g y q).2 ∧
      (HasEmptyHash E (getB E D g y q).1 ∨ Alike h h' (getB E D g x q).1 (getB E D g y q).1) := by
  obtain ⟨ok, x', y', h1, h2, h3⟩ := fullExpand_alike (g := g) hn hn' hf hb ha
  rcases h3 with ⟨rfl, i, c, rfl, hi⟩ | ⟨i, c⟩
  · constructor
    · rw [getB, getB, getF, getF, h1, h2]
    · left
      obtain ⟨c', hc⟩ := getF_keeps g q.length y q h2
      exact ⟨i, c', hc, hi⟩
  · rw [getB, getB, getF, getF, h1, h2]
    cases ok with
    | false => exact ⟨rfl, Or.inr (.mk i c)⟩
    | true =>
      simp only [isEmptyB_hash hn, isEmptyB_hash hn', Bool.false_eq_true, if_false]
      split
      · exact ⟨rfl, Or.inr (.mk i c)⟩
      · split
        · split
          · exact ⟨rfl, Or.inr (.mk i c)⟩
          · split
            · exact ⟨rfl, Or.inr (.mk i c)⟩
            · exact ⟨rfl, Or.inr (.mk i _)⟩
        · exact ⟨rfl, Or.inr (.mk i c)⟩

/-- What has been read of a stored tree that is not empty keeps its hash. -/
theorem rep_hash {b : BNode V} {a : Node V} (hr : Rep E D b a) (hst : Stored E D a) : ¬ HasEmptyHash E b := by
  rintro ⟨i, c, rfl, hi⟩
  obtain ⟨p, v, k, rfl, h⟩ := hr
  have hne := hst.2.2.1
  rcases h with h | ⟨h, -⟩
  · rw [h.hash, Option.some.injEq] at hi
    exact hne hi
  · exact hne (h.hash _ hi).symm

/-- **C169 fails.** For every root hash and every other tree there is a storage entry, put under the root, over which the
trie opened at the root answers every call of `Get` as the other tree does, and still has the root as its hash.  The bytes
are looked up under a hash but their hash is never computed. -/
theorem C169_forged_refuted (hE : E.Lawful) (root : Bytes) (hl : root.length = 32) (hne : root ≠ emptyHash E)
    (b : Node V) (hw : WFRoot b) (hst : Stored E D b) (f : Bytes → Option Bytes) (hf : D.nodes = some f)
    (hforged : f root = f (nh E b)) (ks : List Bytes) :
    gets E D (openTrie (some root)) ks = ks.map (fun k => get b (keyToPrefix k)) ∧
      ((after E D (openTrie (some root)) ks).hash E).2 = root := by
  have hn : isEmptyNodeHash E (some root) = false := by simp [isEmptyNodeHash, hl, hne]
  have hs : b.isSome = true := by
    cases b with
    | nil => exact hw.elim
    | mk p v c => rfl
  have hn' : isEmptyNodeHash E (some (nh E b)) = false := by
    rw [isEmptyNodeHash_some hE]
    cases b with
    | nil => exact hw.elim
    | mk p v c => simpa using hst.2.2.1
  have main : ∀ (ks : List Bytes) (t t' : BTrie V), t.gen = t'.gen → Alike root (nh E b) t.root t'.root → Rep E D t'.root b →
      gets E D t ks = ks.map (fun k => get b (keyToPrefix k)) ∧ ((after E D t ks).hash E).2 = root := by
    intro ks
    induction ks with
    | nil =>
      intro t t' _ ha _
      refine ⟨rfl, ?_⟩
      show hashOf E t.root = root
      obtain ⟨r, n, g⟩ := t
      obtain ⟨r', n', g'⟩ := t'
      simp only at ha
      obtain ⟨i, c⟩ := ha
      simp [hashOf, Store.hashed, cached]
    | cons k ks ih =>
      intro t t' hg ha hr
      obtain ⟨h1, h2⟩ := getB_alike (g := t.gen) (q := keyToPrefix k) hn hn' hf hforged ha
      obtain ⟨h3, h4⟩ := getF_spec hE t.gen ((keyToPrefix k).length + 1) (keyToPrefix k) (by omega) hr hw
      have h5 : Alike root (nh E b) (getB E D t.gen t.root (keyToPrefix k)).1 (getB E D t.gen t'.root (keyToPrefix k)).1 := by
        rcases h2 with h2 | h2
        · exact absurd h2 (rep_hash h4 hst)
        · exact h2
      obtain ⟨i1, i2⟩ := ih (t.get E D k).1 (t'.get E D k).1 hg (by rw [BTrie.get, BTrie.get, ← hg]; exact h5)
        (by rw [BTrie.get, ← hg]; exact h4)
      refine ⟨?_, i2⟩
      rw [gets, List.map_cons, i1]
      congr 1
      rw [BTrie.get]
      exact h1.trans h3
  exact main ks (openTrie (some root)) (openTrie (some (nh E b))) rfl (.mk ⟨[], none, false, none, none, none, 1⟩ noKids)
    (rep_new hs hst)

/-- **C169 fails** for lost entries too: over a storage that has lost the root every key is absent, without an error. -/
theorem C169_lost_refuted (root : Bytes) (hl : root.length = 32) (hne : root ≠ emptyHash E) (f : Bytes → Option Bytes)
    (hf : D.nodes = some f) (hlost : f root = none) (ks : List Bytes) :
    gets E D (openTrie (some root)) ks = ks.map (fun _ => none) ∧ ((after E D (openTrie (some root)) ks).hash E).2 = root := by
  have hn : isEmptyNodeHash E (some root) = false := by simp [isEmptyNodeHash, hl, hne]
  have hstep : ∀ (t : BTrie V) (k : Bytes), t.root = newNode (some root) t.gen → t.get E D k = (t, none) := by
    intro t k ht
    have : getB E D t.gen t.root (keyToPrefix k) = (newNode (some root) t.gen, none) := by
      rw [ht, getB, getF]
      have : fullExpand E D t.gen (newNode (some root) t.gen) = ((newNode (some root) t.gen : BNode V), false) := by
        rw [newNode, fullExpand, if_pos, expandNode, hf]
        · simp [load, hlost]
        · rw [isCollapsed, hn, (hasKids_false noKids).2 fun _ => rfl]; rfl
      rw [this]
      rfl
    rw [BTrie.get, this]
    simp only [← ht]
  have main : ∀ (ks : List Bytes) (t : BTrie V), t.root = newNode (some root) t.gen →
      gets E D t ks = ks.map (fun _ => none) ∧ after E D t ks = t := by
    intro ks
    induction ks with
    | nil => intro t _; exact ⟨rfl, rfl⟩
    | cons k ks ih =>
      intro t ht
      obtain ⟨h1, h2⟩ := ih t ht
      rw [gets, after, List.foldl_cons, hstep t k ht]
      exact ⟨by rw [h1]; rfl, h2⟩
  obtain ⟨h1, h2⟩ := main ks (openTrie (some root)) rfl
  refine ⟨h1, ?_⟩
  rw [h2]
  rfl

/-- **C169.** Over a storage that has lost the root `Put` changes nothing and answers false, and `Delete` likewise; the flag is
the only sign of the loss. -/
theorem C169_lost_writes (root : Bytes) (hl : root.length = 32) (hne : root ≠ emptyHash E) (f : Bytes → Option Bytes)
    (hf : D.nodes = some f) (hlost : f root = none) (k : Bytes) (x : V) :
    (openTrie (some root)).put E D k x = (openTrie (some root), false) ∧
      (openTrie (some root)).del E D k = some (openTrie (some root), false, none) := by
  have hn : isEmptyNodeHash E (some root) = false := by simp [isEmptyNodeHash, hl, hne]
  have he : fullExpand E D 1 (newNode (some root) 1) = ((newNode (some root) 1 : BNode V), false) := by
    rw [newNode, fullExpand, if_pos, expandNode, hf]
    · simp [load, hlost]
    · rw [isCollapsed, hn, (hasKids_false noKids).2 fun _ => rfl]; rfl
  constructor
  · rw [BTrie.put, openTrie]
    simp only
    rw [insertF, he]
    simp [newNode]
  · rw [BTrie.del, openTrie]
    simp only
    rw [deleteF, he]
    simp [newNode]

/-! ### Storage whose entries have been checked -/

/-- The content of a stored node, as an auditor reads it: header, a hash for every child, and the hash of the value. -/
structure Entry where
  header : Header
  kids : Nib → Bytes
  vhash : Option Bytes

/-- The children the header names. -/
def Entry.ids (e : Entry) : List Nib := nibbles.filter fun j => e.header.hasChild j

/-- The bytes of an entry. -/
def Entry.bytes (R : Rtl) (e : Entry) : Bytes := e.header.ser R ++ e.ids.flatMap e.kids ++ e.vhash.getD []

/-- The hash of an entry. -/
def Entry.hash (H : Bytes → Bytes) (R : Rtl) (e : Entry) : Bytes := makeHash H R e.header e.vhash (e.ids.map e.kids)

/-- What the hash of an entry feeds to the digest. -/
def Entry.inputs (H : Bytes → Bytes) (R : Rtl) (e : Entry) : List Bytes :=
  [e.header.ser R, e.header.hash H R ++ orNil H e.vhash] ++
    (if ntHasChildren e.header.nt then
      (hashPair H (e.header.hash H R) (orNil H e.vhash) ++ (merkleHashComplete H (e.ids.map e.kids) (-1) none).1) ::
        minputs H (depthOf e.ids.length) (leaves (H []) (e.ids.map e.kids))
    else [])

/-- The entry is one that could have been written: hashes of 32 bytes, a value hash exactly if the header says so, no header
of 64 bytes. -/
structure Entry.Proper (R : Rtl) (e : Entry) : Prop where
  normal : e.header.Normal
  kids : ∀ j, (e.kids j).length = 32
  value : ∀ x, e.vhash = some x → x.length = 32
  hasValue : ntHasValue e.header.nt = e.vhash.isSome
  no64 : (e.header.ser R).length ≠ 64

/-- Every node in the storage has the hash it is stored under, and every value that can be read has its own. -/
structure Audited (E : Env V) (D : Disk) : Prop where
  nodes : ∀ f k bs, D.nodes = some f → f k = some bs → ∃ (e : Entry) (rest : Bytes), e.Proper E.R ∧ bs = e.bytes E.R ++ rest ∧
    e.hash E.H E.R = k
  values : ∀ f k bs x, D.values = some f → f k = some bs → E.dec bs = some x → E.vh x = k

/-- No entry of the storage collides with something hashed in the tree. -/
def Clean (E : Env V) (D : Disk) (a : Node V) : Prop :=
  ∀ f k (e : Entry) rest, D.nodes = some f → f k = some (e.bytes E.R ++ rest) → e.Proper E.R → e.hash E.H E.R = k →
    ¬ Collision E.H (inputs E.H E.R E.vh a) (e.inputs E.H E.R)

/-- An entry with the hash of a node is that node. -/
theorem entry_binding (hE : E.Lawful) {e : Entry} (he : e.Proper E.R) {p : List Nib} {v : Option V} {c : Nib → Node V}
    (h64 : ((headerOf p v c).ser E.R).length ≠ 64) (h : e.hash E.H E.R = nh E (.mk p v c)) :
    (e.header.prefix = p ∧ (∀ j, e.header.hasChild j = (c j).isSome) ∧ e.vhash = v.map E.vh ∧
      ntHasChildren e.header.nt = hasChildren c ∧ ∀ j, (c j).isSome = true → e.kids j = nh E (c j)) ∨
      Collision E.H (inputs E.H E.R E.vh (.mk p v c)) (e.inputs E.H E.R) := by
  have hH := hE.hH
  have hh : ((headerOf p v c).hash E.H E.R).length = 32 := hH _
  have hh' : (e.header.hash E.H E.R).length = 32 := hH _
  have left : leftHash E.H E.R E.vh p v c = hashPair E.H (e.header.hash E.H E.R) (orNil E.H e.vhash) →
      (e.header.prefix = p ∧ (∀ j, e.header.hasChild j = (c j).isSome) ∧ e.vhash = v.map E.vh ∧
        ntHasChildren e.header.nt = hasChildren c) ∨ Collision E.H (inputs E.H E.R E.vh (.mk p v c)) (e.inputs E.H E.R) := by
    intro q
    rcases pair_or_collision (hh.trans hh'.symm) q with ⟨e1, e2⟩ | hc
    · rcases same_or_collision e1 with e3 | hc
      · obtain ⟨f1, f2, f3⟩ := same_header hE.hR e3
        refine Or.inl ⟨?_, ?_, ?_, ?_⟩
        · rw [← f2, headerOf_prefix]
        · intro j; rw [← f3 j, headerOf_child]
        · have f4 := congrArg ntHasValue f1
          rw [headerOf_hasValue, he.hasValue] at f4
          cases v with
          | none => cases hv' : e.vhash with
            | none => rfl
            | some y => rw [hv'] at f4; simp at f4
          | some x => cases hv' : e.vhash with
            | none => rw [hv'] at f4; simp at f4
            | some y =>
              rw [hv'] at e2
              simp only [valueHashOf, orNil, Option.map_some, Option.getD_some, toHash_of_len (hE.hv _)] at e2
              simp [e2]
        · rw [← f1, headerOf_children]
      · refine Or.inr (hc.mono ?_ ?_) <;> simp [inputs, Entry.inputs]
    · refine Or.inr (hc.mono ?_ ?_) <;> simp [inputs, Entry.inputs]
  have h := h.symm
  rw [nh, nodeHash_mk, Entry.hash, makeHash] at h
  cases hc : hasChildren c with
  | false =>
    have hnone : ∀ j, (c j).isSome = false := fun j => by rw [(hasChildren_false c).1 hc j]; rfl
    cases hc' : ntHasChildren e.header.nt with
    | false =>
      simp only [hc, hc', Bool.false_eq_true, if_false] at h
      rcases left h with ⟨h1, h2, h3, h4⟩ | hcol
      · exact Or.inl ⟨h1, h2, h3, rfl, fun j hj => by rw [hnone j] at hj; cases hj⟩
      · exact Or.inr hcol
    | true =>
      simp only [hc, hc', Bool.false_eq_true, if_false, if_true] at h
      right
      rcases pair_or_collision (H := E.H) (by rw [hh]; exact (hH _).symm) h with ⟨e1, e2⟩ | hcol
      · refine ⟨(headerOf p v c).ser E.R, by simp [inputs], e.header.hash E.H E.R ++ orNil E.H e.vhash,
          by simp [Entry.inputs], ?_, e1⟩
        intro q
        apply h64
        rw [q, List.length_append, hh', orNil_len hH he.value]
      · exact hcol.mono (by simp [inputs]) (by simp [Entry.inputs, hc'])
  | true =>
    cases hc' : ntHasChildren e.header.nt with
    | false =>
      simp only [hc, hc', Bool.false_eq_true, if_false, if_true] at h
      right
      rcases pair_or_collision (H := E.H) (by rw [hh']; exact (hH _)) h with ⟨e1, e2⟩ | hcol
      · refine ⟨(headerOf p v c).hash E.H E.R ++ orNil E.H (valueHashOf E.vh v), by simp [inputs],
          e.header.ser E.R, by simp [Entry.inputs], ?_, e1⟩
        intro q
        apply he.no64
        rw [← q, List.length_append, hh, orNil_len hH (valueHashOf_len v)]
      · exact hcol.mono (by simp [inputs, hc]) (by simp [Entry.inputs])
    | true =>
      simp only [hc, hc', if_true] at h
      rcases pair_or_collision (H := E.H) (by rw [leftHash, hashPair, hashPair, hH, hH]) h with ⟨e1, e2⟩ | hcol
      · rcases left e1 with ⟨h1, h2, h3, h4⟩ | hcol
        · have hids : e.ids = childIds c := by
            rw [Entry.ids, childIds]
            congr 1
            funext j
            exact h2 j
          have hl1 : (childHashes E.H E.R E.vh c).length = (childIds c).length := by simp [childHashes]
          have hl2 : (e.ids.map e.kids).length = (childIds c).length := by simp [hids]
          rcases C29_complete_binding E.H hH (childHashes E.H E.R E.vh c) (e.ids.map e.kids) (childHashes_len hH c)
            (by intro x hx; obtain ⟨j, -, rfl⟩ := List.mem_map.1 hx; exact he.kids j)
            (hl1.trans hl2.symm) (depthOf (childIds c).length) (hl1 ▸ depthOf_spec _) e2 with e5 | hcol
          · left
            refine ⟨h1, h2, h3, rfl, fun j hj => ?_⟩
            rw [childHashes, hids] at e5
            exact (List.map_inj_left.1 e5 j ((mem_childIds c j).2 hj)).symm
          · right
            refine hcol.mono ?_ ?_
            · intro x hx
              simp only [inputs, hc, if_true, List.mem_cons, List.mem_append]
              exact Or.inr (Or.inr (Or.inr (Or.inl hx)))
            · intro x hx
              simp only [Entry.inputs, hc', if_true, List.mem_cons, List.mem_append, hids]
              exact Or.inr (Or.inr (by rw [hids] at hx; exact hx))
        · exact Or.inr hcol
      · exact Or.inr (hcol.mono (by simp [inputs, hc]) (by simp [Entry.inputs, hc']))

/-- Reading the bytes of an entry. -/
theorem deserB_entry (hE : E.Lawful) (i : Info V) (d : Nib → BNode V) (hd : ∀ j, d j = .nil) (hvh : i.vhash = none)
    {e : Entry} (he : e.Proper E.R) (rest : Bytes) :
    deserB E i d (e.bytes E.R ++ rest) = some (.mk { i with pre := e.header.prefix, vhash := e.vhash }
      (fun j => if e.header.hasChild j then newNode (some (e.kids j)) i.gen else .nil)) := by
  rw [deserB, Entry.bytes, List.append_assoc, List.append_assoc, C15_roundtrip _ hE.hR _ he.normal]
  simp only [Option.bind_some]
  have hkids := readKids_spec e.header e.kids he.kids (e.vhash.getD [] ++ rest) nibbles
  have hvr : readValueHash e.header.nt i.vhash (e.vhash.getD [] ++ rest) = some e.vhash := by
    rw [readValueHash, he.hasValue]
    cases hv : e.vhash with
    | none => simp [hvh]
    | some x =>
      have := he.value x hv
      simp only [Option.isSome_some, if_true, Option.getD_some, List.length_append]
      rw [if_neg (by omega), List.take_left' this]
  have hkid : (fun j => if e.header.hasChild j then newNode (some (e.kids j)) i.gen else .nil) =
      (kidsOf i.gen (e.ids.map fun j => (j, e.kids j)) : Nib → BNode V) := by
    funext j
    rw [kidsOf_spec i.gen e.kids]
    by_cases hj : e.header.hasChild j = true
    · rw [if_pos hj, if_pos (by simp [Entry.ids, hj, mem_nibbles])]
    · rw [if_neg hj, if_neg (by simp [Entry.ids, hj])]
  by_cases hc : ntHasChildren e.header.nt = true
  · rw [if_pos hc]
    change (Option.map _ (readKids e.header nibbles (e.ids.flatMap e.kids ++ _))).bind _ = _
    rw [show e.ids = nibbles.filter (fun j => e.header.hasChild j) from rfl, hkids]
    simp only [Option.map_some, Option.bind_some, hvr]
    rw [hkid]
    rfl
  · have hnone : ∀ j, e.header.hasChild j = false := by
      intro j
      simp [Header.hasChild, hc]
    have hids : e.ids = [] := by simp [Entry.ids, hnone]
    rw [if_neg hc, hids]
    simp only [List.flatMap_nil, List.nil_append, Option.bind_some, hvr, Option.map_some]
    congr 2
    funext j
    simp [hnone, hd j]

/-- What is read from a checked storage: the node, as far as it has been read, is that of the tree; a value has the hash the
value of the tree has. -/
def Bound (E : Env V) : BNode V → Node V → Prop
  | .nil, a => a = .nil
  | .mk i d, a => ∃ p v c, a = .mk p v c ∧
      ((i.hash = some (nh E a) ∧ i.value = none ∧ i.vhash = none ∧ ∀ j, d j = .nil) ∨
        (i.pre = p ∧ (i.hash = some (nh E a) ∨ i.hash = some (emptyHash E)) ∧ i.vhash = v.map E.vh ∧
          (∀ x, i.value = some x → i.vhash = some (E.vh x)) ∧ ∀ j, Bound E (d j) (c j)))

theorem Bound.isSome {b : BNode V} {a : Node V} (h : Bound E b a) : b.isSome = a.isSome := by
  cases b with
  | nil => rw [show a = .nil from h]; rfl
  | mk i d => obtain ⟨p, v, c, rfl, -⟩ := h; rfl

/-- A node that has been read. -/
def Read (E : Env V) (i : Info V) (d : Nib → BNode V) (p : List Nib) (v : Option V) (c : Nib → Node V) : Prop :=
  i.pre = p ∧ (i.hash = some (nh E (.mk p v c)) ∨ i.hash = some (emptyHash E)) ∧ i.vhash = v.map E.vh ∧
    (∀ x, i.value = some x → i.vhash = some (E.vh x)) ∧ ∀ j, Bound E (d j) (c j)

theorem Read.bound {i : Info V} {d : Nib → BNode V} {p : List Nib} {v : Option V} {c : Nib → Node V} (h : Read E i d p v c) :
    Bound E (.mk i d) (.mk p v c) := ⟨p, v, c, rfl, Or.inr h⟩

theorem expandValue_read (hA : Audited E D) {i : Info V} {d : Nib → BNode V} {p : List Nib} {v : Option V} {c : Nib → Node V}
    (h : Read E i d p v c) : ∃ i' ok, expandValue E D i d = (.mk i' d, ok) ∧ Read E i' d p v c := by
  unfold expandValue
  split
  · cases hf : D.values with
    | none => exact ⟨i, true, rfl, h⟩
    | some f =>
      simp only
      cases hl : (load f i.vhash).bind E.dec with
      | none => exact ⟨i, false, rfl, h⟩
      | some x =>
        refine ⟨{ i with value := some x }, true, rfl, h.1, h.2.1, h.2.2.1, ?_, h.2.2.2.2⟩
        intro y hy
        simp only [Option.some.injEq] at hy
        subst hy
        rename_i hcol
        simp only [load] at hl
        obtain ⟨bs, hb, hx⟩ := Option.bind_eq_some_iff.1 hl
        have := hA.values f _ bs x hf hb hx
        cases hv : i.vhash with
        | none => rw [isValueCollapsed, hv] at hcol; simp at hcol
        | some w => rw [hv] at this; simpa using this.symm
  · exact ⟨i, true, rfl, h⟩

theorem inputs_child {H : Bytes → Bytes} {R : Rtl} {vh : V → Bytes} {p : List Nib} {v : Option V} {c : Nib → Node V} {j : Nib}
    (hj : (c j).isSome = true) {x : Bytes} (hx : x ∈ inputs H R vh (c j)) : x ∈ inputs H R vh (.mk p v c) := by
  have hc : hasChildren c = true := (hasChildren_iff c).2 ⟨j, hj⟩
  simp only [inputs, hc, if_true, List.mem_cons, List.mem_append, List.mem_flatMap]
  exact Or.inr (Or.inr (Or.inr (Or.inr ⟨j, (mem_childIds c j).2 hj, hx⟩)))

theorem Clean.child {p : List Nib} {v : Option V} {c : Nib → Node V} (h : Clean E D (.mk p v c)) {j : Nib}
    (hj : (c j).isSome = true) : Clean E D (c j) := by
  intro f k e rest hf hb hp hh hcol
  exact h f k e rest hf hb hp hh (hcol.mono (fun x hx => inputs_child hj hx) (fun y hy => hy))

/-- Expanding over a checked storage: what has been read is the node of the tree, or nothing has been read. -/
theorem fullExpand_bound (hE : E.Lawful) (hA : Audited E D) (g : UInt64) {b : BNode V} {p : List Nib} {v : Option V}
    {c : Nib → Node V} (h : Bound E b (.mk p v c)) (h64 : ((headerOf p v c).ser E.R).length ≠ 64) (hC : Clean E D (.mk p v c)) :
    ∃ i d ok, fullExpand E D g b = (.mk i d, ok) ∧ Bound E (.mk i d) (.mk p v c) ∧
      (ok = true → Read E i d p v c ∨ i.value = none ∧ ∀ j, d j = .nil) := by
  cases b with
  | nil => exact absurd (show Node.mk p v c = .nil from h) (by simp)
  | mk i d =>
    have hb := h
    obtain ⟨p', v', c', he, h⟩ := h
    cases he
    rw [fullExpand]
    cases hcol : isCollapsed E i d with
    | false =>
      simp only [Bool.false_eq_true, if_false]
      rcases h with ⟨h1, h2, h3, h4⟩ | h
      · refine ⟨i, d, true, ?_, hb, fun _ => Or.inr ⟨h2, h4⟩⟩
        rw [expandValue, if_neg]
        simp [isValueCollapsed, h3]
      · obtain ⟨i', ok, e1, e2⟩ := expandValue_read (D := D) hA h
        exact ⟨i', d, ok, e1, e2.bound, fun _ => Or.inl e2⟩
    | true =>
      simp only [if_true]
      have hcol' := hcol
      simp only [isCollapsed, Bool.and_eq_true, Bool.not_eq_true', decide_eq_true_eq, Option.isNone_iff_eq_none] at hcol'
      obtain ⟨⟨⟨q1, q2⟩, q3⟩, q4⟩ := hcol'
      have hk := (hasKids_false d).1 q2
      have hv : i.vhash = none ∧ i.hash = some (nh E (.mk p v c)) := by
        rcases h with ⟨h1, -, h3, -⟩ | ⟨-, h1, h3, -⟩
        · exact ⟨h3, h1⟩
        · constructor
          · rw [h3] at q4 ⊢
            cases v with
            | none => rfl
            | some x => simp [hE.hv] at q4
          · rcases h1 with h1 | h1
            · exact h1
            · rw [h1] at q1
              simp [isEmptyNodeHash] at q1
      obtain ⟨hvh, hh⟩ := hv
      have hsame : Bound E (.mk { i with gen := g } d) (.mk p v c) := ⟨p, v, c, rfl, Or.inl ⟨hh, q3, hvh, hk⟩⟩
      rw [expandNode]
      cases hf : D.nodes with
      | none => exact ⟨i, d, true, rfl, hb, fun _ => Or.inr ⟨q3, hk⟩⟩
      | some f =>
        simp only [load, hh, Option.getD_some]
        cases hl : f (nh E (.mk p v c)) with
        | none => exact ⟨_, _, false, rfl, by rw [← hh]; exact hsame, fun h => by cases h⟩
        | some bs =>
          simp only [Option.bind_some]
          obtain ⟨e, rest, he, rfl, hhash⟩ := hA.nodes f _ bs hf hl
          rcases entry_binding hE he h64 hhash with ⟨b1, b2, b3, b4, b5⟩ | hcol
          · have hd := deserB_entry hE { i with gen := g } d hk hvh he rest
            simp only [hh] at hd
            rw [hd]
            simp only [afterDecode]
            have hkid : ∀ j, Bound E ((fun j => if e.header.hasChild j = true then newNode (some (e.kids j)) g
                else (.nil : BNode V)) j) (c j) := by
              intro j
              simp only [b2 j]
              cases hj : (c j).isSome with
              | false => simp only [Bool.false_eq_true, if_false]; exact (isSome_false _).1 hj
              | true =>
                simp only [if_true]
                rw [b5 j hj]
                cases hcj : c j with
                | nil => rw [hcj] at hj; simp [Node.isSome] at hj
                | mk p2 v2 c2 => exact ⟨p2, v2, c2, rfl, Or.inl ⟨rfl, rfl, rfl, fun _ => rfl⟩⟩
            have hread : ∀ hash : Option Bytes, (hash = some (nh E (.mk p v c)) ∨ hash = some (emptyHash E)) →
                Read E (⟨e.header.prefix, i.value, i.dirty, hash, e.vhash, i.vstream, g⟩ : Info V)
                  (fun j => if e.header.hasChild j = true then newNode (some (e.kids j)) g else (.nil : BNode V)) p v c := by
              intro hash hor
              refine ⟨b1, hor, b3, ?_, hkid⟩
              intro x hx
              simp only [q3] at hx
              cases hx
            have fin : ∀ i1 : Info V, Read E i1
                (fun j => if e.header.hasChild j = true then newNode (some (e.kids j)) g else (.nil : BNode V)) p v c →
                ∃ i d ok, (if isCollapsed E i1 (fun j => if e.header.hasChild j = true then newNode (some (e.kids j)) g
                    else (.nil : BNode V)) = true then
                    (BNode.mk i1 (fun j => if e.header.hasChild j = true then newNode (some (e.kids j)) g else .nil), false)
                  else expandValue E D i1 (fun j => if e.header.hasChild j = true then newNode (some (e.kids j)) g else .nil)) =
                  (.mk i d, ok) ∧ Bound E (.mk i d) (.mk p v c) ∧
                  (ok = true → Read E i d p v c ∨ i.value = none ∧ ∀ j, d j = .nil) := by
              intro i1 hr
              split
              · exact ⟨_, _, false, rfl, hr.bound, fun h => by cases h⟩
              · obtain ⟨i', ok, e1, e2⟩ := expandValue_read (D := D) hA hr
                exact ⟨i', _, ok, e1, e2.bound, fun _ => Or.inl e2⟩
            apply fin
            split
            · exact hread _ (Or.inr rfl)
            · exact hread _ (Or.inl rfl)
          · exact absurd hcol (hC f _ e rest hf hl he hhash)

theorem Read.kid {i : Info V} {d : Nib → BNode V} {p : List Nib} {v : Option V} {c : Nib → Node V} (h : Read E i d p v c)
    {k : Nib} {b : BNode V} (hb : Bound E b (c k)) : Read E i (setKid d k b) p v c := by
  refine ⟨h.1, h.2.1, h.2.2.1, h.2.2.2.1, fun j => ?_⟩
  by_cases hj : j = k
  · subst hj; simpa [setKid] using hb
  · simpa [setKid, hj] using h.2.2.2.2 j

theorem Read.value {i : Info V} {d : Nib → BNode V} {p : List Nib} {v : Option V} {c : Nib → Node V} (h : Read E i d p v c)
    {x : V} (hx : i.value = some x) : ∃ y, v = some y ∧ E.vh y = E.vh x := by
  have := h.2.2.2.1 x hx
  rw [h.2.2.1] at this
  cases v with
  | none => cases this
  | some y => exact ⟨y, rfl, by simpa using this⟩

theorem getF_bound (hE : E.Lawful) (hA : Audited E D) (g : UInt64) : ∀ (n : Nat) {b : BNode V} {a : Node V} (q : List Nib),
    Bound E b a → No64 E.R a → Clean E D a →
    Bound E (getF E D g n b q).1 a ∧ ∀ x, (getF E D g n b q).2 = some x → ∃ y, get a q = some y ∧ E.vh y = E.vh x := by
  intro n
  induction n with
  | zero => intro b a q hb _ _; exact ⟨hb, fun x hx => by cases hx⟩
  | succ n ih =>
    intro b a q hb h64 hC
    cases a with
    | nil =>
      cases b with
      | nil => exact ⟨rfl, fun x hx => by simp [getF, fullExpand] at hx⟩
      | mk i d => obtain ⟨p, v, c, he, -⟩ := hb; cases he
    | mk p v c =>
      obtain ⟨i, d, ok, he, h1, h2⟩ := fullExpand_bound hE hA g hb h64.1 hC
      rw [getF, he]
      cases ok with
      | false => exact ⟨h1, fun x hx => by cases hx⟩
      | true =>
        simp only
        rcases h2 rfl with hr | ⟨hv, hk⟩
        · by_cases hq : q = []
          · simp only [hq, if_true]
            refine ⟨h1, fun x hx => ?_⟩
            rw [get, if_pos rfl]
            exact hr.value hx
          · simp only [hq, if_false]
            split
            · exact ⟨h1, fun x hx => by cases hx⟩
            · rw [hr.1]
              split
              · rename_i hm
                cases hd : q.drop (matchPrefix p q) with
                | nil =>
                  refine ⟨h1, fun x hx => ?_⟩
                  obtain ⟨y, rfl, hy⟩ := hr.value hx
                  refine ⟨y, ?_, hy⟩
                  rw [get, if_neg hq, if_neg (by simp [isEmpty])]
                  simp only [hm, if_true, hd]
                | cons k q' =>
                  simp only
                  rw [(hr.2.2.2.2 k).isSome]
                  cases hs : (c k).isSome with
                  | false => exact ⟨by simpa using h1, fun x hx => by simp at hx⟩
                  | true =>
                    simp only [Bool.true_eq_false, if_false]
                    obtain ⟨i1, i2⟩ := ih q' (hr.2.2.2.2 k) (h64.2 k) (hC.child hs)
                    refine ⟨(hr.kid i1).bound, fun x hx => ?_⟩
                    obtain ⟨y, hy, hyx⟩ := i2 x hx
                    refine ⟨y, ?_, hyx⟩
                    have hne : isEmpty p v c = false := by
                      have := (hasChildren_iff c).2 ⟨k, hs⟩
                      simp [isEmpty, this]
                    rw [get, if_neg hq, if_neg (by simp [hne])]
                    simp only [hm, if_true, hd]
                    exact hy
              · exact ⟨h1, fun x hx => by cases hx⟩
        · have hsome : ∀ j, (d j).isSome = false := fun j => by rw [hk j]; rfl
          by_cases hq : q = []
          · simp only [hq, if_true]
            exact ⟨h1, fun x hx => by rw [hv] at hx; cases hx⟩
          · simp only [hq, if_false, hsome, if_true]
            split
            · exact ⟨h1, fun x hx => by cases hx⟩
            · split
              · split
                · exact ⟨h1, fun x hx => by rw [hv] at hx; cases hx⟩
                · exact ⟨h1, fun x hx => by cases hx⟩
              · exact ⟨h1, fun x hx => by cases hx⟩

/-- **C169, in part.** Over a storage whose entries have been checked against the hashes they are stored under, a trie opened
at the root of a tree gives, for every sequence of calls of `Get`, no value or one with the hash of the value the tree has
under that key; unless an entry of the storage collides with the tree.  Missing: the check itself, which the code does not
make (`C169_forged_refuted`). -/
theorem C169_audited_partial (hE : E.Lawful) (hA : Audited E D) (a : Node V) (hs : a.isSome = true) (h64 : No64 E.R a)
    (hC : Clean E D a) (ks : List Bytes) (n : Nat) (k : Bytes) (x : V) (hk : ks[n]? = some k)
    (hx : (gets E D (openTrie (some (nh E a))) ks)[n]? = some (some x)) :
    ∃ y, get a (keyToPrefix k) = some y ∧ E.vh y = E.vh x := by
  have main : ∀ (ks : List Bytes) (t : BTrie V) (n : Nat), Bound E t.root a → ks[n]? = some k →
      (gets E D t ks)[n]? = some (some x) → ∃ y, get a (keyToPrefix k) = some y ∧ E.vh y = E.vh x := by
    intro ks
    induction ks with
    | nil => intro t n _ hk; simp at hk
    | cons k' ks ih =>
      intro t n hb hk hx
      obtain ⟨h1, h2⟩ := getF_bound hE hA t.gen ((keyToPrefix k').length + 1) (keyToPrefix k') hb h64 hC
      cases n with
      | zero =>
        simp only [List.getElem?_cons_zero, Option.some.injEq] at hk
        subst hk
        simp only [gets, List.getElem?_cons_zero, Option.some.injEq] at hx
        exact h2 x hx
      | succ n =>
        simp only [List.getElem?_cons_succ] at hk
        simp only [gets, List.getElem?_cons_succ] at hx
        exact ih (t.get E D k').1 n h1 hk hx
  refine main ks _ n ?_ hk hx
  cases a with
  | nil => simp [Node.isSome] at hs
  | mk p v c => exact ⟨p, v, c, rfl, Or.inl ⟨rfl, rfl, rfl, fun _ => rfl⟩⟩

/-- The entry for a node. -/
def entryOf (E : Env V) (p : List Nib) (v : Option V) (c : Nib → Node V) : Entry :=
  ⟨headerOf p v c, fun j => nh E (c j), v.map E.vh⟩

theorem entryOf_ids (p : List Nib) (v : Option V) (c : Nib → Node V) : (entryOf E p v c).ids = childIds c := by
  rw [Entry.ids, childIds]
  congr 1
  funext j
  exact headerOf_child p v c j

/-- **C169.** What is saved for nodes and values passes the check, so a storage with nothing else in it is a checked one. -/
theorem C169_honest (hE : E.Lawful)
    (hn : ∀ f k bs, D.nodes = some f → f k = some bs → ∃ p v c, ((headerOf p v c).ser E.R).length ≠ 64 ∧
      k = nh E (.mk p v c) ∧ bs = serA E p v c)
    (hv : ∀ f k bs, D.values = some f → f k = some bs → ∃ x, k = E.vh x ∧ bs = E.enc x) : Audited E D := by
  refine ⟨fun f k bs hf hb => ?_, fun f k bs x hf hb hx => ?_⟩
  · obtain ⟨p, v, c, h64, rfl, rfl⟩ := hn f k bs hf hb
    refine ⟨entryOf E p v c, [], ⟨?_, fun j => nh_len hE _, ?_, ?_, h64⟩, ?_, ?_⟩
    · exact (C15_header_describes_node p (fun j => (c j).isSome) v.isSome).1
    · intro x hx
      cases v with
      | none => cases hx
      | some y =>
        have : E.vh y = x := by simpa [entryOf] using hx
        rw [← this]; exact hE.hv y
    · show ntHasValue (headerOf p v c).nt = (v.map E.vh).isSome
      rw [headerOf_hasValue]; simp
    · rw [List.append_nil, Entry.bytes, entryOf_ids]; rfl
    · rw [Entry.hash, entryOf_ids, nh, nodeHash]
      have : (entryOf E p v c).vhash = valueHashOf E.vh v := by
        cases v with
        | none => rfl
        | some y => simp [entryOf, valueHashOf, toHash_of_len (hE.hv y)]
      rw [this]
      rfl
  · obtain ⟨y, rfl, rfl⟩ := hv f k bs hf hb
    rw [hE.hdec] at hx
    cases hx
    rfl

/-! ### Concrete cases -/

/-- A trie with two keys and one with a third value. -/
def good : Node Bytes := (newTrie.run [.put [0x12] [1], .put [0x34] [2]]).root
def evil : Node Bytes := (newTrie.run [.put [0x12] [9]]).root

/-- The bytes saved for a node. -/
def bytesOf : Node Bytes → Bytes
  | .nil => []
  | .mk p v c => serA toyE p v c

/-- A storage that has the node of `evil` under the hash of `good`. -/
def badDisk : Disk :=
  ⟨some fun k => if k = nh toyE good then some (bytesOf evil) else if k = nh toyE evil then some (bytesOf evil) else none,
    some fun k => if k = demoVh [9] then some [9] else none⟩

example : nh toyE good ≠ nh toyE evil ∧
    gets toyE badDisk (openTrie (some (nh toyE good))) [[0x12], [0x34]] = [some [9], none] ∧
    ((after toyE badDisk (openTrie (some (nh toyE good))) [[0x12], [0x34]]).hash toyE).2 = nh toyE good := by
  decide +kernel

/-- A storage with a damaged child: the key is lost, the others are not. -/
def lostDisk : Disk :=
  ⟨some fun k => if k = nh toyE good then some (bytesOf good) else
      if k = nh toyE (.mk [2] (some [1]) noChild) then some (bytesOf (.mk [2] (some [1]) noChild)) else none,
    some fun k => if k = demoVh [1] then some [1] else none⟩

example : gets toyE lostDisk (openTrie (some (nh toyE good))) [[0x12], [0x34]] = [some [1], none] := by decide +kernel

/-- **C169 fails** for `Delete`: removing a key panics if what is left is one child and that has been lost. -/
theorem C169_delete_refuted : ((openTrie (some (nh toyE good))).del toyE lostDisk [0x12]).isNone = true ∧
    ((openTrie (some (nh toyE good))).put toyE lostDisk [0x34] [7]).2 = false ∧
    ((openTrie (some (nh toyE good))).put toyE lostDisk [0x56] [7]).2 = true := by decide +kernel

end Verif.Trie.Store.Damaged

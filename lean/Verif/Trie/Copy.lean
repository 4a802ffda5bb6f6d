import Verif.Trie.IteratorProps

/-!
# Properties C121 and C122: copying a trie through a stream, batched writing, and changing the database

`/repo/trie/utils.go:153-225` and `UnmarshalNewTrie`, `IterateAll`, `Rebase` of `/repo/trie/trie.go`.

Simplifications: the stream codec of go-rtl (not part of `/repo`) is a parameter; writers do not fail; a nil key and an empty key of
the iterator are the same, as `Current` returns nil exactly for the empty key (`/repo/trie/iterator.go:278-281`).
-/

namespace Verif.Trie.Store
open Verif Verif.Merkle Verif.Trie

variable {V : Type}

/-! ### The code -/

/-- What `rtl.Decode` on a stream does: a value and the rest, `io.EOF`, or another error. -/
inductive Read (α : Type) where
  | val (a : α) (rest : Bytes)
  | eof
  | fail

/-- A codec for a stream. -/
structure Codec (α : Type) where
  enc : α → Bytes
  dec : Bytes → Read α

/-- `Marshal` behind the iterator (`/repo/trie/utils.go:153-164`). -/
def writeValues (C : Codec V) (l : List (Bytes × Option V)) : Bytes :=
  l.flatMap fun e =>
    match e.2 with
    | some v => C.enc v
    | none => []

/-- `MarshalAsMap` behind the iterator (`/repo/trie/utils.go:166-180`); `rtl.Encode` of a nil value writes `null`. -/
def writePairs (K : Codec Bytes) (C : Codec V) (null : Bytes) (l : List (Bytes × Option V)) : Bytes :=
  l.flatMap fun e =>
    if e.1 = [] then []
    else K.enc e.1 ++
      (match e.2 with
      | some v => C.enc v
      | none => null)

/-- `Marshal` (`/repo/trie/utils.go:153-164`). -/
def BTrie.marshal (E : Env V) (F : Faults) (L : Limits) (D : Disk) (t : BTrie V) (C : Codec V) (fuel : Nat) : Res Bytes :=
  match t.iterate E F L D fuel with
  | .ok l => .ok (writeValues C l)
  | .err => .err
  | .panic => .panic

/-- `MarshalAsMap` (`/repo/trie/utils.go:166-180`). -/
def BTrie.marshalAsMap (E : Env V) (F : Faults) (L : Limits) (D : Disk) (t : BTrie V) (K : Codec Bytes) (C : Codec V) (null : Bytes)
    (fuel : Nat) : Res Bytes :=
  match t.iterate E F L D fuel with
  | .ok l => .ok (writePairs K C null l)
  | .err => .err
  | .panic => .panic

/-- The loop of `unmarshalNewTrieLocked` (`/repo/trie/trie.go:909-924`); `key` is `keyFunc`, `none` a nil key.  The first argument bounds
the number of rounds. -/
def readValues (E : Env V) (D : Disk) (C : Codec V) (key : V → Option Bytes) : Nat → Bytes → BTrie V → Res (BTrie V)
  | 0, _, _ => .err
  | f + 1, bs, t =>
    if bs = [] then .ok t
    else
      match C.dec bs with
      | .eof => .ok t
      | .fail => .err
      | .val v rest =>
        match key v with
        | none => readValues E D C key f rest t
        | some k => readValues E D C key f rest (t.put E D k v).1

/-- `UnmarshalNewTrie` (`/repo/trie/trie.go:900-933`): the adapters are those of the receiver. -/
def unmarshalNewTrie (E : Env V) (D : Disk) (C : Codec V) (key : V → Option Bytes) (fuel : Nat) (bs : Bytes) : Res (BTrie V) :=
  readValues E D C key fuel bs (openTrie none)

/-- The loop of `IterateAll` (`/repo/trie/trie.go:948-956`): a callback with a state. -/
def callAll {σ : Type} (noNil : Bool) (cb : σ → Bytes → Option V → σ × Bool) : List (Bytes × Option V) → σ → σ
  | [], s => s
  | e :: l, s =>
    if noNil && (decide (e.1 = []) || e.2.isNone) then callAll noNil cb l s
    else if (cb s e.1 e.2).2 then callAll noNil cb l (cb s e.1 e.2).1
    else (cb s e.1 e.2).1

/-- `IterateAll` (`/repo/trie/trie.go:943-958`).  The iterator is driven on while the callback wants more; what it would yield
later is the same either way. -/
def BTrie.iterateAll {σ : Type} (E : Env V) (F : Faults) (L : Limits) (D : Disk) (t : BTrie V) (noNil : Bool)
    (cb : σ → Bytes → Option V → σ × Bool) (s : σ) (fuel : Nat) : Res σ :=
  match t.iterate E F L D fuel with
  | .ok l => .ok (callAll noNil cb l s)
  | .err => .err
  | .panic => .panic

/-- A `BatchPutter` (`/repo/trie/utils.go:191-199`) with the storage. -/
structure Putter (V : Type) where
  s : Sess V
  m : Int
  count : Nat

/-- `BatchPutter.Put` (`/repo/trie/utils.go:201-217`): the result is whether the key was put and whether there was no error; the
modulus zero panics. -/
def Putter.put (E : Env V) (F : Faults) (L : Limits) (p : Putter V) (k : Bytes) (x : V) : Res (Putter V × Bool × Bool) :=
  let r := p.s.t.put E p.s.D k x
  if r.2 then
    if p.m = 0 then .panic
    else if ((p.count + 1 : Nat) : Int).tmod p.m = 0 then
      let c := r.1.commit E F L p.s.D
      if c.2.2 then .ok (⟨⟨c.1.collapse E, c.2.1⟩, p.m, p.count + 1⟩, true, true)
      else .ok (⟨⟨c.1, c.2.1⟩, p.m, p.count + 1⟩, true, false)
    else .ok (⟨⟨r.1, p.s.D⟩, p.m, p.count + 1⟩, true, true)
  else .ok (⟨⟨r.1, p.s.D⟩, p.m, p.count⟩, false, true)

/-- Any number of `Put` calls; all must have put their key without error. -/
def Putter.puts (E : Env V) (F : Faults) (L : Limits) : Putter V → List (Bytes × V) → Res (Putter V)
  | p, [] => .ok p
  | p, kx :: l =>
    match p.put E F L kx.1 kx.2 with
    | .ok (p', true, true) => p'.puts E F L l
    | .ok _ => .err
    | .err => .err
    | .panic => .panic

/-- `IsEmptyTrieRoot` (`/repo/trie/utils.go:223-225`). -/
def isEmptyTrieRoot (E : Env V) (root : Bytes) : Bool := decide (root.length = 0) || decide (root = emptyHash E)

/-- `Rebase` (`/repo/trie/trie.go:180-202`) with `RebaseAdapter` (`/repo/db/adapters.go:34-45`) for adapters of a database: the trie
itself, its storage, and the new trie, which is used with the storage of the other database. -/
def BTrie.rebase (E : Env V) (F : Faults) (L : Limits) (D : Disk) (t : BTrie V) : BTrie V × Disk × Option (BTrie V) :=
  let r := t.commit E F L D
  if r.2.2 then
    let h := r.1.hash E
    (h.1, r.2.1, some ⟨newNode (some h.2) 0, 0, 0⟩)
  else (r.1, r.2.1, none)

/-! ### Specification -/

/-- What is assumed of a codec: it reads back what it wrote and writes something. -/
structure Codec.Lawful {α : Type} (C : Codec α) : Prop where
  rt : ∀ a r, C.dec (C.enc a ++ r) = .val a r
  some : ∀ a, C.enc a ≠ []

/-- The contents of a map in ascending order of the keys. -/
structure Listing (l : List (Bytes × V)) (m : Bytes → Option V) : Prop where
  sorted : l.Pairwise fun a b => bytesCompare a.1 b.1 < 0
  mem : ∀ k x, (k, x) ∈ l ↔ m k = some x

/-- A callback is called with the pairs in order until it does not want more. -/
def upTo {σ : Type} (cb : σ → Bytes → V → σ × Bool) : List (Bytes × V) → σ → σ
  | [], s => s
  | e :: l, s => if (cb s e.1 e.2).2 then upTo cb l (cb s e.1 e.2).1 else (cb s e.1 e.2).1

/-- All that is in one storage is in the other. -/
def Disk.within (D D' : Disk) : Prop :=
  (∀ f, D.nodes = some f → ∃ f', D'.nodes = some f' ∧ ∀ k b, f k = some b → f' k = some b) ∧
  ∀ f, D.values = some f → ∃ f', D'.values = some f' ∧ ∀ k b, f k = some b → f' k = some b

/-! ### Copies -/

variable {E : Env V}

/-- The values of a list that holds a map. -/
def somes (l : List (Bytes × Option V)) : List (Bytes × V) := l.filterMap fun e => e.2.map fun x => (e.1, x)

theorem somes_spec {l : List (Bytes × Option V)} {m : Bytes → Option V} (h1 : Ascending l) (h2 : Holding l m) :
    Listing (somes l) m ∧ l = (somes l).map fun e => (e.1, some e.2) := by
  have hl : l = (somes l).map fun e => (e.1, some e.2) := by
    have : ∀ e ∈ l, ∃ x, e.2 = some x := fun e he => by
      obtain ⟨x, hx, -⟩ := (h2 e.1 e.2).1 he
      exact ⟨x, hx⟩
    clear h1 h2
    induction l with
    | nil => rfl
    | cons e l ih =>
      obtain ⟨x, hx⟩ := this e List.mem_cons_self
      have hc : somes (e :: l) = (e.1, x) :: somes l := by rw [somes, List.filterMap_cons, hx]; rfl
      rw [hc, List.map_cons, ← ih fun e he => this e (List.mem_cons_of_mem _ he), ← hx]
  refine ⟨⟨?_, ?_⟩, hl⟩
  · rw [Ascending, hl, List.pairwise_map] at h1
    exact h1
  · intro k x
    have : (k, x) ∈ somes l ↔ (k, some x) ∈ l := by
      constructor
      · intro h
        rw [hl]
        exact List.mem_map.2 ⟨_, h, rfl⟩
      · intro h
        rw [hl] at h
        obtain ⟨e, he, hh⟩ := List.mem_map.1 h
        obtain ⟨rfl, hx⟩ := Prod.mk.inj hh
        obtain rfl := Option.some.inj hx
        exact he
    rw [this, h2]
    constructor
    · rintro ⟨y, hy, h⟩; rw [Option.some.inj hy]; exact h
    · intro h; exact ⟨x, rfl, h⟩

/-- The calls that put the pairs of a list. -/
def putAll (l : List (Bytes × V)) : List (Op V) := l.map fun e => .put e.1 e.2

theorem prefix_compare {a b : Bytes} (h : a <+: b) (hne : b ≠ a) : bytesCompare a b < 0 := by
  obtain ⟨t, rfl⟩ := h
  induction a with
  | nil =>
    cases t with
    | nil => exact absurd rfl hne
    | cons x t => simp [bytesCompare]
  | cons x a ih =>
    rw [List.cons_append, bytesCompare, if_neg (UInt8.lt_irrefl x), if_neg (UInt8.lt_irrefl x)]
    exact ih fun h => hne (by rw [List.cons_append, h])

theorem spec_putAll : ∀ (l : List (Bytes × V)), (l.Pairwise fun a b => bytesCompare a.1 b.1 < 0) → ∀ (m : Bytes → Option V) (k : Bytes),
    (putAll l).foldl specStep m k = ((l.find? fun e => e.1 = k).map (·.2)).or (m k) := by
  intro l
  induction l with
  | nil => intro _ m k; rfl
  | cons e l ih =>
    intro hs m k
    rw [List.pairwise_cons] at hs
    rw [putAll, List.map_cons, List.foldl_cons, ← putAll, ih hs.2, specStep]
    by_cases hk : e.1 = k
    · have hn : l.find? (fun e => e.1 = k) = none := by
        rw [List.find?_eq_none]
        intro e' he' hc
        have := hs.1 e' he'
        simp only [decide_eq_true_eq] at hc
        rw [hk, hc, LawfulCmp.refl bytesCompare_lawful] at this
        omega
      simp [hn, hk]
    · have : k ≠ e.1 := fun h => hk h.symm
      simp [hk, this]

theorem listing_spec {l : List (Bytes × V)} {m : Bytes → Option V} (h : Listing l m) : spec (putAll l) = m := by
  funext k
  rw [spec, spec_putAll l h.sorted]
  cases hf : l.find? fun e => e.1 = k with
  | none =>
    rw [List.find?_eq_none] at hf
    cases hm : m k with
    | none => rfl
    | some x =>
      have := hf _ ((h.mem k x).2 hm)
      simp at this
  | some e =>
    have h1 := List.mem_of_find?_eq_some hf
    have h2 : e.1 = k := by simpa using List.find?_some hf
    rw [← h2, (h.mem e.1 e.2).1 h1]
    rfl

theorem clear_putAll : ∀ (l : List (Bytes × V)), (l.Pairwise fun a b => bytesCompare a.1 b.1 < 0) → ∀ (m : Bytes → Option V),
    (∀ k, (m k).isSome = true → ∀ e ∈ l, bytesCompare k e.1 < 0) → ClearFrom m (putAll l) := by
  intro l
  induction l with
  | nil => intro _ m _; trivial
  | cons e l ih =>
    intro hs m hm
    rw [List.pairwise_cons] at hs
    refine ⟨Or.inr ?_, ih hs.2 _ ?_⟩
    · intro k' hk' hp
      by_contra hne
      have h1 := hm k' hk' e List.mem_cons_self
      have h2 : bytesCompare e.1 k' < 0 := prefix_compare hp hne
      have h3 := bytesCompare_lawful.trans _ _ _ h1 h2
      rw [LawfulCmp.refl bytesCompare_lawful] at h3
      omega
    · intro k hk e' he'
      simp only [specStep] at hk
      by_cases hke : k = e.1
      · rw [hke]; exact hs.1 e' he'
      · rw [if_neg hke] at hk
        exact hm k hk e' (List.mem_cons_of_mem _ he')

/-- Putting the pairs in order builds the tree of the map. -/
theorem root_putAll {l : List (Bytes × V)} {t : MTrie V} {m : Bytes → Option V} (hl : Listing l m) (ht : Inv t m) :
    ((newTrie (V := V)).run (putAll l)).root = t.root := by
  have hi := Inv.of_clear (putAll l) (clear_putAll l hl.sorted _ (by simp))
  rw [listing_spec hl] at hi
  refine canonical_root hi.wf ht.wf fun q => ?_
  by_cases hq : ∃ k, q = keyToPrefix k
  · obtain ⟨k, rfl⟩ := hq
    rw [hi.look, ht.look]
  · have h1 : lookup ((newTrie (V := V)).run (putAll l)).root q = none := by
      by_contra hc
      exact hq (hi.keys q (Option.isSome_iff_ne_none.2 hc))
    have h2 : lookup t.root q = none := by
      by_contra hc
      exact hq (ht.keys q (Option.isSome_iff_ne_none.2 hc))
    rw [h1, h2]

theorem writeValues_somes (C : Codec V) (l : List (Bytes × V)) :
    writeValues C (l.map fun e => (e.1, some e.2)) = l.flatMap fun e => C.enc e.2 := by
  rw [writeValues, List.flatMap_map]

theorem readValues_spec (hE : E.Lawful) {C : Codec V} (hC : C.Lawful) {D : Disk} (key : V → Option Bytes) :
    ∀ (l : List (Bytes × V)) (h : List (Op V)) (t : BTrie V) (n : Nat), (∀ e ∈ l, key e.2 = some e.1) → l.length < n →
    Rep E D t.root (newTrie.run h).root →
    ∃ t', readValues E D C key n (l.flatMap fun e => C.enc e.2) t = .ok t' ∧ Rep E D t'.root (newTrie.run (h ++ putAll l)).root := by
  intro l
  induction l with
  | nil =>
    intro h t n _ hn hr
    obtain ⟨n, rfl⟩ := Nat.exists_eq_succ_of_ne_zero (show n ≠ 0 by simp at hn; omega)
    exact ⟨t, by rw [readValues]; rfl, by simpa [putAll] using hr⟩
  | cons e l ih =>
    intro h t n hk hn hr
    rw [List.length_cons] at hn
    obtain ⟨n, rfl⟩ := Nat.exists_eq_succ_of_ne_zero (show n ≠ 0 by omega)
    obtain ⟨-, -, h3⟩ := put_step hE hr (wf_run h) e.1 e.2
    have h3' : Rep E D (t.put E D e.1 e.2).1.root (newTrie.run (h ++ [.put e.1 e.2])).root := by rw [run_concat]; exact h3
    obtain ⟨t', h4, h5⟩ := ih _ _ n (fun e he => hk e (List.mem_cons_of_mem _ he)) (by omega) h3'
    refine ⟨t', ?_, ?_⟩
    · rw [readValues, List.flatMap_cons, if_neg (by simp [hC.some]), hC.rt]
      simp only [hk e List.mem_cons_self]
      exact h4
    · rw [List.append_assoc] at h5
      exact h5

theorem clearOps_append (ops ops2 : List (SOp V)) : ∀ (h : List (Op V)), ClearOps h (ops ++ ops2) →
    ClearOps h ops ∧ ClearOps (h ++ ops.filterMap SOp.call) ops2 := by
  induction ops with
  | nil => intro h hc; exact ⟨trivial, by simpa using hc⟩
  | cons op ops ih =>
    intro h hc
    obtain ⟨h1, h2⟩ := ih _ hc.2
    refine ⟨⟨hc.1, h1⟩, ?_⟩
    rw [filterMap_toList, ← List.append_assoc]
    exact h2

/-- What holds of the trees along a longer sequence holds of those along its beginning. -/
theorem along_append {ops ops2 : List (SOp V)} {a : Node V} (h : along ops a) : along (ops ++ ops2) a := by
  obtain ⟨pre, hp, rfl⟩ := h
  exact ⟨pre, hp.trans (List.prefix_append _ _), rfl⟩

theorem apart_append {ops ops2 : List (SOp V)} (hA : Apart E (along (ops ++ ops2))) : Apart E (along ops) :=
  ⟨⟨[], List.nil_prefix, rfl⟩, fun ha hb => hA.values (along_append ha) (along_append hb), fun ha => hA.no64 (along_append ha),
    fun ha hb => hA.digest (along_append ha) (along_append hb)⟩

/-- A session that stands for the tree of the calls `ops` answers further calls as the map does. -/
theorem further (hE : E.Lawful) {ops ops2 : List (SOp V)} (hk : ClearOps [] (ops ++ ops2)) (hA : Apart E (along (ops ++ ops2)))
    {s : Sess V} (hD : s.D.ok) (hr : Rep E s.D s.t.root (newTrie.run (ops.filterMap SOp.call)).root) :
    outs E noFaults s ops2 = expect E (ops.filterMap SOp.call) ops2 := by
  obtain ⟨h1, h2⟩ := clearOps_append ops ops2 [] hk
  have hinv := clear_inv ops [] inv_nil h1
  rw [List.nil_append] at hinv h2
  rw [(outs_spec hE hA (noFaults_harmless E _) ops2 _ s ⟨hD, hr⟩ ?_).1, expectT_clear ops2 _ hinv h2]
  intro pre hp
  refine ⟨ops ++ pre, ?_, by rw [List.filterMap_append]⟩
  obtain ⟨t, rfl⟩ := hp
  exact ⟨t, by rw [List.append_assoc]⟩

/-- The list that the iterator yields. -/
theorem iterate_list (hE : E.Lawful) {ops : List (SOp V)} (hk : ClearOps [] ops) (hA : Apart E (along ops)) {D : Disk} (hD : D.ok)
    (L : Limits) : ∃ N l, Listing l (contents ops) ∧ ∀ n, N ≤ n →
      (after E D ops).t.iterate E noFaults L (after E D ops).D n = .ok (l.map fun e => (e.1, some e.2)) := by
  obtain ⟨N, l, h1, h2, h3⟩ := C12_forward_partial hE ops hk hA D hD L
  obtain ⟨h4, h5⟩ := somes_spec h2 h3
  exact ⟨N, somes l, h4, fun n hn => by rw [← h5]; exact h1 n hn⟩

/-- **C121, copies.**  If every value determines its key, then what `Marshal` writes is read by `UnmarshalNewTrie`, over any storage, to a trie
that answers all further calls - values, root hashes, commits, reloads - as the original does. -/
theorem C121_copy (hE : E.Lawful) (ops ops2 : List (SOp V)) (hk : ClearOps [] (ops ++ ops2)) (hA : Apart E (along (ops ++ ops2)))
    (D D' : Disk) (hD : D.ok) (hD' : D'.ok) (L : Limits) (C : Codec V) (hC : C.Lawful) (key : V → Option Bytes)
    (hkey : ∀ k x, contents ops k = some x → key x = some k) :
    ∃ N bs, ∀ n, N ≤ n → (after E D ops).t.marshal E noFaults L (after E D ops).D C n = .ok bs ∧
      ∃ t, unmarshalNewTrie E D' C key n bs = .ok t ∧
        outs E noFaults ⟨t, D'⟩ ops2 = expect E (ops.filterMap SOp.call) ops2 := by
  have hk1 := (clearOps_append ops ops2 [] hk).1
  obtain ⟨N, l, hl, h1⟩ := iterate_list hE hk1 (apart_append hA) hD L
  have hinv := clear_inv ops [] inv_nil hk1
  rw [List.nil_append] at hinv
  refine ⟨N + l.length + 1, l.flatMap fun e => C.enc e.2, fun n hn => ?_⟩
  obtain ⟨t, h2, h3⟩ := readValues_spec hE hC (D := D') key l [] (openTrie none) n (fun e he => hkey _ _ ((hl.mem e.1 e.2).1 he)) (by omega)
    rep_openNil
  rw [List.nil_append, root_putAll hl hinv] at h3
  refine ⟨?_, t, h2, further hE hk hA hD' h3⟩
  rw [BTrie.marshal, h1 n (by omega)]
  simp only [writeValues_somes]

/-- **C121, the trie that was marshalled** answers on as before: the commit of the iterator is not seen. -/
theorem C121_origin (hE : E.Lawful) (ops ops2 : List (SOp V)) (hk : ClearOps [] (ops ++ ops2)) (hA : Apart E (along (ops ++ ops2)))
    (D : Disk) (hD : D.ok) (L : Limits) :
    let r := (after E D ops).t.clone E noFaults L (after E D ops).D
    outs E noFaults ⟨r.1, r.2.1⟩ ops2 = expect E (ops.filterMap SOp.call) ops2 := by
  have hk1 := (clearOps_append ops ops2 [] hk).1
  have hA1 := apart_append hA
  have hinv := clear_inv ops [] inv_nil hk1
  have hs := (outs_spec hE hA1 (noFaults_harmless E _) ops [] ⟨openTrie none, D⟩ ⟨hD, rep_openNil⟩ fun pre hp => ⟨pre, hp, rfl⟩).2
  rw [List.nil_append] at hs hinv
  obtain ⟨h1, h2, -, h3, h4⟩ := commit_step hE (hA1.ghost hE) (noFaults_harmless E _) L hs.disk hs.rep hinv.wf
    ⟨hinv.wf.isSome, _, ⟨ops, List.prefix_refl _, rfl⟩, Sub.refl _⟩
  exact further hE hk hA h2 (hash_step h3 hinv.wf).2

/-- C121, `MarshalAsMap`: keys and values of the map in ascending order of the keys.  Missing: the empty key, see
`C121_map_refuted`. -/
theorem C121_map_partial (hE : E.Lawful) (ops : List (SOp V)) (hk : ClearOps [] ops) (hA : Apart E (along ops)) (D : Disk) (hD : D.ok)
    (L : Limits) (K : Codec Bytes) (C : Codec V) (null : Bytes) :
    ∃ N l, Listing l (fun k => if k = [] then none else contents ops k) ∧ ∀ n, N ≤ n →
      (after E D ops).t.marshalAsMap E noFaults L (after E D ops).D K C null n = .ok (l.flatMap fun e => K.enc e.1 ++ C.enc e.2) := by
  obtain ⟨N, l, hl, h1⟩ := iterate_list hE hk hA hD L
  refine ⟨N, l.filter fun e => e.1 ≠ [], ⟨hl.sorted.filter _, fun k x => ?_⟩, fun n hn => ?_⟩
  · rw [List.mem_filter, hl.mem]
    by_cases hn : k = [] <;> simp [hn]
  · rw [BTrie.marshalAsMap, h1 n hn]
    simp only [writePairs, List.flatMap_map]
    congr 1
    clear hl h1
    induction l with
    | nil => rfl
    | cons e l ih =>
      rw [List.flatMap_cons, ih, List.filter_cons]
      by_cases he : e.1 = [] <;> simp [he]

theorem callAll_somes {σ : Type} (noNil : Bool) (cb : σ → Bytes → Option V → σ × Bool) (l : List (Bytes × V)) (s : σ) :
    callAll noNil cb (l.map fun e => (e.1, some e.2)) s =
      upTo (fun s k x => cb s k (some x)) (if noNil then l.filter fun e => e.1 ≠ [] else l) s := by
  induction l generalizing s with
  | nil => cases noNil <;> rfl
  | cons e l ih =>
    rw [List.map_cons, callAll]
    cases noNil with
    | false => simp only [Bool.false_and, Bool.false_eq_true, if_false, upTo, ih]
    | true =>
      by_cases he : e.1 = []
      · simp [he, ih]
      · simp [he, ih, upTo]

/-- C121, `IterateAll` calls the callback with the pairs of the map in ascending order until it wants no more.  With `noNil`
the empty key is left out. -/
theorem C121_iterateAll_partial {σ : Type} (hE : E.Lawful) (ops : List (SOp V)) (hk : ClearOps [] ops) (hA : Apart E (along ops)) (D : Disk)
    (hD : D.ok) (L : Limits) (noNil : Bool) (cb : σ → Bytes → Option V → σ × Bool) (s : σ) :
    ∃ N l, Listing l (fun k => if noNil = true ∧ k = [] then none else contents ops k) ∧ ∀ n, N ≤ n →
      (after E D ops).t.iterateAll E noFaults L (after E D ops).D noNil cb s n = .ok (upTo (fun s k x => cb s k (some x)) l s) := by
  obtain ⟨N, l, hl, h1⟩ := iterate_list hE hk hA hD L
  refine ⟨N, if noNil then l.filter fun e => e.1 ≠ [] else l, ?_, fun n hn => ?_⟩
  · cases noNil with
    | false => simpa using hl
    | true =>
      refine ⟨hl.sorted.filter _, fun k x => ?_⟩
      simp only [if_true, List.mem_filter, hl.mem]
      by_cases hn : k = [] <;> simp [hn]
  · rw [BTrie.iterateAll, h1 n hn]
    simp only [callAll_somes]

/-- A codec with a length byte, for the examples. -/
def toyCodec : Codec Bytes :=
  ⟨fun b => UInt8.ofNat b.length :: b, fun bs =>
    match bs with
    | [] => .eof
    | n :: r => if r.length < n.toNat then .fail else .val (r.take n.toNat) (r.drop n.toNat)⟩

/-- The calls of the refutation: the empty key and another one. -/
def emptyKeyCalls : List (SOp Bytes) := [.put [] [1], .put [0x12] [2]]

theorem emptyKeyCalls_clear : ClearOps [] emptyKeyCalls := by
  refine ⟨fun k hk => Or.inr fun k' h => ?_, fun k hk => Or.inr fun k' h hp => ?_, trivial⟩
  · cases h
  · simp only [SOp.key, Option.some.injEq] at hk
    subst hk
    simp only [SOp.call, Option.toList, List.nil_append, spec, List.foldl_cons, List.foldl_nil, specStep] at h
    split at h
    · rename_i he; subst he; simp at hp
    · cases h

/-- C121 fails for the empty key: `MarshalAsMap` leaves it out, and so does `IterateAll` without nil values. -/
theorem C121_map_refuted : ∃ ops : List (SOp Bytes), ClearOps [] ops ∧ Apart toyE (along ops) ∧ contents ops [] = some [1] ∧
    (after toyE freshDisk ops).t.marshalAsMap toyE noFaults realLimits (after toyE freshDisk ops).D toyCodec toyCodec [] 50 =
      .ok [1, 0x12, 1, 2] ∧
    (after toyE freshDisk ops).t.iterateAll toyE noFaults realLimits (after toyE freshDisk ops).D true
      (fun s k x => (s ++ [(k, x)], true)) [] 50 = .ok [([0x12], some [2])] :=
  ⟨emptyKeyCalls, emptyKeyCalls_clear, apart_of (by decide +kernel) (by decide +kernel) (by decide +kernel), by decide +kernel,
    by decide +kernel, by decide +kernel⟩

/-- Three values, the key being the first byte. -/
def copyCalls : List (SOp Bytes) := [.put [7] [7, 1], .put [3] [3, 1, 1], .commit realLimits, .put [5] [5]]

/-- The stream, and the copy over another storage. -/
example : (after toyE freshDisk copyCalls).t.marshal toyE noFaults realLimits (after toyE freshDisk copyCalls).D toyCodec 50 =
    .ok [3, 3, 1, 1, 1, 5, 2, 7, 1] := by decide +kernel

example : (match unmarshalNewTrie toyE freshDisk toyCodec (fun x => some (x.take 1)) 50 [3, 3, 1, 1, 1, 5, 2, 7, 1] with
      | .ok t => decide ((t.get toyE freshDisk [5]).2 = some [5] ∧ (t.hash toyE).2 = ((after toyE freshDisk copyCalls).t.hash toyE).2)
      | _ => false) = true := by decide +kernel

/-- The hypotheses of `C121_copy` hold for these calls. -/
example : Apart toyE (along copyCalls) ∧ ∀ k ∈ [[3], [5], [7]], ∃ x, contents copyCalls k = some x ∧ x.take 1 = k :=
  ⟨apart_of (by decide +kernel) (by decide +kernel) (by decide +kernel), by
    intro k hk
    simp only [List.mem_cons, List.not_mem_nil, or_false] at hk
    rcases hk with rfl | rfl | rfl
    · exact ⟨[3, 1, 1], by decide +kernel, rfl⟩
    · exact ⟨[5], by decide +kernel, rfl⟩
    · exact ⟨[7, 1], by decide +kernel, rfl⟩⟩

/-! ### Batches -/

/-- The calls of a batch. -/
def putCalls (l : List (Bytes × V)) : List (SOp V) := l.map fun e => .put e.1 e.2

theorem putCalls_call (l : List (Bytes × V)) : (putCalls l).filterMap SOp.call = putAll l := by
  rw [putCalls, putAll, List.filterMap_map]
  simp [Function.comp_def, SOp.call]

/-- The storage holds the tree. -/
def Saved (E : Env V) (D : Disk) (a : Node V) : Prop := ∀ p v c, a = .mk p v c → isEmpty p v c = false → Stored E D a

theorem puts_spec (hE : E.Lawful) (L : Limits) {T : Node V → Prop} (hA : Apart E T) : ∀ (l : List (Bytes × V)) (h : List (Op V)) (p : Putter V),
    p.m ≠ 0 → SInv E p.s h → (p.m ∣ (p.count : Int) → l = [] → Saved E p.s.D (newTrie.run h).root) →
    (∀ pre, pre <+: l → T (newTrie.run (h ++ putAll pre)).root) →
    ∃ p', p.puts E noFaults L l = .ok p' ∧ p'.count = p.count + l.length ∧ p'.m = p.m ∧ SInv E p'.s (h ++ putAll l) ∧
      (p.m ∣ ((p.count + l.length : Nat) : Int) → Saved E p'.s.D (newTrie.run (h ++ putAll l)).root) := by
  intro l
  induction l with
  | nil =>
    intro h p _ hs hsv _
    exact ⟨p, rfl, rfl, rfl, by simpa [putAll] using hs, by simpa [putAll] using hsv⟩
  | cons e l ih =>
    intro h p hm hs _ hT
    obtain ⟨h1, -, h3⟩ := put_step hE hs.rep (wf_run h) e.1 e.2
    have hch : (p.s.t.put E p.s.D e.1 e.2).2 = true := by rw [h1, insert_changed _ (wf_run h).isSome]
    have h3' : Rep E p.s.D (p.s.t.put E p.s.D e.1 e.2).1.root (newTrie.run (h ++ [.put e.1 e.2])).root := by rw [run_concat]; exact h3
    have hT' : ∀ pre, pre <+: l → T (newTrie.run ((h ++ [.put e.1 e.2]) ++ putAll pre)).root := by
      intro pre hp
      have := hT (e :: pre) (by simpa using hp)
      rw [List.append_assoc]
      exact this
    have hwf := wf_run (h ++ [Op.put e.1 e.2])
    have hdvd : ((p.count + 1 : Nat) : Int).tmod p.m = 0 ↔ p.m ∣ ((p.count + 1 : Nat) : Int) := Int.dvd_iff_tmod_eq_zero.symm
    by_cases hd : ((p.count + 1 : Nat) : Int).tmod p.m = 0
    · obtain ⟨c1, c2, -, c3, c4⟩ := commit_step hE (hA.ghost hE) (noFaults_harmless E _) L hs.disk h3' hwf
        ⟨hwf.isSome, _, by simpa [putAll] using hT' [] List.nil_prefix, Sub.refl _⟩
      have hput : p.put E noFaults L e.1 e.2 = .ok (⟨⟨((p.s.t.put E p.s.D e.1 e.2).1.commit E noFaults L p.s.D).1.collapse E,
          ((p.s.t.put E p.s.D e.1 e.2).1.commit E noFaults L p.s.D).2.1⟩, p.m, p.count + 1⟩, true, true) := by
        rw [Putter.put]
        simp only [hch, if_true, hm, if_false, hd, c1]
      obtain ⟨p', k1, k2, k3, k4, k5⟩ := ih (h ++ [Op.put e.1 e.2]) ⟨⟨((p.s.t.put E p.s.D e.1 e.2).1.commit E noFaults L p.s.D).1.collapse E,
          ((p.s.t.put E p.s.D e.1 e.2).1.commit E noFaults L p.s.D).2.1⟩, p.m, p.count + 1⟩ hm ⟨c2, collapse_step hE c3⟩
          (fun _ _ => c4) hT'
      refine ⟨p', by rw [Putter.puts, hput]; exact k1, by rw [k2, List.length_cons]; simp only; omega, k3, ?_, ?_⟩
      · rw [List.append_assoc] at k4; exact k4
      · rw [List.append_assoc] at k5
        intro hx
        refine k5 ?_
        rw [List.length_cons] at hx
        rwa [show p.count + 1 + l.length = p.count + (l.length + 1) by omega]
    · have hput : p.put E noFaults L e.1 e.2 = .ok (⟨⟨(p.s.t.put E p.s.D e.1 e.2).1, p.s.D⟩, p.m, p.count + 1⟩, true, true) := by
        rw [Putter.put]
        simp only [hch, if_true, hm, if_false, hd]
      obtain ⟨p', k1, k2, k3, k4, k5⟩ := ih (h ++ [Op.put e.1 e.2]) ⟨⟨(p.s.t.put E p.s.D e.1 e.2).1, p.s.D⟩, p.m, p.count + 1⟩ hm ⟨hs.disk, h3'⟩
          (fun hx _ => absurd (hdvd.2 hx) hd) hT'
      refine ⟨p', by rw [Putter.puts, hput]; exact k1, by rw [k2, List.length_cons]; simp only; omega, k3, ?_, ?_⟩
      · rw [List.append_assoc] at k4; exact k4
      · rw [List.append_assoc] at k5
        intro hx
        refine k5 ?_
        rw [List.length_cons] at hx
        rwa [show p.count + 1 + l.length = p.count + (l.length + 1) by omega]

/-- **C122, batches.**  However a `BatchPutter` is used, its trie answers all further calls as if the keys had been put one by one and
nothing had been committed. -/
theorem C122_batch (hE : E.Lawful) (l : List (Bytes × V)) (ops2 : List (SOp V)) (hk : ClearOps [] (putCalls l ++ ops2))
    (hA : Apart E (along (putCalls l ++ ops2))) (D : Disk) (hD : D.ok) (L : Limits) (m : Int) (hm : m ≠ 0) :
    ∃ p, Putter.puts E noFaults L ⟨⟨openTrie none, D⟩, m, 0⟩ l = .ok p ∧ p.count = l.length ∧
      outs E noFaults p.s ops2 = expect E (putAll l) ops2 := by
  obtain ⟨p, h1, h2, -, h3, -⟩ := puts_spec hE L (apart_append hA) l [] ⟨⟨openTrie none, D⟩, m, 0⟩ hm ⟨hD, rep_openNil⟩
    (fun _ _ q v c he hc => by
      have : (Node.mk [] none noChild : Node V) = .mk q v c := he
      cases this
      cases hc)
    (fun pre hp => ⟨putCalls pre, hp.map _, by rw [putCalls_call, List.nil_append]⟩)
  refine ⟨p, h1, by simpa using h2, ?_⟩
  have := further hE hk hA h3.disk (by rw [putCalls_call]; exact h3.rep)
  rwa [putCalls_call] at this

/-- **C122, after a whole number of batches** everything is in the storage: a trie opened from the root hash answers the same, without a
commit. -/
theorem C122_saved (hE : E.Lawful) (l : List (Bytes × V)) (ops2 : List (SOp V)) (hk : ClearOps [] (putCalls l ++ ops2))
    (hA : Apart E (along (putCalls l ++ ops2))) (D : Disk) (hD : D.ok) (L : Limits) (m : Int) (hm : m ≠ 0) (hd : m ∣ (l.length : Int)) :
    ∃ p, Putter.puts E noFaults L ⟨⟨openTrie none, D⟩, m, 0⟩ l = .ok p ∧
      outs E noFaults ⟨openTrie (some (p.s.t.hash E).2), p.s.D⟩ ops2 = expect E (putAll l) ops2 := by
  obtain ⟨p, h1, h2, -, h3, h4⟩ := puts_spec hE L (apart_append hA) l [] ⟨⟨openTrie none, D⟩, m, 0⟩ hm ⟨hD, rep_openNil⟩
    (fun _ _ q v c he hc => by
      have : (Node.mk [] none noChild : Node V) = .mk q v c := he
      cases this
      cases hc)
    (fun pre hp => ⟨putCalls pre, hp.map _, by rw [putCalls_call, List.nil_append]⟩)
  refine ⟨p, h1, ?_⟩
  rw [List.nil_append] at h3 h4
  have h5 := rep_open (wf_run _) (h4 (by simpa using hd)) 1
  rw [← (hash_step h3.rep (wf_run _)).1] at h5
  have := further hE hk hA (s := ⟨openTrie (some (p.s.t.hash E).2), p.s.D⟩) h3.disk (by rw [putCalls_call]; exact h5)
  rwa [putCalls_call] at this

/-- C122 fails for the modulus zero: the key is put, then there is a division by zero. -/
theorem C122_zero_refuted (hE : E.Lawful) (F : Faults) (L : Limits) (D : Disk) (k : Bytes) (x : V) :
    Putter.put E F L ⟨⟨openTrie none, D⟩, 0, 0⟩ k x = .panic := by
  have h := (put_step hE (D := D) (t := openTrie (V := V) none) rep_openNil WFRoot_new k x).1
  rw [show (Node.mk [] none noChild : Node V) = (newTrie (V := V)).root from rfl, insert_changed _ (WFRoot_new (V := V)).isSome] at h
  rw [Putter.put]
  simp only [h, if_true]

/-- Five keys in batches of two: four are in the storage, the fifth is in memory only. -/
example : (match Putter.puts toyE noFaults realLimits ⟨⟨openTrie none, freshDisk⟩, 2, 0⟩ [([1], [1]), ([2], [2]), ([0x12], [3]), ([0x13], [4]), ([7], [5])] with
      | .ok p => decide (p.count = 5 ∧ (p.s.t.get toyE p.s.D [7]).2 = some [5] ∧ (p.s.t.get toyE p.s.D [0x12]).2 = some [3])
      | _ => false) = true := by decide +kernel

/-! ### Another database -/

theorem stored_within {D D' : Disk} (h : D.within D') : ∀ (a : Node V), Stored E D a → Stored E D' a := by
  intro a
  induction a with
  | nil => intro _; trivial
  | mk p v c ih =>
    rintro ⟨⟨f, h1, h2⟩, h3, h4, h5⟩
    refine ⟨?_, ?_, h4, fun j => ih j (h5 j)⟩
    · obtain ⟨f', k1, k2⟩ := h.1 f h1
      exact ⟨f', k1, k2 _ _ h2⟩
    · intro x hx
      obtain ⟨g, g1, g2⟩ := h3 x hx
      obtain ⟨f', k1, k2⟩ := h.2 g g1
      exact ⟨f', k1, k2 _ _ g2⟩

/-- **C122, rebasing.**  The trie over a database that has all that is in the storage answers as the original does, whatever else that
database holds. -/
theorem C122_rebase (hE : E.Lawful) (ops ops2 : List (SOp V)) (hk : ClearOps [] (ops ++ ops2)) (hA : Apart E (along (ops ++ ops2)))
    (D : Disk) (hD : D.ok) (L : Limits) :
    ∃ t D1 t', (after E D ops).t.rebase E noFaults L (after E D ops).D = (t, D1, some t') ∧
      outs E noFaults ⟨t, D1⟩ ops2 = expect E (ops.filterMap SOp.call) ops2 ∧
      ∀ D', D'.ok → D1.within D' → outs E noFaults ⟨t', D'⟩ ops2 = expect E (ops.filterMap SOp.call) ops2 := by
  have hk1 := (clearOps_append ops ops2 [] hk).1
  have hA1 := apart_append hA
  have hinv := clear_inv ops [] inv_nil hk1
  have hs := (outs_spec hE hA1 (noFaults_harmless E _) ops [] ⟨openTrie none, D⟩ ⟨hD, rep_openNil⟩ fun pre hp => ⟨pre, hp, rfl⟩).2
  rw [List.nil_append] at hs hinv
  obtain ⟨h1, h2, -, h3, h4⟩ := commit_step hE (hA1.ghost hE) (noFaults_harmless E _) L hs.disk hs.rep hinv.wf
    ⟨hinv.wf.isSome, _, ⟨ops, List.prefix_refl _, rfl⟩, Sub.refl _⟩
  refine ⟨_, _, _, by rw [BTrie.rebase, after]; simp only [h1, if_true]; rfl, further hE hk hA h2 (hash_step h3 hinv.wf).2, ?_⟩
  intro D' hD' hw
  have h5 := rep_open (E := E) (D := D') hinv.wf (fun p v c he hc => stored_within hw _ (h4 p v c he hc)) 0
  rw [← (hash_step h3 hinv.wf).1] at h5
  exact further hE hk hA hD' h5

/-- **C122, the root hash of an empty trie** is recognised, and no other. -/
theorem C122_emptyRoot (hE : E.Lawful) (ops : List (SOp V)) (hk : ClearOps [] ops) (hA : Apart E (along ops)) (D : Disk) (hD : D.ok) :
    isEmptyTrieRoot E ((after E D ops).t.hash E).2 = true ↔ ∀ k, contents ops k = none := by
  have hinv := clear_inv ops [] inv_nil hk
  have hs := (outs_spec hE hA (noFaults_harmless E _) ops [] ⟨openTrie none, D⟩ ⟨hD, rep_openNil⟩ fun pre hp => ⟨pre, hp, rfl⟩).2
  rw [List.nil_append] at hs hinv
  obtain ⟨h1, h2, -, h3, h4⟩ := commit_step hE (hA.ghost hE) (noFaults_harmless E _) realLimits hs.disk hs.rep hinv.wf
    ⟨hinv.wf.isSome, _, ⟨ops, List.prefix_refl _, rfl⟩, Sub.refl _⟩
  have hh := (hash_step hs.rep hinv.wf).1
  rw [after, hh]
  revert h4 hinv
  generalize (newTrie (V := V)).run (ops.filterMap SOp.call) = t
  intro hinv h4
  cases hr : t.root with
  | nil => have := hinv.wf; rw [hr] at this; exact this.elim
  | mk p v c =>
    cases he : isEmpty p v c with
    | true =>
      have h0 := (isEmpty_iff _ _ _).1 he
      obtain ⟨rfl, rfl, hc⟩ := h0
      have hc' : c = noChild := funext hc
      subst hc'
      constructor
      · intro _ k
        have := hinv.look k
        rw [hr, lookup_empty he] at this
        exact this.symm
      · intro _
        rw [isEmptyTrieRoot, Bool.or_eq_true]
        exact Or.inr (decide_eq_true rfl)
    | false =>
      have hst := h4 p v c hr he
      rw [hr] at hst
      have hne := hst.2.2.1
      constructor
      · intro h
        exfalso
        rw [isEmptyTrieRoot, Bool.or_eq_true, decide_eq_true_eq, decide_eq_true_eq] at h
        rcases h with h | h
        · have : (nh E (.mk p v c)).length = 32 := nh_len hE _
          omega
        · exact hne h
      · intro h
        exfalso
        have hall : ∀ q, lookup t.root q = none := by
          intro q
          by_contra hc
          obtain ⟨k, rfl⟩ := hinv.keys q (Option.isSome_iff_ne_none.2 hc)
          exact hc (by rw [hinv.look]; exact h k)
        have : t.root = (newTrie (V := V)).root := canonical_root hinv.wf WFRoot_new fun q => by
          rw [hall q]
          exact (lookup_empty (c := noChild) ((isEmpty_iff _ _ _).2 ⟨rfl, rfl, fun _ => rfl⟩) q).symm
        rw [hr] at this
        cases this
        cases he

end Verif.Trie.Store

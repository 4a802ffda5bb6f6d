import Verif.Sorted

/-!
# Clones and memory: C150

The memory is a list of cells that is appended to by allocations; a slice is a window of the array of a cell, a pointer the
number of a cell.  An array has as many items as it was made with; the capacity beyond is left out, no clone has any.
Strings are values.  Modelled are the `Clone` methods of proofs, node headers, lists of chains, nodes and attributes, chain
descriptions and shardings, and the functions that copy byte slices, hashes and numbers.
-/

namespace Verif.Memory
open Verif

/-- A slice: the cell of its array, its first item and its length. -/
structure Slice where
  addr : Nat
  off : Nat
  len : Nat

/-- `Dataserver` (`/repo/chaininfo.go:942-952`). -/
structure Server where
  chain : Nat
  nid : String
  ip : String
  ports : List Nat

/-- An item of an array: a byte, an array of bytes (`Hash`, `NodeID`), a `MoreTime`, a number (`ChainID`, `ChainAttr`), a
`Dataserver`, a slice or a pointer. -/
inductive Item where
  | byte (b : UInt8)
  | bytes (b : Bytes)
  | times (index times : Int)
  | word (n : Nat)
  | server (s : Server)
  | slice (s : Option Slice)
  | ptr (p : Option Nat)

/-- `ChainInfos` (`/repo/chaininfo.go:184-200`) but for the slices. -/
structure InfoValues where
  id : Nat
  parentId : Nat
  mode : Nat
  secondCoinId : Nat
  secondCoinName : String
  haveSecondCoin : Bool
  election : Nat
  chainVersion : String
  syncblock : Bool
  version : Nat

/-- What is in a cell: an array, a `big.Int`, a `Hash`, a `MerkleProofs` (`/repo/hash.go:254-264`), a `NodeProof`
(`/repo/trie/proof.go:204-210`) with its header (`/repo/trie/node.go:123-127`), or a `ChainInfos`. -/
inductive Cell where
  | arr (l : List Item)
  | big (v : Int)
  | hash (b : Bytes)
  | proofs (hashs : Option Slice) (paths : Option Nat) (repeats : Option Slice)
  | node (ptype nt : UInt8) (key : Option Slice) (flag : Bytes) (valueHash : Option Nat) (childProofs : Option Nat)
  | infos (v : InfoValues) (adminPubs genesisCommIds bootNodes genesisDatas datas attributes auditors : Option Slice)

/-- The memory. -/
abbrev Heap := List Cell

/-- Allocation. -/
def Heap.new (h : Heap) (c : Cell) : Heap × Nat := (h ++ [c], h.length)

/-! ### What is seen through a slice or pointer

`none` stands for a dangling pointer; `some none` for nil. -/

/-- The contents of cells. -/
abbrev Mem := Nat → Option Cell

/-- The items of a slice. -/
def items (m : Mem) : Option Slice → Option (Option (List Item))
  | none => some none
  | some s =>
    match m s.addr with
    | some (.arr l) => if s.off + s.len ≤ l.length then some (some ((l.drop s.off).take s.len)) else none
    | _ => none

/-- The byte slice that an item is. -/
def sliceItem (m : Mem) : Item → Option (Option (List Item))
  | .slice s => items m s
  | _ => none

/-- The byte slices in a slice. -/
def byteSlices (m : Mem) (s : Option Slice) : Option (Option (List (Option (List Item)))) :=
  match items m s with
  | none => none
  | some none => some none
  | some (some l) => (l.mapM (sliceItem m)).map some

/-- The number. -/
def bigAt (m : Mem) : Option Nat → Option (Option Int)
  | none => some none
  | some p => match m p with | some (.big v) => some (some v) | _ => none

/-- The hash. -/
def hashAt (m : Mem) : Option Nat → Option (Option Bytes)
  | none => some none
  | some p => match m p with | some (.hash b) => some (some b) | _ => none

/-- What a `MerkleProofs` is: hashes, paths and repeats. -/
structure ProofsView where
  hashs : Option (List Item)
  paths : Option Int
  repeats : Option (List Item)

/-- The proofs. -/
def proofsAt (m : Mem) : Option Nat → Option (Option ProofsView)
  | none => some none
  | some p =>
    match m p with
    | some (.proofs a b c) => do return some ⟨← items m a, ← bigAt m b, ← items m c⟩
    | _ => none

/-- What a `NodeProof` is. -/
structure NodeView where
  ptype : UInt8
  nt : UInt8
  key : Option (List Item)
  flag : Bytes
  valueHash : Option Bytes
  childProofs : Option ProofsView

/-- The proof of a node. -/
def nodeAt (m : Mem) : Option Nat → Option (Option NodeView)
  | none => some none
  | some p =>
    match m p with
    | some (.node pt nt k f v c) => do return some ⟨pt, nt, ← items m k, f, ← hashAt m v, ← proofsAt m c⟩
    | _ => none

/-- The proof that an item points to. -/
def ptrItem (m : Mem) : Item → Option (Option NodeView)
  | .ptr p => nodeAt m p
  | _ => none

/-- The proofs of a chain. -/
def chainAt (m : Mem) (s : Option Slice) : Option (Option (List (Option NodeView))) :=
  match items m s with
  | none => none
  | some none => some none
  | some (some l) => (l.mapM (ptrItem m)).map some

/-- What a `ChainInfos` is. -/
structure InfosView where
  values : InfoValues
  adminPubs : Option (List (Option (List Item)))
  genesisCommIds : Option (List Item)
  bootNodes : Option (List Item)
  genesisDatas : Option (List Item)
  datas : Option (List Item)
  attributes : Option (List Item)
  auditors : Option (List Item)

/-- The description of the chain. -/
def infosAt (m : Mem) : Option Nat → Option (Option InfosView)
  | none => some none
  | some p =>
    match m p with
    | some (.infos v a b c d e f g) => do
      return some ⟨v, ← byteSlices m a, ← items m b, ← items m c, ← items m d, ← items m e, ← items m f, ← items m g⟩
    | _ => none

/-- All of the memory. -/
def Heap.all (h : Heap) : Mem := fun a => h[a]?

/-- The memory allocated since there were `lo` cells. -/
def Heap.since (h : Heap) (lo : Nat) : Mem := fun a => if a < lo then none else h[a]?

/-! ### The code -/

/-- `CopyBytes`, `CloneByteSlice`, `CopyHashs` and the `Clone` of `MoreTimes`, `KeyPart`, `NodeIDs`, `ChainIDs` and `ChainAttrs`
(`/repo/bytes.go:147-157`, `/repo/utils.go:27-37`, `/repo/basic.go:1502-1511, 518-525`, `/repo/hash.go:110-117`,
`/repo/trie/node.go:72-79`, `/repo/chaininfo.go:546-555, 253-260`): nil for nil, else a new array into which the items are
copied. -/
def copySlice (h : Heap) : Option Slice → Heap × Option Slice
  | none => (h, none)
  | some s =>
    match items h.all (some s) with
    | some (some l) => let r := h.new (.arr l); (r.1, some ⟨r.2, 0, s.len⟩)
    | _ => (h, none)

/-- The loop of `CopyBytesSlice` over the byte slices that are left. -/
def copyEach (h : Heap) : List Item → Heap × List Item
  | [] => (h, [])
  | .slice s :: l => let r := copySlice h s; let q := copyEach r.1 l; (q.1, .slice r.2 :: q.2)
  | i :: l => let q := copyEach h l; (q.1, i :: q.2)

/-- `CopyBytesSlice` (`/repo/bytes.go:299-308`); the outer array is counted when it is filled. -/
def copyBytesSlice (h : Heap) : Option Slice → Heap × Option Slice
  | none => (h, none)
  | some s =>
    match items h.all (some s) with
    | some (some l) => let q := copyEach h l; let r := q.1.new (.arr q.2); (r.1, some ⟨r.2, 0, s.len⟩)
    | _ => (h, none)

/-- `CopyBigInt`, `NewBigInt` and `BigInt.Clone` (`/repo/math/big.go:356-361, 457-463, 480-482`). -/
def copyBig (h : Heap) : Option Nat → Heap × Option Nat
  | none => (h, none)
  | some p =>
    match h[p]? with
    | some (.big v) => let r := h.new (.big v); (r.1, some r.2)
    | _ => (h, none)

/-- `Hash.Clone` and `NewHash` (`/repo/basic.go:1354-1358, 1387-1392`). -/
def cloneHash (h : Heap) : Option Nat → Heap × Option Nat
  | none => (h, none)
  | some p =>
    match h[p]? with
    | some (.hash b) => let r := h.new (.hash b); (r.1, some r.2)
    | _ => (h, none)

/-- `MerkleProofs.Clone` (`/repo/hash.go:293-307`). -/
def cloneProofs (h : Heap) : Option Nat → Heap × Option Nat
  | none => (h, none)
  | some p =>
    match h[p]? with
    | some (.proofs a b c) =>
      let x := copySlice h a
      let y := copyBig x.1 b
      let z := copySlice y.1 c
      let r := z.1.new (.proofs x.2 y.2 z.2)
      (r.1, some r.2)
    | _ => (h, none)

/-- `NodeProof.Clone` and `NodeHeader.Clone` (`/repo/trie/proof.go:225-235`, `/repo/trie/node.go:133-139`). -/
def cloneNode (h : Heap) : Option Nat → Heap × Option Nat
  | none => (h, none)
  | some p =>
    match h[p]? with
    | some (.node pt nt k f v c) =>
      let x := copySlice h k
      let y := cloneHash x.1 v
      let z := cloneProofs y.1 c
      let r := z.1.new (.node pt nt x.2 f y.2 z.2)
      (r.1, some r.2)
    | _ => (h, none)

/-- The loop of `ProofChain.Clone` over the proofs that are left. -/
def cloneEach (h : Heap) : List Item → Heap × List Item
  | [] => (h, [])
  | .ptr p :: l => let r := cloneNode h p; let q := cloneEach r.1 l; (q.1, .ptr r.2 :: q.2)
  | i :: l => let q := cloneEach h l; (q.1, i :: q.2)

/-- `ProofChain.Clone` (`/repo/trie/proof.go:620-629`); the outer array is counted when it is filled. -/
def cloneChain (h : Heap) : Option Slice → Heap × Option Slice
  | none => (h, none)
  | some s =>
    match items h.all (some s) with
    | some (some l) => let q := cloneEach h l; let r := q.1.new (.arr q.2); (r.1, some ⟨r.2, 0, s.len⟩)
    | _ => (h, none)

/-- `ChainInfos.Clone` (`/repo/chaininfo.go:638-668`); a `Dataserver` is copied by assignment. -/
def cloneInfos (h : Heap) : Option Nat → Heap × Option Nat
  | none => (h, none)
  | some p =>
    match h[p]? with
    | some (.infos v a b c d e f g) =>
      let c' := copySlice h c
      let a' := copyBytesSlice c'.1 a
      let b' := copySlice a'.1 b
      let d' := copySlice b'.1 d
      let e' := copySlice d'.1 e
      let f' := copySlice e'.1 f
      let g' := copySlice f'.1 g
      let r := g'.1.new (.infos v a'.2 b'.2 c'.2 d'.2 e'.2 f'.2 g'.2)
      (r.1, some r.2)
    | _ => (h, none)

/-! ### Views are local -/

/-- All that is in `m` is in `m'`. -/
def Sub (m m' : Mem) : Prop := ∀ a c, m a = some c → m' a = some c

/-- The view depends on the cells that it reads only. -/
def Local {A : Type} (view : Mem → Option A) : Prop := ∀ m m' v, Sub m m' → view m = some v → view m' = some v

theorem local_items (s : Option Slice) : Local (fun m => items m s) := by
  intro m m' v hs h
  cases s with
  | none => exact h
  | some s =>
    simp only [items] at h ⊢
    cases hc : m s.addr with
    | none => rw [hc] at h; cases h
    | some c => rw [hs _ _ hc]; rw [hc] at h; exact h

theorem local_bind {A B : Type} {f : Mem → Option A} {g : A → Mem → Option B} (hf : Local f) (hg : ∀ a, Local (g a)) :
    Local (fun m => (f m).bind fun a => g a m) := by
  intro m m' v hs h
  simp only [Option.bind_eq_some_iff] at h ⊢
  obtain ⟨a, h1, h2⟩ := h
  exact ⟨a, hf _ _ _ hs h1, hg a _ _ _ hs h2⟩

theorem local_pure {A : Type} (a : A) : Local (fun _ => some a) := fun _ _ _ _ h => h

theorem local_cell (p : Nat) {B : Type} {g : Cell → Mem → Option B} (hg : ∀ c, Local (g c)) :
    Local (fun m => (m p).bind fun c => g c m) :=
  local_bind (fun _ _ _ hs h => hs _ _ h) hg

theorem local_mapM {A : Type} {f : Item → Mem → Option A} (hf : ∀ i, Local (f i)) : ∀ l : List Item,
    Local (fun m => l.mapM fun i => f i m) := by
  intro l
  induction l with
  | nil => exact local_pure []
  | cons i l ih =>
    simp only [List.mapM_cons]
    exact local_bind (hf i) fun a => local_bind ih fun b => local_pure _

theorem byteSlices_eq (s : Option Slice) : (fun m => byteSlices m s) = fun m => (items m s).bind fun o => match o with
    | none => some none
    | some l => (l.mapM (sliceItem m)).bind fun x => some (some x) := by
  funext m
  unfold byteSlices
  cases items m s with
  | none => rfl
  | some o =>
    cases o with
    | none => rfl
    | some l => simp only [Option.bind_some]; cases l.mapM (sliceItem m) <;> rfl

theorem local_byteSlices (s : Option Slice) : Local (fun m => byteSlices m s) := by
  rw [byteSlices_eq]
  refine local_bind (local_items s) ?_
  intro o
  cases o with
  | none => exact local_pure _
  | some l =>
    refine local_bind (local_mapM (f := fun i m => sliceItem m i) ?_ l) fun _ => local_pure _
    intro i
    cases i with
    | slice s => exact local_items s
    | _ => exact fun _ _ _ _ h => h

theorem local_big (p : Option Nat) : Local (fun m => bigAt m p) := by
  intro m m' v hs h
  cases p with
  | none => exact h
  | some p =>
    simp only [bigAt] at h ⊢
    cases hc : m p with
    | none => rw [hc] at h; cases h
    | some c => rw [hs _ _ hc]; rw [hc] at h; exact h

theorem local_hash (p : Option Nat) : Local (fun m => hashAt m p) := by
  intro m m' v hs h
  cases p with
  | none => exact h
  | some p =>
    simp only [hashAt] at h ⊢
    cases hc : m p with
    | none => rw [hc] at h; cases h
    | some c => rw [hs _ _ hc]; rw [hc] at h; exact h

theorem local_proofs (p : Option Nat) : Local (fun m => proofsAt m p) := by
  intro m m' v hs h
  cases p with
  | none => exact h
  | some p =>
    simp only [proofsAt] at h ⊢
    cases hc : m p with
    | none => rw [hc] at h; cases h
    | some c =>
      rw [hs _ _ hc]; rw [hc] at h
      cases c with
      | proofs a b c =>
        exact local_bind (local_items a) (fun x => local_bind (local_big b) fun y => local_bind (local_items c) fun z => local_pure _)
          m m' v hs h
      | _ => exact h

theorem local_node (p : Option Nat) : Local (fun m => nodeAt m p) := by
  intro m m' v hs h
  cases p with
  | none => exact h
  | some p =>
    simp only [nodeAt] at h ⊢
    cases hc : m p with
    | none => rw [hc] at h; cases h
    | some c =>
      rw [hs _ _ hc]; rw [hc] at h
      cases c with
      | node pt nt k f vh c =>
        exact local_bind (local_items k) (fun x => local_bind (local_hash vh) fun y => local_bind (local_proofs c) fun z => local_pure _)
          m m' v hs h
      | _ => exact h

theorem chainAt_eq (s : Option Slice) : (fun m => chainAt m s) = fun m => (items m s).bind fun o => match o with
    | none => some none
    | some l => (l.mapM (ptrItem m)).bind fun x => some (some x) := by
  funext m
  unfold chainAt
  cases items m s with
  | none => rfl
  | some o =>
    cases o with
    | none => rfl
    | some l => simp only [Option.bind_some]; cases l.mapM (ptrItem m) <;> rfl

theorem local_chain (s : Option Slice) : Local (fun m => chainAt m s) := by
  rw [chainAt_eq]
  refine local_bind (local_items s) ?_
  intro o
  cases o with
  | none => exact local_pure _
  | some l =>
    refine local_bind (local_mapM (f := fun i m => ptrItem m i) ?_ l) fun _ => local_pure _
    intro i
    cases i with
    | ptr p => exact local_node p
    | _ => exact fun _ _ _ _ h => h

theorem local_infos (p : Option Nat) : Local (fun m => infosAt m p) := by
  intro m m' v hs h
  cases p with
  | none => exact h
  | some p =>
    simp only [infosAt] at h ⊢
    cases hc : m p with
    | none => rw [hc] at h; cases h
    | some c =>
      rw [hs _ _ hc]; rw [hc] at h
      cases c with
      | infos w a b c d e f g =>
        exact local_bind (local_byteSlices a) (fun _ => local_bind (local_items b) fun _ => local_bind (local_items c) fun _ =>
          local_bind (local_items d) fun _ => local_bind (local_items e) fun _ => local_bind (local_items f) fun _ =>
          local_bind (local_items g) fun _ => local_pure _) m m' v hs h
      | _ => exact h

/-! ### Clones are seen in new memory -/

theorem sub_all {h h' : Heap} (hp : h <+: h') : Sub h.all h'.all := by
  intro a c hc
  obtain ⟨r, rfl⟩ := hp
  simp only [Heap.all] at hc ⊢
  obtain ⟨hlt, _⟩ := List.getElem?_eq_some_iff.mp hc
  rw [List.getElem?_append_left hlt]
  exact hc

theorem sub_since {h h' : Heap} {lo lo' : Nat} (hp : h <+: h') (hl : lo' ≤ lo) : Sub (h.since lo) (h'.since lo') := by
  intro a c hc
  simp only [Heap.since] at hc ⊢
  by_cases ha : a < lo
  · rw [if_pos ha] at hc; cases hc
  · rw [if_neg ha] at hc
    rw [if_neg (by omega)]
    exact sub_all hp a c hc

/-- The memory has only grown, and the view is one of memory that was allocated since. -/
def New {A : Type} (h h' : Heap) (view : Mem → Option A) (v : A) : Prop := h <+: h' ∧ view (h'.since h.length) = some v

theorem New.move {A : Type} {h h' : Heap} {view : Mem → Option A} {v : A} (hl : Local view) (hn : New h h' view v) {k k' : Heap}
    (h1 : k <+: h) (h2 : h' <+: k') : view (k'.since k.length) = some v :=
  hl _ _ _ (sub_since h2 h1.length_le) hn.2

theorem since_new (h : Heap) (lo : Nat) (hl : lo ≤ h.length) (c : Cell) : (h ++ [c]).since lo h.length = some c := by
  simp only [Heap.since]
  rw [if_neg (by omega)]
  simp

theorem copySlice_new (h : Heap) (s : Option Slice) (v : Option (List Item)) (hv : items h.all s = some v) :
    New h (copySlice h s).1 (fun m => items m (copySlice h s).2) v := by
  cases s with
  | none => exact ⟨List.prefix_refl _, hv⟩
  | some s =>
    simp only [copySlice, hv]
    cases v with
    | none =>
      exfalso
      simp only [items] at hv
      split at hv
      · split at hv <;> simp at hv
      · cases hv
    | some l =>
      have hlen : l.length = s.len := by
        simp only [items] at hv
        split at hv
        · split at hv
          · simp only [Option.some.injEq] at hv
            subst hv
            simp only [List.length_take, List.length_drop]
            omega
          · cases hv
        · cases hv
      refine ⟨List.prefix_append _ _, ?_⟩
      simp only [Heap.new, items]
      rw [since_new h _ (Nat.le_refl _)]
      simp [← hlen]

theorem copyBig_new (h : Heap) (p : Option Nat) (v : Option Int) (hv : bigAt h.all p = some v) :
    New h (copyBig h p).1 (fun m => bigAt m (copyBig h p).2) v := by
  cases p with
  | none => exact ⟨List.prefix_refl _, hv⟩
  | some p =>
    simp only [bigAt, Heap.all] at hv
    simp only [copyBig]
    cases hc : h[p]? with
    | none => rw [hc] at hv; cases hv
    | some c =>
      rw [hc] at hv
      cases c with
      | big w =>
        refine ⟨List.prefix_append _ _, ?_⟩
        simp only [Heap.new, bigAt]
        rw [since_new h _ (Nat.le_refl _)]
        exact hv
      | _ => cases hv

theorem cloneHash_new (h : Heap) (p : Option Nat) (v : Option Bytes) (hv : hashAt h.all p = some v) :
    New h (cloneHash h p).1 (fun m => hashAt m (cloneHash h p).2) v := by
  cases p with
  | none => exact ⟨List.prefix_refl _, hv⟩
  | some p =>
    simp only [hashAt, Heap.all] at hv
    simp only [cloneHash]
    cases hc : h[p]? with
    | none => rw [hc] at hv; cases hv
    | some c =>
      rw [hc] at hv
      cases c with
      | hash w =>
        refine ⟨List.prefix_append _ _, ?_⟩
        simp only [Heap.new, hashAt]
        rw [since_new h _ (Nat.le_refl _)]
        exact hv
      | _ => cases hv

theorem cloneProofs_new (h : Heap) (p : Option Nat) (v : Option ProofsView) (hv : proofsAt h.all p = some v) :
    New h (cloneProofs h p).1 (fun m => proofsAt m (cloneProofs h p).2) v := by
  cases p with
  | none => exact ⟨List.prefix_refl _, hv⟩
  | some p =>
    simp only [proofsAt, Heap.all] at hv
    simp only [cloneProofs]
    cases hc : h[p]? with
    | none => rw [hc] at hv; cases hv
    | some c =>
      rw [hc] at hv
      cases c with
      | proofs a b c =>
        simp only [Option.bind_eq_bind, Option.bind_eq_some_iff] at hv
        obtain ⟨va, ha, vb, hb, vc, hcc, hv⟩ := hv
        have na := copySlice_new h a va ha
        have nb := copyBig_new (copySlice h a).1 b vb (local_big b _ _ _ (sub_all na.1) hb)
        have nc := copySlice_new (copyBig (copySlice h a).1 b).1 c vc (local_items c _ _ _ (sub_all (na.1.trans nb.1)) hcc)
        dsimp only
        generalize copySlice h a = x at *
        generalize copyBig x.1 b = y at *
        generalize copySlice y.1 c = z at *
        have hz : z.1 <+: z.1 ++ [Cell.proofs x.2 y.2 z.2] := List.prefix_append _ _
        have hp : h <+: z.1 := na.1.trans (nb.1.trans nc.1)
        refine ⟨hp.trans hz, ?_⟩
        simp only [Heap.new, proofsAt]
        rw [since_new z.1 _ hp.length_le]
        simp only [Option.bind_eq_bind, Option.bind_eq_some_iff]
        exact ⟨va, na.move (local_items _) (List.prefix_refl _) ((nb.1.trans nc.1).trans hz),
          vb, nb.move (local_big _) na.1 (nc.1.trans hz), vc, nc.move (local_items _) (na.1.trans nb.1) hz, hv⟩
      | _ => cases hv

theorem cloneNode_new (h : Heap) (p : Option Nat) (v : Option NodeView) (hv : nodeAt h.all p = some v) :
    New h (cloneNode h p).1 (fun m => nodeAt m (cloneNode h p).2) v := by
  cases p with
  | none => exact ⟨List.prefix_refl _, hv⟩
  | some p =>
    simp only [nodeAt, Heap.all] at hv
    simp only [cloneNode]
    cases hc : h[p]? with
    | none => rw [hc] at hv; cases hv
    | some c =>
      rw [hc] at hv
      cases c with
      | node pt nt a f b c =>
        simp only [Option.bind_eq_bind, Option.bind_eq_some_iff] at hv
        obtain ⟨va, ha, vb, hb, vc, hcc, hv⟩ := hv
        have na := copySlice_new h a va ha
        have nb := cloneHash_new (copySlice h a).1 b vb (local_hash b _ _ _ (sub_all na.1) hb)
        have nc := cloneProofs_new (cloneHash (copySlice h a).1 b).1 c vc (local_proofs c _ _ _ (sub_all (na.1.trans nb.1)) hcc)
        dsimp only
        generalize copySlice h a = x at *
        generalize cloneHash x.1 b = y at *
        generalize cloneProofs y.1 c = z at *
        have hz : z.1 <+: z.1 ++ [Cell.node pt nt x.2 f y.2 z.2] := List.prefix_append _ _
        have hp : h <+: z.1 := na.1.trans (nb.1.trans nc.1)
        refine ⟨hp.trans hz, ?_⟩
        simp only [Heap.new, nodeAt]
        rw [since_new z.1 _ hp.length_le]
        simp only [Option.bind_eq_bind, Option.bind_eq_some_iff]
        exact ⟨va, na.move (local_items _) (List.prefix_refl _) ((nb.1.trans nc.1).trans hz),
          vb, nb.move (local_hash _) na.1 (nc.1.trans hz), vc, nc.move (local_proofs _) (na.1.trans nb.1) hz, hv⟩
      | _ => cases hv

theorem mapM_length {A B : Type} (f : A → Option B) : ∀ (l : List A) (r : List B), l.mapM f = some r → r.length = l.length := by
  intro l
  induction l with
  | nil => intro r h; simp only [List.mapM_nil] at h; cases h; rfl
  | cons a l ih =>
    intro r h
    simp only [List.mapM_cons, Option.bind_eq_bind, Option.bind_eq_some_iff] at h
    obtain ⟨b, _, bs, h2, h3⟩ := h
    cases h3
    simp [ih bs h2]

theorem copyEach_new : ∀ (l : List Item) (h : Heap) (v : List (Option (List Item))),
    (l.mapM (sliceItem h.all)) = some v →
    New h (copyEach h l).1 (fun m => (copyEach h l).2.mapM (sliceItem m)) v ∧
      (copyEach h l).2.length = l.length := by
  intro l
  induction l with
  | nil => intro h v hv; exact ⟨⟨List.prefix_refl _, hv⟩, rfl⟩
  | cons i l ih =>
    intro h v hv
    simp only [List.mapM_cons, Option.bind_eq_bind, Option.bind_eq_some_iff] at hv
    obtain ⟨b, h1, bs, h2, h3⟩ := hv
    cases i with
    | slice s =>
      have n1 := copySlice_new h s b h1
      have hloc : Local fun m => l.mapM (sliceItem m) :=
        local_mapM (f := fun i m => sliceItem m i) (by
          intro i
          cases i with
          | slice s => exact local_items s
          | _ => exact fun _ _ _ _ h => h) l
      obtain ⟨n2, e2⟩ := ih (copySlice h s).1 bs (hloc _ _ _ (sub_all n1.1) h2)
      simp only [copyEach]
      refine ⟨⟨n1.1.trans n2.1, ?_⟩, by simp [e2]⟩
      simp only [List.mapM_cons, Option.bind_eq_bind, Option.bind_eq_some_iff]
      refine ⟨b, n1.move (local_items _) (List.prefix_refl _) n2.1, bs, ?_, h3⟩
      exact n2.move (local_mapM (f := fun i m => sliceItem m i) (by
          intro i
          cases i with
          | slice s => exact local_items s
          | _ => exact fun _ _ _ _ h => h) _) n1.1 (List.prefix_refl _)
    | _ => cases h1

theorem cloneEach_new : ∀ (l : List Item) (h : Heap) (v : List (Option NodeView)),
    (l.mapM (ptrItem h.all)) = some v →
    New h (cloneEach h l).1 (fun m => (cloneEach h l).2.mapM (ptrItem m)) v ∧
      (cloneEach h l).2.length = l.length := by
  intro l
  induction l with
  | nil => intro h v hv; exact ⟨⟨List.prefix_refl _, hv⟩, rfl⟩
  | cons i l ih =>
    intro h v hv
    simp only [List.mapM_cons, Option.bind_eq_bind, Option.bind_eq_some_iff] at hv
    obtain ⟨b, h1, bs, h2, h3⟩ := hv
    cases i with
    | ptr p =>
      have n1 := cloneNode_new h p b h1
      have hloc : ∀ l : List Item, Local fun m => l.mapM (ptrItem m) :=
        fun l => local_mapM (f := fun i m => ptrItem m i) (by
          intro i
          cases i with
          | ptr p => exact local_node p
          | _ => exact fun _ _ _ _ h => h) l
      obtain ⟨n2, e2⟩ := ih (cloneNode h p).1 bs (hloc l _ _ _ (sub_all n1.1) h2)
      simp only [cloneEach]
      refine ⟨⟨n1.1.trans n2.1, ?_⟩, by simp [e2]⟩
      simp only [List.mapM_cons, Option.bind_eq_bind, Option.bind_eq_some_iff]
      exact ⟨b, n1.move (local_node _) (List.prefix_refl _) n2.1, bs, n2.move (hloc _) n1.1 (List.prefix_refl _), h3⟩
    | _ => cases h1

theorem items_some {m : Mem} {s : Slice} {v : Option (List Item)} (hv : items m (some s) = some v) :
    ∃ l, v = some l ∧ l.length = s.len := by
  simp only [items] at hv
  split at hv
  · split at hv
    · simp only [Option.some.injEq] at hv
      subst hv
      exact ⟨_, rfl, by simp only [List.length_take, List.length_drop]; omega⟩
    · cases hv
  · cases hv

theorem items_new (h : Heap) (lo : Nat) (hl : lo ≤ h.length) (l : List Item) (n : Nat) (hn : l.length = n) :
    items ((h ++ [Cell.arr l]).since lo) (some ⟨h.length, 0, n⟩) = some (some l) := by
  simp only [items]
  rw [since_new h _ hl]
  subst hn
  simp

theorem copyBytesSlice_new (h : Heap) (s : Option Slice) (v : Option (List (Option (List Item)))) (hv : byteSlices h.all s = some v) :
    New h (copyBytesSlice h s).1 (fun m => byteSlices m (copyBytesSlice h s).2) v := by
  cases s with
  | none => exact ⟨List.prefix_refl _, hv⟩
  | some s =>
    simp only [byteSlices] at hv
    simp only [copyBytesSlice]
    cases hi : items h.all (some s) with
    | none => rw [hi] at hv; cases hv
    | some o =>
      obtain ⟨l, rfl, hlen⟩ := items_some hi
      rw [hi] at hv
      simp only [Option.map_eq_some_iff] at hv
      obtain ⟨bs, h1, rfl⟩ := hv
      obtain ⟨n1, e1⟩ := copyEach_new l h bs h1
      have hz : (copyEach h l).1 <+: (copyEach h l).1 ++ [Cell.arr (copyEach h l).2] := List.prefix_append _ _
      refine ⟨n1.1.trans hz, ?_⟩
      simp only [Heap.new, byteSlices]
      rw [items_new _ _ n1.1.length_le _ _ (e1.trans hlen)]
      simp only [Option.map_eq_some_iff]
      refine ⟨bs, ?_, rfl⟩
      exact n1.move (local_mapM (f := fun i m => sliceItem m i) (by
          intro i
          cases i with
          | slice s => exact local_items s
          | _ => exact fun _ _ _ _ h => h) _) (List.prefix_refl _) hz

theorem cloneChain_new (h : Heap) (s : Option Slice) (v : Option (List (Option NodeView))) (hv : chainAt h.all s = some v) :
    New h (cloneChain h s).1 (fun m => chainAt m (cloneChain h s).2) v := by
  cases s with
  | none => exact ⟨List.prefix_refl _, hv⟩
  | some s =>
    simp only [chainAt] at hv
    simp only [cloneChain]
    cases hi : items h.all (some s) with
    | none => rw [hi] at hv; cases hv
    | some o =>
      obtain ⟨l, rfl, hlen⟩ := items_some hi
      rw [hi] at hv
      simp only [Option.map_eq_some_iff] at hv
      obtain ⟨bs, h1, rfl⟩ := hv
      obtain ⟨n1, e1⟩ := cloneEach_new l h bs h1
      have hz : (cloneEach h l).1 <+: (cloneEach h l).1 ++ [Cell.arr (cloneEach h l).2] := List.prefix_append _ _
      refine ⟨n1.1.trans hz, ?_⟩
      simp only [Heap.new, chainAt]
      rw [items_new _ _ n1.1.length_le _ _ (e1.trans hlen)]
      simp only [Option.map_eq_some_iff]
      refine ⟨bs, ?_, rfl⟩
      exact n1.move (local_mapM (f := fun i m => ptrItem m i) (by
          intro i
          cases i with
          | ptr p => exact local_node p
          | _ => exact fun _ _ _ _ h => h) _) (List.prefix_refl _) hz

theorem cloneInfos_new (h : Heap) (p : Option Nat) (v : Option InfosView) (hv : infosAt h.all p = some v) :
    New h (cloneInfos h p).1 (fun m => infosAt m (cloneInfos h p).2) v := by
  cases p with
  | none => exact ⟨List.prefix_refl _, hv⟩
  | some p =>
    simp only [infosAt, Heap.all] at hv
    simp only [cloneInfos]
    cases hc : h[p]? with
    | none => rw [hc] at hv; cases hv
    | some c =>
      rw [hc] at hv
      cases c with
      | infos w a b c d e f g =>
        simp only [Option.bind_eq_bind, Option.bind_eq_some_iff] at hv
        obtain ⟨va, ha, vb, hb, vc, hcc, vd, hd, ve, he, vf, hf, vg, hg, hv⟩ := hv
        have nc := copySlice_new h c vc hcc
        have p1 := nc.1
        have na := copyBytesSlice_new (copySlice h c).1 a va (local_byteSlices a _ _ _ (sub_all p1) ha)
        have p2 := p1.trans na.1
        have nb := copySlice_new (copyBytesSlice (copySlice h c).1 a).1 b vb (local_items b _ _ _ (sub_all p2) hb)
        dsimp only
        generalize copySlice h c = xc at *
        generalize copyBytesSlice xc.1 a = xa at *
        have p3 := p2.trans nb.1
        have nd := copySlice_new (copySlice xa.1 b).1 d vd (local_items d _ _ _ (sub_all p3) hd)
        generalize copySlice xa.1 b = xb at *
        have p4 := p3.trans nd.1
        have ne := copySlice_new (copySlice xb.1 d).1 e ve (local_items e _ _ _ (sub_all p4) he)
        generalize copySlice xb.1 d = xd at *
        have p5 := p4.trans ne.1
        have nf := copySlice_new (copySlice xd.1 e).1 f vf (local_items f _ _ _ (sub_all p5) hf)
        generalize copySlice xd.1 e = xe at *
        have p6 := p5.trans nf.1
        have ng := copySlice_new (copySlice xe.1 f).1 g vg (local_items g _ _ _ (sub_all p6) hg)
        generalize copySlice xe.1 f = xf at *
        have p7 := p6.trans ng.1
        generalize copySlice xf.1 g = xg at *
        have hz : xg.1 <+: xg.1 ++ [Cell.infos w xa.2 xb.2 xc.2 xd.2 xe.2 xf.2 xg.2] := List.prefix_append _ _
        have q6 := ng.1.trans hz
        have q5 := nf.1.trans q6
        have q4 := ne.1.trans q5
        have q3 := nd.1.trans q4
        have q2 := nb.1.trans q3
        have q1 := na.1.trans q2
        refine ⟨p7.trans hz, ?_⟩
        simp only [Heap.new, infosAt]
        rw [since_new xg.1 _ p7.length_le]
        simp only [Option.bind_eq_bind, Option.bind_eq_some_iff]
        exact ⟨va, na.move (local_byteSlices _) p1 q2, vb, nb.move (local_items _) p2 q3,
          vc, nc.move (local_items _) (List.prefix_refl _) q1, vd, nd.move (local_items _) p3 q4,
          ve, ne.move (local_items _) p4 q5, vf, nf.move (local_items _) p5 q6, vg, ng.move (local_items _) p6 hz, hv⟩
      | _ => cases hv

/-! ### C150 -/

/-- Writes to cells. -/
def writes (h : Heap) (ws : List (Nat × Cell)) : Heap := ws.foldl (fun h w => h.set w.1 w.2) h

/-- What is to hold after a clone was made: both show the same; writing in any way to the memory there was before does not
change what the clone shows, and writing in any way to the memory allocated since does not change what the original shows.
Further allocations change neither. -/
structure Independent {A : Type} (h h' : Heap) (original clone : Mem → Option A) (v : A) : Prop where
  equal : clone h'.all = some v
  kept : original h'.all = some v
  clone_kept : ∀ ws more, (∀ w ∈ ws, w.1 < h.length) → clone (Heap.all (writes h' ws ++ more)) = some v
  original_kept : ∀ ws more, (∀ w ∈ ws, h.length ≤ w.1) → original (Heap.all (writes h' ws ++ more)) = some v

theorem writes_other (ws : List (Nat × Cell)) : ∀ (h : Heap) (a : Nat), (∀ w ∈ ws, w.1 ≠ a) → (writes h ws)[a]? = h[a]? := by
  induction ws with
  | nil => intro h a _; rfl
  | cons w ws ih =>
    intro h a ha
    rw [writes, List.foldl_cons]
    have := ih (h.set w.1 w.2) a (fun x hx => ha x (List.mem_cons_of_mem _ hx))
    rw [writes] at this
    rw [this, List.getElem?_set_ne (ha w (List.mem_cons_self ..))]

theorem independent {A : Type} {h h' : Heap} {original clone : Mem → Option A} {v : A} (l1 : Local original) (l2 : Local clone)
    (hv : original h.all = some v) (hn : New h h' clone v) : Independent h h' original clone v := by
  obtain ⟨hp, hc⟩ := hn
  have hs : ∀ (g : Heap), (∀ a, h.length ≤ a → ∀ c, h'[a]? = some c → g[a]? = some c) → clone g.all = some v := by
    intro g hg
    refine l2 _ _ _ ?_ hc
    intro a c hac
    simp only [Heap.since] at hac
    by_cases ha : a < h.length
    · rw [if_pos ha] at hac; cases hac
    · rw [if_neg ha] at hac
      exact hg a (by omega) c hac
  have ho : ∀ (g : Heap), (∀ a c, h[a]? = some c → g[a]? = some c) → original g.all = some v :=
    fun g hg => l1 _ _ _ hg hv
  refine ⟨hs h' fun _ _ _ h => h, ho h' fun a c hac => sub_all hp a c hac, ?_, ?_⟩
  · intro ws more hw
    refine hs _ ?_
    intro a ha c hac
    have e := writes_other ws h' a fun w hw' e => by have := hw w hw'; omega
    have hlt : a < (writes h' ws).length := by
      by_contra hge
      rw [List.getElem?_eq_none (by omega)] at e
      rw [← e] at hac; cases hac
    rw [List.getElem?_append_left hlt, e]
    exact hac
  · intro ws more hw
    refine ho _ ?_
    intro a c hac
    have ha : a < h.length := (List.getElem?_eq_some_iff.mp hac).1
    have e := writes_other ws h' a fun w hw' e => by have := hw w hw'; omega
    have hac' := sub_all hp a c hac
    simp only [Heap.all] at hac'
    have hlt : a < (writes h' ws).length := by
      by_contra hge
      rw [List.getElem?_eq_none (by omega)] at e
      rw [← e] at hac'; cases hac'
    rw [List.getElem?_append_left hlt, e]
    exact hac'

/-- C150: copies of byte slices, hashes, node ids, chain ids, attributes, key parts and repeats are independent. -/
theorem C150_slices (h : Heap) (s : Option Slice) (v : Option (List Item)) (hv : items h.all s = some v) :
    Independent h (copySlice h s).1 (fun m => items m s) (fun m => items m (copySlice h s).2) v :=
  independent (local_items _) (local_items _) hv (copySlice_new h s v hv)

/-- C150: copies of lists of byte slices. -/
theorem C150_byteSlices (h : Heap) (s : Option Slice) (v : Option (List (Option (List Item)))) (hv : byteSlices h.all s = some v) :
    Independent h (copyBytesSlice h s).1 (fun m => byteSlices m s) (fun m => byteSlices m (copyBytesSlice h s).2) v :=
  independent (local_byteSlices _) (local_byteSlices _) hv (copyBytesSlice_new h s v hv)

/-- C150: copies of numbers. -/
theorem C150_big (h : Heap) (p : Option Nat) (v : Option Int) (hv : bigAt h.all p = some v) :
    Independent h (copyBig h p).1 (fun m => bigAt m p) (fun m => bigAt m (copyBig h p).2) v :=
  independent (local_big _) (local_big _) hv (copyBig_new h p v hv)

/-- C150: clones of Merkle proofs. -/
theorem C150_proofs (h : Heap) (p : Option Nat) (v : Option ProofsView) (hv : proofsAt h.all p = some v) :
    Independent h (cloneProofs h p).1 (fun m => proofsAt m p) (fun m => proofsAt m (cloneProofs h p).2) v :=
  independent (local_proofs _) (local_proofs _) hv (cloneProofs_new h p v hv)

/-- C150: clones of proof chains with all their nodes. -/
theorem C150_chain (h : Heap) (s : Option Slice) (v : Option (List (Option NodeView))) (hv : chainAt h.all s = some v) :
    Independent h (cloneChain h s).1 (fun m => chainAt m s) (fun m => chainAt m (cloneChain h s).2) v :=
  independent (local_chain _) (local_chain _) hv (cloneChain_new h s v hv)

/-- C150: clones of chain descriptions. -/
theorem C150_infos (h : Heap) (p : Option Nat) (v : Option InfosView) (hv : infosAt h.all p = some v) :
    Independent h (cloneInfos h p).1 (fun m => infosAt m p) (fun m => infosAt m (cloneInfos h p).2) v :=
  independent (local_infos _) (local_infos _) hv (cloneInfos_new h p v hv)

/-! ### Shardings -/

/-- `AccountSharding` (`/repo/shardinfo.go:145-159`). -/
structure Sharding where
  id : Nat
  maskBits : Nat
  parent : Nat
  chains : Option Slice

/-- What it shows. -/
def Sharding.at (s : Sharding) (m : Mem) : Option (Nat × Nat × Nat × Option (List Item)) :=
  (items m s.chains).bind fun c => some (s.id, s.maskBits, s.parent, c)

/-- `AccountSharding.Clone` (`/repo/shardinfo.go:323-328, 230-236`). -/
def Sharding.clone (h : Heap) (s : Sharding) : Heap × Sharding :=
  let r := copySlice h s.chains
  (r.1, { s with chains := r.2 })

/-- `AccountSharding.AllIDs` (`/repo/shardinfo.go:296-298`). -/
def Sharding.allIDs (s : Sharding) : Option Slice := s.chains

/-- `AccountSharding.Pos` (`/repo/shardinfo.go:219-227, 319-321`): `none` for -1. -/
def Sharding.pos (m : Mem) (s : Sharding) (id : Nat) : Option Nat :=
  match items m s.chains with
  | some (some l) =>
    let ns := l.map fun i => match i with | .word n => n | _ => 0
    let i := search ns.length fun j => decide (id ≤ ns.getD j 0)
    if ns[i]? = some id then some i else none
  | _ => none

/-- C150: clones of shardings. -/
theorem C150_sharding (h : Heap) (s : Sharding) (v : Nat × Nat × Nat × Option (List Item)) (hv : s.at h.all = some v) :
    Independent h (s.clone h).1 (fun m => s.at m) (fun m => (s.clone h).2.at m) v := by
  have hl : ∀ s : Sharding, Local fun m => s.at m := fun s => local_bind (local_items s.chains) fun _ => local_pure _
  refine independent (hl s) (hl _) hv ?_
  simp only [Sharding.at, Option.bind_eq_some_iff] at hv
  obtain ⟨c, h1, h2⟩ := hv
  obtain ⟨p, n⟩ := copySlice_new h s.chains c h1
  refine ⟨p, ?_⟩
  simp only [Sharding.at, Option.bind_eq_some_iff]
  exact ⟨c, n, h2⟩

/-- C150 does not hold for the list of the chains that `AllIDs` gives: it is the list of the sharding.  Reversing it, as
sorting it in another order would, makes `Pos` find none of the chains. -/
theorem C150_allIDs_refuted :
    let h : Heap := [.arr [.word 3, .word 5]]
    let s : Sharding := ⟨3, 1, 1, some ⟨0, 0, 2⟩⟩
    (s.pos h.all 3, s.pos h.all 5) = (some 0, some 1) ∧ s.allIDs.map (·.addr) = some 0 ∧
    (s.pos (Heap.all (writes h [(0, .arr [.word 5, .word 3])])) 3, s.pos (Heap.all (writes h [(0, .arr [.word 5, .word 3])])) 5) =
      (none, none) := by
  simp [Sharding.pos, Sharding.allIDs, search, searchLoop, items, Heap.all, writes]

/-! ### An example: a proof chain with a nil proof -/

/-- A chain of a proof and nil; the proof has a key, a value hash and Merkle proofs. -/
def demoHeap : Heap :=
  [.arr [.byte 7, .byte 8, .byte 9], .hash [1, 2], .arr [.bytes [3], .bytes [4]], .big 5, .arr [.times 0 2],
    .proofs (some ⟨2, 0, 2⟩) (some 3) (some ⟨4, 0, 1⟩), .node 1 2 (some ⟨0, 1, 2⟩) [0, 1] (some 1) (some 5), .arr [.ptr (some 6), .ptr none]]

example : (chainAt demoHeap.all (some ⟨7, 0, 2⟩)).isSome = true ∧ (cloneChain demoHeap (some ⟨7, 0, 2⟩)).1.length = 16 ∧
    (cloneChain demoHeap (some ⟨7, 0, 2⟩)).2.map (·.addr) = some 15 := by decide +kernel

end Verif.Memory

import Verif.Trie.CodecProps
import Verif.Trie.Headers
import Verif.Hex.Text

/-!
# Property C167: proofs as JSON, and the texts of proof types and headers

`KeyPart` and `ChildFlag` (`/repo/trie/node.go:69-115`), the JSON tags of `NodeHeader` (`/repo/trie/node.go:123-127`), `NodeProof`
(`/repo/trie/proof.go:204-212`), `MerkleProofs` and `MoreTime` (`/repo/hash.go:38-42, 253-264`), `NodeType.String` and
`NodeHeader.String` (`/repo/trie/node.go:60-66, 157-175`), `ProofType.String` (`/repo/trie/proof.go:173-195`).

Simplifications. JSON is the tree of values, not its text: that `encoding/json` writes and reads the text of a tree is trusted. Of
its rules for Go values those are modelled that these types need: struct fields by their tags (a name that differs only in case is
not matched here), text methods, `big.Int` as a number, nil pointers and slices as null, null leaving numbers and arrays as they
are, and reading into a value that already has contents. A nil `KeyPart` is the empty one (`bytes.Equal` does not tell them apart).
-/

namespace Verif.Trie.Json
open Verif Verif.Hex Verif.Merkle

/-! ### The model -/

/-- A JSON value. -/
inductive J where
  | null
  | num (z : Int)
  | str (s : Bytes)
  | arr (l : List J)
  | obj (l : List (String × J))

/-- `KeyPart.MarshalText` (`/repo/trie/node.go:90-95`). -/
def keyPartText (k : Bytes) : Bytes := if k.length = 0 then k else encode k

/-- `KeyPart.UnmarshalText` (`/repo/trie/node.go:81-88`). -/
def keyPartRead (s : Bytes) : Option Bytes := unmarshalBytes s

/-- `ChildFlag.MarshalText` (`/repo/trie/node.go:113-115`). -/
def childFlagText (c : UInt8 × UInt8) : Bytes := encode [c.1, c.2]

/-- `ChildFlag.UnmarshalText` (`/repo/trie/node.go:109-111`). -/
def childFlagRead (s : Bytes) : Option (UInt8 × UInt8) :=
  match unmarshalFixed 2 true s with
  | some [a, b] => some (a, b)
  | _ => none

/-- `MerkleProofs` with all the values its fields can have (`/repo/hash.go:253-264`). -/
structure MP where
  hashs : Option (List Bytes)
  paths : Option Int
  repeats : Option (List MoreTime)
  deriving DecidableEq

/-- `NodeProof` with all the values its fields can have (`/repo/trie/proof.go:204-212`). -/
structure NP where
  ptype : UInt8
  header : Header
  valueHash : Option Bytes
  merkle : Option MP
  deriving DecidableEq

/-- `Hash.MarshalText` (`/repo/basic.go:1458-1461`). -/
def hashJ (h : Bytes) : J := .str (encode h)

/-- The JSON of a `MoreTime` (tags of `/repo/hash.go:40-41`). -/
def moreJ (m : MoreTime) : J := .obj [("i", .num m.index), ("times", .num m.times)]

/-- A slice: nil is null. -/
def sliceJ {α : Type} (f : α → J) : Option (List α) → J
  | none => .null
  | some l => .arr (l.map f)

/-- A pointer: nil is null. -/
def ptrJ {α : Type} (f : α → J) : Option α → J
  | none => .null
  | some a => f a

/-- The JSON of a `MerkleProofs` (tags of `/repo/hash.go:256-263`). -/
def mpJ (p : MP) : J :=
  .obj [("hashs", sliceJ hashJ p.hashs), ("paths", ptrJ .num p.paths), ("repeats", sliceJ moreJ p.repeats)]

/-- The JSON of a `NodeHeader` (tags of `/repo/trie/node.go:124-126`). -/
def headerJ (h : Header) : J :=
  .obj [("nodetype", .num h.nt.toNat), ("keystring", .str (keyPartText h.keyString)),
    ("childrenflag", .str (childFlagText (h.flag0, h.flag1)))]

/-- The JSON of a `NodeProof` (tags of `/repo/trie/proof.go:205-208`). -/
def npJ (n : NP) : J :=
  .obj [("type", .num n.ptype.toNat), ("header", headerJ n.header), ("value", ptrJ hashJ n.valueHash), ("merkle", ptrJ mpJ n.merkle)]

/-- The JSON of a `ProofChain` (`/repo/trie/proof.go:606`), a slice of pointers. -/
def chainJ (c : Option (List (Option NP))) : J := sliceJ (ptrJ npJ) c

/-- Reading a byte: null leaves it as it is. -/
def readU8 (old : UInt8) : J → Option UInt8
  | .null => some old
  | .num z => if 0 ≤ z ∧ z < 256 then some (UInt8.ofNat z.toNat) else none
  | _ => none

/-- Reading an `int` of 64 bits. -/
def readInt (old : Int) : J → Option Int
  | .null => some old
  | .num z => if -2 ^ 63 ≤ z ∧ z < 2 ^ 63 then some z else none
  | _ => none

/-- Reading a hash by `Hash.UnmarshalText` (`/repo/basic.go:1447-1449`). -/
def readHash (old : Bytes) : J → Option Bytes
  | .null => some old
  | .str s => unmarshalFixed 32 true s
  | _ => none

/-- Reading a `KeyPart`, a slice that null sets to nil. -/
def readKeyPart : J → Option Bytes
  | .null => some []
  | .str s => keyPartRead s
  | _ => none

/-- Reading a `ChildFlag`, an array that null leaves as it is. -/
def readFlag (old : UInt8 × UInt8) : J → Option (UInt8 × UInt8)
  | .null => some old
  | .str s => childFlagRead s
  | _ => none

/-- Reading a `*big.Int`. -/
def readBig : J → Option (Option Int)
  | .null => some none
  | .num z => some (some z)
  | _ => none

/-- Reading the elements of a slice: each is read into what the array had at its place, and past its end into the zero value. -/
def readElems {α : Type} (f : α → J → Option α) (zero : α) : List α → List J → Option (List α)
  | _, [] => some []
  | old, j :: js =>
    match f (old.headD zero) j with
    | none => none
    | some a =>
      match readElems f zero old.tail js with
      | none => none
      | some as => some (a :: as)

/-- Reading a slice. -/
def readSlice {α : Type} (f : α → J → Option α) (zero : α) (old : Option (List α)) : J → Option (Option (List α))
  | .null => some none
  | .arr l => (readElems f zero (old.getD []) l).map some
  | _ => none

/-- Reading a pointer: null sets it to nil, anything else is read into what it points to, or into a new zero value. -/
def readPtr {α : Type} (f : α → J → Option α) (zero : α) (old : Option α) : J → Option (Option α)
  | .null => some none
  | j => (f (old.getD zero) j).map some

/-- Reading the fields of an object one after the other. -/
def readFields {α : Type} (set : α → String → J → Option α) : α → List (String × J) → Option α
  | a, [] => some a
  | a, (k, j) :: l =>
    match set a k j with
    | none => none
    | some b => readFields set b l

/-- Reading a struct: null leaves it as it is. -/
def readStruct {α : Type} (set : α → String → J → Option α) (old : α) : J → Option α
  | .null => some old
  | .obj l => readFields set old l
  | _ => none

/-- One field of a `MoreTime`; other names are passed over. -/
def setMore (m : MoreTime) (k : String) (j : J) : Option MoreTime :=
  if k = "i" then (readInt m.index j).map fun x => { m with index := x }
  else if k = "times" then (readInt m.times j).map fun x => { m with times := x }
  else some m

/-- One field of a `MerkleProofs`. -/
def setMP (p : MP) (k : String) (j : J) : Option MP :=
  if k = "hashs" then (readSlice readHash (List.replicate 32 0) p.hashs j).map fun x => { p with hashs := x }
  else if k = "paths" then (readBig j).map fun x => { p with paths := x }
  else if k = "repeats" then (readSlice (readStruct setMore) ⟨0, 0⟩ p.repeats j).map fun x => { p with repeats := x }
  else some p

/-- One field of a `NodeHeader`. -/
def setHeader (h : Header) (k : String) (j : J) : Option Header :=
  if k = "nodetype" then (readU8 h.nt j).map fun x => { h with nt := x }
  else if k = "keystring" then (readKeyPart j).map fun x => { h with keyString := x }
  else if k = "childrenflag" then (readFlag (h.flag0, h.flag1) j).map fun x => { h with flag0 := x.1, flag1 := x.2 }
  else some h

/-- One field of a `NodeProof`. -/
def setNP (n : NP) (k : String) (j : J) : Option NP :=
  if k = "type" then (readU8 n.ptype j).map fun x => { n with ptype := x }
  else if k = "header" then (readStruct setHeader n.header j).map fun x => { n with header := x }
  else if k = "value" then (readPtr readHash (List.replicate 32 0) n.valueHash j).map fun x => { n with valueHash := x }
  else if k = "merkle" then (readPtr (readStruct setMP) ⟨none, none, none⟩ n.merkle j).map fun x => { n with merkle := x }
  else some n

/-- The zero `NodeProof`. -/
def NP.zero : NP := ⟨0, ⟨0, [], 0, 0⟩, none, none⟩

/-- Reading a `NodeProof` into one that has contents. -/
def readNP (old : NP) (j : J) : Option NP := readStruct setNP old j

/-- Reading a `ProofChain` into one that has contents. -/
def readChain (old : Option (List (Option NP))) (j : J) : Option (Option (List (Option NP))) :=
  readSlice (readPtr (readStruct setNP) NP.zero) none old j

/-! ### Specification -/

/-- An `int` of 64 bits. -/
def Int64 (z : Int) : Prop := -2 ^ 63 ≤ z ∧ z < 2 ^ 63

/-- What the Go types allow: hashes of 32 bytes and `int`s of 64 bits. -/
def MP.Typed (p : MP) : Prop :=
  (∀ l, p.hashs = some l → ∀ h ∈ l, h.length = 32) ∧ ∀ l, p.repeats = some l → ∀ m ∈ l, Int64 m.index ∧ Int64 m.times

@[inherit_doc MP.Typed] def NP.Typed (n : NP) : Prop :=
  (∀ h, n.valueHash = some h → h.length = 32) ∧ ∀ p, n.merkle = some p → p.Typed

/-! ### Round trips -/

/-- **C167** The texts of key parts and child flags are read back. -/
theorem C167_texts (k : Bytes) (c : UInt8 × UInt8) :
    keyPartRead (keyPartText k) = some k ∧ childFlagRead (childFlagText c) = some c := by
  constructor
  · unfold keyPartRead keyPartText
    split
    · rename_i h
      have := List.length_eq_zero_iff.1 h
      subst this
      decide +kernel
    · exact (C54_unmarshalBytes _ _).2 (.inr (data_encode k))
  · unfold childFlagRead childFlagText
    have := C54_fixed_roundtrip [c.1, c.2]
    simp only [List.length_cons, List.length_nil, Nat.zero_add, Nat.reduceAdd] at this
    rw [this]

theorem readU8_num (old b : UInt8) : readU8 old (.num b.toNat) = some b := by
  have := b.toNat_lt
  simp only [readU8]
  rw [if_pos (by omega)]
  simp

theorem readInt_num (old z : Int) (h : Int64 z) : readInt old (.num z) = some z := by
  simp only [readInt]
  exact if_pos h

theorem readHash_hashJ (old h : Bytes) (hl : h.length = 32) : readHash old (hashJ h) = some h := by
  simp only [readHash, hashJ]
  rw [← hl]
  exact C54_fixed_roundtrip h

theorem readElems_map {α : Type} (f : α → J → Option α) (zero : α) (g : α → J) (P : α → Prop)
    (h : ∀ old a, P a → f old (g a) = some a) : ∀ (l old : List α), (∀ a ∈ l, P a) → readElems f zero old (l.map g) = some l := by
  intro l
  induction l with
  | nil => intro old _; cases old <;> rfl
  | cons a l ih =>
    intro old hl
    simp only [List.map_cons, readElems]
    rw [h _ a (hl a (by simp)), ih _ (fun b hb => hl b (by simp [hb]))]

theorem readSlice_sliceJ {α : Type} (f : α → J → Option α) (zero : α) (g : α → J) (P : α → Prop)
    (h : ∀ old a, P a → f old (g a) = some a) (old l : Option (List α)) (hl : ∀ x, l = some x → ∀ a ∈ x, P a) :
    readSlice f zero old (sliceJ g l) = some l := by
  cases l with
  | none => rfl
  | some l =>
    simp only [sliceJ, readSlice]
    rw [readElems_map f zero g P h l _ (hl l rfl)]
    rfl

theorem readPtr_ptrJ {α : Type} (f : α → J → Option α) (zero : α) (g : α → J) (P : α → Prop)
    (h : ∀ old a, P a → f old (g a) = some a) (hn : ∀ a, g a ≠ .null) (old a : Option α) (ha : ∀ x, a = some x → P x) :
    readPtr f zero old (ptrJ g a) = some a := by
  cases a with
  | none => rfl
  | some a =>
    have h1 := h (old.getD zero) a (ha a rfl)
    have h2 := hn a
    simp only [ptrJ]
    cases hg : g a with
    | null => exact absurd hg h2
    | num z => rw [hg] at h1; simp only [readPtr]; rw [h1]; rfl
    | str z => rw [hg] at h1; simp only [readPtr]; rw [h1]; rfl
    | arr z => rw [hg] at h1; simp only [readPtr]; rw [h1]; rfl
    | obj z => rw [hg] at h1; simp only [readPtr]; rw [h1]; rfl

theorem readMore (old m : MoreTime) (h : Int64 m.index ∧ Int64 m.times) : readStruct setMore old (moreJ m) = some m := by
  simp only [moreJ, readStruct, readFields, setMore, if_true]
  rw [readInt_num _ _ h.1]
  simp only [Option.map_some, String.reduceEq, if_false, if_true]
  rw [readInt_num _ _ h.2]
  rfl

theorem readMP (old p : MP) (h : p.Typed) : readStruct setMP old (mpJ p) = some p := by
  simp only [mpJ, readStruct, readFields, setMP, if_true]
  rw [readSlice_sliceJ readHash _ hashJ (fun h => h.length = 32) (fun o a ha => readHash_hashJ o a ha) _ _ h.1]
  simp only [Option.map_some, String.reduceEq, if_false, if_true]
  have hb : readBig (ptrJ .num p.paths) = some p.paths := by cases p.paths <;> rfl
  rw [hb]
  simp only [Option.map_some, String.reduceEq, if_false, if_true]
  rw [readSlice_sliceJ (readStruct setMore) _ moreJ (fun m => Int64 m.index ∧ Int64 m.times) (fun o a ha => readMore o a ha) _ _ h.2]
  rfl

theorem readHeader (old h : Header) : readStruct setHeader old (headerJ h) = some h := by
  simp only [headerJ, readStruct, readFields, setHeader, if_true]
  rw [readU8_num]
  simp only [Option.map_some, String.reduceEq, if_false, if_true, readKeyPart, readFlag]
  rw [(C167_texts h.keyString (h.flag0, h.flag1)).1]
  simp only [Option.map_some]
  rw [(C167_texts h.keyString (h.flag0, h.flag1)).2]
  rfl

/-- **C167** A proof node written as JSON is read back the same, whatever the value it is read into held before. -/
theorem C167_node (n old : NP) (h : n.Typed) : readNP old (npJ n) = some n := by
  have hh := readHeader old.header n.header
  simp only [readNP, npJ]
  rw [show ∀ l, readStruct setNP old (.obj l) = readFields setNP old l from fun _ => rfl]
  simp only [readFields, setNP, if_true]
  rw [readU8_num]
  simp only [Option.map_some, String.reduceEq, if_false, if_true]
  rw [hh]
  simp only [Option.map_some]
  rw [readPtr_ptrJ readHash _ hashJ (fun h => h.length = 32) (fun o a ha => readHash_hashJ o a ha) (fun a => by simp [hashJ]) _ _ h.1]
  simp only [Option.map_some]
  rw [readPtr_ptrJ (readStruct setMP) _ mpJ MP.Typed (fun o a ha => readMP o a ha) (fun a => by simp [mpJ]) _ _ h.2]
  rfl

/-- **C167** The same for chains of proofs, with nil chains and nil nodes in them. -/
theorem C167_chain (c old : Option (List (Option NP))) (h : ∀ l, c = some l → ∀ n, some n ∈ l → n.Typed) :
    readChain old (chainJ c) = some c := by
  refine readSlice_sliceJ _ _ _ (fun n => ∀ m, n = some m → m.Typed) ?_ _ _ ?_
  · intro o a ha
    exact readPtr_ptrJ _ _ _ NP.Typed (fun o a ha => C167_node a o ha) (fun a => by simp [npJ]) _ _ ha
  · intro l hl n hn m hm
    exact h l hl m (hm ▸ hn)

/-- **C167** Different chains have different JSON. -/
theorem C167_injective (c d : Option (List (Option NP))) (hc : ∀ l, c = some l → ∀ n, some n ∈ l → n.Typed)
    (hd : ∀ l, d = some l → ∀ n, some n ∈ l → n.Typed) (h : chainJ c = chainJ d) : c = d := by
  have := C167_chain c none hc
  rw [h, C167_chain d none hd] at this
  exact (Option.some.inj this).symm

/-! ### The order of the fields -/

/-- Setting fields of different names can be done in either order. -/
def Commutes {α : Type} (set : α → String → J → Option α) : Prop :=
  ∀ a k k' j j', k ≠ k' → (set a k j).bind (fun b => set b k' j') = (set a k' j').bind (fun b => set b k j)

theorem readFields_cons {α : Type} (set : α → String → J → Option α) (a : α) (k : String) (j : J) (l : List (String × J)) :
    readFields set a ((k, j) :: l) = (set a k j).bind fun b => readFields set b l := by
  simp only [readFields]
  cases set a k j <;> rfl

theorem readFields_perm {α : Type} {set : α → String → J → Option α} (hc : Commutes set) {l l' : List (String × J)} (h : l.Perm l') :
    (l.map Prod.fst).Nodup → ∀ a, readFields set a l = readFields set a l' := by
  induction h with
  | nil => intro _ a; rfl
  | cons x h ih =>
    obtain ⟨k, j⟩ := x
    intro hn a
    rw [readFields_cons, readFields_cons]
    simp only [List.map_cons, List.nodup_cons] at hn
    cases set a k j with
    | none => rfl
    | some b => exact ih hn.2 b
  | swap x y l =>
    obtain ⟨k, j⟩ := x
    obtain ⟨k', j'⟩ := y
    intro hn a
    have hk : k' ≠ k := by
      simp only [List.map_cons, List.nodup_cons, List.mem_cons, not_or] at hn
      exact hn.1.1
    have := hc a k' k j' j hk
    rw [readFields_cons, readFields_cons]
    simp only [readFields_cons]
    rw [← Option.bind_assoc, ← Option.bind_assoc, this]
  | trans h1 _ ih1 ih2 =>
    intro hn a
    rw [ih1 hn a, ih2 ((h1.map Prod.fst).nodup_iff.1 hn) a]

theorem bind_map_swap {α β γ : Type} {x : Option α} {y : Option β} {f : α → γ} {g : β → γ} {F G : γ → Option γ}
    (h : α → β → γ) (h' : β → α → γ) (hF : ∀ a, F (f a) = y.map (h a)) (hG : ∀ b, G (g b) = x.map (h' b))
    (hh : ∀ a b, h a b = h' b a) : (x.map f).bind F = (y.map g).bind G := by
  cases x <;> cases y <;> simp_all

theorem setMore_commutes : Commutes setMore := by
  intro a k k' j j' hk
  unfold setMore
  split_ifs <;> first
    | (subst_vars; exact absurd rfl hk)
    | (exact bind_map_swap _ _ (fun _ => rfl) (fun _ => rfl) (fun _ _ => rfl))
    | simp

theorem setMP_commutes : Commutes setMP := by
  intro a k k' j j' hk
  unfold setMP
  split_ifs <;> first
    | (subst_vars; exact absurd rfl hk)
    | (exact bind_map_swap _ _ (fun _ => rfl) (fun _ => rfl) (fun _ _ => rfl))
    | simp

theorem setHeader_commutes : Commutes setHeader := by
  intro a k k' j j' hk
  unfold setHeader
  split_ifs <;> first
    | (subst_vars; exact absurd rfl hk)
    | (exact bind_map_swap _ _ (fun _ => rfl) (fun _ => rfl) (fun _ _ => rfl))
    | simp

theorem setNP_commutes : Commutes setNP := by
  intro a k k' j j' hk
  unfold setNP
  split_ifs <;> first
    | (subst_vars; exact absurd rfl hk)
    | (exact bind_map_swap _ _ (fun _ => rfl) (fun _ => rfl) (fun _ _ => rfl))
    | simp

/-- **C167** The fields of a proof may be written in any order, with fields of other names among them: what is read is the same. -/
theorem C167_order (n old : NP) (h : n.Typed) (l extra : List (String × J)) (fields : List (String × J)) (hf : npJ n = .obj fields)
    (hl : l.Perm (fields ++ extra)) (hn : (l.map Prod.fst).Nodup) : readNP old (.obj l) = some n := by
  have hx : ∀ x ∈ extra, x.1 ≠ "type" ∧ x.1 ≠ "header" ∧ x.1 ≠ "value" ∧ x.1 ≠ "merkle" := by
    have hn' := (hl.map Prod.fst).nodup_iff.1 hn
    rw [List.map_append, List.nodup_append] at hn'
    intro x hxm
    have hne := fun k hk => hn'.2.2 k hk x.1 (List.mem_map_of_mem hxm)
    simp only [npJ, J.obj.injEq] at hf
    subst hf
    simp only [List.map_cons, List.map_nil, List.mem_cons, List.not_mem_nil, or_false] at hne
    exact ⟨(hne _ (by simp)).symm, (hne _ (by simp)).symm, (hne _ (by simp)).symm, (hne _ (by simp)).symm⟩
  have hskip : ∀ (e : List (String × J)) (a : NP), (∀ x ∈ e, x.1 ≠ "type" ∧ x.1 ≠ "header" ∧ x.1 ≠ "value" ∧ x.1 ≠ "merkle") →
      readFields setNP a e = some a := by
    intro e
    induction e with
    | nil => intro a _; rfl
    | cons x e ih =>
      obtain ⟨k, j⟩ := x
      intro a he
      obtain ⟨h1, h2, h3, h4⟩ := he (k, j) (by simp)
      rw [readFields_cons]
      have : setNP a k j = some a := by
        unfold setNP
        rw [if_neg h1, if_neg h2, if_neg h3, if_neg h4]
      rw [this]
      exact ih a fun x hx => he x (by simp [hx])
  have happ : ∀ (f e : List (String × J)) (a : NP), readFields setNP a (f ++ e) = (readFields setNP a f).bind fun b => readFields setNP b e := by
    intro f
    induction f with
    | nil => intro e a; rfl
    | cons x f ih =>
      obtain ⟨k, j⟩ := x
      intro e a
      rw [List.cons_append, readFields_cons, readFields_cons]
      cases setNP a k j with
      | none => rfl
      | some b => exact ih e b
  have h0 := C167_node n old h
  unfold readNP at h0 ⊢
  rw [hf] at h0
  simp only [readStruct] at h0 ⊢
  rw [readFields_perm setNP_commutes hl hn, happ, h0]
  exact hskip extra n hx

/-! ### Incomplete proofs -/

/-- `MerkleProofs.BigKey` (`/repo/hash.go:316-331`): the bits of the paths put into a number from a position on. -/
def MP.bigKey (key : Nat) (start : Nat) : Option MP → Res (Nat × Nat)
  | none => .ok (key, start)
  | some p =>
    if (p.hashs.getD []).length = 0 then .ok (key, start)
    else
      match p.paths with
      | none => .panic
      | some z =>
        let l := (p.hashs.getD []).length + (MoreTimes.count p.repeats).toNat
        .ok ((List.range l).foldl (fun k i => if z / 2 ^ i % 2 = 1 then k ||| 2 ^ (i + start) else k &&& (k ^^^ 2 ^ (i + start))) key, l + start)

/-- **C167 refuted** for objects with missing fields: reading accepts a proof without paths, and `BigKey` of it panics. -/
theorem C167_missing_refuted : ∃ (j : J) (n : NP), readNP .zero j = some n ∧ n.Typed ∧ MP.bigKey 0 0 n.merkle = .panic := by
  refine ⟨.obj [("type", .num 255), ("merkle", .obj [("hashs", .arr [hashJ (List.replicate 32 7)])])],
    ⟨255, ⟨0, [], 0, 0⟩, none, some ⟨some [List.replicate 32 7], none, none⟩⟩, by decide +kernel, ⟨by simp, ?_⟩, rfl⟩
  intro p hp
  simp only [Option.some.injEq] at hp
  subst hp
  exact ⟨by simp, by simp⟩

theorem bigKey_fold (z : Int) (start key l j : Nat) :
    ((List.range l).foldl (fun k i => if z / 2 ^ i % 2 = 1 then k ||| 2 ^ (i + start) else k &&& (k ^^^ 2 ^ (i + start))) key).testBit j =
      if start ≤ j ∧ j < start + l then decide (z / 2 ^ (j - start) % 2 = 1) else key.testBit j := by
  induction l with
  | zero => rw [if_neg (by omega)]; rfl
  | succ l ih =>
    rw [List.range_succ, List.foldl_append, List.foldl_cons, List.foldl_nil]
    by_cases hj : j = l + start
    · subst hj
      rw [if_pos (c := start ≤ l + start ∧ l + start < start + (l + 1)) (by omega), Nat.add_sub_cancel]
      by_cases hz : z / 2 ^ l % 2 = 1
      · simp only [hz, if_true]
        rw [Nat.testBit_or, Nat.testBit_two_pow_self, Bool.or_true]; rfl
      · rw [if_neg (c := z / 2 ^ l % 2 = 1) hz, Nat.testBit_and, Nat.testBit_xor, Nat.testBit_two_pow_self, decide_eq_false hz]
        simp
    · have h2 : (2 ^ (l + start)).testBit j = false := Nat.testBit_two_pow_of_ne (Ne.symm hj)
      have e : (if start ≤ j ∧ j < start + (l + 1) then decide (z / 2 ^ (j - start) % 2 = 1) else key.testBit j) =
          if start ≤ j ∧ j < start + l then decide (z / 2 ^ (j - start) % 2 = 1) else key.testBit j := by
        by_cases h : start ≤ j ∧ j < start + l
        · rw [if_pos h, if_pos (by omega)]
        · rw [if_neg h, if_neg (by omega)]
      rw [e, ← ih]
      split
      · rw [Nat.testBit_or, h2, Bool.or_false]
      · rw [Nat.testBit_and, Nat.testBit_xor, h2, Bool.xor_false, Bool.and_self]

/-- **C167.**  Of a proof with hashes and paths, `BigKey` puts the bits of the paths, as many as the proof is long, into the number from
the position given, and leaves the other bits as they are; of no proof or one without hashes it takes nothing. -/
theorem C167_bits (key start : Nat) (p : MP) (z : Int) (hz : p.paths = some z) (hne : (p.hashs.getD []) ≠ []) :
    ∃ k, MP.bigKey key start (some p) = .ok (k, (p.hashs.getD []).length + (MoreTimes.count p.repeats).toNat + start) ∧
      (∀ j, k.testBit j = if start ≤ j ∧ j < start + ((p.hashs.getD []).length + (MoreTimes.count p.repeats).toNat)
        then decide (z / 2 ^ (j - start) % 2 = 1) else key.testBit j) ∧
      MP.bigKey key start none = .ok (key, start) ∧ MP.bigKey key start (some ⟨some [], p.paths, p.repeats⟩) = .ok (key, start) := by
  refine ⟨_, ?_, fun j => bigKey_fold z start key _ j, rfl, rfl⟩
  rw [MP.bigKey, if_neg (by simpa using hne)]
  simp only [hz]

example : MP.bigKey 0b1001 1 (some ⟨some [List.replicate 32 7, List.replicate 32 8], some 0b110, some [⟨0, 1⟩]⟩) = .ok (0b1101, 4) := by decide +kernel

/-! ### Texts -/

/-- The bytes of a text of ASCII characters. -/
def ascii (l : List Char) : Bytes := l.map fun c => UInt8.ofNat c.toNat

/-- `ProofType.String` (`/repo/trie/proof.go:173-195`). -/
def typeText (t : UInt8) : Bytes :=
  if isProofChild t then ascii ['C'] ++ decDigits t.toNat
  else if t = proofValue then ascii ['V']
  else if t = proofHdsSummary then ascii ['S']
  else if t = proofExistence then ascii ['E']
  else if t = proofMerkleOnly then ascii ['M']
  else
    match headerProperty t with
    | some i => ascii ['H'] ++ decDigits t.toNat ++ ascii ['('] ++ decDigits i.toNat ++ ascii [')']
    | none => ascii ['N', 'A']

/-- `%t`. -/
def boolText (b : Bool) : Bytes := if b then ascii ['t', 'r', 'u', 'e'] else ascii ['f', 'a', 'l', 's', 'e']

/-- `NodeType.String` (`/repo/trie/node.go:60-66`). -/
def ntText (t : UInt8) : Bytes :=
  ascii ['<', 'P', ':'] ++ (boolText (ntHasPrefix t) ++ (ascii [',', ' ', 'C', ':'] ++ (boolText (ntHasChildren t) ++
    (ascii [',', ' ', 'V', ':'] ++ (boolText (ntHasValue t) ++
      (if ntOdd t then ascii [',', ' ', '\''] ++ [hexChar (ntFirst t).toNat] ++ ascii ['\'', '>'] else ascii ['>']))))))

/-- `NodeHeader.String` (`/repo/trie/node.go:157-175`). -/
def headerText (h : Header) : Bytes :=
  ascii ['N', 'o', 'd', 'e', 'H', 'e', 'a', 'd', 'e', 'r', '{', 't', 'y', 'p', 'e', '='] ++ (ntText h.nt ++ (ascii [',', ' ', 'p', 'r', 'e', 'f', 'i', 'x', '='] ++
    (prefixToHexstring (keystringToPrefix h.nt h.keyString) ++ (ascii [',', ' ', 'c', 'h', 'i', 'l', 'd', 'r', 'e', 'n', '('] ++
      ((nibbles.filter h.hasChild).map (fun i => valuebyteToHexbyte (nibByte i)) ++ ascii [')', '}'])))))

theorem decDigits_inj {m n : Nat} (h : decDigits m = decDigits n) : m = n := by
  have h1 := (parseNat_dec _ _).2 (decDigits_numeral m).1
  have h2 := (parseNat_dec _ _).2 (decDigits_numeral n).1
  rw [h, h2] at h1
  exact (Option.some.inj h1).symm

theorem decDigits_open (n : Nat) : (40 : UInt8) ∉ decDigits n := by
  obtain ⟨ds, -, hf, -⟩ := (decDigits_numeral n).1
  generalize decDigits n = s at hf
  induction hf with
  | nil => simp
  | cons h _ ih =>
    obtain ⟨h1, rfl⟩ := h
    intro hc
    rcases List.mem_cons.1 hc with hc | hc
    · have : ∀ e : Fin 10, UInt8.ofNat (48 + e.val) ≠ 40 := by decide
      exact this ⟨_, h1⟩ hc.symm
    · exact ih hc

theorem cut {x : UInt8} : ∀ {a b c d : Bytes}, x ∉ a → x ∉ c → a ++ x :: b = c ++ x :: d → a = c ∧ b = d
  | [], b, [], d, _, _, h => by simpa using h
  | [], b, y :: c, d, _, hc, h => by
    simp only [List.nil_append, List.cons_append, List.cons.injEq] at h
    exact absurd (by simp [h.1]) hc
  | y :: a, b, [], d, ha, _, h => by
    simp only [List.nil_append, List.cons_append, List.cons.injEq] at h
    exact absurd (by simp [h.1]) ha
  | y :: a, b, z :: c, d, ha, hc, h => by
    simp only [List.cons_append, List.cons.injEq] at h
    have := cut (fun hx => ha (by simp [hx])) (fun hx => hc (by simp [hx])) h.2
    exact ⟨by rw [h.1, this.1], this.2⟩

/-- A type that stands for nothing that can be proved. -/
def Unnamed (t : UInt8) : Prop := 15 < t ∧ t ≠ proofValue ∧ t ≠ proofHdsSummary ∧ t ≠ proofExistence ∧ t ≠ proofMerkleOnly ∧ headerProperty t = none

/-- **C167** The text of a proof type tells which type it is, except that all the types without a meaning are shown alike. -/
theorem C167_types (t u : UInt8) : typeText t = typeText u ↔ t = u ∨ (Unnamed t ∧ Unnamed u) := by
  have hsome : ∀ t : UInt8, (isProofChild t = true ∧ typeText t = 67 :: decDigits t.toNat) ∨
      (t = proofValue ∧ typeText t = [86]) ∨ (t = proofHdsSummary ∧ typeText t = [83]) ∨ (t = proofExistence ∧ typeText t = [69]) ∨
      (t = proofMerkleOnly ∧ typeText t = [77]) ∨ (∃ r, typeText t = 72 :: (decDigits t.toNat ++ 40 :: r)) ∨
      (Unnamed t ∧ typeText t = [78, 65]) := by
    intro t
    by_cases h1 : isProofChild t = true
    · exact .inl ⟨h1, by unfold typeText; rw [if_pos h1]; rfl⟩
    by_cases h2 : t = proofValue
    · exact .inr (.inl ⟨h2, by unfold typeText; rw [if_neg h1, if_pos h2]; rfl⟩)
    by_cases h3 : t = proofHdsSummary
    · exact .inr (.inr (.inl ⟨h3, by unfold typeText; rw [if_neg h1, if_neg h2, if_pos h3]; rfl⟩))
    by_cases h4 : t = proofExistence
    · exact .inr (.inr (.inr (.inl ⟨h4, by unfold typeText; rw [if_neg h1, if_neg h2, if_neg h3, if_pos h4]; rfl⟩)))
    by_cases h5 : t = proofMerkleOnly
    · exact .inr (.inr (.inr (.inr (.inl ⟨h5, by unfold typeText; rw [if_neg h1, if_neg h2, if_neg h3, if_neg h4, if_pos h5]; rfl⟩))))
    cases h6 : headerProperty t with
    | some i =>
      refine .inr (.inr (.inr (.inr (.inr (.inl ⟨decDigits i.toNat ++ [41], ?_⟩)))))
      unfold typeText
      rw [if_neg h1, if_neg h2, if_neg h3, if_neg h4, if_neg h5, h6]
      simp [ascii]
    | none =>
      refine .inr (.inr (.inr (.inr (.inr (.inr ⟨⟨?_, h2, h3, h4, h5, h6⟩, ?_⟩)))))
      · simp only [isProofChild, decide_eq_true_eq, UInt8.not_le] at h1
        exact h1
      · unfold typeText
        rw [if_neg h1, if_neg h2, if_neg h3, if_neg h4, if_neg h5, h6]
        rfl
  constructor
  · intro h
    have hu := hsome u
    rw [← h] at hu
    rcases hsome t with ⟨a, e⟩ | ⟨a, e⟩ | ⟨a, e⟩ | ⟨a, e⟩ | ⟨a, e⟩ | ⟨r, e⟩ | ⟨a, e⟩ <;> rw [e] at hu <;>
      rcases hu with ⟨b, e'⟩ | ⟨b, e'⟩ | ⟨b, e'⟩ | ⟨b, e'⟩ | ⟨b, e'⟩ | ⟨r', e'⟩ | ⟨b, e'⟩ <;>
      first
        | (exact absurd (List.cons.inj e').1 (by decide))
        | (exact .inl (a.trans b.symm))
        | (exact .inr ⟨a, b⟩)
        | (exact .inl (UInt8.toNat_inj.1 (decDigits_inj (List.cons.inj e').2)))
        | (exact .inl (UInt8.toNat_inj.1 (decDigits_inj (cut (decDigits_open _) (decDigits_open _) (List.cons.inj e').2).1)))
  · rintro (rfl | ⟨a, b⟩)
    · rfl
    · have hn : ∀ t, Unnamed t → typeText t = [78, 65] := by
        rintro t ⟨h1, h2, h3, h4, h5, h6⟩
        unfold typeText
        rw [if_neg (by simp only [isProofChild, decide_eq_true_eq, UInt8.not_le]; exact h1), if_neg h2, if_neg h3, if_neg h4, if_neg h5, h6]
        rfl
      rw [hn t a, hn u b]

theorem boolText_cut {a b : Bool} {x y : Bytes} (h : boolText a ++ x = boolText b ++ y) : a = b ∧ x = y := by
  cases a <;> cases b <;> simp [boolText, ascii] at h ⊢ <;> exact h

theorem digit_of (b : UInt8) : valuebyteToHexbyte b = valuebyteToHexbyte (nibByte (byteNib b)) := by
  revert b
  refine forall_uint8 ?_
  decide +kernel

theorem digit_inj (i j : Nib) (h : valuebyteToHexbyte (nibByte i) = valuebyteToHexbyte (nibByte j)) : i = j := by
  revert i j
  decide +kernel

theorem digit_not (i : Nib) : valuebyteToHexbyte (nibByte i) ≠ 44 ∧ valuebyteToHexbyte (nibByte i) ≠ 41 := by
  revert i
  decide +kernel

theorem hexstring_eq (p : Bytes) : prefixToHexstring p = (p.map byteNib).map fun i => valuebyteToHexbyte (nibByte i) := by
  unfold prefixToHexstring
  rw [List.map_map]
  exact List.map_congr_left fun b _ => digit_of b

theorem not_mem_digits (l : List Nib) : (44 : UInt8) ∉ l.map (fun i => valuebyteToHexbyte (nibByte i)) ∧
    (41 : UInt8) ∉ l.map (fun i => valuebyteToHexbyte (nibByte i)) := by
  constructor <;> intro h <;> obtain ⟨i, -, e⟩ := List.mem_map.1 h
  · exact (digit_not i).1 e
  · exact (digit_not i).2 e

theorem first_lt (t : UInt8) : (ntFirst t).toNat < 16 := by
  revert t
  refine forall_uint8 ?_
  decide +kernel

theorem first_inj {t u : UInt8} (h : hexChar (ntFirst t).toNat = hexChar (ntFirst u).toNat) : ntFirst t = ntFirst u := by
  have hk : ∀ i j : Fin 16, hexChar i.val = hexChar j.val → i = j := by decide +kernel
  have := hk ⟨_, first_lt t⟩ ⟨_, first_lt u⟩ h
  exact UInt8.toNat_inj.1 (Fin.mk.inj this)

theorem ntText_cut {t u : UInt8} {x y : Bytes} (h : ntText t ++ (ascii [',', ' ', 'p', 'r', 'e', 'f', 'i', 'x', '='] ++ x) =
      ntText u ++ (ascii [',', ' ', 'p', 'r', 'e', 'f', 'i', 'x', '='] ++ y)) :
    (ntHasPrefix t = ntHasPrefix u ∧ ntHasChildren t = ntHasChildren u ∧ ntHasValue t = ntHasValue u ∧ ntOdd t = ntOdd u ∧
      (ntOdd t = true → ntFirst t = ntFirst u)) ∧ x = y := by
  unfold ntText at h
  simp only [List.append_assoc] at h
  have h1 := boolText_cut (List.append_cancel_left h)
  have h2 := boolText_cut (List.append_cancel_left h1.2)
  have h3 := boolText_cut (List.append_cancel_left h2.2)
  have h4 := h3.2
  suffices hs : (ntOdd t = ntOdd u ∧ (ntOdd t = true → ntFirst t = ntFirst u)) ∧ x = y from
    ⟨⟨h1.1, h2.1, h3.1, hs.1.1, hs.1.2⟩, hs.2⟩
  cases ho : ntOdd t <;> cases hu : ntOdd u <;> rw [ho, hu] at h4 <;> simp [ascii] at h4 ⊢
  · exact h4
  · exact ⟨first_inj h4.1, h4.2⟩

/-- What the text of a header shows. -/
def SameShown (h g : Header) : Prop :=
  (ntHasPrefix h.nt = ntHasPrefix g.nt ∧ ntHasChildren h.nt = ntHasChildren g.nt ∧ ntHasValue h.nt = ntHasValue g.nt ∧
    ntOdd h.nt = ntOdd g.nt ∧ (ntOdd h.nt = true → ntFirst h.nt = ntFirst g.nt)) ∧ h.prefix = g.prefix ∧ ∀ i, h.hasChild i = g.hasChild i

/-- **C167** The text of a header shows its type, its prefix and its children, and nothing else. -/
theorem C167_headers (h g : Header) : headerText h = headerText g ↔ SameShown h g := by
  constructor
  · intro e
    unfold headerText at e
    obtain ⟨e1, e2⟩ := ntText_cut (List.append_cancel_left e)
    rw [hexstring_eq, hexstring_eq] at e2
    have e3 := cut (x := 44) (b := ascii [' ', 'c', 'h', 'i', 'l', 'd', 'r', 'e', 'n', '('] ++ _)
      (d := ascii [' ', 'c', 'h', 'i', 'l', 'd', 'r', 'e', 'n', '('] ++ _) (not_mem_digits _).1 (not_mem_digits _).1 e2
    have e4 := cut (x := 41) (not_mem_digits _).2 (not_mem_digits _).2 (List.append_cancel_left e3.2)
    have e5 := (List.map_injective_iff.2 fun i j => digit_inj i j) e4.1
    refine ⟨e1, (List.map_injective_iff.2 fun i j => digit_inj i j) e3.1, fun i => ?_⟩
    have hi : i ∈ nibbles.filter h.hasChild ↔ i ∈ nibbles.filter g.hasChild := by rw [e5]
    simp only [List.mem_filter, mem_nibbles, true_and] at hi
    exact Bool.eq_iff_iff.2 hi
  · rintro ⟨⟨a1, a2, a3, a4, a5⟩, b, c⟩
    have hn : ntText h.nt = ntText g.nt := by
      unfold ntText
      rw [a1, a2, a3, a4]
      cases ho : ntOdd g.nt with
      | false => rfl
      | true => rw [a5 (a4.trans ho)]
    unfold headerText
    rw [hn, hexstring_eq, hexstring_eq]
    unfold Header.prefix at b
    rw [b, funext c]

/-- **C167** So the text of the header of a node tells its shape: two nodes with the same text have the same prefix, the same places
of children, and both or neither a value. -/
theorem C167_nodes (p q : List Nib) (has has' : Nib → Bool) (v v' : Bool) :
    headerText (newHeader p has v) = headerText (newHeader q has' v') ↔ p = q ∧ has = has' ∧ v = v' := by
  constructor
  · intro e
    obtain ⟨⟨-, -, e3, -, -⟩, e1, e2⟩ := (C167_headers _ _).1 e
    obtain ⟨-, a1, a2, a3, -⟩ := C15_header_describes_node p has v
    obtain ⟨-, b1, b2, b3, -⟩ := C15_header_describes_node q has' v'
    refine ⟨by rw [← a1, ← b1, e1], funext fun i => by rw [← a2, ← b2, e2], by rw [← a3, ← b3, e3]⟩
  · rintro ⟨rfl, rfl, rfl⟩
    rfl

/-! ### Examples -/

/-- The text of a leaf with an odd prefix and of a branch with two children. -/
example : headerText (newHeader [3, 10, 15] (fun _ => false) true) =
      ascii "NodeHeader{type=<P:true, C:false, V:true, '3'>, prefix=3AF, children()}".toList ∧
    headerText (newHeader [] (fun i => i = 2 ∨ i = 11) false) =
      ascii "NodeHeader{type=<P:false, C:true, V:false>, prefix=, children(2B)}".toList := by decide +kernel

example : typeText 0x3C ≠ typeText 0x20 ∧ headerProperty 0x3C = headerProperty 0x20 ∧ Unnamed 0x22 ∧ typeText 0x22 = typeText 0xF0 := by
  refine ⟨fun h => ?_, by decide, ⟨by decide, by decide, by decide, by decide, by decide, by decide⟩,
    (C167_types _ _).2 (.inr ⟨⟨by decide, by decide, by decide, by decide, by decide, by decide⟩,
      ⟨by decide, by decide, by decide, by decide, by decide, by decide⟩⟩)⟩
  rcases (C167_types _ _).1 h with h | ⟨h, -⟩
  · exact absurd h (by decide)
  · exact absurd h.2.2.2.2.2 (by decide)

/-- A proof with repeated hashes, as JSON and back, into a value with other contents. -/
def demo : NP := ⟨16, newHeader [3, 10, 15] (fun _ => false) true, none,
  some ⟨some [List.replicate 32 1, List.replicate 32 2], some 5, some [⟨1, 3⟩]⟩⟩

example : readNP ⟨9, ⟨1, [2], 3, 4⟩, some (List.replicate 32 9), some ⟨none, some 8, some [⟨4, 4⟩, ⟨5, 5⟩]⟩⟩ (npJ demo) = some demo := by
  decide +kernel

/-- A flag of three bytes, a hash without 0x and a number out of range are refused. -/
example : childFlagRead (encode [1, 2, 3]) = none ∧ readHash [] (.str (hexEncode (List.replicate 32 1))) = none ∧
    readU8 0 (.num 256) = none ∧ readInt 0 (.num (2 ^ 63)) = none := by decide +kernel

end Verif.Trie.Json

import Verif.Merkle.Props
import Verif.Trie.Binding

/-!
# Property C145: hashes of several slices, of objects and of lists of them (/repo/hash.go:703-802, 928-934; /repo/hasher.go)

`H` is the digest of all bytes written to a hasher.  The encoder of go-rtl is a parameter `enc`, with nothing for a value it refuses.
-/

namespace Verif.Merkle
open Verif

/-- A `hash.Hash`: what has been written to it. -/
structure Hasher where
  written : Bytes

/-- `hash.Hash.Write`. -/
def Hasher.write (h : Hasher) (b : Bytes) : Hasher := ⟨h.written ++ b⟩

/-- `hash.Hash.Sum`: appends the digest to its argument. -/
def Hasher.sum (H : Bytes → Bytes) (h : Hasher) (b : Bytes) : Bytes := b ++ H h.written

/-- `CipherHash256`, `SystemHash256`, `Hash256s`, `Hash256NoError` (`/repo/hash.go:719-729, 743-749`). -/
def hash256s (H : Bytes → Bytes) (parts : List Bytes) : Bytes := (parts.foldl Hasher.write ⟨[]⟩).sum H []

/-- `Hash256`, `Hash256p`, `Hash256WithError` (`/repo/hash.go:703-717`). -/
def hash256 (H : Bytes → Bytes) (parts : List Bytes) : Bytes := toHash (hash256s H parts)

/-- `HashRipemd160` (`/repo/hash.go:751-754`): nothing is written to the hasher; `R` is RIPEMD-160. -/
def hashRipemd160 (R : Bytes → Bytes) (data : Bytes) : Bytes := (⟨[]⟩ : Hasher).sum R data

/-- `SlicesToHashs` (`/repo/hash.go:756-766`). -/
def slicesToHashs (H : Bytes → Bytes) (bss : List Bytes) : List Bytes :=
  bss.foldl (fun l b => l ++ [if b.length = 0 then nilHash H else hash256s H [b]]) []

/-- `SlicesMerkleHash` (`/repo/hash.go:768-771`). -/
def slicesMerkleHash (H : Bytes → Bytes) (values : List Bytes) (t : Int) (pf : Option Proofs) : Bytes × Option Proofs :=
  merkleHash H (slicesToHashs H values) t pf

/-- `SlicesMerkleHashComplete` (`/repo/hash.go:773-776`). -/
def slicesMerkleHashComplete (H : Bytes → Bytes) (values : List Bytes) (t : Int) (pf : Option Proofs) : Bytes × Option Proofs :=
  merkleHashComplete H (slicesToHashs H values) t pf

/-- What can be hashed: nil, an object with its own `HashValue`, and a value to be encoded. -/
inductive Obj (V : Type) where
  | nil | own (r : Res Bytes) | plain (v : V)

variable {V : Type}

/-- `EncodeAndHash` of a value (`/repo/hasher.go:47-61`). -/
def encodeAndHash (H : Bytes → Bytes) (enc : V → Option Bytes) (v : V) : Res Bytes :=
  match enc v with
  | some b => .ok (((⟨[]⟩ : Hasher).write b).sum H [])
  | none => .err

/-- `HashObject` (`/repo/hasher.go:25-44`). -/
def hashObject (H : Bytes → Bytes) (enc : V → Option Bytes) : Obj V → Res Bytes
  | .nil => .ok (nilHash H)
  | .own r => r
  | .plain v => encodeAndHash H enc v

/-- `EncodeHash` (`/repo/hasher.go:65-71`). -/
def encodeHash (H : Bytes → Bytes) (enc : V → Option Bytes) (o : Obj V) : Res Bytes :=
  match hashObject H enc o with
  | .ok b => .ok (toHash b)
  | .err => .ok (List.replicate 32 0)
  | .panic => .panic

/-- `ValuesToHashs` of a slice (`/repo/hash.go:778-793`). -/
def valuesToHashs (H : Bytes → Bytes) (enc : V → Option Bytes) : List (Obj V) → Res (List Bytes)
  | [] => .ok []
  | o :: os =>
    match hashObject H enc o with
    | .ok h =>
      match valuesToHashs H enc os with
      | .ok l => .ok (h :: l)
      | e => e
    | .err => .err
    | .panic => .panic

/-- `ValuesMerkleHash`, `ValuesMerkleTreeHash` (`/repo/hash.go:795-802, 928-934`). -/
def valuesMerkleHash (H : Bytes → Bytes) (enc : V → Option Bytes) (complete : Bool) (os : List (Obj V)) (t : Int) (pf : Option Proofs) :
    Res (Bytes × Option Proofs) :=
  match valuesToHashs H enc os with
  | .ok l => .ok (if complete then merkleHashComplete H l t pf else merkleHash H l t pf)
  | .err => .err
  | .panic => .panic

/-! ### Facts -/

theorem write_all (parts : List Bytes) (h : Hasher) : (parts.foldl Hasher.write h).written = h.written ++ parts.flatten := by
  induction parts generalizing h with
  | nil => simp
  | cons p ps ih => simp [ih, Hasher.write]

theorem hash256s_eq (H : Bytes → Bytes) (parts : List Bytes) : hash256s H parts = H parts.flatten := by
  simp [hash256s, Hasher.sum, write_all]

theorem toHash_32 {b : Bytes} (h : b.length = 32) : toHash b = b := by simp [toHash, h]

theorem slices_eq (H : Bytes → Bytes) (bss : List Bytes) : slicesToHashs H bss = bss.map H := by
  have gen : ∀ acc : List Bytes, bss.foldl (fun l b => l ++ [if b.length = 0 then nilHash H else hash256s H [b]]) acc = acc ++ bss.map H := by
    induction bss with
    | nil => simp
    | cons b bs ih =>
      intro acc
      rw [List.foldl_cons, ih]
      have : (if b.length = 0 then nilHash H else hash256s H [b]) = H b := by
        split
        · next h => rw [List.length_eq_zero_iff.1 h]; rfl
        · rw [hash256s_eq]; simp
      rw [this]
      simp
  simpa [slicesToHashs] using gen []

theorem map_binding (H : Bytes → Bytes) (l m : List Bytes) (hlen : l.length = m.length) (h : l.map H = m.map H) : l = m ∨ Collision H l m := by
  induction l generalizing m with
  | nil =>
    left
    exact (List.length_eq_zero_iff.1 hlen.symm).symm
  | cons a l ih =>
    cases m with
    | nil => simp at hlen
    | cons b m =>
      simp only [List.map_cons, List.cons.injEq, List.length_cons, Nat.add_right_cancel_iff] at h hlen
      rcases ih m hlen h.2 with h1 | h1
      · by_cases hab : a = b
        · left; rw [hab, h1]
        · right; exact ⟨a, by simp, b, by simp, hab, h.1⟩
      · right; exact h1.mono (fun x hx => by simp [hx]) (fun x hx => by simp [hx])

/-! ### The claims -/

/-- **C145**: a hash of several slices is the digest of their concatenation, 32 bytes long. -/
theorem C145_parts (H : Bytes → Bytes) (hH : ∀ b, (H b).length = 32) (parts : List Bytes) :
    hash256s H parts = H parts.flatten ∧ hash256 H parts = H parts.flatten := by
  refine ⟨hash256s_eq H parts, ?_⟩
  rw [hash256, hash256s_eq, toHash_32 (hH _)]

/-- **C145**: it binds slices of known lengths. -/
theorem C145_parts_partial (H : Bytes → Bytes) (a b : List Bytes) (hlen : a.map List.length = b.map List.length)
    (h : hash256s H a = hash256s H b) : a = b ∨ Collision H [a.flatten] [b.flatten] := by
  rw [hash256s_eq, hash256s_eq] at h
  by_cases he : a.flatten = b.flatten
  · left
    clear h
    induction a generalizing b with
    | nil => cases b with
      | nil => rfl
      | cons => simp at hlen
    | cons x xs ih =>
      cases b with
      | nil => simp at hlen
      | cons y ys =>
        simp only [List.map_cons, List.cons.injEq, List.flatten_cons] at hlen he
        obtain ⟨h1, h2⟩ := List.append_inj he hlen.1
        rw [h1, ih ys hlen.2 h2]
  · right
    exact ⟨_, by simp, _, by simp, he, h⟩

/-- **C145 refuted** without the lengths: the borders between the slices are not hashed. -/
theorem C145_parts_refuted (H : Bytes → Bytes) : ∃ a b, a ≠ b ∧ hash256s H a = hash256s H b :=
  ⟨[[1], [2]], [[1, 2]], by decide, by simp [hash256s_eq]⟩

/-- **C145 refuted** for `HashRipemd160`: the result is the data followed by the digest of nothing, never the digest of the data. -/
theorem C145_ripemd_refuted (R : Bytes → Bytes) (hR : ∀ b, (R b).length = 20) (data : Bytes) :
    hashRipemd160 R data = data ++ R [] ∧ (data ≠ [] → hashRipemd160 R data ≠ R data ∧ (hashRipemd160 R data).length ≠ 20) := by
  have h1 : hashRipemd160 R data = data ++ R [] := rfl
  refine ⟨h1, fun hd => ?_⟩
  have h2 : (hashRipemd160 R data).length ≠ 20 := by
    have := List.length_pos_iff.2 hd
    rw [h1, List.length_append, hR]
    omega
  exact ⟨fun h => h2 (by rw [h, hR]), h2⟩

/-- **C145**: the root over slices of both kinds of tree binds the slices, for a known number of them. -/
theorem C145_slices (H : Bytes → Bytes) (hH : ∀ b, (H b).length = 32) (l m : List Bytes) (hlen : l.length = m.length)
    (d : Nat) (hd : IsDepth l.length d)
    (h : (slicesMerkleHash H l (-1) none).1 = (slicesMerkleHash H m (-1) none).1 ∨
      (slicesMerkleHashComplete H l (-1) none).1 = (slicesMerkleHashComplete H m (-1) none).1) :
    l = m ∨ Collision H (l ++ linputs H (H []) d l.length (leaves (H []) (l.map H)) ++ minputs H d (leaves (H []) (l.map H)))
      (m ++ linputs H (H []) d m.length (leaves (H []) (m.map H)) ++ minputs H d (leaves (H []) (m.map H))) := by
  have h32 : ∀ (l : List Bytes), ∀ x ∈ l.map H, x.length = 32 := by
    intro l x hx
    obtain ⟨y, -, rfl⟩ := List.mem_map.1 hx
    exact hH y
  have fin : l.map H = m.map H → l = m ∨ Collision H (l ++ linputs H (H []) d l.length (leaves (H []) (l.map H)) ++ minputs H d (leaves (H []) (l.map H)))
      (m ++ linputs H (H []) d m.length (leaves (H []) (m.map H)) ++ minputs H d (leaves (H []) (m.map H))) := fun he =>
    (map_binding H l m hlen he).imp id fun hc => hc.mono (fun x hx => by simp [hx]) (fun x hx => by simp [hx])
  rcases h with h | h
  · simp only [slicesMerkleHash, slices_eq] at h
    rcases C29_merkle_binding H hH (l.map H) (m.map H) (h32 l) (h32 m) (by simpa using hlen) d (by simpa using hd) h with h1 | h1
    · exact fin h1
    · right
      simp only [List.length_map] at h1
      exact h1.mono (fun x hx => by simp [hx]) (fun x hx => by simp [hx])
  · simp only [slicesMerkleHashComplete, slices_eq] at h
    rcases C29_complete_binding H hH (l.map H) (m.map H) (h32 l) (h32 m) (by simpa using hlen) d (by simpa using hd) h with h1 | h1
    · exact fin h1
    · right
      exact h1.mono (fun x hx => by simp [hx]) (fun x hx => by simp [hx])

/-- **C145**: a proof collected for an index leads from the digest of that slice to the root, for both kinds of tree. -/
theorem C145_slices_proof (H : Bytes → Bytes) (hH : ∀ b, (H b).length = 32) (l : List Bytes) (i : Nat) (hi : i < l.length) :
    (∃ p, (slicesMerkleHash H l i (some newProofs)).2 = some p ∧
      p.proof H (H l[i]) = some (slicesMerkleHash H l (-1) none).1) ∧
    ∃ p, (slicesMerkleHashComplete H l i (some newProofs)).2 = some p ∧
      p.proof H (H l[i]) = some (slicesMerkleHashComplete H l (-1) none).1 := by
  have h32 : ∀ x ∈ l.map H, x.length = 32 := by
    intro x hx
    obtain ⟨y, -, rfl⟩ := List.mem_map.1 hx
    exact hH y
  have hi' : i < (l.map H).length := by simpa using hi
  simp only [slicesMerkleHash, slicesMerkleHashComplete, slices_eq]
  constructor
  · obtain ⟨p, h1, h2⟩ := C25_new_proof_verifies H hH (l.map H) h32 i hi'
    refine ⟨p, h1, ?_⟩
    rw [List.getElem_map] at h2
    rw [h2, (C25_negative_index H (l.map H) (-1) (by omega) none).2 i hi']
  · obtain ⟨p, h1, h2⟩ := C23_complete_proof_verifies H hH (l.map H) h32 i hi'
    refine ⟨p, h1, ?_⟩
    rw [List.getElem_map] at h2
    rw [h2, C23_root_independent_of_proof H (l.map H) i (-1) _ none]

/-- What the digest of an object is of: its encoding, or nothing for nil. -/
def content (enc : V → Option Bytes) : Obj V → Option Bytes
  | .nil => some []
  | .own _ => none
  | .plain v => enc v

/-- **C145**: the hash of an object without its own hash is the digest of its encoding; it is refused exactly when the encoder refuses
it, and then its `EncodeHash` is zero. -/
theorem C145_object (H : Bytes → Bytes) (hH : ∀ b, (H b).length = 32) (enc : V → Option Bytes) (o : Obj V) (ho : ∀ r, o ≠ .own r) :
    match content enc o with
    | some b => hashObject H enc o = .ok (H b) ∧ encodeHash H enc o = .ok (H b)
    | none => hashObject H enc o = .err ∧ encodeHash H enc o = .ok (List.replicate 32 0) := by
  cases o with
  | nil =>
    refine ⟨rfl, ?_⟩
    simp [encodeHash, hashObject, nilHash, toHash_32 (hH _)]
  | own r => exact absurd rfl (ho r)
  | plain v =>
    simp only [content]
    cases he : enc v with
    | none => simp [encodeHash, hashObject, encodeAndHash, he]
    | some b => simp [encodeHash, hashObject, encodeAndHash, he, Hasher.write, Hasher.sum, toHash_32 (hH _)]

theorem values_ok (H : Bytes → Bytes) (enc : V → Option Bytes) (vs : List V) (bs : List Bytes) (h : vs.map enc = bs.map some) :
    valuesToHashs H enc (vs.map .plain) = .ok (bs.map H) := by
  induction vs generalizing bs with
  | nil =>
    cases bs with
    | nil => rfl
    | cons => simp at h
  | cons v vs ih =>
    cases bs with
    | nil => simp at h
    | cons b bs =>
      simp only [List.map_cons, List.cons.injEq] at h
      simp only [List.map_cons, valuesToHashs, hashObject, encodeAndHash, h.1, ih bs h.2, Hasher.write, Hasher.sum, List.nil_append]

/-- **C145**: the root over encodable values is the root over their encodings as slices; one value that the encoder refuses refuses the
root. -/
theorem C145_values (H : Bytes → Bytes) (enc : V → Option Bytes) (complete : Bool) (vs : List V) (t : Int) (pf : Option Proofs) :
    (∀ bs, vs.map enc = bs.map some → valuesMerkleHash H enc complete (vs.map .plain) t pf =
      .ok (if complete then slicesMerkleHashComplete H bs t pf else slicesMerkleHash H bs t pf)) ∧
    ((∃ v ∈ vs, enc v = none) → valuesMerkleHash H enc complete (vs.map .plain) t pf = .err) := by
  constructor
  · intro bs h
    simp only [valuesMerkleHash, values_ok H enc vs bs h, slicesMerkleHashComplete, slicesMerkleHash, slices_eq]
  · intro h
    have : valuesToHashs H enc (vs.map .plain) = .err := by
      induction vs with
      | nil => simp at h
      | cons v vs ih =>
        simp only [List.map_cons, valuesToHashs, hashObject, encodeAndHash]
        cases he : enc v with
        | none => rfl
        | some b =>
          obtain ⟨w, hw, hn⟩ := h
          rcases List.mem_cons.1 hw with rfl | hw
          · rw [he] at hn; cases hn
          · simp only [ih ⟨w, hw, hn⟩]
    simp only [valuesMerkleHash, this]

/-- **C145 refuted** for `EncodeHash`: all values that the encoder refuses have one hash. -/
theorem C145_error_refuted : ∃ (enc : Nat → Option Bytes), (∀ a b x, enc a = some x → enc b = some x → a = b) ∧
    ∀ H, ∃ a b, a ≠ b ∧ encodeHash H enc (.plain a) = encodeHash H enc (.plain b) :=
  ⟨fun n => if n < 2 then none else some (List.replicate n 1), by
    intro a b x ha hb
    simp only at ha hb
    split at ha
    · cases ha
    · split at hb
      · cases hb
      · simp only [Option.some.injEq] at ha hb
        have := congrArg List.length (ha.trans hb.symm)
        simpa using this, fun H => ⟨0, 1, by decide, rfl⟩⟩

/-! ### Nodes of binary trees -/

/-- `BinaryNode` (`/repo/trie/binarytree.go:19-22`); `none` is a nil slice. -/
structure BinaryNode where
  left : Option Bytes
  right : Option Bytes

/-- `BinaryNode.HashValue` (`/repo/trie/binarytree.go:24-37`); `none` is the nil pointer. -/
def binaryHash (H : Bytes → Bytes) : Option BinaryNode → Bytes
  | none => nilHash H
  | some n => hashPair H (match n.left with | none => nilHash H | some a => a) (match n.right with | none => nilHash H | some b => b)

/-- **C145, nodes of binary trees.** The hash binds both sides, if they have the length of a hash; a side that is missing is bound
as the hash of nothing. -/
theorem C145_binary (H : Bytes → Bytes) (hH : ∀ b, (H b).length = 32) (m n : BinaryNode)
    (hm : ∀ a, m.left = some a → a.length = 32) (hn : ∀ a, n.left = some a → a.length = 32)
    (h : binaryHash H (some m) = binaryHash H (some n)) :
    (m.left.getD (H []) = n.left.getD (H []) ∧ m.right.getD (H []) = n.right.getD (H [])) ∨
      Collision H [m.left.getD (H []) ++ m.right.getD (H [])] [n.left.getD (H []) ++ n.right.getD (H [])] := by
  have e : ∀ o : Option Bytes, (match o with | none => nilHash H | some a => a) = o.getD (H []) := by
    intro o; cases o <;> rfl
  simp only [binaryHash, hashPair, e] at h
  by_cases hc : m.left.getD (H []) ++ m.right.getD (H []) = n.left.getD (H []) ++ n.right.getD (H [])
  · left
    refine List.append_inj hc ?_
    have hl : ∀ o : Option Bytes, (∀ a, o = some a → a.length = 32) → (o.getD (H [])).length = 32 := by
      intro o ho
      cases o with
      | none => exact hH _
      | some a => exact ho a rfl
    rw [hl _ hm, hl _ hn]
  · right
    exact ⟨_, by simp, _, by simp, hc, h⟩

/-- A pair of hashes is proved by `HashPairOrder` from either side, and a node without anything hashes like two missing sides. -/
theorem C145_binary_sides (H : Bytes → Bytes) (a b : Bytes) :
    binaryHash H (some ⟨some a, some b⟩) = hashPairOrder H true a b ∧ binaryHash H (some ⟨some a, some b⟩) = hashPairOrder H false b a ∧
    binaryHash H (some ⟨none, none⟩) = H (H [] ++ H []) ∧ binaryHash H none = H [] := ⟨rfl, rfl, rfl, rfl⟩

/-- **C145 refuted** for sides of other lengths: the border between them is not hashed. -/
theorem C145_binary_refuted (H : Bytes → Bytes) :
    binaryHash H (some ⟨some [1], some [2, 3]⟩) = binaryHash H (some ⟨some [1, 2], some [3]⟩) := rfl

example : slicesToHashs toyH [[1], [], [2, 3]] = [toyH [1], toyH [], toyH [2, 3]] := by decide +kernel

example : valuesMerkleHash toyH (fun n : Nat => if n = 9 then none else some [UInt8.ofNat n]) false [.plain 3, .nil, .plain 9] (-1) none = .err := rfl

end Verif.Merkle

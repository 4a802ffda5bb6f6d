import Verif.Trie.Hash
import Verif.Sorted
import Verif.Merkle.Props

/-!
# What proofs say of block headers, and proof chains as Merkle proofs (/repo/trie/proof.go:214-268, 559-629, 726-757)

A proof of a property of a block header has the hash of chain id, height and index of the property in `ValueHash`, and the Merkle proof
of the pair of this hash and the property in `ChildProofs` (comment /repo/trie/proof.go:196-204).  The header itself is not part of the
repository: here its hash is `MerkleHashComplete` of those pairs (`headerHash`).  Proof nodes are not nil.
-/

namespace Verif.Trie
open Verif Verif.Merkle

/-- /repo/trie/proof.go:559-576 `IsHeaderOf`. -/
def isHeaderOf (H : Bytes → Bytes) (n : NodeProof) (id : UInt32) (height : UInt64) : Bool :=
  match n.valueHash with
  | none => false
  | some v =>
    match headerProperty n.ptype with
    | none => false
    | some i => decide (headerIndexHash H (headerPosBuffer id height) i = v)

/-- /repo/trie/proof.go:578-591 `IsHeaderPropertyOf`. -/
def isHeaderPropertyOf (H : Bytes → Bytes) (n : NodeProof) (id : UInt32) (height : UInt64) (index : Int) : Bool :=
  match n.valueHash with
  | none => false
  | some v =>
    match headerProperty n.ptype with
    | none => false
    | some i => if (i.toNat : Int) ≠ index then false else decide (H ((headerPosBuffer id height).take 12) = v)

/-- /repo/trie/proof.go:593-603 `IsHdsSummaryOf`. -/
def isHdsSummaryOf (H : Bytes → Bytes) (n : NodeProof) (id : UInt32) (height : UInt64) : Bool :=
  if n.ptype ≠ proofHdsSummary then false
  else match n.valueHash with
    | none => false
    | some v => decide (H ((headerPosBuffer id height).take 12) = v)

/-- /repo/trie/proof.go:257-262 `NewHeaderPropertyProof`. -/
def newHeaderPropertyProof (ptype : UInt8) (indexHash : Option Bytes) (proofs : Option Proofs) : Res NodeProof :=
  if (headerProperty ptype).isSome then .ok (newNodeProof ptype ⟨0, [], 0, 0⟩ indexHash proofs) else .panic

/-- /repo/trie/proof.go:726-742 `ToMerkles`: the callback; `none` is the error. -/
def toMerklesLoop : Proofs → List (Bytes × Bool) → Option Proofs
  | p, [] => some p
  | p, (v, o) :: r => if v.length ≠ 32 then none else toMerklesLoop (p.append (toHash v) o) r

/-- /repo/trie/proof.go:726-742 `ToMerkles`; the inner `none` is the nil pointer. -/
def toMerkles (H : Bytes → Bytes) (R : Rtl) (c : List NodeProof) : Option (Option Proofs) :=
  if c.length = 0 then some none
  else match chainItems H R c with
    | none => none
    | some its => (toMerklesLoop newProofs its).map some

/-- /repo/trie/proof.go:744-757 `ToItems`. -/
def toItems (H : Bytes → Bytes) (R : Rtl) (c : List NodeProof) : Option (List (Bytes × Bool)) :=
  if c.length = 0 then some []
  else (chainItems H R c).map fun its => its.map fun it => (toHash it.1, it.2)

/-- `MerkleProofs.Proof` of a pointer (/repo/hash.go:427-439): the nil pointer iterates over nothing (394-397). -/
def proofOfPointer (H : Bytes → Bytes) (p : Option Proofs) (h : Bytes) : Option Bytes :=
  match p with
  | none => some h
  | some p => p.proof H h

/-- /repo/hash.go:279-283: the loop over the hashes. -/
def hashsEqual : List Bytes → List Bytes → Bool
  | x :: xs, y :: ys => if x ≠ y then false else hashsEqual xs ys
  | _, _ => true

/-- /repo/hash.go:149-153: the loop over the table. -/
def timesEqual : List MoreTime → List MoreTime → Bool
  | x :: xs, y :: ys => if x ≠ y then false else timesEqual xs ys
  | _, _ => true

/-- /repo/hash.go:139-155 `MoreTimes.Equal`. -/
def moreTimesEqual (a b : MoreTimes) : Bool :=
  if a.list.length ≠ b.list.length then false
  else match a, b with
    | none, none => true
    | some x, some y => timesEqual x y
    | _, _ => false

/-- /repo/hash.go:274-291 `MerkleProofs.Equal` of pointers (equal pointers have equal content). -/
def proofsEqual : Option Proofs → Option Proofs → Bool
  | none, none => true
  | some p, some o =>
    if p.hashs.length ≠ o.hashs.length then false
    else if !hashsEqual p.hashs o.hashs then false
    else if p.paths ≠ o.paths then false
    else moreTimesEqual p.repeats o.repeats
  | _, _ => false

/-- /repo/basic.go:1492-1500 `Hash.Equal` of pointers. -/
def hashEqual : Option Bytes → Option Bytes → Bool
  | none, none => true
  | some a, some b => decide (a = b)
  | _, _ => false

/-- /repo/trie/proof.go:214-223 `NodeProof.Equal`, with `NodeHeader.Equal` (/repo/trie/node.go:129-131). -/
def NodeProof.equal (n o : NodeProof) : Bool :=
  decide (n.ptype = o.ptype) &&
    (decide (n.header.nt = o.header.nt) && decide (n.header.keyString = o.header.keyString) &&
      (decide (n.header.flag0 = o.header.flag0) && decide (n.header.flag1 = o.header.flag1))) &&
    hashEqual n.valueHash o.valueHash && proofsEqual n.childProofs o.childProofs

/-- The loop of `ProofChain.Equal`. -/
def chainEqualLoop : List NodeProof → List NodeProof → Bool
  | n :: c, o :: d => if n.equal o = false then false else chainEqualLoop c d
  | _, _ => true

/-- /repo/trie/proof.go:608-618 `ProofChain.Equal`. -/
def chainEqual (c d : List NodeProof) : Bool := if c.length ≠ d.length then false else chainEqualLoop c d

/-- /repo/hash.go:157-168 `MoreTimes.Find`. -/
def moreTimesFind (ms : MoreTimes) (index : Int) : Option Int :=
  match ms.list[search ms.list.length fun j => match ms.list[j]? with
    | some m => decide (m.index ≥ index)
    | none => true]? with
  | none => none
  | some m => if m.index = index then some m.times else none

/-! ## C132 header claims -/

/-- The 12 bytes hashed for a header. -/
def positionBytes (id : UInt32) (height : UInt64) : Bytes := natBE 4 id.toNat ++ natBE 8 height.toNat

theorem take_headerPosBuffer (id : UInt32) (height : UInt64) : (headerPosBuffer id height).take 12 = positionBytes id height := by
  unfold headerPosBuffer positionBytes
  have h4 : (natBE 4 id.toNat).length = 4 := natBE_length _ _
  have h8 : (natBE 8 height.toNat).length = 8 := natBE_length _ _
  generalize natBE 4 id.toNat = a at h4
  generalize natBE 8 height.toNat = b at h8
  match a, h4 with
  | [a0, a1, a2, a3], _ =>
    match b, h8 with
    | [b0, b1, b2, b3, b4, b5, b6, b7], _ => rfl

theorem positionBytes_inj {id id' : UInt32} {h h' : UInt64} (e : positionBytes id h = positionBytes id' h') : id = id' ∧ h = h' := by
  unfold positionBytes at e
  obtain ⟨h3, h4⟩ := List.append_inj e (by simp [natBE_length])
  have e1 := congrArg beNat h3
  have e2 := congrArg beNat h4
  rw [beNat_natBE_of_lt (by have := id.toNat_lt; omega), beNat_natBE_of_lt (by have := id'.toNat_lt; omega)] at e1
  rw [beNat_natBE_of_lt (by have := h.toNat_lt; omega), beNat_natBE_of_lt (by have := h'.toNat_lt; omega)] at e2
  exact ⟨UInt32.toNat_inj.mp e1, UInt64.toNat_inj.mp e2⟩

theorem isHeaderOf_iff (H : Bytes → Bytes) (n : NodeProof) (id : UInt32) (h : UInt64) : isHeaderOf H n id h = true ↔
    ∃ i, headerProperty n.ptype = some i ∧ n.valueHash = some (H (headerPreimage id h i)) := by
  unfold isHeaderOf
  cases hv : n.valueHash with
  | none => simp
  | some v =>
    cases hp : headerProperty n.ptype with
    | none => simp
    | some i =>
      simp only [decide_eq_true_eq, headerIndexHash_eq, Option.some.injEq, exists_eq_left']
      exact eq_comm

/-- **C132, one header:** a proof node speaks of one property of one header of one chain. -/
theorem C132_header (H : Bytes → Bytes) (n m : NodeProof) (hv : n.valueHash = m.valueHash) (id id' : UInt32) (h h' : UInt64)
    (h1 : isHeaderOf H n id h = true) (h2 : isHeaderOf H m id' h' = true) :
    (id = id' ∧ h = h' ∧ headerProperty n.ptype = headerProperty m.ptype) ∨
      ∃ i j, Collision H [headerPreimage id h i] [headerPreimage id' h' j] := by
  obtain ⟨i, hi, e⟩ := (isHeaderOf_iff H n id h).1 h1
  obtain ⟨j, hj, e'⟩ := (isHeaderOf_iff H m id' h').1 h2
  rw [hv, e', Option.some.injEq] at e
  have := C31_header_index_separates H id id' h h' i j (by rw [headerIndexHash_eq, headerIndexHash_eq]; exact e.symm)
  rcases this with ⟨a, b, c⟩ | hc
  · exact Or.inl ⟨a, b, by rw [hi, hj, c]⟩
  · exact Or.inr ⟨i, j, hc⟩

/-- **C132, one summary:** likewise for summaries of headers. -/
theorem C132_summary (H : Bytes → Bytes) (n : NodeProof) (id id' : UInt32) (h h' : UInt64) (h1 : isHdsSummaryOf H n id h = true)
    (h2 : isHdsSummaryOf H n id' h' = true) :
    (id = id' ∧ h = h') ∨ Collision H [natBE 4 id.toNat ++ natBE 8 h.toNat] [natBE 4 id'.toNat ++ natBE 8 h'.toNat] := by
  unfold isHdsSummaryOf at h1 h2
  split at h1
  · cases h1
  · rename_i hp
    rw [if_neg hp] at h2
    cases hv : n.valueHash with
    | none => rw [hv] at h1; cases h1
    | some v =>
      rw [hv] at h1 h2
      simp only [decide_eq_true_eq, take_headerPosBuffer] at h1 h2
      by_cases e : positionBytes id h = positionBytes id' h'
      · exact Or.inl (positionBytes_inj e)
      · exact Or.inr ⟨_, List.mem_singleton.2 rfl, _, List.mem_singleton.2 rfl, e, h1.trans h2.symm⟩

/-- C132 fails for `IsHeaderPropertyOf`: it compares with the hash of the position alone, so it says no to every proof to which
`IsHeaderOf` says yes, unless 12 and 13 bytes collide. -/
theorem C132_property_refuted (H : Bytes → Bytes) (n : NodeProof) (id id' : UInt32) (h h' : UInt64) (i : Int)
    (h1 : isHeaderOf H n id h = true) : isHeaderPropertyOf H n id' h' i = false ∨
      ∃ j, Collision H [headerPreimage id h j] [natBE 4 id'.toNat ++ natBE 8 h'.toNat] := by
  obtain ⟨j, hj, e⟩ := (isHeaderOf_iff H n id h).1 h1
  by_cases hp : isHeaderPropertyOf H n id' h' i = true
  · right
    unfold isHeaderPropertyOf at hp
    rw [e, hj] at hp
    simp only at hp
    split at hp
    · cases hp
    · rw [decide_eq_true_eq, take_headerPosBuffer] at hp
      refine ⟨j, _, List.mem_singleton.2 rfl, _, List.mem_singleton.2 rfl, ?_, hp.symm⟩
      intro hc
      have := congrArg List.length hc
      simp [headerPreimage, natBE_length] at this
  · exact Or.inl (by simpa using hp)

/-- **C132.**  `IsHeaderPropertyOf` holds exactly for proofs with the hash of the position and a type that stands for the property
asked for; without a value hash, and for the types of other proofs, nothing is a property. -/
theorem C132_property (H : Bytes → Bytes) (n : NodeProof) (id : UInt32) (h : UInt64) (i : Int) :
    isHeaderPropertyOf H n id h i = true ↔
      n.valueHash = some (H (natBE 4 id.toNat ++ natBE 8 h.toNat)) ∧
      ((n.ptype = 0x20 ∧ i = 12) ∨ (n.ptype = 0x21 ∧ i = 1) ∨ (n.ptype = 0x23 ∧ i = 13) ∨ (n.ptype = 0x24 ∧ i = 16) ∨
        (n.ptype = 0x25 ∧ i = 17) ∨ (n.ptype = 0x26 ∧ i = 20) ∨ (0x30 ≤ n.ptype.toNat ∧ n.ptype.toNat < 0xa0 ∧ i = n.ptype.toNat - 0x30)) := by
  have hp : ∀ t : UInt8, (∃ j, headerProperty t = some j ∧ (j.toNat : Int) = i) ↔
      ((t = 0x20 ∧ i = 12) ∨ (t = 0x21 ∧ i = 1) ∨ (t = 0x23 ∧ i = 13) ∨ (t = 0x24 ∧ i = 16) ∨
        (t = 0x25 ∧ i = 17) ∨ (t = 0x26 ∧ i = 20) ∨ (0x30 ≤ t.toNat ∧ t.toNat < 0xa0 ∧ i = t.toNat - 0x30)) := by
    intro t
    unfold headerProperty
    by_cases h1 : t = 0x20
    · subst h1; simp; omega
    by_cases h2 : t = 0x21
    · subst h2; simp; omega
    by_cases h3 : t = 0x23
    · subst h3; simp; omega
    by_cases h4 : t = 0x24
    · subst h4; simp; omega
    by_cases h5 : t = 0x25
    · subst h5; simp; omega
    by_cases h6 : t = 0x26
    · subst h6; simp; omega
    simp only [h1, h2, h3, h4, h5, h6, if_false, false_and, false_or, UInt8.le_iff_toNat_le, UInt8.lt_iff_toNat_lt]
    have e1 : (0x30 : UInt8).toNat = 0x30 := rfl
    have e2 : (0xa0 : UInt8).toNat = 0xa0 := rfl
    rw [e1, e2]
    split
    · next hc =>
      have : (t - 0x30).toNat = t.toNat - 0x30 := by
        rw [UInt8.toNat_sub_of_le _ _ (by rw [UInt8.le_iff_toNat_le, e1]; exact hc.1), e1]
      simp only [Option.some.injEq, exists_eq_left', this]
      omega
    · next hc => simp; omega
  rw [← hp]
  unfold isHeaderPropertyOf
  rw [take_headerPosBuffer]
  cases hv : n.valueHash with
  | none => simp
  | some v =>
    cases hq : headerProperty n.ptype with
    | none => simp
    | some j =>
      simp only [Option.some.injEq, exists_eq_left']
      by_cases hj : (j.toNat : Int) = i
      · simp [hj, positionBytes, eq_comm]
      · simp [hj]

/-- A proof of property 12 of the header 2 of chain 1, and proofs without the value hash or with another type. -/
example : isHeaderPropertyOf (fun b => b) (newNodeProof 0x20 ⟨0, [], 0, 0⟩ (some [0, 0, 0, 1, 0, 0, 0, 0, 0, 0, 0, 2]) none) 1 2 12 = true ∧
    isHeaderPropertyOf (fun b => b) (newNodeProof 0x20 ⟨0, [], 0, 0⟩ none none) 1 2 12 = false ∧
    isHeaderPropertyOf (fun b => b) (newNodeProof 0x22 ⟨0, [], 0, 0⟩ (some [0, 0, 0, 1, 0, 0, 0, 0, 0, 0, 0, 2]) none) 1 2 12 = false := by
  decide +kernel

/-! ### Proofs of properties -/

/-- The leaves of a header: the pairs of the index hash and the property. -/
def headerLeaves (H : Bytes → Bytes) (id : UInt32) (h : UInt64) (props : List Bytes) : List Bytes :=
  props.mapIdx fun j v => H (H (headerPreimage id h (UInt8.ofNat j)) ++ v)

/-- The hash of a header with the given properties. -/
def headerHash (H : Bytes → Bytes) (id : UInt32) (h : UInt64) (props : List Bytes) : Bytes :=
  (merkleHashComplete H (headerLeaves H id h props) (-1) none).1

theorem headerLeaves_get (H : Bytes → Bytes) (id : UInt32) (h : UInt64) (props : List Bytes) (j : Nat) :
    (headerLeaves H id h props)[j]? = props[j]?.map fun v => H (H (headerPreimage id h (UInt8.ofNat j)) ++ v) := by
  unfold headerLeaves
  rw [List.getElem?_mapIdx]

theorem headerLeaves_length (H : Bytes → Bytes) (id : UInt32) (h : UInt64) (props : List Bytes) :
    (headerLeaves H id h props).length = props.length := List.length_mapIdx

theorem headerLeaves_32 (H : Bytes → Bytes) (hH : ∀ b, (H b).length = 32) (id : UInt32) (h : UInt64) (props : List Bytes) :
    ∀ x ∈ headerLeaves H id h props, x.length = 32 := by
  intro x hx
  obtain ⟨j, hj⟩ := List.mem_iff_getElem?.1 hx
  rw [headerLeaves_get, Option.map_eq_some_iff] at hj
  obtain ⟨v, _, rfl⟩ := hj
  exact hH _

/-- The types of proofs that are not those of properties. -/
theorem headerProperty_other {t i : UInt8} (h : headerProperty t = some i) : t ≠ proofMerkleOnly ∧ isProofChild t = false ∧
    t ≠ proofValue ∧ t ≠ proofHdsSummary := by
  have hr : 0x20 ≤ t ∧ t < 0xa0 := by
    by_contra hc
    unfold headerProperty at h
    repeat' split at h
    all_goals first | (subst_vars; exact absurd hc (by decide)) | skip
    · rename_i hc'
      apply hc
      constructor
      · exact UInt8.le_trans (by decide) hc'.1
      · exact hc'.2
    · cases h
  refine ⟨?_, ?_, ?_, ?_⟩
  · rintro rfl; exact absurd hr (by decide)
  · unfold isProofChild
    rw [decide_eq_false_iff_not]
    intro h1
    exact absurd (UInt8.le_trans hr.1 h1) (by decide)
  · rintro rfl; exact absurd hr (by decide)
  · rintro rfl; exact absurd hr (by decide)

theorem evalItems_front (H : Bytes → Bytes) (v : Bytes) (L : List (Bytes × Bool)) (x : Bytes) :
    evalItems H ((v, true) :: L) x = evalItems H L (H (v ++ x)) := by
  unfold evalItems
  rw [List.foldl_cons]
  rfl

/-- **C132, proofs of properties:** for each property of a header the Merkle proof of its leaf makes a proof node that leads from the
property to the hash of the header, and that `IsHeaderOf` recognises for this header. -/
theorem C132_complete (H : Bytes → Bytes) (R : Rtl) (hH : ∀ b, (H b).length = 32) (id : UInt32) (h : UInt64) (props : List Bytes)
    (t i : UInt8) (ht : headerProperty t = some i) (hi : i.toNat < props.length) :
    ∃ n, newHeaderPropertyProof t (some (headerIndexHash H (headerPosBuffer id h) i))
        (merkleHashComplete H (headerLeaves H id h props) i.toNat (some newProofs)).2 = .ok n ∧
      isHeaderOf H n id h = true ∧ chainProof H R [n] props[i.toNat] = some (headerHash H id h props) := by
  have hlen := headerLeaves_length H id h props
  have h32 := headerLeaves_32 H hH id h props
  have hi' : i.toNat < (headerLeaves H id h props).length := by omega
  obtain ⟨p, hp, hpv⟩ := C23_complete_proof_verifies H hH _ h32 i.toNat hi'
  obtain ⟨d, hd⟩ := exists_depth (headerLeaves H id h props).length
  obtain ⟨p', L, hp', hL, hd1, hd2, -, -, -⟩ := C26_complete_bits H hH _ h32 i.toNat hi' d hd
  obtain ⟨o1, o2, o3, o4⟩ := headerProperty_other ht
  have hpp : p' = p := by rw [hp] at hp'; exact (Option.some.inj hp').symm
  subst hpp
  have hne : p'.hashs.length ≠ 0 := by
    intro h0
    have : p'.items = some [] := by
      unfold Proofs.items
      rw [List.length_eq_zero_iff.1 h0]; rfl
    rw [hL, Option.some.injEq] at this
    rw [this] at hd2
    have := hd.1
    simp at hd2; omega
  refine ⟨newNodeProof t ⟨0, [], 0, 0⟩ (some (headerIndexHash H (headerPosBuffer id h) i)) (some p'), ?_, ?_, ?_⟩
  · unfold newHeaderPropertyProof; rw [ht, hp]; rfl
  · rw [isHeaderOf_iff]
    refine ⟨i, ht, ?_⟩
    simp only [newNodeProof, if_neg o3, headerIndexHash_eq]
  · have hitems : (newNodeProof t ⟨0, [], 0, 0⟩ (some (headerIndexHash H (headerPosBuffer id h) i)) (some p')).items H R =
        some ((headerIndexHash H (headerPosBuffer id h) i, true) :: L) := by
      simp only [NodeProof.items, newNodeProof, if_neg o1, o2, if_neg o3, if_neg o4, ht, hne, if_false, hL, Option.map_some,
        Option.isSome_some, if_true, Bool.false_eq_true]
    unfold chainProof
    simp only [chainItems, hitems, Option.map_some, List.append_nil, Option.some.injEq]
    rw [evalItems_front]
    have hleaf : (headerLeaves H id h props)[i.toNat] = H (headerIndexHash H (headerPosBuffer id h) i ++ props[i.toNat]) := by
      have := headerLeaves_get H id h props i.toNat
      rw [List.getElem?_eq_getElem hi', List.getElem?_eq_getElem hi] at this
      simp only [Option.map_some, Option.some.injEq] at this
      rw [this, headerIndexHash_eq]
      simp
    rw [hleaf] at hpv
    unfold Proofs.proof at hpv
    rw [hL, Option.map_some, Option.some.injEq] at hpv
    rw [hpv]
    exact C23_root_independent_of_proof H _ _ _ _ _

/-- All hash inputs of a header. -/
def headerInputs (H : Bytes → Bytes) (d : Nat) (id : UInt32) (h : UInt64) (props : List Bytes) : List Bytes :=
  [] :: minputs H d (leaves (nilHash H) (headerLeaves H id h props)) ++
    props.mapIdx (fun j v => H (headerPreimage id h (UInt8.ofNat j)) ++ v) ++ props.mapIdx fun j _ => headerPreimage id h (UInt8.ofNat j)

/-- The items that a proof of a property walks through. -/
def propertyItems (n : NodeProof) : List (Bytes × Bool) :=
  match n.valueHash, n.childProofs with
  | some v, some p => (v, true) :: (p.items.getD [])
  | _, _ => []

/-- **C132, soundness:** if a proof node that `IsHeaderOf` recognises for a header leads from a hash to the hash of a header, and is as
long as the tree is deep, then it was the header asked for and the hash is that of the property it is about, or there is a collision. -/
theorem C132_sound_partial (H : Bytes → Bytes) (R : Rtl) (hH : ∀ b, (H b).length = 32) (id id0 : UInt32) (h h0 : UInt64)
    (props : List Bytes) (hpl : props.length ≤ 256) (hp0 : props ≠ []) (d : Nat) (hd : IsDepth props.length d)
    (n : NodeProof) (i : UInt8) (hi : headerProperty n.ptype = some i) (hn : isHeaderOf H n id h = true)
    (h32 : ∀ it ∈ propertyItems n, it.1.length = 32) (hlen : (propertyItems n).length = d + 1) (x : Bytes)
    (hv : n.proof H R x = some (headerHash H id0 h0 props)) :
    (id = id0 ∧ h = h0 ∧ props[i.toNat]? = some x) ∨
      Collision H (headerPreimage id h i :: evalInputs H (propertyItems n) x) (headerInputs H d id0 h0 props) := by
  obtain ⟨o1, o2, o3, o4⟩ := headerProperty_other hi
  obtain ⟨i', hi', hvh⟩ := (isHeaderOf_iff H n id h).1 hn
  rw [hi] at hi'
  cases hi'
  -- the items
  cases hcp : n.childProofs with
  | none => simp [propertyItems, hcp] at hlen
  | some p =>
    have hit : ∃ L, p.items = some L ∧ n.items H R = some ((H (headerPreimage id h i), true) :: L) := by
      simp only [NodeProof.proof, NodeProof.items, if_neg o1, o2, if_neg o3, if_neg o4, hi, hcp, hvh, Option.isSome_some, if_true,
        Bool.false_eq_true, if_false] at hv ⊢
      split at hv
      · simp at hv
      · rename_i h0
        rw [if_neg h0]
        cases hL : p.items with
        | none => rw [hL] at hv; simp at hv
        | some L => exact ⟨L, rfl, by simp⟩
    obtain ⟨L, hL, hit⟩ := hit
    have hprop : propertyItems n = (H (headerPreimage id h i), true) :: L := by simp [propertyItems, hcp, hvh, hL]
    rw [hprop] at h32 hlen ⊢
    simp only [NodeProof.proof, hit, Option.map_some, Option.some.injEq] at hv
    rw [evalItems_front] at hv
    have hne : headerLeaves H id0 h0 props ≠ [] := by
      intro e
      have := headerLeaves_length H id0 h0 props
      rw [e] at this
      exact hp0 (List.length_eq_zero_iff.1 this.symm)
    unfold headerHash at hv
    rw [complete_spec H _ (-1) none d hne (by rw [headerLeaves_length]; exact hd)] at hv
    simp only [List.length_cons, Nat.add_right_cancel_iff] at hlen
    have hleaf32 : ∀ j, (leaves (nilHash H) (headerLeaves H id0 h0 props) j).length = 32 := by
      intro j
      unfold leaves
      cases hj : (headerLeaves H id0 h0 props)[j]? with
      | none => exact hH _
      | some y => exact headerLeaves_32 H hH _ _ _ y (List.mem_of_getElem? hj)
    have hs := mroot_sound H hH d _ L (H (H (headerPreimage id h i) ++ x)) hleaf32
      (fun it hit => h32 it (List.mem_cons_of_mem _ hit)) (hH _) hlen hv
    rcases hs with hs | ⟨a, ha, b, hb, hab, hab'⟩
    · -- the leaf is the one at the position
      unfold leaves at hs
      generalize bitsNat (L.map Prod.snd) = j at hs
      rw [headerLeaves_get] at hs
      cases hj : props[j]? with
      | none =>
        rw [hj] at hs
        right
        refine ⟨H (headerPreimage id h i) ++ x, by simp [evalInputs], [], by simp [headerInputs], ?_, hs⟩
        intro e
        have := congrArg List.length e
        rw [List.length_append, hH] at this
        simp at this
      | some v =>
        rw [hj] at hs
        simp only [Option.map_some, Option.getD_some] at hs
        by_cases e : H (headerPreimage id h i) ++ x = H (headerPreimage id0 h0 (UInt8.ofNat j)) ++ v
        · obtain ⟨e1, e2⟩ := List.append_inj e (by rw [hH, hH])
          have := C31_header_index_separates H id id0 h h0 i (UInt8.ofNat j) (by rw [headerIndexHash_eq, headerIndexHash_eq]; exact e1)
          rcases this with ⟨a1, a2, a3⟩ | ⟨a, ha, b, hb, hab, hab'⟩
          · left
            refine ⟨a1, a2, ?_⟩
            have hjl : j < props.length := by
              by_contra hc
              rw [List.getElem?_eq_none (by omega)] at hj
              cases hj
            have : i.toNat = j := by
              rw [a3, UInt8.toNat_ofNat']
              exact Nat.mod_eq_of_lt (by omega)
            rw [this, hj, e2]
          · right
            rw [List.mem_singleton] at ha hb
            refine ⟨a, ?_, b, ?_, hab, hab'⟩
            · rw [ha]; exact List.mem_cons_self
            · rw [hb]
              unfold headerInputs
              refine List.mem_append_right _ ?_
              rw [List.mem_iff_getElem?]
              exact ⟨j, by rw [List.getElem?_mapIdx, hj]; rfl⟩
        · right
          refine ⟨_, ?_, _, ?_, e, hs⟩
          · simp [evalInputs]
          · unfold headerInputs
            refine List.mem_append_left _ (List.mem_append_right _ ?_)
            rw [List.mem_iff_getElem?]
            exact ⟨j, by rw [List.getElem?_mapIdx, hj]; rfl⟩
    · right
      refine ⟨a, ?_, b, ?_, hab, hab'⟩
      · simp only [evalInputs, if_true]
        exact List.mem_cons_of_mem _ (List.mem_cons_of_mem _ ha)
      · unfold headerInputs
        exact List.mem_append_left _ (List.mem_append_left _ (List.mem_cons_of_mem _ hb))

/-! ### Proof chains as Merkle proofs -/

/-- All hashes in a proof node have 32 bytes (in Go they are arrays). -/
def NodeProof.Sized (n : NodeProof) : Prop :=
  (∀ v, n.valueHash = some v → v.length = 32) ∧ ∀ p, n.childProofs = some p → ∀ x ∈ p.hashs, x.length = 32

theorem hashsIterate_mem (hs : List Bytes) : ∀ (i : Int) (c : MoreTime) (ms : List MoreTime) (r : List (Bytes × Nat)),
    hashsIterate i c ms hs = some r → ∀ q ∈ r, q.1 ∈ hs := by
  induction hs with
  | nil => intro i c ms r h; simp only [hashsIterate, Option.some.injEq] at h; subst h; simp
  | cons x hs ih =>
    intro i c ms r h
    rw [hashsIterate] at h
    split at h
    · cases h
    · rename_i c' ms' _
      split at h
      · cases h
      · rename_i rest hrest
        rw [Option.some.injEq] at h
        subst h
        intro q hq
        rcases List.mem_cons.1 hq with rfl | hq
        · exact List.mem_cons_self
        · exact List.mem_cons_of_mem _ (ih _ _ _ _ hrest q hq)

theorem expand_mem (p : Proofs) (r : List (Bytes × Nat)) : ∀ k, ∀ it ∈ expand p k r, ∃ q ∈ r, q.1 = it.1 := by
  induction r with
  | nil => intro k it h; simp [expand] at h
  | cons a r ih =>
    obtain ⟨x, n⟩ := a
    intro k it h
    rw [expand, List.mem_append] at h
    rcases h with h | h
    · rw [List.mem_map] at h
      obtain ⟨j, _, rfl⟩ := h
      exact ⟨_, List.mem_cons_self, rfl⟩
    · obtain ⟨q, hq, e⟩ := ih _ it h
      exact ⟨q, List.mem_cons_of_mem _ hq, e⟩

theorem items_32 {p : Proofs} (hp : ∀ x ∈ p.hashs, x.length = 32) {L : List (Bytes × Bool)} (h : p.items = some L) :
    ∀ it ∈ L, it.1.length = 32 := by
  unfold Proofs.items at h
  rw [Option.map_eq_some_iff] at h
  obtain ⟨r, hr, rfl⟩ := h
  intro it hit
  obtain ⟨q, hq, e⟩ := expand_mem p r 0 it hit
  rw [← e]
  exact hp _ (hashsIterate_mem _ _ _ _ _ hr q hq)

theorem NodeProof.items_32 (H : Bytes → Bytes) (hH : ∀ b, (H b).length = 32) (R : Rtl) {n : NodeProof} (hn : n.Sized)
    {L : List (Bytes × Bool)} (h : n.items H R = some L) : ∀ it ∈ L, it.1.length = 32 := by
  obtain ⟨h1, h2⟩ := hn
  have hcp : ∀ L', (match n.childProofs with | none => some [] | some p => p.items) = some L' → ∀ it ∈ L', it.1.length = 32 := by
    intro L' h'
    cases hc : n.childProofs with
    | none => rw [hc] at h'; simp only [Option.some.injEq] at h'; subst h'; simp
    | some p => rw [hc] at h'; exact Trie.items_32 (h2 p hc) h'
  unfold NodeProof.items at h
  simp only at h
  split at h
  · exact hcp L h
  · split at h
    · rw [Option.map_eq_some_iff] at h
      obtain ⟨L', hL', rfl⟩ := h
      intro it hit
      rcases List.mem_append.1 hit with hit | hit
      · exact hcp L' hL' it hit
      · rw [List.mem_singleton] at hit; subst hit; exact hH _
    · split at h
      · cases hc : n.childProofs with
        | none =>
          rw [hc] at h
          simp only [Option.some.injEq] at h
          subst h
          intro it hit
          rw [List.mem_singleton] at hit; subst hit; exact hH _
        | some p =>
          rw [hc] at h
          simp only at h
          split at h
          · simp only [Option.some.injEq] at h
            subst h
            intro it hit
            rw [List.mem_singleton] at hit; subst hit; exact hH _
          · rename_i x hx
            simp only [Option.some.injEq] at h
            subst h
            intro it hit
            simp only [List.mem_cons, List.not_mem_nil, or_false] at hit
            rcases hit with rfl | rfl
            · exact hH _
            · exact h2 p hc _ (by rw [hx]; exact List.mem_cons_self)
          · cases h
      · split at h
        · cases hv : n.valueHash with
          | none => rw [hv] at h; cases h
          | some v =>
            rw [hv] at h
            simp only [Option.map_eq_some_iff] at h
            obtain ⟨L', hL', rfl⟩ := h
            intro it hit
            rcases List.mem_cons.1 hit with rfl | hit
            · exact h1 v hv
            · exact hcp L' hL' it hit
        · split at h
          · split at h
            · rename_i v p hv hc
              split at h
              · cases h
              · rw [Option.map_eq_some_iff] at h
                obtain ⟨L', hL', rfl⟩ := h
                intro it hit
                rcases List.mem_cons.1 hit with rfl | hit
                · exact h1 v hv
                · exact hcp L' hL' it hit
            · cases h
          · cases h

theorem chainItems_32 (H : Bytes → Bytes) (hH : ∀ b, (H b).length = 32) (R : Rtl) (c : List NodeProof) (hc : ∀ n ∈ c, n.Sized) :
    ∀ L, chainItems H R c = some L → ∀ it ∈ L, it.1.length = 32 := by
  induction c with
  | nil => intro L h; simp only [chainItems, Option.some.injEq] at h; subst h; simp
  | cons n c ih =>
    intro L h
    rw [chainItems] at h
    split at h
    · cases h
    · rename_i a ha
      rw [Option.map_eq_some_iff] at h
      obtain ⟨L', hL', rfl⟩ := h
      intro it hit
      rcases List.mem_append.1 hit with hit | hit
      · exact NodeProof.items_32 H hH R (hc n List.mem_cons_self) ha it hit
      · exact ih (fun m hm => hc m (List.mem_cons_of_mem _ hm)) L' hL' it hit

theorem toMerklesLoop_eq (L : List (Bytes × Bool)) (h : ∀ it ∈ L, it.1.length = 32) : ∀ p,
    toMerklesLoop p L = some (L.foldl (fun p it => p.append it.1 it.2) p) := by
  induction L with
  | nil => intro p; rfl
  | cons it L ih =>
    intro p
    obtain ⟨v, o⟩ := it
    have hv : v.length = 32 := h (v, o) List.mem_cons_self
    rw [toMerklesLoop, if_neg (by simp [hv]), toHash_of_len hv, ih fun it hit => h it (List.mem_cons_of_mem _ hit)]
    rfl

/-- **C132, chains as Merkle proofs:** `ToMerkles` fails exactly if the chain cannot be evaluated, and its result gives the same hash for
every input; the items of `ToItems` are those that the chain walks through. -/
theorem C132_merkles (H : Bytes → Bytes) (hH : ∀ b, (H b).length = 32) (R : Rtl) (c : List NodeProof) (hc : ∀ n ∈ c, n.Sized) :
    (∀ h, chainProof H R c h = (toMerkles H R c).bind fun p => proofOfPointer H p h) ∧
      toItems H R c = chainItems H R c ∧ (toMerkles H R c = none ↔ chainItems H R c = none) := by
  cases hits : chainItems H R c with
  | none =>
    have hne : c.length ≠ 0 := by
      intro h0
      rw [List.length_eq_zero_iff.1 h0] at hits
      simp [chainItems] at hits
    have hm : toMerkles H R c = none := by unfold toMerkles; rw [if_neg hne, hits]
    refine ⟨?_, ?_, by simp [hm]⟩
    · intro h; rw [hm]; simp [chainProof, hits]
    · unfold toItems; rw [if_neg hne, hits]; rfl
  | some L =>
    have h32 := chainItems_32 H hH R c hc L hits
    by_cases h0 : c.length = 0
    · have hnil := List.length_eq_zero_iff.1 h0
      subst hnil
      simp only [chainItems, Option.some.injEq] at hits
      subst hits
      refine ⟨fun h => rfl, rfl, by simp [toMerkles]⟩
    · have hm : toMerkles H R c = some (some (build L)) := by
        unfold toMerkles
        rw [if_neg h0, hits]
        simp only [toMerklesLoop_eq L h32, Option.map_some]
        rfl
      refine ⟨?_, ?_, by simp [hm]⟩
      · intro h
        rw [hm]
        simp only [Option.bind_some, proofOfPointer, chainProof, hits, Option.map_some]
        exact ((rep_build L).proof H h).symm
      · unfold toItems
        rw [if_neg h0, hits, Option.map_some, Option.some.injEq]
        have : ∀ it ∈ L, (toHash it.1, it.2) = it := fun it hit => by rw [toHash_of_len (h32 it hit)]
        rw [List.map_congr_left this, List.map_id'']
        intro _; rfl

/-! ### Equality -/

theorem hashsEqual_iff (a b : List Bytes) (h : a.length = b.length) : hashsEqual a b = true ↔ a = b := by
  induction a generalizing b with
  | nil => cases b <;> simp_all [hashsEqual]
  | cons x a ih =>
    cases b with
    | nil => simp at h
    | cons y b =>
      rw [hashsEqual]
      by_cases e : x = y
      · subst e; rw [if_neg (by simp), ih b (by simpa using h)]; simp
      · rw [if_pos e]; simp [e]

theorem timesEqual_iff (a b : List MoreTime) (h : a.length = b.length) : timesEqual a b = true ↔ a = b := by
  induction a generalizing b with
  | nil => cases b <;> simp_all [timesEqual]
  | cons x a ih =>
    cases b with
    | nil => simp at h
    | cons y b =>
      rw [timesEqual]
      by_cases e : x = y
      · subst e; rw [if_neg (by simp), ih b (by simpa using h)]; simp
      · rw [if_pos e]; simp [e]

theorem moreTimesEqual_iff (a b : MoreTimes) : moreTimesEqual a b = true ↔ a = b := by
  unfold moreTimesEqual
  split
  · rename_i h
    simp only [Bool.false_eq_true, false_iff]
    rintro rfl; exact h rfl
  · rename_i h
    rw [not_not] at h
    cases a <;> cases b
    · simp
    · simp
    · simp
    · simp only [Option.some.injEq]; exact timesEqual_iff _ _ h

theorem proofsEqual_iff (a b : Option Proofs) : proofsEqual a b = true ↔ a = b := by
  cases a with
  | none => cases b <;> simp [proofsEqual]
  | some p =>
    cases b with
    | none => simp [proofsEqual]
    | some o =>
      rw [proofsEqual, Option.some.injEq]
      obtain ⟨hs, pa, re⟩ := p
      obtain ⟨hs', pa', re'⟩ := o
      simp only [Proofs.mk.injEq]
      by_cases hl : hs.length = hs'.length
      · rw [if_neg (by simp [hl])]
        by_cases hh : hashsEqual hs hs' = true
        · rw [if_neg (by simp [hh])]
          by_cases hp : pa = pa'
          · rw [if_neg (by simp [hp]), moreTimesEqual_iff]
            have := (hashsEqual_iff _ _ hl).1 hh
            simp [this, hp]
          · rw [if_pos hp]; simp [hp]
        · rw [if_pos (by simpa using hh)]
          have : hs ≠ hs' := fun e => hh ((hashsEqual_iff _ _ hl).2 e)
          simp [this]
      · rw [if_pos hl]
        have : hs ≠ hs' := fun e => hl (by rw [e])
        simp [this]

theorem NodeProof.equal_iff (n o : NodeProof) : n.equal o = true ↔ n = o := by
  obtain ⟨t, ⟨nt, ks, f0, f1⟩, v, p⟩ := n
  obtain ⟨t', ⟨nt', ks', f0', f1'⟩, v', p'⟩ := o
  unfold NodeProof.equal
  simp only [Bool.and_eq_true, decide_eq_true_eq, proofsEqual_iff, NodeProof.mk.injEq, Header.mk.injEq]
  have : hashEqual v v' = true ↔ v = v' := by cases v <;> cases v' <;> simp [hashEqual]
  rw [this]
  tauto

/-- **C132, equality:** `Equal` of proof chains holds exactly for the same content. -/
theorem C132_equal (c d : List NodeProof) : chainEqual c d = true ↔ c = d := by
  unfold chainEqual
  by_cases h : c.length = d.length
  · rw [if_neg (by simp [h])]
    induction c generalizing d with
    | nil => cases d <;> simp_all [chainEqualLoop]
    | cons n c ih =>
      cases d with
      | nil => simp at h
      | cons o d =>
        rw [chainEqualLoop]
        by_cases e : n = o
        · subst e
          have : n.equal n = true := (NodeProof.equal_iff n n).2 rfl
          rw [if_neg (by simp [this]), ih d (by simpa using h)]
          simp
        · have : n.equal o = false := by
            rw [Bool.eq_false_iff]; exact fun h => e ((NodeProof.equal_iff n o).1 h)
          rw [if_pos this]; simp [e]
  · rw [if_pos h]
    simp only [Bool.false_eq_true, false_iff]
    rintro rfl; exact h rfl

/-- **C132, repeats:** in an ascending table (which `Append` keeps) `Find` gives the entry of an index, and only that. -/
theorem C132_find (ms : MoreTimes) (hs : ms.list.Pairwise fun a b => a.index < b.index) (index times : Int) :
    moreTimesFind ms index = some times ↔ ⟨index, times⟩ ∈ ms.list := by
  unfold moreTimesFind
  generalize ms.list = l at hs
  have hmono := search_monotone l.length (fun j => match l[j]? with | some m => decide (m.index ≥ index) | none => true) (by
    intro i j hij hj hf
    rw [List.getElem?_eq_getElem (by omega)] at hf ⊢
    simp only [decide_eq_true_eq] at hf ⊢
    rcases Nat.lt_or_eq_of_le hij with h | h
    · have := List.pairwise_iff_getElem.1 hs i j (by omega) hj h
      omega
    · subst h; exact hf)
  have hb := search_border l.length (fun j => match l[j]? with | some m => decide (m.index ≥ index) | none => true)
  generalize search l.length _ = k at hmono hb
  constructor
  · intro h
    cases hk : l[k]? with
    | none => rw [hk] at h; cases h
    | some m =>
      rw [hk] at h
      simp only at h
      split at h
      · rename_i e
        rw [Option.some.injEq] at h
        rw [← e, ← h]
        exact List.mem_of_getElem? hk
      · cases h
  · intro h
    obtain ⟨i, hi, e⟩ := List.getElem_of_mem h
    have h1 := (hmono i hi).1 (by rw [List.getElem?_eq_getElem hi, e]; simp)
    have hk : k < l.length := by omega
    have h2 := hb.2.1 hk
    rw [List.getElem?_eq_getElem hk] at h2
    simp only [decide_eq_true_eq] at h2
    have : k = i := by
      by_contra hne
      have := List.pairwise_iff_getElem.1 hs k i hk hi (by omega)
      rw [e] at this
      simp only at this
      omega
    subst this
    rw [List.getElem?_eq_getElem hk, e]
    simp

/-! Concrete cases: a header with three properties, and the proof of its second one. -/
def sampleProps : List Bytes := [toyLeaf 5, toyLeaf 6, toyLeaf 7]

example : ∃ n, newHeaderPropertyProof 0x21 (some (headerIndexHash toyH (headerPosBuffer 3 9) 1))
    (merkleHashComplete toyH (headerLeaves toyH 3 9 sampleProps) 1 (some newProofs)).2 = .ok n ∧ isHeaderOf toyH n 3 9 = true := by
  have := C132_complete toyH ⟨id, fun _ => none⟩ toyH_len 3 9 sampleProps 0x21 1 (by decide +kernel) (by decide +kernel)
  obtain ⟨n, h1, h2, _⟩ := this
  exact ⟨n, h1, h2⟩
example : isHeaderOf (fun b => b) ⟨0x21, ⟨0, [], 0, 0⟩, some [0, 0, 0, 3, 0, 0, 0, 0, 0, 0, 0, 9, 1], none⟩ 3 9 = true ∧
    isHeaderPropertyOf (fun b => b) ⟨0x21, ⟨0, [], 0, 0⟩, some [0, 0, 0, 3, 0, 0, 0, 0, 0, 0, 0, 9, 1], none⟩ 3 9 1 = false ∧
    isHdsSummaryOf (fun b => b) ⟨0x11, ⟨0, [], 0, 0⟩, some [0, 0, 0, 3, 0, 0, 0, 0, 0, 0, 0, 9], none⟩ 3 9 = true := by decide +kernel
example : moreTimesFind (some [⟨1, 2⟩, ⟨4, 1⟩]) 4 = some 1 ∧ moreTimesFind (some [⟨1, 2⟩, ⟨4, 1⟩]) 3 = none := by decide +kernel

end Verif.Trie

import Verif.Trie.Hash
import Verif.Trie.CodecProps
import Verif.Trie.History
import Verif.Merkle.Props

/-!
# Lemmas about node hashes and node proofs
-/

namespace Verif.Trie
open Verif Verif.Merkle

variable {V : Type}

theorem headerOf_children (p : List Nib) (v : Option V) (c : Nib → Node V) :
    ntHasChildren (headerOf p v c).nt = hasChildren c := by
  have h := (C15_header_describes_node p (fun i => (c i).isSome) v.isSome).2.2.2.2
  rw [Bool.eq_iff_iff, hasChildren_iff]
  exact h

theorem mem_childIds (c : Nib → Node V) (i : Nib) : i ∈ childIds c ↔ (c i).isSome = true := by
  simp [childIds, mem_nibbles]

theorem childIds_nodup (c : Nib → Node V) : (childIds c).Nodup :=
  (List.nodup_finRange 16).filter _

theorem childIds_ne_nil {c : Nib → Node V} (h : hasChildren c = true) : childIds c ≠ [] := by
  obtain ⟨i, hi⟩ := (hasChildren_iff c).1 h
  exact List.ne_nil_of_mem ((mem_childIds c i).2 hi)

section
variable {H : Bytes → Bytes} {R : Rtl} {vh : V → Bytes}

/-- The part of the hash that covers header and value. -/
def leftHash (H : Bytes → Bytes) (R : Rtl) (vh : V → Bytes) (p : List Nib) (v : Option V) (c : Nib → Node V) : Bytes :=
  hashPair H ((headerOf p v c).hash H R) (orNil H (valueHashOf vh v))

/-- The hashes of the children in order. -/
def childHashes (H : Bytes → Bytes) (R : Rtl) (vh : V → Bytes) (c : Nib → Node V) : List Bytes :=
  (childIds c).map fun i => nodeHash H R vh (c i)

theorem nodeHash_mk (p : List Nib) (v : Option V) (c : Nib → Node V) :
    nodeHash H R vh (.mk p v c) =
      if hasChildren c then
        hashPair H (leftHash H R vh p v c) (merkleHashComplete H (childHashes H R vh c) (-1) none).1
      else leftHash H R vh p v c := by
  rw [nodeHash, makeHash, headerOf_children]
  rfl

theorem nodeHash_len (hH : ∀ b, (H b).length = 32) (n : Node V) : (nodeHash H R vh n).length = 32 := by
  cases n with
  | nil => exact hH []
  | mk p v c =>
    rw [nodeHash_mk]
    split <;> exact hH _

theorem childHashes_len (hH : ∀ b, (H b).length = 32) (c : Nib → Node V) :
    ∀ x ∈ childHashes H R vh c, x.length = 32 := by
  intro x hx
  simp only [childHashes, List.mem_map] at hx
  obtain ⟨i, -, rfl⟩ := hx
  exact nodeHash_len hH _

theorem nibByte_toNat (i : Nib) : (nibByte i).toNat = i.val := by
  revert i; decide +kernel

theorem isProofChild_nib (i : Nib) : isProofChild (nibByte i) = true := by
  revert i; decide +kernel

theorem nib_ne_value (i : Nib) : nibByte i ≠ proofValue := by
  revert i; decide +kernel

theorem nib_ne_merkle (i : Nib) : nibByte i ≠ proofMerkleOnly := by
  revert i; decide +kernel

theorem nibByte_inj {i j : Nib} (h : nibByte i = nibByte j) : i = j := by
  apply Fin.ext
  rw [← nibByte_toNat, h, nibByte_toNat]

theorem isProofChild_iff (t : UInt8) : isProofChild t = true ↔ ∃ i : Nib, t = nibByte i := by
  constructor
  · intro h
    refine ⟨⟨t.toNat, ?_⟩, ?_⟩
    · have h' : t ≤ 15 := by simpa [isProofChild] using h
      have : t.toNat ≤ 15 := UInt8.le_iff_toNat_le.1 h'
      omega
    · apply UInt8.toNat_inj.1
      rw [nibByte_toNat]
  · rintro ⟨i, rfl⟩
    exact isProofChild_nib i

theorem proofNum_child {c : Nib → Node V} {i : Nib} (h : (c i).isSome = true) :
    ∃ k : Nat, ∃ hk : k < (childIds c).length, proofNum c (nibByte i) = k ∧ (childIds c)[k] = i := by
  rw [proofNum]
  cases hf : (childIds c).findIdx? (fun j => j.val = (nibByte i).toNat) with
  | none =>
    rw [List.findIdx?_eq_none_iff] at hf
    have := hf i ((mem_childIds c i).2 h)
    simp [nibByte_toNat] at this
  | some k =>
    rw [List.findIdx?_eq_some_iff_getElem] at hf
    obtain ⟨hk, h1, -⟩ := hf
    refine ⟨k, hk, rfl, ?_⟩
    rw [nibByte_toNat] at h1
    exact Fin.ext (by simpa using h1)

theorem proofNum_other (c : Nib → Node V) {t : UInt8} (h : isProofChild t = false) : proofNum c t = -1 := by
  rw [proofNum]
  cases hf : (childIds c).findIdx? (fun j => j.val = t.toNat) with
  | none => rfl
  | some k =>
    rw [List.findIdx?_eq_some_iff_getElem] at hf
    obtain ⟨hk, h1, -⟩ := hf
    have : isProofChild t = true := by
      rw [isProofChild_iff]
      refine ⟨(childIds c)[k], ?_⟩
      apply UInt8.toNat_inj.1
      rw [nibByte_toNat]
      simpa using Eq.symm (by simpa using h1)
    rw [h] at this
    exact absurd this (by simp)

theorem evalItems_cons (h : Bytes) (o : Bool) (L : List (Bytes × Bool)) (x : Bytes) :
    evalItems H ((h, o) :: L) x = evalItems H L (hashPairOrder H o h x) := rfl

/-- A child proof leads from the hash of the child to the hash of the node. -/
theorem child_proof (hH : ∀ b, (H b).length = 32) {p : List Nib} {v : Option V} {c : Nib → Node V} {i : Nib}
    (h : (c i).isSome = true) :
    ∃ n L, nodeProof H R vh (nibByte i) (.mk p v c) = [n] ∧ n.items H R = some L ∧
      evalItems H L (nodeHash H R vh (c i)) = nodeHash H R vh (.mk p v c) := by
  have hc : hasChildren c = true := (hasChildren_iff c).2 ⟨i, h⟩
  obtain ⟨k, hk, hnum, hki⟩ := proofNum_child h
  have hk' : k < (childHashes H R vh c).length := by simpa [childHashes] using hk
  obtain ⟨P, hP1, hP2⟩ := C23_complete_proof_verifies H hH (childHashes H R vh c) (childHashes_len hH c) k hk'
  have hget : (childHashes H R vh c)[k] = nodeHash H R vh (c i) := by
    simp [childHashes, hki]
  rw [hget, C23_root_independent_of_proof H _ _ (-1) _ none] at hP2
  have hnv : nibByte i ≠ proofValue := nib_ne_value i
  have hmo : nibByte i ≠ proofMerkleOnly := nib_ne_merkle i
  refine ⟨⟨nibByte i, headerOf p v c, valueHashOf vh v, some P⟩, ?_⟩
  obtain ⟨L, hL⟩ : ∃ L, P.items = some L := by
    cases hi : P.items with
    | none => simp [Proofs.proof, hi] at hP2
    | some L => exact ⟨L, rfl⟩
  refine ⟨L ++ [(leftHash H R vh p v c, true)], ?_, ?_, ?_⟩
  · simp only [nodeProof, makeProof, headerOf_children, hc, if_true, hnum, newNodeProof, hnv, if_false]
    rw [show (List.map (fun i => nodeHash H R vh (c i)) (childIds c)) = childHashes H R vh c from rfl, hP1]
  · simp only [NodeProof.items, hmo, if_false, isProofChild_nib, if_true, hL, Option.map_some]
    rfl
  · rw [evalItems_append, nodeHash_mk, if_pos hc]
    have : evalItems H L (nodeHash H R vh (c i)) = (merkleHashComplete H (childHashes H R vh c) (-1) none).1 := by
      simpa [Proofs.proof, hL] using hP2
    rw [this]
    rfl

theorem proofs_single (h : Bytes) (o : Bool) : (newProofs.append h o).hashs = [h] := by
  cases o <;> simp [Proofs.append, newProofs]

/-- What `MakeProof` collects when no child is proved: the root of the children. -/
theorem complete_root_only (hH : ∀ b, (H b).length = 32) (l : List Bytes) (h32 : ∀ x ∈ l, x.length = 32) (hl : l ≠ []) :
    (merkleHashComplete H l (-1) (some newProofs)).2 =
      some (newProofs.append (merkleHashComplete H l (-1) none).1 false) := by
  obtain ⟨d, hd⟩ := exists_depth l.length
  rw [complete_spec H l _ _ d hl hd, complete_spec H l _ _ d hl hd]
  have ht : (-1 : Int) < 0 := by omega
  simp only [completeProof, ht, if_true, Option.map_some]
  rw [toHash_of_len (mroot_len32 H hH d _ (leaves_len32 (nil32 hH) h32))]

/-- The node proof for a node none of whose children is proved. -/
theorem other_proof (hH : ∀ b, (H b).length = 32) (p : List Nib) (v : Option V) (c : Nib → Node V) {t : UInt8}
    (ht : isProofChild t = false) :
    nodeProof H R vh t (.mk p v c) =
      [⟨t, headerOf p v c, if t = proofValue then none else valueHashOf vh v,
        if hasChildren c then
          some (newProofs.append (merkleHashComplete H (childHashes H R vh c) (-1) none).1 false)
        else none⟩] := by
  simp only [nodeProof, makeProof, headerOf_children, proofNum_other c ht, newNodeProof]
  rw [show (List.map (fun i => nodeHash H R vh (c i)) (childIds c)) = childHashes H R vh c from rfl]
  cases hc : hasChildren c with
  | false => simp only [Bool.false_eq_true, if_false]
  | true =>
    simp only [if_true]
    rw [complete_root_only hH _ (childHashes_len hH c) (by simpa [childHashes] using childIds_ne_nil hc)]

theorem value_proof (hH : ∀ b, (H b).length = 32) (hv : ∀ x, (vh x).length = 32) (p : List Nib) (x : V)
    (c : Nib → Node V) :
    ∃ n L, nodeProof H R vh proofValue (.mk p (some x) c) = [n] ∧ n.items H R = some L ∧
      evalItems H L (vh x) = nodeHash H R vh (.mk p (some x) c) := by
  rw [other_proof hH p (some x) c (by decide)]
  simp only [if_true]
  have e : leftHash H R vh p (some x) c = hashPair H ((headerOf p (some x) c).hash H R) (vh x) := by
    simp [leftHash, valueHashOf, orNil, toHash_of_len (hv x)]
  cases hc : hasChildren c with
  | false =>
    simp only [Bool.false_eq_true, if_false]
    refine ⟨_, [((headerOf p (some x) c).hash H R, true)], rfl, by simp [NodeProof.items, proofValue, proofMerkleOnly, isProofChild], ?_⟩
    rw [nodeHash_mk, hc]
    simp only [Bool.false_eq_true, if_false, e]
    rfl
  | true =>
    simp only [if_true]
    refine ⟨_, [((headerOf p (some x) c).hash H R, true), ((merkleHashComplete H (childHashes H R vh c) (-1) none).1, false)],
      rfl, by simp [NodeProof.items, proofValue, proofMerkleOnly, isProofChild, proofs_single], ?_⟩
    rw [nodeHash_mk, hc]
    simp only [if_true, e]
    rfl

theorem existence_proof (hH : ∀ b, (H b).length = 32) (p : List Nib) (v : Option V) (c : Nib → Node V) :
    ∃ n, nodeProof H R vh proofExistence (.mk p v c) = [n] ∧
      n.existenceHash H R = some (nodeHash H R vh (.mk p v c)) ∧ n.ptype = proofExistence ∧
      n.header = headerOf p v c ∧ n.valueHash = valueHashOf vh v := by
  rw [other_proof hH p v c (by decide)]
  have hne : proofExistence ≠ proofValue := by decide
  refine ⟨_, rfl, ?_, rfl, rfl, by simp [hne]⟩
  rw [nodeHash_mk]
  cases hc : hasChildren c with
  | false =>
    simp [NodeProof.existenceHash, hne, leftHash]
  | true =>
    simp [NodeProof.existenceHash, hne, leftHash, proofs_single]

theorem chainItems_append (a b : List NodeProof) {la lb : List (Bytes × Bool)} (ha : chainItems H R a = some la)
    (hb : chainItems H R b = some lb) : chainItems H R (a ++ b) = some (la ++ lb) := by
  induction a generalizing la with
  | nil => simp [chainItems] at ha; subst ha; simpa using hb
  | cons n a ih =>
    rw [List.cons_append, chainItems]
    rw [chainItems] at ha
    cases hn : n.items H R with
    | none => simp [hn] at ha
    | some l =>
      simp only [hn] at ha ⊢
      cases hr : chainItems H R a with
      | none => simp [hr] at ha
      | some lr =>
        rw [hr] at ha
        simp only [Option.map_some, Option.some.injEq] at ha
        subst ha
        rw [ih hr]; simp

/-- The chain collected for a found value leads from its hash to the hash of the node. -/
theorem proofAlong_value (hH : ∀ b, (H b).length = 32) (hv : ∀ x, (vh x).length = 32) (n : Node V) (q : List Nib) (x : V)
    (h : get n q = some x) :
    ∃ L, chainItems H R (proofAlong H R vh proofValue n q) = some L ∧ evalItems H L (vh x) = nodeHash H R vh n := by
  induction n generalizing q with
  | nil => simp [get] at h
  | mk p v c ih =>
    have base : v = some x → ∃ L, chainItems H R (nodeProof H R vh proofValue (.mk p v c)) = some L ∧
        evalItems H L (vh x) = nodeHash H R vh (.mk p v c) := by
      rintro rfl
      obtain ⟨n, L, h1, h2, h3⟩ := value_proof (R := R) hH hv p x c
      refine ⟨L, ?_, h3⟩
      rw [h1, chainItems, h2]; simp [chainItems]
    rw [get] at h
    rw [proofAlong]
    by_cases hq : q = []
    · rw [if_pos hq] at h ⊢; exact base h
    rw [if_neg hq] at h ⊢
    cases he : isEmpty p v c with
    | true => rw [he] at h; simp at h
    | false =>
      simp only [he, Bool.false_eq_true, if_false] at h ⊢
      by_cases hp : p.drop (matchPrefix p q) = []
      · simp only [hp, if_true] at h ⊢
        cases hd : q.drop (matchPrefix p q) with
        | nil => simp only [hd] at h ⊢; exact base h
        | cons i q' =>
          simp only [hd] at h ⊢
          cases hc : (c i).isSome with
          | false =>
            rw [(isSome_false _).1 hc] at h
            simp [get] at h
          | true =>
            simp only [if_true]
            obtain ⟨L, h1, h2⟩ := ih i q' h
            obtain ⟨n, M, h3, h4, h5⟩ := child_proof (R := R) (vh := vh) hH (p := p) (v := v) hc
            refine ⟨L ++ M, chainItems_append _ _ h1 ?_, ?_⟩
            · rw [h3, chainItems, h4]; simp [chainItems]
            · rw [evalItems_append, h2, h5]
      · simp only [hp, if_false] at h
        exact absurd h (by simp)

theorem foldProofs_append (a b : List NodeProof) {x y : Bytes} (ha : foldProofs H R a x = some y) :
    foldProofs H R (a ++ b) x = foldProofs H R b y := by
  induction a generalizing x with
  | nil => simp [foldProofs] at ha; subst ha; rfl
  | cons n a ih =>
    rw [foldProofs] at ha
    rw [List.cons_append, foldProofs]
    cases hn : n.proof H R (toHash x) with
    | none => simp [hn] at ha
    | some z => simp only [hn] at ha ⊢; exact ih ha

theorem existenceHash_append {a b : List NodeProof} {y : Bytes} (ha : existenceHash H R a = some y) :
    existenceHash H R (a ++ b) = foldProofs H R b y := by
  cases a with
  | nil => simp [existenceHash] at ha
  | cons n a =>
    rw [existenceHash] at ha
    rw [List.cons_append, existenceHash]
    cases hn : n.existenceHash H R with
    | none => simp [hn] at ha
    | some z => simp only [hn] at ha ⊢; exact foldProofs_append a b ha

/-- The chain collected for an existence proof has the hash of the node as its existence hash. -/
theorem proofAlong_existence (hH : ∀ b, (H b).length = 32) (n : Node V) (hs : n.isSome = true) (q : List Nib) :
    existenceHash H R (proofAlong H R vh proofExistence n q) = some (nodeHash H R vh n) := by
  induction n generalizing q with
  | nil => simp [Node.isSome] at hs
  | mk p v c ih =>
    have base : existenceHash H R (nodeProof H R vh proofExistence (.mk p v c)) = some (nodeHash H R vh (.mk p v c)) := by
      obtain ⟨n, h1, h2, -⟩ := existence_proof (R := R) (vh := vh) hH p v c
      rw [h1, existenceHash, h2]; rfl
    rw [proofAlong]
    by_cases hq : q = []
    · rw [if_pos hq]; exact base
    rw [if_neg hq]
    cases he : isEmpty p v c with
    | true => simpa using base
    | false =>
      simp only [Bool.false_eq_true, if_false]
      by_cases hp : p.drop (matchPrefix p q) = []
      · simp only [hp, if_true]
        cases hd : q.drop (matchPrefix p q) with
        | nil => exact base
        | cons i q' =>
          simp only
          cases hc : (c i).isSome with
          | false => simpa using base
          | true =>
            simp only [if_true]
            rw [existenceHash_append (ih i hc q')]
            obtain ⟨n, M, h3, h4, h5⟩ := child_proof (R := R) (vh := vh) hH (p := p) (v := v) hc
            rw [h3, foldProofs, NodeProof.proof, h4, toHash_of_len (nodeHash_len hH _)]
            simp [foldProofs, h5]
      · simpa only [hp, if_false] using base

end
end Verif.Trie

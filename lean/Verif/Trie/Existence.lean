import Verif.Trie.Binding

/-!
# Property C11: soundness of existence proofs

The claim as stated is false: `ExistenceMatch` compares the type byte of a child proof with the next nibble of the key
and asks the header whether that child exists, but nothing compares the position that the Merkle path proves with the
position of that child, and the type byte is not hashed.  A proof made for one child can be relabelled as a proof for
its sibling.  In addition a missing value hash and the nil hash are hashed alike.

What holds is soundness for chains whose Merkle paths are the paths of the child they are labelled with.
-/

namespace Verif.Trie
open Verif Verif.Merkle

variable {V : Type}

/-! ### Vocabulary -/

/-- The hash a chain, from top to bottom, amounts to (`ExistenceHash` read from the other end). -/
def hashTD (H : Bytes → Bytes) (R : Rtl) : List NodeProof → Option Bytes
  | [] => none
  | n :: rest =>
    match rest with
    | [] => n.existenceHash H R
    | _ :: _ => (hashTD H R rest).bind fun h => n.proof H R (toHash h)

/-- Digest inputs met while evaluating one node proof on `h`. -/
def stepInputs (H : Bytes → Bytes) (R : Rtl) (n : NodeProof) (h : Bytes) : List Bytes :=
  n.header.ser R :: (n.header.hash H R ++ orNil H n.valueHash) ::
    (match n.items H R with
     | none => []
     | some L => evalInputs H L h)

/-- Digest inputs met while evaluating the existence hash of the bottom node. -/
def bottomInputs (H : Bytes → Bytes) (R : Rtl) (n : NodeProof) : List Bytes :=
  n.header.ser R :: (n.header.hash H R ++ orNil H n.valueHash) ::
    (match n.childProofs with
     | none => []
     | some p => p.hashs.map fun h => hashPair H (n.header.hash H R) (orNil H n.valueHash) ++ h)

/-- Digest inputs met while evaluating a chain (top to bottom). -/
def chainInputs (H : Bytes → Bytes) (R : Rtl) : List NodeProof → List Bytes
  | [] => []
  | n :: rest =>
    match rest with
    | [] => bottomInputs H R n
    | _ :: _ =>
      (match hashTD H R rest with
       | none => []
       | some h => stepInputs H R n (toHash h)) ++ chainInputs H R rest

/-- The children a header announces, in order. -/
def Header.kids (h : Header) : List Nib := nibbles.filter h.hasChild

/-- What every chain of Go values satisfies: hashes are 32 bytes long (`common.Hash` is an array). -/
def NodeProof.Typed (n : NodeProof) : Prop :=
  (∀ x, n.valueHash = some x → x.length = 32) ∧
  (∀ P, n.childProofs = some P → (∀ x ∈ P.hashs, x.length = 32) ∧
    ∀ L, P.items = some L → ∀ it ∈ L, it.1.length = 32)

/-- The checks the code does not make: the header is not 64 bytes long; the Merkle path of a child proof is the one of
the child it is labelled with; a node proof carries children hashes exactly if the header announces children. -/
structure NodeProof.Positioned (R : Rtl) (n : NodeProof) : Prop where
  len : (n.header.ser R).length ≠ 64
  child : ∀ i : Nib, n.ptype = nibByte i → n.header.hasChild i = true →
    ∃ P L, n.childProofs = some P ∧ P.items = some L ∧ L.length = depthOf n.header.kids.length ∧
      bitsNat (L.map Prod.snd) = n.header.kids.idxOf i

/-- The decision about a key agrees with a tree: a value hash is the hash of the stored value (or the nil hash for a key
without value), and absence means absence. -/
def Agrees (H : Bytes → Bytes) (vh : V → Bytes) (n : Node V) (q : List Nib) : Option Bytes → Prop
  | none => lookup n q = none
  | some x => (∃ v, lookup n q = some v ∧ vh v = x) ∨ (lookup n q = none ∧ x = H [])

variable {H : Bytes → Bytes} {R : Rtl} {vh : V → Bytes}

/-! ### Lemmas -/

theorem foldProofs_snoc (c : List NodeProof) (n : NodeProof) (h : Bytes) :
    foldProofs H R (c ++ [n]) h = (foldProofs H R c h).bind fun x => n.proof H R (toHash x) := by
  induction c generalizing h with
  | nil =>
    simp only [List.nil_append, foldProofs, Option.bind_some]
    cases n.proof H R (toHash h) <;> rfl
  | cons m c ih =>
    simp only [List.cons_append, foldProofs]
    cases m.proof H R (toHash h) with
    | none => rfl
    | some x => exact ih x

theorem existenceHash_eq_TD (c : List NodeProof) : existenceHash H R c = hashTD H R c.reverse := by
  induction c using List.reverseRecOn with
  | nil => rfl
  | append_singleton c n ih =>
    rw [List.reverse_append, List.reverse_singleton, List.singleton_append, hashTD.eq_def]
    cases c with
    | nil =>
      simp only [List.nil_append, List.reverse_nil, existenceHash]
      cases n.existenceHash H R <;> rfl
    | cons m c =>
      have : ∃ a b, (m :: c).reverse = a :: b := by
        cases h : (m :: c).reverse with
        | nil => simp at h
        | cons a b => exact ⟨a, b, rfl⟩
      obtain ⟨a, b, hab⟩ := this
      rw [hab] at ih ⊢
      simp only
      rw [← ih]
      simp only [List.cons_append, existenceHash]
      cases m.existenceHash H R with
      | none => rfl
      | some h => exact foldProofs_snoc c n h

theorem evalInputs_append (L M : List (Bytes × Bool)) (h : Bytes) :
    evalInputs H (L ++ M) h = evalInputs H L h ++ evalInputs H M (evalItems H L h) := by
  induction L generalizing h with
  | nil => rfl
  | cons a L ih =>
    obtain ⟨a, b⟩ := a
    cases b <;> simp [evalInputs, evalItems_cons, ih, hashPairOrder]

/-- A pair of digests is not a header. -/
theorem ser_ne_pair (hH : ∀ b, (H b).length = 32) {s a b : Bytes} (hs : s.length ≠ 64) (hb : b.length = 32) :
    s ≠ H a ++ b := by
  intro e
  apply hs
  rw [e, List.length_append, hH, hb]

/-- The outcome of comparing a node proof with the node whose hash it evaluates to. -/
def SameHead (_vh : V → Bytes) (n : NodeProof) (p : List Nib) (c : Nib → Node V) : Prop :=
  n.header.prefix = p ∧ (∀ i, n.header.hasChild i = (c i).isSome) ∧ ntHasChildren n.header.nt = hasChildren c

/-- Header and value part: equal left hashes. -/
theorem left_bound (hH : ∀ b, (H b).length = 32) (hR : R.Lawful) {n : NodeProof} {w : Bytes}
    {p : List Nib} {v : Option V} {c : Nib → Node V}
    (e : H (n.header.hash H R ++ w) = leftHash H R vh p v c) :
    (SameHead vh n p c ∧ w = orNil H (valueHashOf vh v)) ∨
      Collision H [n.header.ser R, n.header.hash H R ++ w] (inputs H R vh (.mk p v c)) := by
  have hh : (n.header.hash H R).length = 32 := hH _
  have hh' : ((headerOf p v c).hash H R).length = 32 := hH _
  rcases pair_or_collision (hh.trans hh'.symm) e with ⟨e1, e2⟩ | hc
  · rcases same_or_collision e1 with e3 | hc
    · obtain ⟨f1, f2, f3⟩ := same_header hR e3
      refine Or.inl ⟨⟨?_, ?_, ?_⟩, e2⟩
      · rw [f2, headerOf_prefix]
      · intro i; rw [f3 i, headerOf_child]
      · rw [f1, headerOf_children]
    · exact Or.inr (hc.mono (by simp) (by simp [inputs]))
  · exact Or.inr (hc.mono (by simp) (by simp [inputs]))

/-- An evaluation without children part. -/
theorem leaf_bound (hH : ∀ b, (H b).length = 32) (hR : R.Lawful) {n : NodeProof} {w : Bytes}
    {p : List Nib} {v : Option V} {c : Nib → Node V} (h64 : (n.header.ser R).length ≠ 64)
    (e : H (n.header.hash H R ++ w) = nodeHash H R vh (.mk p v c)) :
    (SameHead vh n p c ∧ w = orNil H (valueHashOf vh v) ∧ hasChildren c = false) ∨
      Collision H [n.header.ser R, n.header.hash H R ++ w] (inputs H R vh (.mk p v c)) := by
  rw [nodeHash_mk] at e
  cases hc : hasChildren c with
  | false =>
    simp only [hc, Bool.false_eq_true, if_false] at e
    rcases left_bound hH hR e with ⟨h1, h2⟩ | h
    · exact Or.inl ⟨h1, h2, rfl⟩
    · exact Or.inr h
  | true =>
    simp only [hc, if_true] at e
    right
    rcases pair_or_collision (H := H) (a := n.header.hash H R) (by rw [Header.hash, leftHash, hashPair, hH, hH]) e with
      ⟨e1, -⟩ | hcol
    · exact ⟨n.header.ser R, by simp, (headerOf p v c).hash H R ++ orNil H (valueHashOf vh v), by simp [inputs],
        ser_ne_pair hH h64 (orNil_len hH (valueHashOf_len v)), e1⟩
    · exact hcol.mono (by simp) (by simp [inputs, hc])

/-- An evaluation with a children part. -/
theorem inner_bound (hH : ∀ b, (H b).length = 32) (hR : R.Lawful) {n : NodeProof} {w r : Bytes} (hw : w.length = 32)
    {p : List Nib} {v : Option V} {c : Nib → Node V} (h64 : ((headerOf p v c).ser R).length ≠ 64)
    (e : H (H (n.header.hash H R ++ w) ++ r) = nodeHash H R vh (.mk p v c)) :
    (SameHead vh n p c ∧ w = orNil H (valueHashOf vh v) ∧ hasChildren c = true ∧
      r = (merkleHashComplete H (childHashes H R vh c) (-1) none).1) ∨
      Collision H [n.header.ser R, n.header.hash H R ++ w, H (n.header.hash H R ++ w) ++ r]
        (inputs H R vh (.mk p v c)) := by
  rw [nodeHash_mk] at e
  cases hc : hasChildren c with
  | false =>
    simp only [hc, Bool.false_eq_true, if_false] at e
    right
    have hl : (H (n.header.hash H R ++ w)).length = ((headerOf p v c).hash H R).length :=
      (hH _).trans (hH ((headerOf p v c).ser R)).symm
    rcases pair_or_collision hl e with ⟨e1, -⟩ | hcol
    · exact ⟨n.header.hash H R ++ w, by simp, (headerOf p v c).ser R, by simp [inputs],
        (ser_ne_pair hH h64 hw).symm, e1⟩
    · exact hcol.mono (by simp) (by simp [inputs])
  | true =>
    simp only [hc, if_true] at e
    rcases pair_or_collision (H := H) (a := H (n.header.hash H R ++ w)) (by rw [leftHash, hashPair, hH, hH]) e with
      ⟨e1, e2⟩ | hcol
    · rcases left_bound hH hR e1 with ⟨h1, h2⟩ | h
      · exact Or.inl ⟨h1, h2, rfl, e2⟩
      · exact Or.inr (h.mono (by simp) (fun y hy => hy))
    · exact Or.inr (hcol.mono (by simp) (by simp [inputs, hc]))

/-- With the same head, absence at this node means absence in the tree. -/
theorem absent_agrees {n : NodeProof} {p : List Nib} {v : Option V} {c : Nib → Node V} (hs : SameHead vh n p c)
    {q : List Nib} (h : n.existenceMatch q = .absent) : lookup (.mk p v c) q = none := by
  obtain ⟨h1, h2, -⟩ := hs
  by_cases ht : isProofChild n.ptype = true ∨ n.ptype = proofValue ∨ n.ptype = proofExistence
  · rcases existenceMatch_cases n q ht with ⟨e, -⟩ | ⟨e, e'⟩ | ⟨i, q', e, e'⟩
    · rw [h1] at e; exact lookup_not_prefix _ _ e
    · rw [e', NodeProof.exact] at h
      exfalso
      split at h
      · cases h
      · split at h <;> cases h
    · rw [e', NodeProof.descend] at h
      rw [e, h1, lookup_mk]
      have : n.header.hasChild i = false := by
        by_contra hc
        rw [if_neg hc] at h
        split at h
        · cases h
        · split at h <;> cases h
      rw [h2] at this
      simp only [(isSome_false _).1 this, lookup]
  · exfalso
    simp only [not_or] at ht
    have : n.existenceMatch q = .err := by
      rw [NodeProof.existenceMatch, if_pos]
      simp [ht.1, ht.2.1, ht.2.2]
    rw [this] at h
    cases h

theorem found_agrees (hv : ∀ x, (vh x).length = 32) {n : NodeProof} {p : List Nib} {v : Option V} {c : Nib → Node V}
    (hs : SameHead vh n p c) {q : List Nib} {x : Bytes} (h : n.existenceMatch q = .found x) :
    q = p ∧ n.valueHash = some x ∧ n.ptype ≠ proofValue ∧
      (orNil H n.valueHash = orNil H (valueHashOf vh v) → Agrees H vh (.mk p v c) q (some x)) := by
  obtain ⟨h1, h2, -⟩ := hs
  have ht : isProofChild n.ptype = true ∨ n.ptype = proofValue ∨ n.ptype = proofExistence := by
    by_contra ht
    simp only [not_or] at ht
    have : n.existenceMatch q = .err := by
      rw [NodeProof.existenceMatch, if_pos]
      simp [ht.1, ht.2.1, ht.2.2]
    rw [this] at h
    cases h
  rcases existenceMatch_cases n q ht with ⟨-, e'⟩ | ⟨e, e'⟩ | ⟨i, q', e, e'⟩
  · rw [e'] at h; cases h
  · rw [e', NodeProof.exact] at h
    split at h
    · cases h
    · rename_i hpv
      cases hvh : n.valueHash with
      | none => rw [hvh] at h; cases h
      | some y =>
        rw [hvh] at h
        cases h
        refine ⟨e.trans h1, rfl, hpv, ?_⟩
        intro ho
        rw [e, h1]
        have hl : lookup (.mk p v c) p = v := by simp
        rw [Agrees, hl]
        cases v with
        | none => right; exact ⟨rfl, by simpa [orNil, valueHashOf, nilHash] using ho⟩
        | some z => left; exact ⟨z, rfl, by simpa [orNil, valueHashOf, toHash_of_len (hv z)] using ho.symm⟩
  · rw [e', NodeProof.descend] at h
    exfalso
    split at h
    · cases h
    · split at h
      · cases h
      · split at h <;> cases h

theorem next_cases {n : NodeProof} {p : List Nib} {c : Nib → Node V} (hs : SameHead vh n p c) {q q' : List Nib}
    (h : n.existenceMatch q = .next q') : ∃ i, n.ptype = nibByte i ∧ q = p ++ i :: q' ∧ n.header.hasChild i = true := by
  obtain ⟨h1, h2, -⟩ := hs
  have ht : isProofChild n.ptype = true ∨ n.ptype = proofValue ∨ n.ptype = proofExistence := by
    by_contra ht
    simp only [not_or] at ht
    have : n.existenceMatch q = .err := by
      rw [NodeProof.existenceMatch, if_pos]
      simp [ht.1, ht.2.1, ht.2.2]
    rw [this] at h
    cases h
  rcases existenceMatch_cases n q ht with ⟨-, e'⟩ | ⟨e, e'⟩ | ⟨i, r, e, e'⟩
  · rw [e'] at h; cases h
  · rw [e', NodeProof.exact] at h
    exfalso
    split at h
    · cases h
    · split at h <;> cases h
  · rw [e', NodeProof.descend] at h
    refine ⟨i, ?_⟩
    split at h
    · cases h
    · rename_i hc
      split at h
      · cases h
      · split at h
        · cases h
        · rename_i hp
          cases h
          refine ⟨by simpa using hp, by rw [e, h1], by simpa using hc⟩

theorem kids_eq {n : NodeProof} {p : List Nib} {c : Nib → Node V} (hs : SameHead vh n p c) :
    n.header.kids = childIds c := by
  rw [Header.kids, childIds, show n.header.hasChild = fun i => (c i).isSome from funext hs.2.1]

theorem existsTD_some {cs : List NodeProof} {q : List Nib} {r : Option Bytes} (h : existDown cs q = some r)
    {n : NodeProof} {rest : List NodeProof} (e : cs = n :: rest) :
    (n.existenceMatch q = .absent ∧ r = none) ∨ (∃ x, n.existenceMatch q = .found x ∧ r = some x) ∨
      (∃ q', n.existenceMatch q = .next q' ∧ existDown rest q' = some r) := by
  subst e
  rw [existDown] at h
  cases hm : n.existenceMatch q with
  | err => rw [hm] at h; simp at h
  | absent => rw [hm] at h; left; exact ⟨rfl, by simpa using h.symm⟩
  | found x => rw [hm] at h; right; left; exact ⟨x, rfl, by simpa using h.symm⟩
  | next q' => rw [hm] at h; right; right; exact ⟨q', rfl, h⟩

/-- Soundness of positioned chains, on trees. -/
theorem exist_sound (hH : ∀ b, (H b).length = 32) (hv : ∀ x, (vh x).length = 32) (hR : R.Lawful)
    (cs : List NodeProof) : ∀ (n : Node V) (q : List Nib) (r : Option Bytes), n.isSome = true → No64 R n →
    (∀ m ∈ cs, m.Typed ∧ m.Positioned R) → hashTD H R cs = some (nodeHash H R vh n) → existDown cs q = some r →
    Agrees H vh n q r ∨ Collision H (chainInputs H R cs) (inputs H R vh n) := by
  induction cs with
  | nil => intro n q r _ _ _ h; simp [hashTD] at h
  | cons m rest ih =>
    intro n q r hs hn hpos hhash hex
    cases n with
    | nil => simp [Node.isSome] at hs
    | mk p v c =>
    obtain ⟨hty, hps⟩ := hpos m (by simp)
    have ho : (orNil H m.valueHash).length = 32 := orNil_len hH hty.1
    cases rest with
    | nil =>
      -- the bottom node
      simp only [hashTD] at hhash
      have hpt : m.ptype = proofExistence := by
        by_contra hc
        simp [NodeProof.existenceHash, hc] at hhash
      have hci : chainInputs H R [m] = bottomInputs H R m := rfl
      rw [hci]
      have main : (SameHead vh m p c ∧ orNil H m.valueHash = orNil H (valueHashOf vh v)) ∨
          Collision H (bottomInputs H R m) (inputs H R vh (.mk p v c)) := by
        cases hcp : m.childProofs with
        | none =>
          have e : H (m.header.hash H R ++ orNil H m.valueHash) = nodeHash H R vh (.mk p v c) := by
            simpa [NodeProof.existenceHash, hpt, hcp, hashPair] using hhash
          rcases leaf_bound hH hR hps.len e with ⟨h1, h2, -⟩ | h
          · exact Or.inl ⟨h1, h2⟩
          · exact Or.inr (h.mono (by simp [bottomInputs]) (fun y hy => hy))
        | some P =>
          cases hP : P.hashs with
          | nil =>
            have e : H (m.header.hash H R ++ orNil H m.valueHash) = nodeHash H R vh (.mk p v c) := by
              simpa [NodeProof.existenceHash, hpt, hcp, hashPair, hP] using hhash
            rcases leaf_bound hH hR hps.len e with ⟨h1, h2, -⟩ | h
            · exact Or.inl ⟨h1, h2⟩
            · exact Or.inr (h.mono (by simp [bottomInputs]) (fun y hy => hy))
          | cons a l =>
            cases l with
            | nil =>
              have e : H (H (m.header.hash H R ++ orNil H m.valueHash) ++ a) = nodeHash H R vh (.mk p v c) := by
                simpa [NodeProof.existenceHash, hpt, hcp, hashPair, hP] using hhash
              rcases inner_bound hH hR ho hn.1 e with ⟨h1, h2, -⟩ | h
              · exact Or.inl ⟨h1, h2⟩
              · exact Or.inr (h.mono (by simp [bottomInputs, hcp, hP, hashPair]) (fun y hy => hy))
            | cons b l => simp [NodeProof.existenceHash, hpt, hcp, hP] at hhash
      rcases main with ⟨hsame, hval⟩ | hcol
      · left
        rcases existsTD_some hex rfl with ⟨h1, rfl⟩ | ⟨x, h1, rfl⟩ | ⟨q', h1, -⟩
        · exact absent_agrees hsame h1
        · exact (found_agrees (H := H) hv hsame h1).2.2.2 hval
        · obtain ⟨i, h2, -⟩ := next_cases hsame h1
          exfalso
          rw [hpt] at h2
          exact absurd h2.symm (by revert i; decide +kernel)
      · exact Or.inr hcol
    | cons m2 rest2 =>
      obtain ⟨hr, hhr, hstep⟩ : ∃ hr, hashTD H R (m2 :: rest2) = some hr ∧
          m.proof H R (toHash hr) = some (nodeHash H R vh (.mk p v c)) := by
        rw [hashTD.eq_def] at hhash
        simp only at hhash
        cases hx : hashTD H R (m2 :: rest2) with
        | none => rw [hx] at hhash; simp at hhash
        | some hr => rw [hx] at hhash; exact ⟨hr, rfl, hhash⟩
      obtain ⟨L, hL, hev⟩ : ∃ L, m.items H R = some L ∧ evalItems H L (toHash hr) = nodeHash H R vh (.mk p v c) := by
        rw [NodeProof.proof] at hstep
        cases hx : m.items H R with
        | none => rw [hx] at hstep; simp at hstep
        | some L => rw [hx] at hstep; exact ⟨L, rfl, by simpa using hstep⟩
      have hci : chainInputs H R (m :: m2 :: rest2) =
          stepInputs H R m (toHash hr) ++ chainInputs H R (m2 :: rest2) := by
        rw [chainInputs.eq_def]
        simp only [hhr]
      have hsi : stepInputs H R m (toHash hr) =
          m.header.ser R :: (m.header.hash H R ++ orNil H m.valueHash) :: evalInputs H L (toHash hr) := by
        simp only [stepInputs, hL]
      have lift : ∀ {xs : List Bytes}, Collision H xs (inputs H R vh (.mk p v c)) →
          (∀ x ∈ xs, x ∈ m.header.ser R :: (m.header.hash H R ++ orNil H m.valueHash) :: evalInputs H L (toHash hr)) →
          Collision H (chainInputs H R (m :: m2 :: rest2)) (inputs H R vh (.mk p v c)) := by
        intro xs hcol hsub
        refine hcol.mono ?_ (fun y hy => hy)
        intro x hx
        rw [hci, hsi]
        exact List.mem_append_left _ (hsub x hx)
      -- what the step proves about this node
      have hexm := existsTD_some hex rfl
      have hnotE : m.existenceMatch q ≠ .err := by
        rcases hexm with ⟨h1, -⟩ | ⟨x, h1, -⟩ | ⟨q', h1, -⟩ <;> rw [h1] <;> simp
      have ht : isProofChild m.ptype = true ∨ m.ptype = proofValue := by
        by_contra hc
        simp only [not_or] at hc
        by_cases hE : m.ptype = proofExistence
        · have h1 : proofExistence ≠ proofMerkleOnly := by decide
          have h2 : isProofChild proofExistence = false := by decide
          have h3 : proofExistence ≠ proofValue := by decide
          have h4 : proofExistence ≠ proofHdsSummary := by decide
          have h5 : headerProperty proofExistence = none := by decide
          simp [NodeProof.items, hE, h1, h2, h3, h4, h5] at hL
        · apply hnotE
          rw [NodeProof.existenceMatch, if_pos]
          simp [hc.1, hc.2, hE]
      rcases ht with ht | ht
      · -- a child proof
        obtain ⟨i0, hi0⟩ := (isProofChild_iff _).1 ht
        have hmo : m.ptype ≠ proofMerkleOnly := hi0 ▸ nib_ne_merkle i0
        obtain ⟨M, hM, rfl⟩ : ∃ M, (match m.childProofs with | none => some [] | some p => p.items) = some M ∧
            L = M ++ [(hashPair H (m.header.hash H R) (orNil H m.valueHash), true)] := by
          simp only [NodeProof.items, hmo, if_false, ht, if_true] at hL
          cases hx : (match m.childProofs with | none => some [] | some p => p.items) with
          | none =>
            exfalso
            cases hcp : m.childProofs <;> simp_all
          | some M =>
            refine ⟨M, rfl, ?_⟩
            cases hcp : m.childProofs <;> simp_all
        have e : H (H (m.header.hash H R ++ orNil H m.valueHash) ++ evalItems H M (toHash hr)) =
            nodeHash H R vh (.mk p v c) := by
          rw [← hev, evalItems_append]; rfl
        rcases inner_bound hH hR ho hn.1 e with ⟨hsame, hval, hc, hroot⟩ | hcol
        · rcases hexm with ⟨h1, rfl⟩ | ⟨x, h1, rfl⟩ | ⟨q', h1, h2⟩
          · exact Or.inl (absent_agrees hsame h1)
          · exact Or.inl ((found_agrees (H := H) hv hsame h1).2.2.2 hval)
          · obtain ⟨i, hi1, hi2, hi3⟩ := next_cases hsame h1
            obtain ⟨P, L', hP1, hP2, hP3, hP4⟩ := hps.child i hi1 hi3
            have hML : M = L' := by
              rw [hP1] at hM
              simp only [hP2, Option.some.injEq] at hM
              exact hM.symm
            subst hML
            rw [kids_eq hsame] at hP3 hP4
            have hci2 : (c i).isSome = true := by rw [← hsame.2.1]; exact hi3
            have hmem : i ∈ childIds c := (mem_childIds c i).2 hci2
            have hidx : (childIds c).idxOf i < (childIds c).length := List.idxOf_lt_length_of_mem hmem
            have hlen : (childHashes H R vh c).length = (childIds c).length := by simp [childHashes]
            have hne : childHashes H R vh c ≠ [] := by
              simpa [childHashes] using childIds_ne_nil hc
            have hprf : P.proof H (toHash hr) = some (merkleHashComplete H (childHashes H R vh c) (-1) none).1 := by
              rw [Proofs.proof, hP2, Option.map_some, hroot]
            rcases C83_complete_proof_sound H hH (childHashes H R vh c) hne (childHashes_len hH c)
              (depthOf (childIds c).length) (hlen ▸ depthOf_spec _) P M hP2 ((hty.2 P hP1).2 M hP2) hP3 (toHash hr)
              (toHash_len _) hprf with hval2 | hcol
            · -- the hash below is the hash of the child
              rw [hP4] at hval2
              have hget : (childHashes H R vh c)[(childIds c).idxOf i]?.getD (H []) = nodeHash H R vh (c i) := by
                have h0 : (childIds c)[(childIds c).idxOf i]? = some i := by
                  rw [List.getElem?_eq_getElem hidx, List.getElem_idxOf]
                simp only [childHashes, List.getElem?_map, h0, Option.map_some, Option.getD_some]
              rw [hget] at hval2
              have hr32 : hr.length = 32 := by
                have hall : ∀ (cs : List NodeProof) (x : Bytes), (∀ m ∈ cs, m.Typed ∧ m.Positioned R) →
                    hashTD H R cs = some x → (∃ n1 q1 r1, existDown cs q1 = some r1 ∧ n1 = cs) → x.length = 32 := by
                  intro cs x hp2 hx hd
                  obtain ⟨-, q1, r1, hd, -⟩ := hd
                  cases cs with
                  | nil => simp [hashTD] at hx
                  | cons a b =>
                    cases b with
                    | nil =>
                      simp only [hashTD, NodeProof.existenceHash] at hx
                      split at hx
                      · cases hx
                      · split at hx
                        · cases hx; exact hH _
                        · split at hx
                          · cases hx; exact hH _
                          · cases hx; exact hH _
                          · cases hx
                    | cons b b' =>
                      -- the top node proof ends with a digest
                      rw [hashTD.eq_def] at hx
                      simp only at hx
                      cases hy : hashTD H R (b :: b') with
                      | none => rw [hy] at hx; simp at hx
                      | some y =>
                        rw [hy] at hx
                        simp only [Option.bind_some, NodeProof.proof] at hx
                        cases hit : a.items H R with
                        | none => rw [hit] at hx; simp at hx
                        | some it =>
                          rw [hit] at hx
                          simp only [Option.map_some, Option.some.injEq] at hx
                          rw [← hx]
                          rcases List.eq_nil_or_concat it with rfl | ⟨it', z, rfl⟩
                          · exact toHash_len _
                          · rw [List.concat_eq_append, evalItems_append]
                            obtain ⟨z1, z2⟩ := z
                            rw [evalItems_cons]
                            cases z2 <;> exact hH _
                exact hall (m2 :: rest2) hr (fun m' hm' => hpos m' (by simp [hm'])) hhr ⟨_, q', r, h2, rfl⟩
              rw [toHash_of_len hr32] at hval2
              rcases ih (c i) q' r hci2 (hn.2 i) (fun m' hm' => hpos m' (by simp [hm'])) (by rw [hhr, hval2]) h2 with
                hag | hcol
              · left
                have hl : lookup (.mk p v c) q = lookup (c i) q' := by rw [hi2, lookup_mk]
                cases r with
                | none => rw [Agrees, hl]; exact hag
                | some x => rw [Agrees, hl]; exact hag
              · right
                refine hcol.mono ?_ ?_
                · intro x hx
                  rw [hci]
                  exact List.mem_append_right _ hx
                · intro x hx
                  simp only [inputs, hc, if_true, List.mem_cons, List.mem_append, List.mem_flatMap]
                  exact Or.inr (Or.inr (Or.inr (Or.inr ⟨i, hmem, hx⟩)))
            · right
              refine hcol.mono ?_ ?_
              · intro x hx
                rw [hci, hsi, evalInputs_append]
                simp [hx]
              · intro x hx
                simp only [inputs, hc, if_true, List.mem_cons, List.mem_append]
                exact Or.inr (Or.inr (Or.inr (Or.inl hx)))
        · right
          apply lift hcol
          intro x hx
          rw [evalInputs_append]
          simp only [List.mem_cons, List.not_mem_nil, or_false] at hx
          rcases hx with rfl | rfl | rfl
          · simp
          · simp
          · simp [evalInputs, hashPair]
      · -- a value proof: it can only show absence
        have hmo : proofValue ≠ proofMerkleOnly := by decide
        have hnc : isProofChild proofValue = false := by decide
        have hnone : ∀ hsame : SameHead vh m p c, Agrees H vh (.mk p v c) q r := by
          intro hsame
          rcases hexm with ⟨h1, rfl⟩ | ⟨x, h1, rfl⟩ | ⟨q', h1, h2⟩
          · exact absent_agrees hsame h1
          · exact absurd ht (found_agrees (H := H) (v := v) hv hsame h1).2.2.1
          · obtain ⟨i, hi1, -⟩ := next_cases hsame h1
            rw [ht] at hi1
            exact absurd hi1.symm (nib_ne_value i)
        have leafcase : L = [(m.header.hash H R, true)] → Agrees H vh (.mk p v c) q r ∨
            Collision H (chainInputs H R (m :: m2 :: rest2)) (inputs H R vh (.mk p v c)) := by
          rintro rfl
          have e : H (m.header.hash H R ++ toHash hr) = nodeHash H R vh (.mk p v c) := hev
          rcases leaf_bound hH hR hps.len e with ⟨h1, -⟩ | hcol
          · exact Or.inl (hnone h1)
          · right
            apply lift hcol
            intro x hx
            simp only [List.mem_cons, List.not_mem_nil, or_false] at hx
            rcases hx with rfl | rfl
            · simp
            · simp [evalInputs]
        cases hcp : m.childProofs with
        | none =>
          apply leafcase
          simpa [NodeProof.items, ht, hmo, hnc, hcp] using hL.symm
        | some P =>
          cases hP : P.hashs with
          | nil =>
            apply leafcase
            simpa [NodeProof.items, ht, hmo, hnc, hcp, hP] using hL.symm
          | cons a l =>
            cases l with
            | nil =>
              have : L = [(m.header.hash H R, true), (a, false)] := by
                simpa [NodeProof.items, ht, hmo, hnc, hcp, hP] using hL.symm
              subst this
              have e : H (H (m.header.hash H R ++ toHash hr) ++ a) = nodeHash H R vh (.mk p v c) := hev
              rcases inner_bound hH hR (toHash_len hr) hn.1 e with ⟨h1, -⟩ | hcol
              · exact Or.inl (hnone h1)
              · right
                apply lift hcol
                intro x hx
                simp only [List.mem_cons, List.not_mem_nil, or_false] at hx
                rcases hx with rfl | rfl | rfl
                · simp
                · simp [evalInputs]
                · simp [evalInputs]
            | cons b l => simp [NodeProof.items, ht, hmo, hnc, hcp, hP] at hL

/-- **C11 (partial).** Take any trie and any chain of node proofs that evaluates to its root hash, and any key the chain
decides about.  If the Merkle paths in the chain are the paths of the children they are labelled with (`Positioned`,
which the code does not check), the decision agrees with the trie, or the two computations exhibit a collision.  The
agreement still allows the nil hash as the "value hash" of a key without value.

Missing: the chains that are not `Positioned`; for them the property is false, see the refutations below. -/
theorem C11_existence_sound_partial (H : Bytes → Bytes) (hH : ∀ b, (H b).length = 32) (R : Rtl) (hR : R.Lawful)
    (vh : V → Bytes) (hv : ∀ x, (vh x).length = 32) (K : Bytes → Prop) (hK : PrefixFree K) (ops : List (Op V))
    (h1 : ∀ op ∈ ops, K op.key) (n1 : No64 R ((newTrie (V := V)).run ops).root) (chain : List NodeProof)
    (hpos : ∀ m ∈ chain, m.Typed ∧ m.Positioned R)
    (hroot : existenceHash H R chain = some (((newTrie (V := V)).run ops).hash H R vh)) (key : Bytes) :
    (∀ x, exist chain (keyToPrefix key) = some (some x) →
        (∃ v, spec ops key = some v ∧ vh v = x) ∨ (spec ops key = none ∧ x = H []) ∨
        Collision H (chainInputs H R chain.reverse) (inputs H R vh ((newTrie (V := V)).run ops).root)) ∧
    (exist chain (keyToPrefix key) = some none →
        spec ops key = none ∨
        Collision H (chainInputs H R chain.reverse) (inputs H R vh ((newTrie (V := V)).run ops).root)) := by
  have i1 := Inv.of_prefixFree hK ops h1
  rw [existenceHash_eq_TD] at hroot
  have main := fun r h => exist_sound hH hv hR chain.reverse ((newTrie (V := V)).run ops).root (keyToPrefix key) r
    i1.wf.isSome n1 (fun m hm => hpos m (by simpa using hm)) hroot h
  constructor
  · intro x hx
    rcases main (some x) hx with h | h
    · rw [Agrees, i1.look] at h
      rcases h with h | h
      · exact Or.inl h
      · exact Or.inr (Or.inl h)
    · exact Or.inr (Or.inr h)
  · intro hx
    rcases main none hx with h | h
    · rw [Agrees, i1.look] at h
      exact Or.inl h
    · exact Or.inr h

/-- The type byte of a child proof does not influence its evaluation, for any digest: relabelling is invisible to the
root hash. -/
theorem relabel_invisible (n : NodeProof) (i j : Nib) (hi : n.ptype = nibByte i) (h : Bytes) :
    { n with ptype := nibByte j }.proof H R h = n.proof H R h := by
  have h1 : isProofChild n.ptype = true := hi ▸ isProofChild_nib i
  have h2 : n.ptype ≠ proofMerkleOnly := hi ▸ nib_ne_merkle i
  have h3 : isProofChild (nibByte j) = true := isProofChild_nib j
  have h4 : nibByte j ≠ proofMerkleOnly := nib_ne_merkle j
  simp [NodeProof.proof, NodeProof.items, h1, h2, h3, h4]

/-- The chain made for `0x1234`, with the root's child proof relabelled from child 4 to child 5. -/
def forgedChain : List NodeProof :=
  match (proofDemo.getExistence toyH toyRtl demoVh [0x12, 0x34]).2 with
  | [a, b] => [a, { b with ptype := 5 }]
  | c => c

/-- **C11 refuted (1).** A chain that evaluates to the root hash of a trie "proves" for a stored key a value hash that
is not the hash of the stored value: a proof for the sibling, relabelled. -/
theorem C11_relabel_refuted :
    existenceHash toyH toyRtl forgedChain = some (proofDemo.hash toyH toyRtl demoVh) ∧
    exist forgedChain (keyToPrefix [0x12, 0x35]) = some (some (demoVh [1])) ∧
    proofDemo.get [0x12, 0x35] = some [2] ∧ demoVh [1] ≠ demoVh [2] := by
  decide +kernel

/-- A trie whose root has no value. -/
def branchDemo : MTrie Bytes :=
  (newTrie (V := Bytes)).run [.put [0x12, 0x34] [1], .put [0x12, 0x54] [2]]

/-- The chain made for the valueless branching node at `0x12`, with the nil hash filled in as its value hash. -/
def forgedExistence : List NodeProof :=
  (branchDemo.getExistence toyH toyRtl demoVh [0x12]).2.map fun n => { n with valueHash := some (toyH []) }

/-- **C11 refuted (2).** A chain that evaluates to the root hash "proves" that an absent key exists. -/
theorem C11_missing_value_refuted :
    existenceHash toyH toyRtl forgedExistence = some (branchDemo.hash toyH toyRtl demoVh) ∧
    isExist forgedExistence [0x12] = some true ∧ branchDemo.get [0x12] = none := by
  decide +kernel

/-! The positions of an honest chain satisfy the side condition. -/

example : let c := (proofDemo.getExistence toyH toyRtl demoVh [0x12, 0x35]).2
    c.length = 2 ∧ existenceHash toyH toyRtl c = some (proofDemo.hash toyH toyRtl demoVh) ∧
    exist c (keyToPrefix [0x12, 0x35]) = some (some (demoVh [2])) ∧
    (c.map fun m => ((m.header.ser toyRtl).length ≠ 64 : Bool)) = [true, true] ∧
    (c.map fun m => (m.childProofs.bind Proofs.items).map fun L =>
      (L.length, depthOf m.header.kids.length, bitsNat (L.map Prod.snd), m.header.kids.idxOf 5)) =
      [none, some (1, 1, 1, 1)] := by
  decide +kernel

end Verif.Trie

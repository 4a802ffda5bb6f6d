import Verif.Trie.Codec
import Verif.Merkle.Model

/-!
# Model of node hashing and of the proofs of `/repo/trie/node.go`, `/repo/trie/proof.go`, `/repo/trie/trie.go`

The digest `H` and go-rtl's byte-string codec `R` are parameters (see `Verif.Merkle.Model`, `Verif.Trie.Codec`), as is
the hash of values: `vh x` is what `valueHash` (`/repo/trie/node.go:566-591`: encoder followed by hasher) gives for the
value `x`.  Cached hashes are left to the storage level.
-/

namespace Verif.Trie
open Verif Verif.Merkle

variable {V : Type}

/-- `NodeHeader.HashValue` (`/repo/trie/node.go:192-194`): `EncodeAndHash` hashes the serialization. -/
def Header.hash (H : Bytes → Bytes) (R : Rtl) (h : Header) : Bytes := H (h.ser R)

/-- A value hash that may be missing: `common.NilHashSlice` in its place (`/repo/trie/proof.go:57-60`). -/
def orNil (H : Bytes → Bytes) (v : Option Bytes) : Bytes := v.getD (nilHash H)

/-- `newNodeHeader(n)` (`/repo/trie/node.go:141-155`). -/
def headerOf (p : List Nib) (v : Option V) (c : Nib → Node V) : Header :=
  newHeader p (fun i => (c i).isSome) v.isSome

/-- `ProofValue` (`/repo/trie/proof.go:97`). -/
def proofValue : UInt8 := 0x10
/-- `ProofHdsSummary` (`/repo/trie/proof.go:98`). -/
def proofHdsSummary : UInt8 := 0x11
/-- `ProofExistence` (`/repo/trie/proof.go:99`). -/
def proofExistence : UInt8 := 0xFE
/-- `ProofMerkleOnly` (`/repo/trie/proof.go:100`). -/
def proofMerkleOnly : UInt8 := 0xFF

/-- `IsProofChild` (`/repo/trie/proof.go:130-132`). -/
def isProofChild (t : UInt8) : Bool := t ≤ 15

/-- `IsProofHeaderProperty` (`/repo/trie/proof.go:150-171`). -/
def headerProperty (t : UInt8) : Option UInt8 :=
  if t = 0x20 then some 12
  else if t = 0x21 then some 1
  else if t = 0x23 then some 13
  else if t = 0x24 then some 16
  else if t = 0x25 then some 17
  else if t = 0x26 then some 20
  else if 0x30 ≤ t ∧ t < 0xa0 then some (t - 0x30)
  else none

/-- `NodeProof` (`/repo/trie/proof.go:205-212`). -/
structure NodeProof where
  ptype : UInt8
  header : Header
  valueHash : Option Bytes
  childProofs : Option Proofs
  deriving DecidableEq

/-- `NewNodeProof` (`/repo/trie/proof.go:237-248`). -/
def newNodeProof (ptype : UInt8) (h : Header) (v : Option Bytes) (cp : Option Proofs) : NodeProof :=
  ⟨ptype, h, if ptype = proofValue then none else v, cp⟩

/-- `NodeHasher.MakeProof` (`/repo/trie/proof.go:50-86`) without a proof. -/
def makeHash (H : Bytes → Bytes) (R : Rtl) (h : Header) (v : Option Bytes) (childs : List Bytes) : Bytes :=
  let left := hashPair H (h.hash H R) (orNil H v)
  if ntHasChildren h.nt then hashPair H left (merkleHashComplete H childs (-1) none).1 else left

/-- `NodeHasher.MakeProof` (`/repo/trie/proof.go:50-86`) with a proof. -/
def makeProof (H : Bytes → Bytes) (h : Header) (v : Option Bytes) (childs : List Bytes) (ptype : UInt8) (index : Int) :
    NodeProof :=
  let cp := if ntHasChildren h.nt then (merkleHashComplete H childs index (some newProofs)).2 else none
  newNodeProof ptype h v cp

/-- `BytesToHashP(valueHash)` of the value of a node (`/repo/trie/node.go:858-869`). -/
def valueHashOf (vh : V → Bytes) (v : Option V) : Option Bytes := v.map fun x => toHash (vh x)

/-- `HashValue`/`computeHash(0, nil)` of a node (`/repo/trie/node.go:537-547, 842-904`). -/
def nodeHash (H : Bytes → Bytes) (R : Rtl) (vh : V → Bytes) : Node V → Bytes
  | .nil => nilHash H
  | .mk p v c =>
    makeHash H R (headerOf p v c) (valueHashOf vh v) ((childIds c).map fun i => nodeHash H R vh (c i))

/-- The position of the child `j` in the list of the non-nil children, or -1 (`proofNum`,
`/repo/trie/node.go:871-883`). -/
def proofNum (c : Nib → Node V) (ptype : UInt8) : Int :=
  match (childIds c).findIdx? (fun j => j.val = ptype.toNat) with
  | some k => (k : Int)
  | none => -1

/-- `GetProof` of a node: `computeHash(ptype, proofs)` (`/repo/trie/node.go:831-904`). Nil nodes add nothing. -/
def nodeProof (H : Bytes → Bytes) (R : Rtl) (vh : V → Bytes) (ptype : UInt8) : Node V → List NodeProof
  | .nil => []
  | .mk p v c =>
    [makeProof H (headerOf p v c) (valueHashOf vh v) ((childIds c).map fun i => nodeHash H R vh (c i)) ptype
      (proofNum c ptype)]

/-- The value found by `get` and the proof chain of `getProofLocked` (`/repo/trie/trie.go:821-853`), bottom to top: the
recursion follows the trace of `get` (`/repo/trie/trie.go:264-322`), the last node of the trace gets the proof type
`last`, every other one the index of the next one. -/
def proofAlong (H : Bytes → Bytes) (R : Rtl) (vh : V → Bytes) (last : UInt8) : Node V → List Nib → List NodeProof
  | .nil, _ => []
  | .mk p v c, q =>
    if q = [] then nodeProof H R vh last (.mk p v c)
    else if isEmpty p v c then nodeProof H R vh last (.mk p v c)
    else
      let m := matchPrefix p q
      if p.drop m = [] then
        match q.drop m with
        | [] => nodeProof H R vh last (.mk p v c)
        | i :: q' =>
          if (c i).isSome then
            proofAlong H R vh last (c i) q' ++ nodeProof H R vh (nibByte i) (.mk p v c)
          else nodeProof H R vh last (.mk p v c)
      else nodeProof H R vh last (.mk p v c)

/-- `GetProof` (`/repo/trie/trie.go:821-860`): value and proof chain; `none` is `ok == false`. -/
def MTrie.getProof (H : Bytes → Bytes) (R : Rtl) (vh : V → Bytes) (t : MTrie V) (key : Bytes) :
    Option (V × List NodeProof) :=
  (t.get key).map fun x => (x, proofAlong H R vh proofValue t.root (keyToPrefix key))

/-- `GetExistenceProof` (`/repo/trie/trie.go:862-897`). -/
def MTrie.getExistence (H : Bytes → Bytes) (R : Rtl) (vh : V → Bytes) (t : MTrie V) (key : Bytes) :
    Bool × List NodeProof :=
  ((t.get key).isSome, proofAlong H R vh proofExistence t.root (keyToPrefix key))

/-- `HashValue` of a trie (`/repo/trie/trie.go:220-237`). -/
def MTrie.hash (H : Bytes → Bytes) (R : Rtl) (vh : V → Bytes) (t : MTrie V) : Bytes := nodeHash H R vh t.root

/-! ### Evaluating proofs -/

/-- `NodeProof.Iterate` (`/repo/trie/proof.go:316-409`): the visited hashes with their order flags, `none` for an
error.  A nil `*MerkleProofs` iterates over nothing (`/repo/hash.go:394-408`). -/
def NodeProof.items (H : Bytes → Bytes) (R : Rtl) (n : NodeProof) : Option (List (Bytes × Bool)) :=
  let cp : Option (List (Bytes × Bool)) := match n.childProofs with
    | none => some []
    | some p => p.items
  if n.ptype = proofMerkleOnly then cp
  else if isProofChild n.ptype then
    cp.map (· ++ [(hashPair H (n.header.hash H R) (orNil H n.valueHash), true)])
  else if n.ptype = proofValue then
    match n.childProofs with
    | none => some [(n.header.hash H R, true)]
    | some p =>
      match p.hashs with
      | [] => some [(n.header.hash H R, true)]
      | [h] => some [(n.header.hash H R, true), (h, false)]
      | _ => none
  else if n.ptype = proofHdsSummary then
    match n.valueHash with
    | none => none
    | some v => cp.map ((v, true) :: ·)
  else if (headerProperty n.ptype).isSome then
    match n.valueHash, n.childProofs with
    | some v, some p => if p.hashs.length = 0 then none else cp.map ((v, true) :: ·)
    | _, _ => none
  else none

/-- `NodeProof.Proof` (`/repo/trie/proof.go:421-435`). -/
def NodeProof.proof (H : Bytes → Bytes) (R : Rtl) (n : NodeProof) (h : Bytes) : Option Bytes :=
  (n.items H R).map fun it => evalItems H it h

/-- `ProofChain.Iterate` (`/repo/trie/proof.go:717-724`). -/
def chainItems (H : Bytes → Bytes) (R : Rtl) : List NodeProof → Option (List (Bytes × Bool))
  | [] => some []
  | n :: c =>
    match n.items H R with
    | none => none
    | some a => (chainItems H R c).map (a ++ ·)

/-- `ProofChain.Proof` (`/repo/trie/proof.go:699-715`). -/
def chainProof (H : Bytes → Bytes) (R : Rtl) (c : List NodeProof) (h : Bytes) : Option Bytes :=
  (chainItems H R c).map fun it => evalItems H it h

/-- `VerifyProofChain` (`/repo/trie/proof.go:830-836`). -/
def verifyProofChain (H : Bytes → Bytes) (R : Rtl) (h : Bytes) (c : List NodeProof) (expected : Bytes) : Bool :=
  match chainProof H R c h with
  | none => false
  | some x => decide (x = expected)

/-- The result of `ExistenceMatch`: an error, `matched == false`, a found value hash, or the rest of the key. -/
inductive Match where
  | err
  | absent
  | found (h : Bytes)
  | next (q : List Nib)
  deriving DecidableEq

/-- The common end of `ExistenceMatch` for an exactly matching key (`/repo/trie/proof.go:468-477, 501-510`). -/
def NodeProof.exact (n : NodeProof) : Match :=
  if n.ptype = proofValue then .err
  else match n.valueHash with
    | none => .err
    | some h => .found h

/-- The descent of `ExistenceMatch` (`/repo/trie/proof.go:449-532`). -/
def NodeProof.descend (n : NodeProof) : List Nib → Match
  | [] => .err                                            -- not reached
  | i :: q =>
    if n.header.hasChild i = false then .absent
    else if isProofChild n.ptype = false then .err
    else if n.ptype ≠ nibByte i then .err
    else .next q

/-- `ExistenceMatch` (`/repo/trie/proof.go:449-532`). -/
def NodeProof.existenceMatch (n : NodeProof) (q : List Nib) : Match :=
  if !isProofChild n.ptype && n.ptype ≠ proofValue && n.ptype ≠ proofExistence then .err
  else
    let p := n.header.prefix
    if q = [] then
      if p = [] then n.exact else .absent
    else if p = [] then n.descend q
    else
      let m := matchPrefix p q
      if p.drop m ≠ [] then .absent                       -- matched == 0 or nodeRemains != 0
      else if q.drop m = [] then n.exact
      else n.descend (q.drop m)

/-- `ProofChain.Exist` (`/repo/trie/proof.go:636-655`) on the chain from top to bottom; outer `none` is an error. -/
def existDown : List NodeProof → List Nib → Option (Option Bytes)
  | [], _ => some none
  | n :: c, q =>
    match n.existenceMatch q with
    | .err => none
    | .absent => some none
    | .found h => some (some h)
    | .next q' => existDown c q'

/-- `ProofChain.Exist` (`/repo/trie/proof.go:636-655`): the code walks from the last element to the first. -/
def exist (c : List NodeProof) (q : List Nib) : Option (Option Bytes) := existDown c.reverse q

/-- `ProofChain.IsExist` (`/repo/trie/proof.go:657-669`); `none` is an error. -/
def isExist (c : List NodeProof) (key : Bytes) : Option Bool :=
  if key.length = 0 then none else (exist c (keyToPrefix key)).map Option.isSome

/-- `NodeProof.ExistenceHash` (`/repo/trie/proof.go:534-557`). -/
def NodeProof.existenceHash (H : Bytes → Bytes) (R : Rtl) (n : NodeProof) : Option Bytes :=
  if n.ptype ≠ proofExistence then none
  else
    let left := hashPair H (n.header.hash H R) (orNil H n.valueHash)
    match n.childProofs with
    | none => some left
    | some p =>
      match p.hashs with
      | [] => some left
      | [h] => some (hashPair H left h)
      | _ => none

/-- The loop of `ProofChain.ExistenceHash` (`/repo/trie/proof.go:688-695`). -/
def foldProofs (H : Bytes → Bytes) (R : Rtl) : List NodeProof → Bytes → Option Bytes
  | [], h => some h
  | n :: c, h =>
    match n.proof H R (toHash h) with
    | none => none
    | some h' => foldProofs H R c h'

/-- `ProofChain.ExistenceHash` (`/repo/trie/proof.go:671-697`). -/
def existenceHash (H : Bytes → Bytes) (R : Rtl) : List NodeProof → Option Bytes
  | [] => none
  | n :: c =>
    match n.existenceHash H R with
    | none => none
    | some h => foldProofs H R c h

end Verif.Trie

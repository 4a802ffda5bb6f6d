import Verif.ByteOps.Props
import Verif.Hex.Text

/-!
# Node ids from texts and bytes, and the path of a database

`ParseNodeID`, `StringsToNodeIDs`, `AppendByHex`, `ParseBytesToNodeIdBytes`, `IsIn`, `IsNodeIDIn`, `IdentifiersToNodeIDs`, `FormalizeBasePath`
and `DatabasePath` (`/repo/basic.go:191-198, 281-297, 352-363, 444-470`, `/repo/types.go:277-289`, `/repo/utils.go:74-88, 188-199`).

Simplifications: a node id is a byte string of 64 bytes, the nil slice of node ids is told from the empty one only where the code
does, the errors are not distinguished, and `hex.DecodeString` and `strconv.Itoa` are given by their documentation.
-/

namespace Verif.Nodes
open Verif Verif.ByteOps Verif.Hex

/-! ### The code -/

/-- `hex.DecodeString` (package `encoding/hex`). -/
def decodeString (s : Bytes) : Option Bytes :=
  match hexDecode s with
  | (b, true) => some b
  | (_, false) => none

/-- `ParseNodeIDBytes` (`/repo/basic.go:281-289`). -/
def parseNodeIDBytes (b : Bytes) : Bytes :=
  let b := if b.length > 64 then b.drop (b.length - 64) else b
  goCopyAt (List.replicate 64 0) (64 - b.length) b

/-- `ParseNodeID` (`/repo/basic.go:291-297`). -/
def parseNodeID (s : Bytes) : Option Bytes := (decodeString s).map parseNodeIDBytes

/-- The loop of `StringsToNodeIDs` (`/repo/basic.go:449-458`): the ids `ids` were parsed already. -/
def stringsLoop : List Bytes → List Bytes → Option (List Bytes)
  | [], ids => some ids
  | s :: ss, ids =>
    match parseNodeID s with
    | none => none
    | some nid => stringsLoop ss (ids ++ [nid])

/-- `StringsToNodeIDs` (`/repo/basic.go:444-460`) of a slice that is not nil. -/
def stringsToNodeIDs (l : List Bytes) : Option (List Bytes) := stringsLoop l []

/-- `NodeIDs.AppendByHex` (`/repo/basic.go:462-470`): whether it succeeded and the list afterwards. -/
def appendByHex (ns : List Bytes) (s : Bytes) : Bool × List Bytes :=
  match decodeString s with
  | none => (false, ns)
  | some b => (true, ns ++ [bytesTo nodeIDBytes b])

/-- The loop of `ParseBytesToNodeIdBytes` (`/repo/basic.go:357-361`). -/
def parseIdBytesLoop (s : Bytes) (p : Nat) : List Bytes :=
  if p < s.length then goCopy (List.replicate nodeIDBytes 0) ((s.drop p).take nodeIDBytes) :: parseIdBytesLoop s (p + nodeIDBytes) else []
termination_by s.length - p
decreasing_by simp only [nodeIDBytes]; omega

/-- `ParseBytesToNodeIdBytes` (`/repo/basic.go:352-363`). -/
def parseNodeIdBytes (s : Bytes) : Option (List Bytes) :=
  if s.length % nodeIDBytes ≠ 0 then none else some (parseIdBytesLoop s 0)

/-- `NodeIDs.IsIn` (`/repo/basic.go:191-198`). -/
def isIn : List Bytes → Bytes → Bool
  | [], _ => false
  | id :: ns, nid => if id == nid then true else isIn ns nid

/-- The loop of `IsNodeIDIn` (`/repo/utils.go:193-197`). -/
def hashIn : List Bytes → Bytes → Bool
  | [], _ => false
  | x :: l, h => if x == h then true else hashIn l h

/-- `IsNodeIDIn` (`/repo/utils.go:188-199`). -/
def isNodeIDIn (H : Bytes → Bytes) (nidhs : List Bytes) (nid : Bytes) : Bool :=
  if nidhs.length = 0 then false else hashIn nidhs (H nid)

/-- The loop of `IdentifiersToNodeIDs` (`/repo/types.go:282-287`); an identifier is the node id it answers, `none` is nil. -/
def identifiersLoop : List (Option Bytes) → List Bytes → List Bytes
  | [], nids => nids
  | none :: l, nids => identifiersLoop l nids
  | some nid :: l, nids => identifiersLoop l (nids ++ [nid])

/-- `IdentifiersToNodeIDs` (`/repo/types.go:277-289`). -/
def identifiersToNodeIDs : Option (List (Option Bytes)) → Option (List Bytes)
  | none => none
  | some l => some (identifiersLoop l [])

/-- `FormalizeBasePath` (`/repo/utils.go:74-84`). -/
def formalizeBasePath (path : Bytes) : Bytes :=
  if path.length > 0 then
    if path.getD (path.length - 1) 0 != 47 then path ++ [47] else path
  else [46, 47]

/-- `DatabasePath` (`/repo/utils.go:86-88`); a chain id is a number below `2 ^ 32`, so it is printed without a sign. -/
def databasePath (base : Bytes) (id : UInt32) : Bytes := base ++ [100, 98] ++ decDigits id.toNat

/-! ### Texts -/

theorem decodeString_iff (s b : Bytes) : decodeString s = some b ↔ List.Forall₂ Digit s (byteDigits b) := by
  rw [← hexDecode_spec, decodeString]
  split <;> rename_i x h <;> simp [h]

theorem parseNodeIDBytes_eq (b : Bytes) : parseNodeIDBytes b = cropPad 64 b := by
  rw [← (C52_fixed_size 64 b).1, bytesTo, setBytes, parseNodeIDBytes]

/-- A text of a node id: two digits, in either case, for every byte of a string whose last 64 bytes, padded on the left with zeros, are
the id. -/
def IdText (s nid : Bytes) : Prop := ∃ b, List.Forall₂ Digit s (byteDigits b) ∧ nid = cropPad 64 b

theorem parseNodeID_iff (s nid : Bytes) : parseNodeID s = some nid ↔ IdText s nid := by
  simp only [parseNodeID, Option.map_eq_some_iff, decodeString_iff, parseNodeIDBytes_eq, IdText]
  constructor
  · rintro ⟨b, h, rfl⟩; exact ⟨b, h, rfl⟩
  · rintro ⟨b, h, rfl⟩; exact ⟨b, h, rfl⟩

theorem stringsLoop_iff : ∀ (l ids r : List Bytes), stringsLoop l ids = some r ↔ ∃ t, List.Forall₂ IdText l t ∧ r = ids ++ t
  | [], ids, r => by
    simp only [stringsLoop, Option.some.injEq, List.forall₂_nil_left_iff]
    constructor
    · rintro rfl; exact ⟨[], rfl, by simp⟩
    · rintro ⟨t, rfl, rfl⟩; simp
  | s :: ss, ids, r => by
    rw [stringsLoop]
    cases hp : parseNodeID s with
    | none =>
      simp only [reduceCtorEq, false_iff]
      rintro ⟨t, ht, -⟩
      cases ht with
      | cons h _ => rw [← parseNodeID_iff, hp] at h; cases h
    | some nid =>
      simp only
      rw [stringsLoop_iff]
      constructor
      · rintro ⟨t, ht, rfl⟩
        exact ⟨nid :: t, .cons ((parseNodeID_iff _ _).1 hp) ht, by simp⟩
      · rintro ⟨t, ht, rfl⟩
        cases ht with
        | cons h ht =>
          rw [← parseNodeID_iff, hp] at h
          cases h
          exact ⟨_, ht, by simp⟩

/-- **C153, texts.** `StringsToNodeIDs` answers exactly when every text is one of a node id, and then with their ids in order. -/
theorem C153_texts (l ids : List Bytes) : stringsToNodeIDs l = some ids ↔ List.Forall₂ IdText l ids := by
  rw [stringsToNodeIDs, stringsLoop_iff]
  constructor
  · rintro ⟨t, h, rfl⟩; simpa using h
  · intro h; exact ⟨ids, h, rfl⟩

/-- The text of `InfoString` (`/repo/basic.go:389-391`) is one of the id. -/
theorem idText_hex (nid : Bytes) (h : nid.length = 64) : IdText (hexEncode nid) nid :=
  ⟨nid, forall2_hexEncode nid, by rw [← (C52_fixed_size 64 nid).1, (C52_fixed_size 64 nid).2.2.1 h]⟩

/-- **C153, round trip.** The texts that `InfoString` gives of node ids are read back as these ids. -/
theorem C153_roundtrip (ids : List Bytes) (h : ∀ x ∈ ids, x.length = 64) : stringsToNodeIDs (ids.map hexEncode) = some ids := by
  rw [C153_texts]
  induction ids with
  | nil => exact .nil
  | cons a l ih => exact .cons (idText_hex a (h a (by simp))) (ih fun x hx => h x (by simp [hx]))

/-- **C153, full texts.** A text of 128 digits is read as exactly these digits: two full texts with the same id differ at most in the
case of the digits. -/
theorem C153_full (s nid : Bytes) (hs : s.length = 128) : parseNodeID s = some nid ↔ nid.length = 64 ∧ List.Forall₂ Digit s (byteDigits nid) := by
  rw [parseNodeID_iff]
  constructor
  · rintro ⟨b, hb, rfl⟩
    have hl := hb.length_eq
    rw [byteDigits_len] at hl
    have h64 : b.length = 64 := by omega
    have e : cropPad 64 b = b := by rw [← (C52_fixed_size 64 b).1, (C52_fixed_size 64 b).2.2.1 h64]
    rw [e]
    exact ⟨h64, hb⟩
  · rintro ⟨h, hd⟩
    exact ⟨nid, hd, by rw [← (C52_fixed_size 64 nid).1, (C52_fixed_size 64 nid).2.2.1 h]⟩

/-- **C153, other lengths, refuted.** Texts of other lengths are taken too: the empty text, and a text of one byte too much, whose first
byte is dropped, so that the text and the one without that byte are read as the same id. -/
theorem C153_length_refuted : parseNodeID [] = some (List.replicate 64 0) ∧
    ∀ (b : UInt8) (nid : Bytes), nid.length = 64 → parseNodeID (hexEncode (b :: nid)) = some nid := by
  refine ⟨by decide +kernel, fun b nid h => (parseNodeID_iff _ _).2 ⟨b :: nid, forall2_hexEncode _, ?_⟩⟩
  simp [cropPad, h]

/-- **C153, prefix, refuted.** The text that `MarshalText` (`/repo/basic.go:413-415`) gives of a node id begins with `0x` and is refused. -/
theorem C153_prefix_refuted (nid : Bytes) : parseNodeID (encode nid) = none := by
  rw [encode_eq, parseNodeID, Option.map_eq_none_iff, decodeString]
  have : hexDecode ([48, 120] ++ hexEncode nid) = ([], false) := by
    simp [hexDecode, show decodeNibble 120 = none from by decide, show decodeNibble 48 = some 0 from by decide]
  rw [this]

/-- **C153, appending.** `AppendByHex` fails exactly on the texts that `ParseNodeID` refuses and leaves the list as it is then; otherwise
it appends the id that `ParseNodeID` answers. -/
theorem C153_append (ns : List Bytes) (s : Bytes) :
    (∀ nid, IdText s nid → appendByHex ns s = (true, ns ++ [nid])) ∧ ((¬ ∃ nid, IdText s nid) → appendByHex ns s = (false, ns)) := by
  constructor
  · rintro nid ⟨b, hb, rfl⟩
    rw [appendByHex, (decodeString_iff _ _).2 hb]
    simp only [nodeIDBytes]
    rw [(C52_fixed_size 64 b).1]
  · intro h
    rw [appendByHex]
    cases hd : decodeString s with
    | none => rfl
    | some b => exact absurd ⟨_, b, (decodeString_iff _ _).1 hd, rfl⟩ h

/-! ### Bytes -/

theorem parseIdBytesLoop_eq (s : Bytes) (n : Nat) : ∀ p, s.length = p + n * nodeIDBytes → parseIdBytesLoop s p = parseIds s p := by
  induction n with
  | zero => intro p h; rw [parseIdBytesLoop.eq_def, parseIds.eq_def, if_neg (by omega), if_neg (by omega)]
  | succ n ih =>
    intro p h
    have hm : (n + 1) * nodeIDBytes = n * nodeIDBytes + nodeIDBytes := Nat.succ_mul n _
    have h64 : nodeIDBytes = 64 := rfl
    have hl : ((s.drop p).take nodeIDBytes).length = nodeIDBytes := by rw [List.length_take, List.length_drop]; omega
    rw [parseIdBytesLoop.eq_def, parseIds.eq_def, if_pos (by omega), if_pos (by omega), ih (p + nodeIDBytes) (by omega)]
    congr 1
    rw [(C52_fixed_size nodeIDBytes _).2.2.1 hl]
    generalize (s.drop p).take nodeIDBytes = x at hl
    rw [goCopy, List.length_replicate, hl, List.take_of_length_le (by omega), List.drop_of_length_le (by rw [List.length_replicate]),
      List.append_nil]

/-- **C153, bytes.** `ParseBytesToNodeIdBytes` cuts a string into pieces of 64 bytes whose concatenation is the string, fails exactly on
lengths that are not a multiple of 64, and answers as `ParseBytesToNodeIds`. -/
theorem C153_bytes (s : Bytes) : (∀ l, parseNodeIdBytes s = some l ↔ l.flatten = s ∧ ∀ x ∈ l, x.length = 64) ∧
    parseNodeIdBytes s = parseNodeIds s := by
  have e : parseNodeIdBytes s = parseNodeIds s := by
    rw [parseNodeIdBytes, parseNodeIds]
    split
    · rfl
    · rename_i h
      obtain ⟨n, hn⟩ := Nat.dvd_of_mod_eq_zero (not_not.1 h)
      rw [parseIdBytesLoop_eq s n 0 (by rw [hn, Nat.mul_comm]; omega)]
  refine ⟨fun l => ?_, e⟩
  rw [e]
  have pack : ∀ ids : List Bytes, (∀ x ∈ ids, x.length = 64) → packNodeIds ids = ids.flatten := by
    intro ids h
    rw [packNodeIds]
    split
    · rename_i h0; rw [List.length_eq_zero_iff.1 h0]; rfl
    · have := packLoop_spec ids 0 [] (List.replicate (ids.length * nodeIDBytes) 0) (by simp) (by simp) h
      simpa using this
  constructor
  · intro h
    by_cases hd : 64 ∣ s.length
    · obtain ⟨ids, h1, h2, h3⟩ := C51_node_ids.2.1 s hd
      rw [h1] at h
      cases h
      exact ⟨(pack _ h3).symm.trans h2, h3⟩
    · rw [C51_node_ids.2.2 s hd] at h; cases h
  · rintro ⟨rfl, h⟩
    rw [← pack l h]
    exact C51_node_ids.1 l h

/-! ### Membership -/

/-- **C153, membership.** `IsIn` answers whether the id is in the list. -/
theorem C153_isIn (ns : List Bytes) (nid : Bytes) : isIn ns nid = true ↔ nid ∈ ns := by
  induction ns with
  | nil => simp [isIn]
  | cons a l ih =>
    rw [isIn]
    by_cases h : a = nid
    · simp [h]
    · have h' : nid ≠ a := fun e => h e.symm
      simp [h, h', ih]

theorem hashIn_iff (l : List Bytes) (h : Bytes) : hashIn l h = true ↔ h ∈ l := by
  induction l with
  | nil => simp [hashIn]
  | cons a l ih =>
    rw [hashIn]
    by_cases e : a = h
    · simp [e]
    · have e' : h ≠ a := fun x => e x.symm
      simp [e, e', ih]

/-- **C153, membership by hash.** `IsNodeIDIn` of the hashes of a list of ids answers true for the ids of the list, and for another id
only if it collides with one of them. -/
theorem C153_isNodeIDIn (H : Bytes → Bytes) (ns : List Bytes) (nid : Bytes) :
    (nid ∈ ns → isNodeIDIn H (ns.map H) nid = true) ∧
    (isNodeIDIn H (ns.map H) nid = true → nid ∈ ns ∨ ∃ x ∈ ns, x ≠ nid ∧ H x = H nid) := by
  have e : isNodeIDIn H (ns.map H) nid = true ↔ H nid ∈ ns.map H := by
    rw [isNodeIDIn]
    split
    · rename_i h
      rw [List.length_eq_zero_iff.1 h]
      simp
    · exact hashIn_iff _ _
  rw [e]
  refine ⟨fun h => List.mem_map_of_mem h, fun h => ?_⟩
  obtain ⟨x, hx, he⟩ := List.mem_map.1 h
  by_cases hn : x = nid
  · exact .inl (hn ▸ hx)
  · exact .inr ⟨x, hx, hn, he⟩

theorem identifiersLoop_eq : ∀ (l : List (Option Bytes)) (nids : List Bytes), identifiersLoop l nids = nids ++ l.filterMap id
  | [], nids => by simp [identifiersLoop]
  | none :: l, nids => by rw [identifiersLoop, identifiersLoop_eq]; simp
  | some a :: l, nids => by rw [identifiersLoop, identifiersLoop_eq]; simp

/-- **C153, identifiers.** `IdentifiersToNodeIDs` answers the ids of the identifiers that are not nil, in order: the number of nil ones
is missing from the length. -/
theorem C153_identifiers (l : List (Option Bytes)) : ∃ ids, identifiersToNodeIDs (some l) = some ids ∧ ids.map some = l.filter Option.isSome ∧
    ids.length + l.count none = l.length := by
  refine ⟨l.filterMap id, by rw [identifiersToNodeIDs, identifiersLoop_eq]; simp, ?_, ?_⟩
  · induction l with
    | nil => rfl
    | cons a l ih => cases a <;> simpa using ih
  · induction l with
    | nil => rfl
    | cons a l ih =>
      cases a with
      | none => simp at ih ⊢; omega
      | some a => simp at ih ⊢; omega

/-! ### Paths -/

/-- **C153, base paths.** A base path is left alone exactly when it ends with `/`; what is answered always does, so the function may be
called again; a path that is not empty is kept as a prefix. -/
theorem C153_base (p : Bytes) : (formalizeBasePath p).getLast? = some 47 ∧ (formalizeBasePath p = p ↔ p.getLast? = some 47) ∧
    formalizeBasePath (formalizeBasePath p) = formalizeBasePath p ∧ (p ≠ [] → p <+: formalizeBasePath p) := by
  have last : ∀ q : Bytes, formalizeBasePath q = if q = [] then [46, 47] else if q.getLast? = some 47 then q else q ++ [47] := by
    intro q
    rcases List.eq_nil_or_concat q with rfl | ⟨l, a, rfl⟩
    · rfl
    · rw [formalizeBasePath]
      simp only [List.concat_eq_append]
      rw [if_pos (by simp)]
      simp only [List.length_append, List.length_cons, List.length_nil, List.getLast?_append, List.append_eq_nil_iff]
      by_cases ha : a = 47 <;> simp [ha]
  have h1 : ∀ q : Bytes, (formalizeBasePath q).getLast? = some 47 := by
    intro q
    rw [last]
    split
    · rfl
    · split
      · assumption
      · simp
  refine ⟨h1 p, ?_, ?_, ?_⟩
  · rw [last]
    split
    · rename_i h; subst h; simp
    · split
      · simp [*]
      · rename_i h; simp [h]
  · conv_lhs => rw [last]
    rw [if_neg, if_pos (h1 p)]
    intro h
    have := h1 p
    rw [h] at this
    cases this
  · intro hp
    rw [last, if_neg hp]
    split
    · exact List.prefix_refl _
    · exact List.prefix_append _ _

theorem dec_not {c : UInt8} {d : Nat} (h : DecDigit c d) : c ≠ 98 := by
  obtain ⟨h1, rfl⟩ := h
  have : ∀ e : Fin 10, UInt8.ofNat (48 + e.val) ≠ 98 := by decide
  exact this ⟨d, h1⟩

theorem decDigits_inj {m n : Nat} (h : decDigits m = decDigits n) : m = n := by
  have h1 := (parseNat_dec _ _).2 (decDigits_numeral m).1
  have h2 := (parseNat_dec _ _).2 (decDigits_numeral n).1
  rw [h, h2] at h1
  exact (Option.some.inj h1).symm

theorem decDigits_not (n : Nat) : ∀ c ∈ decDigits n, c ≠ 98 := by
  obtain ⟨ds, -, hf, -⟩ := (decDigits_numeral n).1
  generalize decDigits n = s at hf
  induction hf with
  | nil => simp
  | cons h _ ih => intro c hc; rcases List.mem_cons.1 hc with rfl | hc; exacts [dec_not h, ih c hc]

theorem split_last {x : UInt8} : ∀ {a b c d : Bytes}, (∀ y ∈ b, y ≠ x) → (∀ y ∈ d, y ≠ x) → a ++ x :: b = c ++ x :: d → a = c ∧ b = d
  | [], b, [], d, _, _, h => by simpa using h
  | [], b, y :: c, d, hb, _, h => by
    simp only [List.nil_append, List.cons_append, List.cons.injEq] at h
    exact absurd rfl (hb x (by rw [h.2]; simp))
  | y :: a, b, [], d, _, hd, h => by
    simp only [List.nil_append, List.cons_append, List.cons.injEq] at h
    exact absurd rfl (hd x (by rw [← h.2]; simp))
  | y :: a, b, z :: c, d, hb, hd, h => by
    simp only [List.cons_append, List.cons.injEq] at h
    obtain ⟨h1, h2⟩ := split_last hb hd h.2
    exact ⟨by rw [h.1, h1], h2⟩

/-- **C153, database paths.** Different base paths or different chains have different databases. -/
theorem C153_paths (p q : Bytes) (i j : UInt32) (h : databasePath p i = databasePath q j) : p = q ∧ i = j := by
  simp only [databasePath, List.append_assoc, List.cons_append, List.nil_append] at h
  have h' : (p ++ [100]) ++ 98 :: decDigits i.toNat = (q ++ [100]) ++ 98 :: decDigits j.toNat := by simpa using h
  obtain ⟨h1, h2⟩ := split_last (decDigits_not _) (decDigits_not _) h'
  exact ⟨by simpa using h1, UInt32.toNat_inj.1 (decDigits_inj h2)⟩

/-! ### Concrete cases -/

example : parseNodeID (hexEncode (List.replicate 63 7 ++ [0xab])) = some (List.replicate 63 7 ++ [0xab]) := by decide +kernel
example : stringsToNodeIDs [hexEncode [1, 2], [65, 66]] = some [List.replicate 62 0 ++ [1, 2], List.replicate 63 0 ++ [0xab]] ∧
    stringsToNodeIDs [hexEncode [1, 2], [65]] = none ∧ stringsToNodeIDs [hexEncode [1, 2], [65, 71]] = none := by decide +kernel
example : appendByHex [[1]] [48, 50] = (true, [[1], List.replicate 63 0 ++ [2]]) ∧ appendByHex [[1]] [48, 103] = (false, [[1]]) := by decide +kernel
example : isIn [[1], [2]] [2] = true ∧ isIn [[1], [2]] [3] = false ∧ isNodeIDIn (fun b => b.take 1) [[1], [2]] [2, 5] = true := by decide
example : identifiersToNodeIDs (some [some [1], none, some [2]]) = some [[1], [2]] ∧ identifiersToNodeIDs none = none := by decide
example : formalizeBasePath [] = [46, 47] ∧ formalizeBasePath [97] = [97, 47] ∧ formalizeBasePath [97, 47] = [97, 47] := by decide
example : databasePath [97, 47] 103 = [97, 47, 100, 98, 49, 48, 51] := by
  simp [databasePath, decDigits, hexChar, show (103 : UInt32).toNat = 103 from rfl]

end Verif.Nodes

import Verif.Trie.ProofText
import Verif.Hex.Shown

/-!
# Property C177: the long text of a proof of a trie (/repo/trie/proof.go:297-313)
-/

namespace Verif.Trie.ProofText
open Verif Verif.Hex Verif.Merkle Verif.Trie Verif.Trie.Json
open Verif.Merkle.Texts (infoString C171_info_items)

/-- The format of `NodeProof.InfoString` (`/repo/trie/proof.go:302-312`). -/
def infoText (base : Bytes) (t : UInt8) (h : Header) (v c : Bytes) : Bytes :=
  ascii ['N', 'P', '{'] ++
    ((10 :: (base ++ 9 :: ascii ['P', 'T', 'Y', 'P', 'E', ':', ' '])) ++ (typeText t ++
    ((10 :: (base ++ 9 :: ascii ['H', 'e', 'a', 'd', 'e', 'r', ':', ' '])) ++ (headerText h ++
    ((10 :: (base ++ 9 :: ascii ['V', 'a', 'l', 'u', 'e', ':', ' '])) ++ (hexEncode v ++
    ((10 :: (base ++ 9 :: ascii ['C', 'h', 'i', 'l', 'd', 'r', 'e', 'n', ':', ' '])) ++ (c ++ 10 :: (base ++ ascii ['}'])))))))))

/-- `NodeProof.InfoString` (`/repo/trie/proof.go:297-313`); `none` is the nil pointer. -/
def nodeInfo (level : Int) : Option NodeProof → Res Bytes
  | none => .ok (ascii ['N', 'P', '<', 'n', 'i', 'l', '>'])
  | some n =>
    match forPrint (some (.ptr (n.valueHash.map .array))) [0], infoString (level + 1) n.childProofs with
    | .ok v, .ok c => .ok (infoText (Printing.indentString level) n.ptype n.header v c)
    | .ok _, r => r
    | r, _ => r

theorem typeText_line (t : UInt8) : (10 : UInt8) ∉ typeText t := by
  unfold typeText
  have hd : ∀ n, (10 : UInt8) ∉ decDigits n := fun n => decDigits_no n 10 (by decide)
  split
  · simp only [ascii, List.map_cons, List.map_nil, List.mem_append, not_or]
    exact ⟨by decide, hd _⟩
  · split
    · decide
    · split
      · decide
      · split
        · decide
        · split
          · decide
          · split
            · simp only [List.mem_append, not_or]
              exact ⟨⟨⟨⟨by decide, hd _⟩, by decide⟩, hd _⟩, by decide⟩
            · decide

/-- All of a hash is shown, and nothing for nil. -/
theorem forPrint_hash (v : Option Bytes) (hv : ∀ h, v = some h → h.length = 32) :
    forPrint (some (.ptr (v.map .array))) [0] = .ok (v.getD []) := by
  cases v with
  | none => rfl
  | some h =>
    have hl := hv h rfl
    simp only [forPrint, Option.map_some, forPrintValue, startAndEnd, hl, goSlice, Option.getD_some]
    norm_num
    rw [List.take_of_length_le (by omega)]

/-- A proof with the Merkle proof made of the items `L`, if there is one. -/
def madeOf (ptype : UInt8) (header : Header) (value : Option Bytes) (L : Option (List (Bytes × Bool))) : NodeProof :=
  { ptype := ptype, header := header, valueHash := value, childProofs := L.map Merkle.Texts.build }

theorem info_none (level : Int) (p : Proofs) : infoString level none ≠ infoString level (some p) := by
  simp only [infoString]
  split <;> simp [ascii]

/-- **C177, the long text.** Of two proofs whose Merkle proofs were made by appending items, the long texts are the same exactly when they
have the same type (as far as it has a meaning), headers that are shown alike, the same hash of a value or none, and Merkle proofs with the
same items in the same order, or none. -/
theorem C177_info (level : Int) (t u : UInt8) (h g : Header) (v w : Option Bytes) (L M : Option (List (Bytes × Bool)))
    (hv : ∀ x, v = some x → x.length = 32) (hw : ∀ x, w = some x → x.length = 32)
    (hL : ∀ l, L = some l → l.length < 2 ^ 48 ∧ ∀ x ∈ l, x.1.length = 32) (hM : ∀ l, M = some l → l.length < 2 ^ 48 ∧ ∀ x ∈ l, x.1.length = 32) :
    (∃ s, nodeInfo level (some (madeOf t h v L)) = .ok s) ∧
    (nodeInfo level (some (madeOf t h v L)) = nodeInfo level (some (madeOf u g w M)) ↔
      (t = u ∨ Unnamed t ∧ Unnamed u) ∧ SameShown h g ∧ v = w ∧ L = M) := by
  have hok : ∀ (L : Option (List (Bytes × Bool))), (∀ l, L = some l → l.length < 2 ^ 48 ∧ ∀ x ∈ l, x.1.length = 32) →
      ∃ c, infoString (level + 1) (L.map Merkle.Texts.build) = .ok c := by
    intro L hL
    cases L with
    | none => exact ⟨_, rfl⟩
    | some l =>
      obtain ⟨gs, g1, g2⟩ := Merkle.Texts.groups_build l
      exact ⟨_, Merkle.Texts.C171_info (level + 1) (Merkle.Texts.build l) gs g1 (lt_of_le_of_lt (Merkle.Texts.paths_build l) (hL l rfl).1) (by have := (hL l rfl).1; omega)⟩
  obtain ⟨c, hc⟩ := hok L hL
  obtain ⟨d, hd⟩ := hok M hM
  have e1 : nodeInfo level (some (madeOf t h v L)) = .ok (infoText (Printing.indentString level) t h (v.getD []) c) := by
    rw [nodeInfo]
    simp only [madeOf, forPrint_hash v hv, hc]
  have e2 : nodeInfo level (some (madeOf u g w M)) = .ok (infoText (Printing.indentString level) u g (w.getD []) d) := by
    rw [nodeInfo]
    simp only [madeOf, forPrint_hash w hw, hd]
  refine ⟨⟨_, e1⟩, ?_⟩
  rw [e1, e2]
  constructor
  · intro e
    have e := Res.ok.inj e
    unfold infoText at e
    have a1 := List.append_cancel_left (List.append_cancel_left e)
    obtain ⟨a2, a3⟩ := cut (typeText_line _) (typeText_line _) a1
    have a4 := List.append_cancel_left (as := Printing.indentString level ++ 9 :: ascii ['H', 'e', 'a', 'd', 'e', 'r', ':', ' ']) a3
    obtain ⟨a5, a6⟩ := header_cut a4
    have a7 := List.append_cancel_left a6
    have hx : ∀ i : Fin 16, (10 : UInt8) ≠ hexChar i.val := by decide +kernel
    obtain ⟨a8, a9⟩ := cut (hex_no _ 10 hx) (hex_no _ 10 hx) a7
    have a10 := List.append_cancel_left (as := Printing.indentString level ++ 9 :: ascii ['C', 'h', 'i', 'l', 'd', 'r', 'e', 'n', ':', ' ']) a9
    have a11 : c = d := List.append_cancel_right a10
    refine ⟨(C167_types _ _).1 a2, a5, ?_, ?_⟩
    · have := Merkle.Texts.hexEncode_inj a8
      cases v with
      | none =>
        cases w with
        | none => rfl
        | some y => have := congrArg List.length this; simp [hw y rfl] at this
      | some x =>
        cases w with
        | none => have := congrArg List.length this; simp [hv x rfl] at this
        | some y => rw [Option.getD_some, Option.getD_some] at this; rw [this]
    · rw [← a11] at hd
      have hh := hc.trans hd.symm
      cases L with
      | none =>
        cases M with
        | none => rfl
        | some m => exact absurd hh (info_none _ _)
      | some l =>
        cases M with
        | none => exact absurd hh.symm (info_none _ _)
        | some m =>
          have := (C171_info_items (level + 1) l m (hL l rfl).2 (hM m rfl).2 (hL l rfl).1 (hM m rfl).1).1 hh
          rw [this]
  · rintro ⟨b1, b2, rfl, rfl⟩
    rw [hc] at hd
    rw [infoText, infoText, (C167_types _ _).2 b1, (C167_headers _ _).2 b2, Res.ok.inj hd]

/-- C177, the long text: that of a nil pointer is told from all others. -/
theorem C177_info_nil (level : Int) (n : NodeProof) : nodeInfo level none ≠ nodeInfo level (some n) := by
  intro h
  simp only [nodeInfo] at h
  split at h
  · have := Res.ok.inj h
    simp [infoText, ascii] at this
  · rename_i h1; exact h1 _ h.symm
  · rename_i h0 h1; exact h0 _ h.symm

/-- Two proofs that differ in the last byte of the hash of the value have the same short text, not the same long text. -/
example : let n := fun b : UInt8 => madeOf proofValue ⟨0, [], 0, 0⟩ (some (List.replicate 31 1 ++ [b])) none
    nodeSummary (some (n 0)) = nodeSummary (some (n 1)) ∧ nodeInfo 0 (some (n 0)) ≠ nodeInfo 0 (some (n 1)) := by decide +kernel

end Verif.Trie.ProofText

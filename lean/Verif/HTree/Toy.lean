import Verif.HTree.Store
import Verif.Trie.CodecProps
import Verif.Merkle.Props

/-!
# A concrete codec and digest for examples
-/

namespace Verif.HTree
open Verif Verif.Merkle Verif.Trie

/-- An optional byte string. -/
def encOpt : Option Bytes → Bytes
  | none => [0]
  | some x => 1 :: toyRtl.enc x

def decOpt : Bytes → Option (Option Bytes × Bytes)
  | 0 :: r => some (none, r)
  | 1 :: r => (toyRtl.dec r).map fun y => (some y.1, y.2)
  | _ => none

def encOpts (l : List (Option Bytes)) : Bytes := (l.map encOpt).flatten

def decOpts : Nat → Bytes → Option (List (Option Bytes))
  | 0, _ => some []
  | n + 1, b =>
    match decOpt b with
    | none => none
    | some (x, r) => (decOpts n r).map (x :: ·)

theorem decOpt_encOpt (x : Option Bytes) (r : Bytes) : decOpt (encOpt x ++ r) = some (x, r) := by
  cases x with
  | none => rfl
  | some x =>
    simp only [encOpt, List.cons_append, decOpt]
    rw [toyRtl_lawful x r]
    rfl

theorem decOpts_encOpts (l : List (Option Bytes)) (r : Bytes) : decOpts l.length (encOpts l ++ r) = some l := by
  induction l with
  | nil => rfl
  | cons x l ih =>
    simp only [encOpts, List.map_cons, List.flatten_cons, List.append_assoc, List.length_cons, decOpts] at ih ⊢
    rw [decOpt_encOpt]
    simp [ih]

/-- A codec that satisfies the assumption. -/
def toyC : HCodec where
  encSlots s := encOpts (nibbles.map s)
  decSlots b := (decOpts 16 b).map fun l j => (l[j.val]?).getD none
  encNode leaf br s := (if leaf then 1 else 0) :: encOpts (prefixes.map br ++ nibbles.map s)
  decNode
    | 1 :: b => (decOpts 31 b).map fun l => (true, fun p => ((prefixes.zip l).lookup p).getD none, fun j => ((l.drop 15)[j.val]?).getD none)
    | 0 :: b => (decOpts 31 b).map fun l => (false, fun p => ((prefixes.zip l).lookup p).getD none, fun j => ((l.drop 15)[j.val]?).getD none)
    | _ => none

theorem slots_back (s : Nib → Option Bytes) : (fun j : Nib => ((nibbles.map s)[j.val]?).getD none) = s := by
  funext j
  have : nibbles[j.val]? = some j := by revert j; decide
  simp [this]

theorem zip_lookup {α β : Type} [BEq α] [LawfulBEq α] (f : α → β) (l : List α) (r : List β) (p : α) (h : p ∈ l) :
    (l.zip (l.map f ++ r)).lookup p = some (f p) := by
  induction l with
  | nil => cases h
  | cons a l ih =>
    simp only [List.map_cons, List.cons_append, List.zip_cons_cons, List.lookup_cons]
    by_cases hp : p = a
    · simp [hp]
    · have : (p == a) = false := by simp [hp]
      rw [this]
      exact ih (by simpa [hp] using h)

theorem zip_lookup_none {α β : Type} [BEq α] [LawfulBEq α] (l : List α) (r : List β) (p : α) (h : p ∉ l) :
    (l.zip r).lookup p = none := by
  rw [List.lookup_eq_none_iff]
  intro q hq
  have := List.of_mem_zip hq
  simp only [ne_eq, bne_iff_ne]
  intro e
  exact h (e ▸ this.1)

theorem branches_back (br : List Bool → Option Bytes) (r : List (Option Bytes))
    (h : ∀ p x, br p = some x → p.length < 4 ∧ x ≠ []) :
    (fun p => ((prefixes.zip (prefixes.map br ++ r)).lookup p).getD none) = br := by
  funext p
  by_cases hp : p ∈ prefixes
  · rw [zip_lookup br prefixes r p hp]; rfl
  · rw [zip_lookup_none _ _ _ hp]
    cases hb : br p with
    | none => rfl
    | some x => exact absurd (mem_prefixes.mpr (h p x hb).1) hp

theorem toyC_lawful : toyC.Lawful where
  slots := by
    intro s _
    have h := decOpts_encOpts (nibbles.map s) []
    rw [List.append_nil, List.length_map] at h
    have h16 : nibbles.length = 16 := rfl
    rw [h16] at h
    simp only [toyC]
    rw [h, Option.map_some, slots_back]
  node := by
    intro leaf br s hb _
    have h := decOpts_encOpts (prefixes.map br ++ nibbles.map s) []
    rw [List.append_nil, List.length_append, List.length_map, List.length_map] at h
    have h31 : prefixes.length + nibbles.length = 31 := rfl
    rw [h31] at h
    have hd : (prefixes.map br ++ nibbles.map s).drop 15 = nibbles.map s := by
      rw [List.drop_append_of_le_length (by simp [prefixes])]
      rfl
    cases leaf <;>
    · simp only [toyC, if_true, Bool.false_eq_true, if_false, h, Option.map_some, hd, slots_back, branches_back br _ hb]

/-- A storage that never fails. -/
def toyHE : HEnv := ⟨toyH, toyC, fun _ => false⟩

theorem toyHE_len (b : Bytes) : (toyHE.H b).length = 32 := toyH_len b

end Verif.HTree

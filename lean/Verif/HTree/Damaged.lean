import Verif.HTree.Toy
import Verif.HTree.Claims

/-!
# Property C169 for history trees: a storage that is not to be trusted

`_newHistoryTree` (`/repo/trie/historytree.go:69-99`) and `readFull` (`/repo/trie/historytree.go:1028-1073`) over an arbitrary
storage.  Nothing is modelled anew.
-/

namespace Verif.HTree
open Verif Verif.Merkle Verif.Trie

theorem opened_closed (E : HEnv) (D : HDisk) (root : Bytes) (h : root ≠ []) : opened E D (closed root) = readFull E D false root := by
  have hb : (prefixes.filter fun p => ((if p = [] then some root else none : Option Bytes)).isSome) = [[]] := by
    simp [prefixes]
  have hc : isCollapsed ⟨false, false, fun p => if p = [] then some root else none, fun _ => none⟩ (fun _ => .nil) = true := by
    simp only [isCollapsed, hb]
    simp [hasChild, TNode.isSome]
  simp only [closed, opened, hc, if_true, h, if_false]

/-- **C169 fails for history trees too.** What is opened at a root is what the bytes under it say: with the bytes of another
root there it is the other tree. -/
theorem C169_history_forged_refuted (E : HEnv) (D : HDisk) (root root' : Bytes) (hl : root.length = 32) (hl' : root'.length = 32)
    (hn : root ≠ nilHash E.H) (hn' : root' ≠ nilHash E.H) (hforged : D root = D root') (check : Bool) :
    openTree E D root check = openTree E D root' check := by
  have h0 : ∀ x : Bytes, x.length = 32 → x ≠ [] := by rintro x h rfl; simp at h
  have hr : readFull E D false root = readFull E D false root' := by
    simp only [readFull, h0 _ hl, h0 _ hl', hn, hn', or_self, if_false, hforged]
  have hf : findRightmost E D check 16 (closed root) = findRightmost E D check 16 (closed root') := by
    simp only [findRightmost, opened_closed E D root (h0 _ hl), opened_closed E D root' (h0 _ hl'), hr]
  simp only [openTree, hl, hl', hn, hn', hf, ne_eq, not_true_eq_false, or_self, if_false]

/-- **C169 fails** for the hash as well: the bytes may name a hash for the root of the tree, which is taken as it is.  The tree
opened at such bytes has the root as its hash whatever its values are. -/
theorem C169_history_hash_refuted (E : HEnv) (D : HDisk) (root : Bytes) (hl : root.length = 32) (hn : root ≠ nilHash E.H)
    (body : Bytes) (br : List Bool → Option Bytes) (s : Nib → Option Bytes) (hD : D root = some (0xff :: body))
    (hb : E.C.decNode body = some (false, br, s)) (hr : br [] = some root) (check : Bool) (t : Tree)
    (ht : openTree E D root check = some t) : (t.hash E).2 = some root := by
  have h0 : root ≠ [] := by rintro rfl; simp at hl
  have hrd : readFull E D false root = (.mk ⟨false, false, br, fun _ => none⟩ (kidsOf s), true) := by
    simp only [readFull, h0, hn, or_self, if_false, hD, hb]
    rfl
  have key : ∀ c, (hashNode E.H (.mk ⟨false, false, br, fun _ => none⟩ c)).2 = some (some root) := by
    intro c
    simp only [hashNode, hashPfx, hr, Option.map_some]
  have hroot : ∃ c, t.root = .mk ⟨false, false, br, fun _ => none⟩ c := by
    simp only [openTree, hl, hn, ne_eq, not_true_eq_false, or_self, if_false, Option.bind_eq_some_iff, Option.map_eq_some_iff] at ht
    obtain ⟨q, hq, hh, -, rfl⟩ := ht
    simp only [findRightmost, opened_closed E D root h0, hrd, Bool.true_eq_false, if_false, Bool.false_eq_true]
    split
    · exact ⟨_, rfl⟩
    · exact ⟨_, rfl⟩
  obtain ⟨c, hc⟩ := hroot
  rw [Tree.hash, hc]
  simp only [key c, Option.map_some, Option.getD_some]

/-- The values of the tree that is asked for, and those of the forger. -/
def askedRoot : Bytes := (((appended toyHE noDisk [toyLeaf 100, toyLeaf 101]).hash toyHE).2).getD []
def forger : Tree := ((appended toyHE noDisk [toyLeaf 7, toyLeaf 8, toyLeaf 9]).commit toyHE).1
def forgerRoot : Bytes := ((forger.hash toyHE).2).getD []

/-- The storage of the forger with one more entry: under the root that is asked for the node of the forger, which claims to
have this root. -/
def forgedDisk : HDisk := fun k =>
  if k = askedRoot then
    ((forger.D forgerRoot).bind fun b => toyC.decNode (b.drop 1)).map fun n =>
      0xff :: toyC.encNode false (fun p => if p = [] then some askedRoot else none) n.2.2
  else forger.D k

example : (openTree toyHE forgedDisk askedRoot true).map (fun t => (t.expecting, (t.hash toyHE).2)) = some (3, some askedRoot) := by
  decide +kernel

example : (openTree toyHE forgedDisk askedRoot true).map (fun t => ((t.get toyHE 0).2, (t.get toyHE 2).2)) =
    some (some (toyLeaf 7), some (toyLeaf 9)) := by decide +kernel

example : askedRoot ≠ forgerRoot ∧ askedRoot.length = 32 := by decide +kernel

end Verif.HTree

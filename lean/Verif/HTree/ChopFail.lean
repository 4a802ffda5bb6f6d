import Verif.HTree.Chop

/-!
# Chopping nodes whose children have no hash: C119
-/

namespace Verif.HTree
open Verif Verif.Trie

/-- **C119.** The children are copied without an error exactly if each of them that is there has a hash. -/
theorem C119_copies (H : Bytes → Bytes) (ks : List Nib) (hn : ks.Nodup) : ∀ (c new : Nib → TNode),
    ((copyKids H ks c new).2.2 = true ↔ ∀ k ∈ ks, (c k).isSome = true → (hashNode H (c k)).2.isSome = true) := by
  induction ks with
  | nil => intro c new; simp [copyKids]
  | cons k ks ih =>
    intro c new
    obtain ⟨hk, hks⟩ := List.nodup_cons.1 hn
    rw [copyKids]
    split
    · rename_i hs
      simp only
      split
      · rename_i he
        simp only [Bool.false_eq_true, false_iff]
        intro h
        have := h k (List.mem_cons_self ..) hs
        rw [he] at this
        cases this
      · rename_i o he
        rw [ih hks]
        have other : ∀ m ∈ ks, setKid c k (hashNode H (c k)).1 m = c m := by
          intro m hm
          simp only [setKid]
          rw [if_neg (fun (e : m = k) => hk (e ▸ hm))]
        constructor
        · intro h m hm
          rcases List.mem_cons.1 hm with rfl | hm
          · intro _; rw [he]; rfl
          · rw [← other m hm]; exact h m hm
        · intro h m hm
          rw [other m hm]
          exact h m (List.mem_cons_of_mem _ hm)
    · rename_i hs
      rw [ih hks]
      constructor
      · intro h m hm
        rcases List.mem_cons.1 hm with rfl | hm
        · intro h'; exact absurd h' hs
        · exact h m hm
      · intro h m hm
        exact h m (List.mem_cons_of_mem _ hm)

/-- A leaf with a hole: the first value is missing and the second is there. -/
def holed : TNode := .mk ⟨false, true, fun _ => none, fun j => if j = 1 then some (List.replicate 32 1) else none⟩ fun _ => .nil

/-- It has no hash, so that it is not copied; without it the others are. -/
example : (hashNode toyHE.H holed).2 = none ∧ (copyKids toyHE.H [0, 1] (fun k => if k = 1 then holed else .nil) fun _ => .nil).2.2 = false ∧
    (copyKids toyHE.H [0, 2] (fun k => if k = 1 then holed else .nil) fun _ => .nil).2.2 = true := by decide +kernel

end Verif.HTree

import Verif.Trie.Copy

/-!
# What `BatchPutter.Put` reports: C122
-/

namespace Verif.Trie.Store
open Verif Verif.Merkle Verif.Trie

variable {V : Type}

/-- **C122.** `Put` tells whether the trie changed, counts exactly the keys that changed it, and returns an error exactly if the batch is
full and its commit failed; whatever trie, storage, failures and key. -/
theorem C122_reports (E : Env V) (F : Faults) (L : Limits) (p p' : Putter V) (k : Bytes) (x : V) (a b : Bool)
    (h : p.put E F L k x = .ok (p', a, b)) :
    a = (p.s.t.put E p.s.D k x).2 ∧ p'.count = p.count + (if a then 1 else 0) ∧ p'.m = p.m ∧
    (b = false ↔ a = true ∧ ((p.count + 1 : Nat) : Int).tmod p.m = 0 ∧
      ((p.s.t.put E p.s.D k x).1.commit E F L p.s.D).2.2 = false) := by
  unfold Putter.put at h
  simp only at h
  split at h
  · rename_i h1
    split at h
    · cases h
    · split at h
      · rename_i h2
        split at h
        · rename_i h3
          cases h
          simp [h1, h3]
        · rename_i h3
          cases h
          simp [h1, h3]
          exact_mod_cast h2
      · rename_i h2
        cases h
        simp [h1]
        intro hh
        exact absurd (by exact_mod_cast hh) h2
  · rename_i h1
    cases h
    simp [h1]

/-- Batches of two with failing storage: the first key is put without an error, the second one with. -/
example : (match Putter.put toyE ⟨fun _ => true, fun _ => true⟩ realLimits ⟨⟨openTrie none, freshDisk⟩, 2, 0⟩ [1] [1] with
      | .ok (p, a, b) => decide (a = true ∧ b = true ∧ p.count = 1) &&
        (match p.put toyE ⟨fun _ => true, fun _ => true⟩ realLimits [2] [2] with
        | .ok (q, a, b) => decide (a = true ∧ b = false ∧ q.count = 2)
        | _ => false)
      | _ => false) = true := by decide +kernel

end Verif.Trie.Store

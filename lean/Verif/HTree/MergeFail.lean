import Verif.HTree.Merge

/-!
# Merging below a node that cannot be read: C118
-/

namespace Verif.HTree

/-- **C118.** A value of a proof reported as put is in the node that results, and it is not reported when the node is
not there or cannot be read. -/
theorem C118_put (E : HEnv) (D : HDisk) (p : List Bool) (x : Bytes) (n : TNode) :
    ((putVal E D p x n).2 = true → ∃ i c, (putVal E D p x n).1 = .mk i c ∧ i.br p = some x) ∧
    (putVal E D p x n).2 = ((opened E D n).2 && match (opened E D n).1 with | .nil => false | .mk _ _ => true) := by
  unfold putVal
  rcases opened E D n with ⟨m, b⟩
  cases b
  · simp
  · cases m <;> simp

/-- A node known by its hash alone. -/
def shutNode : TNode := .mk ⟨false, false, fun p => if p = [] then some (List.replicate 32 3) else none, fun _ => none⟩ fun _ => .nil

/-- Below a node whose entry is damaged nothing is put. Without an entry the value is put into an empty node. -/
example : (putVal toyHE (fun _ => some [5]) [true] [9] shutNode).2 = false ∧ (putVal toyHE noDisk [true] [9] .nil).2 = false ∧
    (putVal toyHE noDisk [true] [9] shutNode).2 = true := by decide +kernel

end Verif.HTree

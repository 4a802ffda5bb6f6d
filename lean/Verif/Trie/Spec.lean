import Verif.Trie.Model

/-!
# What a trie is supposed to be: a finite map

Independent of the tree: a history of calls denotes a function from keys to optional values.
-/

namespace Verif.Trie

variable {V : Type}

/-- The effect of one call on the map. -/
def specStep (m : Bytes → Option V) : Op V → (Bytes → Option V)
  | .put k x => fun k' => if k' = k then some x else m k'
  | .del k => fun k' => if k' = k then none else m k'

/-- The map after a history of calls. -/
def spec (ops : List (Op V)) : Bytes → Option V := ops.foldl specStep (fun _ => none)

/-- A set of keys none of which is a proper prefix of another one. -/
def PrefixFree (K : Bytes → Prop) : Prop := ∀ a b, K a → K b → a <+: b → a = b

/-- A call on `k` is unambiguous for the contents `m`: `k` is stored, or no stored key properly extends `k`. -/
def Clear (m : Bytes → Option V) (k : Bytes) : Prop :=
  (m k).isSome = true ∨ ∀ k', (m k').isSome = true → k <+: k' → k' = k

/-- Every call of a history is unambiguous at the time it is made, starting from contents `m`. -/
def ClearFrom (m : Bytes → Option V) : List (Op V) → Prop
  | [] => True
  | op :: rest => Clear m op.key ∧ ClearFrom (specStep m op) rest

/-- `n` is the number of keys a map holds. -/
def Holds (m : Bytes → Option V) (n : Nat) : Prop :=
  ∃ ks : List Bytes, ks.Nodup ∧ (∀ k, k ∈ ks ↔ (m k).isSome = true) ∧ ks.length = n

end Verif.Trie

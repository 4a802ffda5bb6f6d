import Verif.Trie.Store
import Verif.Trie.Codec

/-!
# The two value iterators

Model of `/repo/trie/iterator.go`.  Both iterators walk over a clone of the trie, i.e. over a tree that starts as a bare root
hash and is expanded from the storage while walking.

Simplifications:

* the iterators share the nodes with the tree of the clone; here a stack entry holds its own copy of the node.  An entry
  whose child is expanded or replaced is updated; the copies further down the stack are not.  They are read again only
  when the walk returns to them, and then only at positions that have not been visited yet;
* `collapse` of a child that has been left behind (`/repo/trie/iterator.go:112-115, 357, 380`) is not modelled for the
  same reason: nothing below it is visited again;
* locks are omitted: every call is one step.
-/

namespace Verif.Trie.Store
open Verif Verif.Trie

variable {V : Type}

/-- The selector of `trieValueIterator.Next` (`/repo/trie/iterator.go:254-265`) and the expansion in
`reversedValueIterator.Next` (`:360-365`) leave the node expanded, as far as it can be loaded; errors are ignored. -/
def visit (E : Env V) (D : Disk) (g : UInt64) (n : BNode V) : BNode V :=
  match (fullExpand E D g n).1 with
  | .nil => .nil
  | .mk i c => (expandValue E D i c).1

/-- `node.value`. -/
def BNode.value : BNode V → Option V
  | .nil => none
  | .mk i _ => i.value

/-- `node.prefix`. -/
def BNode.pre : BNode V → List Nib
  | .nil => []
  | .mk i _ => i.pre

/-- `node.children[j]`. -/
def BNode.kid : BNode V → Nib → BNode V
  | .nil, _ => .nil
  | .mk _ c, j => c j

/-- `node.children[j] = x`. -/
def BNode.setKid : BNode V → Nib → BNode V → BNode V
  | .nil, _, _ => .nil
  | .mk i c, j, x => .mk i (Store.setKid c j x)

/-- The first non-nil child at or behind position `k` (the loops `/repo/trie/iterator.go:117-122, 167-176`). -/
def firstKid (n : BNode V) (k : Nat) : Option Nib := (nibbles.drop k).find? fun j => (n.kid j).isSome

/-! ### Forward -/

/-- A `tracenode` (`/repo/trie/iterator.go:25-28`); `none` is the illegal index `childrenLength + 1` of the root entry. -/
structure Tr (V : Type) where
  index : Option Nib
  node : BNode V

/-- `tracenode.current` (`/repo/trie/iterator.go:67-78`). The node of an entry has been expanded before. -/
def Tr.current (t : Tr V) : BNode V :=
  match t.index with
  | none => .nil
  | some j => t.node.kid j

/-- An entry that points to child `j`, which has been visited. -/
def Tr.to (E : Env V) (D : Disk) (g : UInt64) (n : BNode V) (j : Nib) : Tr V := ⟨some j, n.setKid j (visit E D g (n.kid j))⟩

/-- `moveToNext` (`/repo/trie/iterator.go:97-124`): the position to begin with. -/
def Tr.from (t : Tr V) : Nat :=
  match t.index with
  | none => 0
  | some j => j.val + 1

/-- The loop over the siblings (`/repo/trie/iterator.go:179-199`): the stack when a node is found, the top of the stack
first; `none` when the traversal is complete. -/
def siblings (E : Env V) (D : Disk) (g : UInt64) : List (Tr V) → Option (List (Tr V))
  | [] => none
  | t :: rest =>
    match firstKid t.node t.from with
    | some j => some (Tr.to E D g t.node j :: rest)
    | none => siblings E D g rest

/-- One round of `depthFirstNextStep` after the root has been put on the stack (`/repo/trie/iterator.go:163-200`). -/
def forward (E : Env V) (D : Disk) (g : UInt64) : List (Tr V) → Option (List (Tr V))
  | [] => none
  | t :: rest =>
    match firstKid t.current 0 with
    | some j => some (Tr.to E D g t.current j :: t :: rest)
    | none => siblings E D g (t :: rest)

/-- `s.current`: the child the top entry points to, or the root. -/
def here : List (Tr V) → BNode V
  | [] => .nil
  | t :: _ =>
    match t.index with
    | none => t.node
    | some j => t.node.kid j

/-- The state of an iterator: not started, at a stack, or ended. -/
inductive It (α : Type) where
  | fresh
  | at (stack : List α)
  | ended

/-- `nodeIterator.Next` with the selector of the value iterator (`/repo/trie/iterator.go:147-201, 215-223, 253-271`).
The first argument bounds the number of rounds; `none` means it was too small. -/
def nextF (E : Env V) (D : Disk) (g : UInt64) (root : BNode V) : Nat → It (Tr V) → Option (It (Tr V))
  | 0, _ => none
  | _ + 1, .ended => some .ended
  | f + 1, .fresh =>
    if (visit E D g root).value.isSome then some (.at [⟨none, visit E D g root⟩])
    else nextF E D g root f (.at [⟨none, visit E D g root⟩])
  | f + 1, .at st =>
    match forward E D g st with
    | none => some .ended
    | some st' => if (here st').value.isSome then some (.at st') else nextF E D g root f (.at st')

/-- `currentPrefix` (`/repo/trie/iterator.go:80-93`). -/
def Tr.path (t : Tr V) : List Nib :=
  match t.index with
  | none => []
  | some j => t.node.pre ++ [j]

/-- `currentNodePrefix` (`/repo/trie/iterator.go:133-145`). The stack has its top first. -/
def pathOf : List (Tr V) → List Nib
  | [] => []
  | t :: rest => pathOf rest ++ t.path

/-- `trieValueIterator.Current` behind the call of `Current` of the node iterator (`/repo/trie/iterator.go:278-291`). A nil
key is the empty one. -/
def currentOf (q : List Nib) (v : Option V) : Res (Bytes × Option V) :=
  if q = [] then .ok ([], v)
  else if q.length % 2 ≠ 0 then .panic
  else .ok (prefixToKeystring (q.map nibByte), v)

/-- `trieValueIterator.Current` (`/repo/trie/iterator.go:273-291`). -/
def current : It (Tr V) → Res (Bytes × Option V)
  | .at st => currentOf (pathOf st ++ (here st).pre) (here st).value
  | _ => .ok ([], none)

/-- `for it.Next() { it.Current() }`: all that the iterator yields.  `err` means that the bound was too small. -/
def collect (E : Env V) (D : Disk) (g : UInt64) (root : BNode V) : Nat → It (Tr V) → Res (List (Bytes × Option V))
  | 0, _ => .err
  | f + 1, it =>
    match nextF E D g root f it with
    | none => .err
    | some .fresh => .err
    | some .ended => .ok []
    | some (.at st) =>
      match current (.at st) with
      | .ok kv => (match collect E D g root f (.at st) with
        | .ok l => .ok (kv :: l)
        | r => r)
      | .panic => .panic
      | .err => .err

/-- `ValueIterator` followed by the loop (`/repo/trie/trie.go:935-941`): the clone is committed before. -/
def BTrie.iterate (E : Env V) (F : Faults) (L : Limits) (D : Disk) (t : BTrie V) (fuel : Nat) :
    Res (List (Bytes × Option V)) :=
  let r := t.clone E F L D
  collect E r.2.1 r.2.2.gen r.2.2.root fuel .fresh

/-! ### Backward -/

/-- A `reversedTrace` (`/repo/trie/iterator.go:294-297`).  `pos` is `index + 1`, so that it is never negative. -/
structure RTr (V : Type) where
  pos : Nat
  node : BNode V

/-- The last non-nil child before position `k` (the loop `/repo/trie/iterator.go:367-389`). -/
def lastKid (n : BNode V) (k : Nat) : Option Nib := (nibbles.take k).reverse.find? fun j => (n.kid j).isSome

/-- What one round of the loop does. -/
inductive Round (α : Type) where
  | go (stack : List α)
  | found (stack : List α)
  | ended

/-- One round of the loop of `reversedValueIterator.Next` (`/repo/trie/iterator.go:333-388`).  When the child at position 0
was the last one visited, the index becomes negative without the value being looked at. -/
def backward (E : Env V) (D : Disk) (g : UInt64) : List (RTr V) → Round (RTr V)
  | [] => .ended
  | t :: rest =>
    if t.pos = 0 then .go rest
    else
      match lastKid (visit E D g t.node) (t.pos - 1) with
      | some j => .go (⟨17, (visit E D g t.node).kid j⟩ :: ⟨j.val + 1, visit E D g t.node⟩ :: rest)
      | none =>
        if t.pos = 1 then .go (⟨0, visit E D g t.node⟩ :: rest)
        else if (visit E D g t.node).value.isSome then .found (⟨0, visit E D g t.node⟩ :: rest)
        else .go rest

/-- `reversedValueIterator.Next` (`/repo/trie/iterator.go:333-393`). -/
def rnextF (E : Env V) (D : Disk) (g : UInt64) (root : BNode V) : Nat → It (RTr V) → Option (It (RTr V))
  | 0, _ => none
  | _ + 1, .ended => some .ended
  | f + 1, .fresh => if root.isSome then rnextF E D g root f (.at [⟨17, root⟩]) else some .ended
  | f + 1, .at st =>
    match backward E D g st with
    | .ended => some .ended
    | .found st' => some (.at st')
    | .go st' => rnextF E D g root f (.at st')

/-- The nibbles of the entries below the top (`/repo/trie/iterator.go:321-329`). -/
def rpath : List (RTr V) → List Nib
  | [] => []
  | t :: rest => rpath rest ++ t.node.pre ++ (if h : 0 < t.pos ∧ t.pos - 1 < 16 then [⟨t.pos - 1, h.2⟩] else [])

/-- `reversedValueIterator.Current` (`/repo/trie/iterator.go:309-331`). -/
def rcurrent : It (RTr V) → Bytes × Option V
  | .at (t :: rest) => (prefixToKeystring ((rpath rest ++ t.node.pre).map nibByte), t.node.value)
  | _ => ([], none)

/-- `for it.Next() { it.Current() }`; `none` means that the bound was too small. -/
def rcollect (E : Env V) (D : Disk) (g : UInt64) (root : BNode V) : Nat → It (RTr V) → Option (List (Bytes × Option V))
  | 0, _ => none
  | f + 1, it =>
    match rnextF E D g root f it with
    | none => none
    | some (.at st) => (rcollect E D g root f (.at st)).map (rcurrent (.at st) :: ·)
    | some _ => some []

/-- `ReversedValueIterator` followed by the loop (`/repo/trie/trie.go:960-963`). -/
def BTrie.riterate (E : Env V) (F : Faults) (L : Limits) (D : Disk) (t : BTrie V) (fuel : Nat) :
    Option (List (Bytes × Option V)) :=
  let r := t.clone E F L D
  rcollect E r.2.1 r.2.2.gen r.2.2.root fuel .fresh

end Verif.Trie.Store

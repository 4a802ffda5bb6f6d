import Verif.Base
import Mathlib.Logic.Function.Basic

/-!
# Model of the in-memory trie of `/repo/trie`

Level A: the tree that a `Trie` holds when nothing is collapsed, without the cached hashes. `Verif.Trie.Store`
adds caches, generations, collapsing and the storage and shows that they are transparent.

Simplifications common to the whole file:
* a nibble is `Fin 16` instead of a `byte` below 16 (`keyToPrefix`, `/repo/trie/utils.go:78-89`, produces nothing
  else);
* `prefixString[offset:]` is passed as one list instead of a string with an offset;
* values are of an arbitrary type `V`; storing a nil value (`Put(k, nil)`) is not modelled;
* the storage is not consulted at this level, hence there are no expansion errors;
* the mutable `*node` is a value, and functions that mutate it return the new one.
-/

namespace Verif.Trie

/-- A nibble, an index into the array of children (`childrenLength = 16`, `/repo/trie/node.go`). -/
abbrev Nib := Fin 16

/-- A node of the trie (`/repo/trie/node.go:252-268`, fields `prefix`, `value`, `children`). `nil` is the nil
pointer. -/
inductive Node (V : Type) where
  | nil
  | mk (pre : List Nib) (value : Option V) (child : Nib → Node V)

variable {V : Type}

/-- `n != nil`. -/
def Node.isSome : Node V → Bool
  | .nil => false
  | .mk _ _ _ => true

/-- An array of nil children. -/
def noChild : Nib → Node V := fun _ => .nil

/-- All the child indices in order, `for i := 0; i < childrenLength; i++`. -/
def nibbles : List Nib := List.finRange 16

/-- `hasChildren` (`/repo/trie/node.go:349-356`). -/
def hasChildren (c : Nib → Node V) : Bool := nibbles.any (fun i => (c i).isSome)

/-- `children[i] = x`. -/
def setChild (c : Nib → Node V) (i : Nib) (x : Node V) : Nib → Node V :=
  fun j => if j = i then x else c j

/-- `isEmpty` (`/repo/trie/node.go:310-318`). The conditions on the cached hash and on the value hash belong to the
storage level. -/
def isEmpty (p : List Nib) (v : Option V) (c : Nib → Node V) : Bool :=
  p.isEmpty && !hasChildren c && v.isNone

/-- `matchPrefix` (`/repo/trie/utils.go:27-35`). -/
def matchPrefix {α : Type} [DecidableEq α] : List α → List α → Nat
  | a :: s, b :: t => if a = b then matchPrefix s t + 1 else 0
  | _, _ => 0

/-- `keyToPrefix` (`/repo/trie/utils.go:78-89`): the two nibbles of every byte, high nibble first. -/
def keyToPrefix (key : Bytes) : List Nib :=
  key.flatMap fun b => [⟨b.toNat / 16, by have := b.toNat_lt; omega⟩, ⟨b.toNat % 16, by omega⟩]

/-- `get` (`/repo/trie/trie.go:264-322`) without expansion: the value found, `none` for `(nil, false)`. -/
def get : Node V → List Nib → Option V
  | .nil, _ => none
  | .mk p v c, q =>
    if q = [] then v                                              -- 269-275
    else if isEmpty p v c then none                               -- 277-280
    else
      let m := matchPrefix p q
      if p.drop m = [] then                                       -- startRemains == 0
        match q.drop m with
        | [] => v                                                 -- 297
        | i :: q' => get (c i) q'                                 -- 300-317 (nil child: none)
      else none                                                   -- 320

/-- A fresh node that carries a value (`createNode` followed by `setValue`, `/repo/trie/trie.go:141-155`). -/
def leaf (p : List Nib) (x : V) : Node V := .mk p (some x) noChild

/-- The `countdelta` of `setValue` with a non-nil value (`/repo/trie/node.go:444-466`). -/
def putDelta (v : Option V) : Int := if v.isSome then 0 else 1

/-- What `insert` leaves behind: the node that now stands at this place, the returned `changed` and the change of
`valueCount`. -/
structure PutRes (V : Type) where
  node : Node V
  changed : Bool
  delta : Int

/-- `insert` (`/repo/trie/trie.go:355-442`). `needReplace` is folded into the returned node. `setValue` with a
non-nil value always reports a change. -/
def insert : Node V → List Nib → V → PutRes V
  | .nil, _, _ => ⟨.nil, false, 0⟩                                 -- not reached: callers test for nil
  | .mk p v c, q, x =>
    if q = [] then ⟨.mk p (some x) c, true, putDelta v⟩            -- 365-370
    else if isEmpty p v c then ⟨.mk q (some x) c, true, putDelta v⟩ -- 371-375
    else
      let m := matchPrefix p q
      match p.drop m with
      | [] =>
        match q.drop m with
        | [] => ⟨.mk p (some x) c, true, putDelta v⟩               -- 391-396
        | i :: q' =>
          if (c i).isSome = false then
            ⟨.mk p v (setChild c i (leaf q' x)), true, putDelta (none : Option V)⟩ -- 401-406
          else
            let r := insert (c i) q' x                             -- 414-421
            ⟨.mk p v (setChild c i r.node), r.changed, r.delta⟩
      | j :: p' =>                                                 -- split, 423-442
        let old : Nib → Node V := setChild noChild j (.mk p' v c)
        match q.drop m with
        | [] => ⟨.mk (q.take m) (some x) old, true, putDelta (none : Option V)⟩
        | i :: q' => ⟨.mk (q.take m) none (setChild old i (leaf q' x)), true, putDelta (none : Option V)⟩

/-- The indices of the non-nil children. -/
def childIds (c : Nib → Node V) : List Nib := nibbles.filter (fun i => (c i).isSome)

/-- `mergeTheLastChild` (`/repo/trie/node.go:921-975`): a node without value and with exactly one child is replaced
by that child with the prefix extended. Returns the node and whether it merged. -/
def merge : Node V → Node V × Bool
  | .nil => (.nil, false)
  | .mk p (some v) c => (.mk p (some v) c, false)
  | .mk p none c =>
    match childIds c with
    | [i] =>
      match c i with
      | .nil => (.mk p none c, false)
      | .mk p2 v2 c2 =>
        (.mk (p ++ i :: p2) v2 (fun k => if (c2 k).isSome then c2 k else setChild c i .nil k), true)
    | _ => (.mk p none c, false)

/-- What `delete` leaves behind: the node (in the code the same object), the returned `changed`, `shouldRemove`,
`oldValue`, and the change of `valueCount`. -/
structure DelRes (V : Type) where
  node : Node V
  changed : Bool
  remove : Bool
  old : Option V
  delta : Int

/-- The `countdelta` of `setValue(nil)`. -/
def delDelta (v : Option V) : Int := if v.isSome then -1 else 0

/-- `removeValue` (`/repo/trie/trie.go:461-472`). -/
def removeValue (p : List Nib) (v : Option V) (c : Nib → Node V) : DelRes V :=
  if hasChildren c = false then ⟨.mk p none c, v.isSome, true, v, delDelta v⟩
  else
    let r := merge (.mk p none c)
    ⟨r.1, v.isSome || r.2, false, v, delDelta v⟩

/-- `delete` (`/repo/trie/trie.go:493-559`). -/
def delete : Node V → List Nib → DelRes V
  | .nil, _ => ⟨.nil, false, false, none, 0⟩                        -- not reached: callers test for nil
  | .mk p v c, q =>
    if isEmpty p v c then ⟨.mk p v c, false, false, none, 0⟩        -- 501-503
    else if q = [] then removeValue p v c                           -- 509-512
    else
      let m := matchPrefix p q
      if p.drop m = [] then
        match q.drop m with
        | [] => removeValue p v c                                   -- 526-529
        | i :: q' =>
          if (c i).isSome = false then ⟨.mk p v c, false, false, none, 0⟩ -- 532-535
          else
            let r := delete (c i) q'                                -- 537
            let c' := if r.changed && r.remove then setChild c i .nil else setChild c i r.node
            if hasChildren c' = false ∧ v.isNone then               -- 547-551
              ⟨.mk p v c', r.changed, true, r.old, r.delta⟩
            else
              ⟨(merge (.mk p v c')).1, r.changed, false, r.old, r.delta⟩ -- 553-555
      else ⟨.mk p v c, false, false, none, 0⟩                       -- 558

/-- A `Trie` (`/repo/trie/trie.go:60-105`): the root node and `valueCount`. -/
structure MTrie (V : Type) where
  root : Node V
  count : Int

/-- `NewTrie(nil, ...)` (`/repo/trie/trie.go:108-139`): an empty root node. -/
def newTrie : MTrie V := ⟨.mk [] none noChild, 0⟩

/-- `Get` (`/repo/trie/trie.go:252-257`). -/
def MTrie.get (t : MTrie V) (key : Bytes) : Option V := Verif.Trie.get t.root (keyToPrefix key)

/-- `Put` (`/repo/trie/trie.go:324-345`): the new trie and the returned flag. -/
def MTrie.put (t : MTrie V) (key : Bytes) (x : V) : MTrie V × Bool :=
  let r := insert t.root (keyToPrefix key) x
  (⟨r.node, t.count + r.delta⟩, r.changed)

/-- `root.setPrefix(nil)` when the root is to be removed (`/repo/trie/trie.go:447-451`). -/
def clearPrefix : Node V → Node V
  | .nil => .nil
  | .mk _ v c => .mk [] v c

/-- `Delete` (`/repo/trie/trie.go:444-459`): the new trie, `changed` and `oldValue`. -/
def MTrie.del (t : MTrie V) (key : Bytes) : MTrie V × Bool × Option V :=
  let r := delete t.root (keyToPrefix key)
  (⟨if r.remove then clearPrefix r.node else r.node, t.count + r.delta⟩, r.changed, r.old)

/-- One call of the trie's map interface. -/
inductive Op (V : Type) where
  | put (key : Bytes) (x : V)
  | del (key : Bytes)

/-- The key an operation addresses. -/
def Op.key : Op V → Bytes
  | .put k _ => k
  | .del k => k

/-- Perform one call. -/
def MTrie.step (t : MTrie V) : Op V → MTrie V
  | .put k x => (t.put k x).1
  | .del k => (t.del k).1

/-- Perform a history of calls. -/
def MTrie.run (t : MTrie V) (ops : List (Op V)) : MTrie V := ops.foldl MTrie.step t

end Verif.Trie

import Verif.Base

/-!
# What the Merkle functions are supposed to compute (independent of the loops)
-/

namespace Verif.Merkle
open Verif

/-- Root of the complete binary tree of depth `d` over the leaves `f 0, f 1, ...`. -/
def mroot (H : Bytes → Bytes) : Nat → (Nat → Bytes) → Bytes
  | 0, f => f 0
  | d + 1, f => mroot H d (fun i => H (f (2 * i) ++ f (2 * i + 1)))

/-- The siblings on the way from leaf `i` to the root; the flag says that the sibling is on the left. -/
def mproof (H : Bytes → Bytes) : Nat → (Nat → Bytes) → Nat → List (Bytes × Bool)
  | 0, _, _ => []
  | d + 1, f, i =>
    (if i % 2 = 1 then (f (i - 1), true) else (f (i + 1), false)) ::
      mproof H d (fun i => H (f (2 * i) ++ f (2 * i + 1))) (i / 2)

/-- All digest inputs of the tree. -/
def minputs (H : Bytes → Bytes) : Nat → (Nat → Bytes) → List Bytes
  | 0, _ => []
  | d + 1, f => (List.range (2 ^ d)).map (fun i => f (2 * i) ++ f (2 * i + 1)) ++
      minputs H d (fun i => H (f (2 * i) ++ f (2 * i + 1)))

/-- All digest inputs met while evaluating a proof. -/
def evalInputs (H : Bytes → Bytes) : List (Bytes × Bool) → Bytes → List Bytes
  | [], _ => []
  | it :: its, h =>
    let x := if it.2 then it.1 ++ h else h ++ it.1
    x :: evalInputs H its (H x)

/-- Leaves of a list padded with `pad`. -/
def leaves (pad : Bytes) (l : List Bytes) (i : Nat) : Bytes := l[i]?.getD pad

/-- The tree of `MerkleHash`: `n` nodes on this level, an odd one out is paired with `pad`. -/
def lroot (H : Bytes → Bytes) (pad : Bytes) : Nat → Nat → (Nat → Bytes) → Bytes
  | 0, _, f => f 0
  | d + 1, n, f =>
    lroot H pad d ((n + 1) / 2) (fun i => H (f (2 * i) ++ if 2 * i + 1 < n then f (2 * i + 1) else pad))

/-- The siblings in that tree. -/
def lproof (H : Bytes → Bytes) (pad : Bytes) : Nat → Nat → (Nat → Bytes) → Nat → List (Bytes × Bool)
  | 0, _, _, _ => []
  | d + 1, n, f, i =>
    (if i % 2 = 1 then (f (i - 1), true) else (if i + 1 < n then f (i + 1) else pad, false)) ::
      lproof H pad d ((n + 1) / 2)
        (fun i => H (f (2 * i) ++ if 2 * i + 1 < n then f (2 * i + 1) else pad)) (i / 2)

/-- All digest inputs of that tree. -/
def linputs (H : Bytes → Bytes) (pad : Bytes) : Nat → Nat → (Nat → Bytes) → List Bytes
  | 0, _, _ => []
  | d + 1, n, f =>
    (List.range ((n + 1) / 2)).map (fun i => f (2 * i) ++ if 2 * i + 1 < n then f (2 * i + 1) else pad) ++
      linputs H pad d ((n + 1) / 2) (fun i => H (f (2 * i) ++ if 2 * i + 1 < n then f (2 * i + 1) else pad))

/-- Two different digest inputs, one from each computation, with the same digest. -/
def Collision (H : Bytes → Bytes) (xs ys : List Bytes) : Prop :=
  ∃ x ∈ xs, ∃ y ∈ ys, x ≠ y ∧ H x = H y

/-- The depth used for `n` leaves: at least one level, enough for `n`. -/
def IsDepth (n d : Nat) : Prop := 1 ≤ d ∧ n ≤ 2 ^ d ∧ (1 < d → 2 ^ (d - 1) < n)

/-- The number whose binary digits, least significant first, are the given flags. -/
def bitsNat : List Bool → Nat
  | [] => 0
  | b :: bs => (if b then 1 else 0) + 2 * bitsNat bs

end Verif.Merkle

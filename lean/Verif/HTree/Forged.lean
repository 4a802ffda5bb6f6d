import Verif.HTree.MergeLong
import Verif.HTree.Toy

/-!
# Restoring from proofs that nobody vouches for: C158

`RestoreTreeFromProofs` (`/repo/trie/historytree.go:107-150`, modelled by `restore` in `Restore.lean`) takes any key, value and chain;
it compares nothing.  What a client learns by comparing the root hash of the restored tree with one it trusts is stated here.
-/

namespace Verif.HTree
open Verif Verif.Merkle Verif.Trie

section Node
variable (H : Bytes → Bytes) (j : Nib) (s : Bytes) (x : Nat → Option Bytes)

/-- The siblings of a path in `Branchs`; `x t` is the one that differs first at bit `t`. -/
def sibBr : List Bool → Option Bytes := fun p =>
  if p = sibling j 2 then x 2 else if p = sibling j 1 then x 1 else if p = sibling j 0 then x 0 else none

/-- The hashes of the slots of a node with one path. -/
def sibSlot : Nib → Option (Option Bytes) := fun k =>
  if k = j then some (some s) else if k = nibOf (sibling j 3) then some (x 3) else some none

/-- The hash on the path, `d` bits above the slot. -/
def climb : Nat → Bytes
  | 0 => s
  | d + 1 => hashPairOrder H ((bits4 j).getD (3 - d) false) ((x (3 - d)).getD (nilHash H)) (climb d)

variable {H j s x}

theorem hashPfx_out {slot : Nib → Option (Option Bytes)} : ∀ (d : Nat) (p : List Bool) (st : HState) (q : List Bool),
    ¬ p <+: q → (hashPfx H slot d p st).1.br q = st.br q := by
  intro d
  induction d with
  | zero => intro p st q _; rfl
  | succ d ih =>
    intro p st q hq
    have hb : ∀ b : Bool, ¬ (p ++ [b]) <+: q := fun b h => hq ((List.prefix_append p [b]).trans h)
    have e1 : ∀ st, (hashPfx H slot d (p ++ [false]) st).1.br q = st.br q := fun st => ih _ st q (hb false)
    have e2 : ∀ st, (hashPfx H slot d (p ++ [true]) st).1.br q = st.br q := fun st => ih _ st q (hb true)
    have hqp : q ≠ p := by rintro rfl; exact hq (List.prefix_refl _)
    have hqf : q ≠ p ++ [false] := by rintro rfl; exact hq (List.prefix_append _ _)
    rw [hashPfx]
    split
    · rfl
    · simp only
      split
      · exact e1 st
      · split
        · exact e1 st
        · split
          · rw [e2, e1]
          · split
            · rw [e2, e1]
            · split
              · split
                · rw [e2, e1]
                · simp only [hqf, if_false]; rw [e2, e1]
              · split
                · rw [e2, e1]
                · rw [e2, e1]
                · simp only [hqp, if_false]; rw [e2, e1]

/-- Below a prefix without anything there is nothing. -/
theorem hashPfx_empty {slot : Nib → Option (Option Bytes)} : ∀ (d : Nat) (p : List Bool) (st : HState), p.length + d = 4 →
    (∀ q, p <+: q → st.br q = none) → (∀ k, p <+: bits4 k → slot k = some none) →
    ∃ f, (hashPfx H slot d p st).2 = some (none, f, f) ∧ (hashPfx H slot d p st).1.br = st.br ∧ (d ≠ 0 → f = true) := by
  intro d
  induction d with
  | zero =>
    intro p st hp _ hs
    refine ⟨false, ?_, rfl, by simp⟩
    have : p <+: bits4 (nibOf p) := by
      rw [prefix_bits4 (by omega)]
      have := ofBits_lt p
      have hl : p.length = 4 := by omega
      rw [hl] at this ⊢
      simp [nibOf]; omega
    simp [hashPfx, hs _ this]
  | succ d ih =>
    intro p st hp hb hs
    have sub : ∀ b : Bool, ∀ q, (p ++ [b]) <+: q → p <+: q := fun b q h => (List.prefix_append p [b]).trans h
    obtain ⟨f, l1, l2, _⟩ := ih (p ++ [false]) st (by simp; omega) (fun q h => hb q (sub _ q h)) (fun k h => hs k (sub _ _ h))
    obtain ⟨g, r1, r2, _⟩ := ih (p ++ [true]) (hashPfx H slot d (p ++ [false]) st).1 (by simp; omega)
      (fun q h => by rw [l2]; exact hb q (sub _ q h)) (fun k h => hs k (sub _ _ h))
    refine ⟨true, ?_, ?_, fun _ => rfl⟩
    · rw [hashPfx, hb p (List.prefix_refl _)]
      simp only [l1, r1, Bool.and_not_self, Bool.false_eq_true, if_false, Option.isSome_none, Bool.and_false]
    · rw [hashPfx, hb p (List.prefix_refl _)]
      simp only [l1, r1, Bool.and_not_self, Bool.false_eq_true, if_false, Option.isSome_none, Bool.and_false]
      rw [r2, l2]

theorem take_bit : ∀ (j : Nib) (t : Fin 4), (bits4 j).take (t.val + 1) = (bits4 j).take t.val ++ [(bits4 j).getD t.val false] := by
  decide

theorem path_not_sibling : ∀ (j : Nib) (t : Fin 5) (u : Fin 4), (bits4 j).take t.val ≠ sibling j u.val := by decide

theorem below_sibling : ∀ (j : Nib) (t u : Fin 4), u ≠ t → ¬ sibling j t.val <+: sibling j u.val := by decide

theorem slots_sibling : ∀ (j k : Nib) (t : Fin 4), sibling j t.val <+: bits4 k → k ≠ j ∧ (k = nibOf (sibling j 3) → t.val = 3) := by
  decide +kernel

theorem nib_sibling3 : ∀ j : Nib, nibOf (sibling j 3) ≠ j := by decide

/-- The sibling of the path at bit `t`. -/
theorem sib_side {d : Nat} (hd : d < 4) {st : HState}
    (hb : ∀ q, sibling j (3 - d) <+: q → st.br q = sibBr j x q) :
    ∃ f, (hashPfx H (sibSlot j s x) d (sibling j (3 - d)) st).2 = some (x (3 - d), f, f) ∧
      (hashPfx H (sibSlot j s x) d (sibling j (3 - d)) st).1.br = st.br ∧ ((x (3 - d)).isSome → f = false) ∧
      ((x (3 - d)) = none → d ≠ 0 → f = true) := by
  have hlen : (sibling j (3 - d)).length = 3 - d + 1 := sibling_length j (by omega)
  cases d with
  | zero =>
    refine ⟨false, ?_, rfl, by simp, by simp⟩
    simp [hashPfx, sibSlot, nib_sibling3]
  | succ d =>
    have hbr : sibBr j x (sibling j (3 - (d + 1))) = x (3 - (d + 1)) := by
      have h3 : d = 0 ∨ d = 1 ∨ d = 2 := by omega
      have n21 : sibling j 1 ≠ sibling j 2 := fun e => by have := congrArg List.length e; simp [sibling_length] at this
      have n20 : sibling j 0 ≠ sibling j 2 := fun e => by have := congrArg List.length e; simp [sibling_length] at this
      have n10 : sibling j 0 ≠ sibling j 1 := fun e => by have := congrArg List.length e; simp [sibling_length] at this
      rcases h3 with rfl | rfl | rfl <;> simp [sibBr, n21, n20, n10]
    cases hx : x (3 - (d + 1)) with
    | some y =>
      rw [hx] at hbr
      refine ⟨false, ?_, ?_, by simp, by simp⟩ <;>
        rw [hashPfx_cached (by rw [hb _ (List.prefix_refl _), hbr])]
    | none =>
      obtain ⟨f, e1, e2, e3⟩ := hashPfx_empty (H := H) (slot := sibSlot j s x) (d + 1) (sibling j (3 - (d + 1))) st
        (by rw [hlen]; omega)
        (fun q hq => by
          rw [hb q hq]
          have : ∀ u : Fin 4, u.val ≠ 3 - (d + 1) → q ≠ sibling j u.val := by
            rintro u hu rfl
            exact below_sibling j ⟨3 - (d + 1), by omega⟩ u (fun e => hu (by rw [e])) hq
          have h2 := this 2; have h1 := this 1; have h0 := this 0
          have e3 : d = 0 ∨ d = 1 ∨ d = 2 := by omega
          rcases e3 with rfl | rfl | rfl <;> simp_all [sibBr])
        (fun k hk => by
          have := slots_sibling j k ⟨3 - (d + 1), by omega⟩ hk
          have hk3 : k ≠ nibOf (sibling j 3) := fun e => by have := this.2 e; simp only at this; omega
          simp [sibSlot, this.1, hk3])
      exact ⟨f, by rw [e1], e2, by simp, fun _ h => e3 h⟩

theorem climb_hash : ∀ (d : Nat), d ≤ 4 → ∀ st : HState,
    (∀ q, (bits4 j).take (4 - d) <+: q → st.br q = sibBr j x q) →
    (hashPfx H (sibSlot j s x) d ((bits4 j).take (4 - d)) st).2 = none ∨
    ∃ r, (hashPfx H (sibSlot j s x) d ((bits4 j).take (4 - d)) st).2 = some (some (climb H j s x d), false, r) := by
  intro d
  induction d with
  | zero =>
    intro _ st _
    right
    refine ⟨false, ?_⟩
    have : nibOf ((bits4 j).take 4) = j := (by decide : ∀ j : Nib, nibOf ((bits4 j).take 4) = j) j
    simp [hashPfx, sibSlot, this, climb]
  | succ d ih =>
    intro hd st hb
    have ht : 3 - d < 4 := by omega
    have e4 : 4 - (d + 1) = 3 - d := by omega
    have e5 : 4 - d = (3 - d) + 1 := by omega
    rw [e4] at hb ⊢
    rw [e5] at ih
    have hbit := take_bit j ⟨3 - d, ht⟩
    simp only at hbit
    have hsib : sibling j (3 - d) = (bits4 j).take (3 - d) ++ [!(bits4 j).getD (3 - d) false] := rfl
    have hnone : st.br ((bits4 j).take (3 - d)) = none := by
      rw [hb _ (List.prefix_refl _)]
      have := fun u => path_not_sibling j ⟨3 - d, by omega⟩ u
      have h2 := this 2; have h1 := this 1; have h0 := this 0
      simp only [Fin.isValue, Fin.val_two, Fin.val_one, Fin.val_zero] at h2 h1 h0
      simp [sibBr, h2, h1, h0]
    have pathsub : ∀ (c : Bool) q, ((bits4 j).take (3 - d) ++ [c]) <+: q → (bits4 j).take (3 - d) <+: q :=
      fun c q h => (List.prefix_append _ [c]).trans h
    rw [hashPfx, hnone]
    simp only
    cases hβ : (bits4 j).getD (3 - d) false with
    | false =>
      rw [hβ] at hbit hsib
      simp only [Bool.not_false] at hsib
      rw [hbit] at ih
      rcases ih (by omega) st (fun q h => hb q (pathsub _ q h)) with e | ⟨r, e⟩
      · left; simp [e]
      · have hout : ∀ q, sibling j (3 - d) <+: q → (hashPfx H (sibSlot j s x) d ((bits4 j).take (3 - d) ++ [false]) st).1.br q = sibBr j x q := by
          intro q hq
          rw [hashPfx_out, hb q (pathsub true q (hsib ▸ hq))]
          intro h
          rw [hsib] at hq
          have := List.prefix_of_prefix_length_le h hq (by simp)
          have := List.IsPrefix.eq_of_length this (by simp)
          simp at this
        obtain ⟨f, s1, s2, s3, s4⟩ := sib_side (H := H) (s := s) (by omega : d < 4) hout
        rw [hsib] at s1 s2
        simp only [e, Bool.false_and, Bool.false_eq_true, if_false, s1, Bool.and_not_self]
        split
        · left; rfl
        · right
          refine ⟨(x (3 - d)).isNone, ?_⟩
          rw [climb, hβ]; simp [hashPairOrder, hashPair]
    | true =>
      rw [hβ] at hbit hsib
      simp only [Bool.not_true] at hsib
      rw [hbit] at ih
      obtain ⟨f, s1, s2, s3, s4⟩ := sib_side (H := H) (s := s) (by omega : d < 4) (st := st)
        (fun q h => hb q (pathsub false q (hsib ▸ h)))
      rw [hsib] at s1 s2
      simp only [s1, Bool.and_not_self, Bool.false_eq_true, if_false]
      rcases ih (by omega) (hashPfx H (sibSlot j s x) d ((bits4 j).take (3 - d) ++ [false]) st).1
        (fun q h => by rw [s2]; exact hb q (pathsub _ q h)) with e | ⟨r, e⟩
      · left; simp [e]
      · simp only [e, Bool.false_and, Bool.false_eq_true, if_false, Option.isSome_some, Bool.and_true]
        cases hx : x (3 - d) with
        | none =>
          left
          split
          · rfl
          · rfl
        | some y =>
          have hf : f = false := s3 (by rw [hx]; rfl)
          right
          refine ⟨false, ?_⟩
          rw [climb, hβ]; simp [hf, hx, hashPairOrder, hashPair]

/-- An error at the slot is an error of the node. -/
theorem climb_error {slot : Nib → Option (Option Bytes)} (hslot : slot j = none) : ∀ (d : Nat), d ≤ 4 → ∀ st : HState,
    (∀ t : Nat, 4 - d ≤ t → t ≤ 4 → st.br ((bits4 j).take t) = none) →
    (hashPfx H slot d ((bits4 j).take (4 - d)) st).2 = none := by
  intro d
  induction d with
  | zero =>
    intro _ st _
    have : nibOf ((bits4 j).take 4) = j := (by decide : ∀ j : Nib, nibOf ((bits4 j).take 4) = j) j
    simp [hashPfx, this, hslot]
  | succ d ih =>
    intro hd st hb
    have ht : 3 - d < 4 := by omega
    have e4 : 4 - (d + 1) = 3 - d := by omega
    have e5 : 4 - d = (3 - d) + 1 := by omega
    rw [e4] at hb ⊢
    rw [e5] at ih
    have hbit := take_bit j ⟨3 - d, ht⟩
    simp only at hbit
    rw [hashPfx, hb (3 - d) (Nat.le_refl _) (by omega)]
    simp only
    cases hβ : (bits4 j).getD (3 - d) false with
    | false =>
      rw [hβ] at hbit
      rw [hbit] at ih
      rw [ih (by omega) st fun t h1 h2 => hb t (by omega) h2]
    | true =>
      rw [hβ] at hbit
      rw [hbit] at ih
      split
      · rfl
      · split
        · rfl
        · rw [ih (by omega) _ fun t h1 h2 => ?_]
          rw [hashPfx_out, hb t (by omega) h2]
          intro h
          have h3 : (bits4 j).take (3 - d) ++ [true] <+: (bits4 j).take t := by
            rw [← hbit]; exact List.take_prefix_take_left (by omega)
          have := List.prefix_of_prefix_length_le h h3 (by simp)
          have := List.IsPrefix.eq_of_length this (by simp)
          simp at this

end Node

/-! ### A restored tree -/

/-- The bits of a path, the lowest first. -/
def pathBits : List Nib → List Bool
  | [] => []
  | j :: q => pathBits q ++ (bits4 j).reverse

theorem pathBits_length (q : List Nib) : (pathBits q).length = 4 * q.length := by
  induction q with
  | nil => rfl
  | cons j q ih => simp only [pathBits, List.length_append, ih, List.length_reverse, bits4_length, List.length_cons]; omega

theorem bitsNat_pathBits (q : List Nib) : bitsNat (pathBits q) = undigits q := by
  induction q with
  | nil => rfl
  | cons j q ih =>
    have hj : bitsNat (bits4 j).reverse = j.val := by revert j; decide
    rw [pathBits, bitsNat_append, ih, pathBits_length, hj, undigits, Nat.mul_comm 4, Nat.mul_comm q.length 4, Nat.pow_mul]
    simp; ring

/-- The hash of a restored node: what the elements of the proof lead to, in the order of the bits of the path, or an error. -/
theorem restoreNode_hash {H : Bytes → Bytes} {j : Nib} {leaf : Bool} {value : Bytes} {child : TNode} {items : List Bytes} {n : TNode}
    {s : Bytes} (h : restoreNode H j leaf value child items = some n) (hs : leaf = true → s = value)
    (hc : leaf = false → (hashNode H child).2 = some (some s)) :
    items.length = 4 ∧
    ((hashNode H n).2 = none ∨ (hashNode H n).2 = some (some (evalItems H (items.zip (bits4 j).reverse) s))) := by
  match items, h with
  | [a, b, c, d], h =>
    refine ⟨rfl, ?_⟩
    have hn := (Option.some.inj h).symm
    let x : Nat → Option Bytes := fun t => if t = 3 then item H a else if t = 2 then item H b else if t = 1 then item H c else item H d
    have hslot : (fun k => if leaf then some (if leaf then (if k = j then some value else if k = nibOf (sibling j 3) then item H a else none) else none)
        else (hashNode H (if leaf then .nil else if k = j then child
        else if k = nibOf (sibling j 3) then (match item H a with | none => .nil | some x => closed x) else .nil)).2) = sibSlot j s x := by
      funext k
      cases leaf with
      | true =>
        simp only [if_true, sibSlot, hs rfl]
        split
        · rfl
        · split <;> rfl
      | false =>
        simp only [Bool.false_eq_true, if_false, sibSlot]
        split
        · rw [hc rfl]
        · split
          · show _ = some (item H a)
            cases item H a <;> rfl
          · rfl
    have key := climb_hash (H := H) (j := j) (s := s) (x := x) 4 (Nat.le_refl _) ⟨sibBr j x, fun _ => false⟩ (fun _ _ => rfl)
    have hev : climb H j s x 4 = evalItems H ([a, b, c, d].zip (bits4 j).reverse) s := by
      have hx : ∀ y, (item H y).getD (nilHash H) = y := by
        intro y; unfold item; split
        · rename_i e; exact e.symm
        · rfl
      simp [climb, x, hx, bits4, evalItems]
    rw [hev] at key
    have hnode : (hashNode H n).2 = (hashPfx H (sibSlot j s x) 4 [] ⟨sibBr j x, fun _ => false⟩).2.map fun z => z.1 := by
      rw [hn, hashNode]
      exact congrArg (fun sl => (hashPfx H sl 4 [] ⟨sibBr j x, fun _ => false⟩).2.map fun z => z.1) hslot
    rw [hnode]
    rcases key with e | ⟨r, e⟩
    · left; simpa using e
    · right
      have e' : (hashPfx H (sibSlot j s x) 4 [] ⟨sibBr j x, fun _ => false⟩).2 = _ := e
      rw [e']; rfl

theorem restoreNode_error {H : Bytes → Bytes} {j : Nib} {value : Bytes} {child : TNode} {items : List Bytes} {n : TNode}
    (h : restoreNode H j false value child items = some n) (hc : (hashNode H child).2 = none) : (hashNode H n).2 = none := by
  match items, h with
  | [a, b, c, d], h =>
    have hn := (Option.some.inj h).symm
    rw [hn, hashNode]
    have hp : ∀ t : Nat, t ≤ 4 → ∀ u : Fin 4, (bits4 j).take t ≠ sibling j u.val := fun t ht u => path_not_sibling j ⟨t, by omega⟩ u
    have := climb_error (H := H) (j := j) (slot := fun k => (hashNode H (if k = j then child
        else if k = nibOf (sibling j 3) then (match item H a with | none => .nil | some x => closed x) else .nil)).2)
      (by simp [hc]) 4 (Nat.le_refl _)
      ⟨fun p => if p = sibling j 2 then item H b else if p = sibling j 1 then item H c
          else if p = sibling j 0 then item H d else none, fun _ => false⟩
      (fun t _ ht => by
        have h2 := hp t ht 2; have h1 := hp t ht 1; have h0 := hp t ht 0
        simp only [Fin.isValue, Fin.val_two, Fin.val_one, Fin.val_zero] at h2 h1 h0
        simp only [h2, h1, h0, if_false])
    exact congrArg (fun z => z.map fun y : Option Bytes × Bool × Bool => y.1) this

/-- The hash of a restored tree. -/
theorem restoreAt_hash {H : Bytes → Bytes} {v : Bytes} : ∀ (q : List Nib) (items : List Bytes) (n : TNode),
    restoreAt H v q items = some n → 4 * q.length ≤ items.length ∧
    ((hashNode H n).2 = none ∨ (hashNode H n).2 = some (some (evalItems H ((items.take (4 * q.length)).zip (pathBits q)) v))) := by
  intro q
  induction q with
  | nil => intro items n h; cases h
  | cons j q ih =>
    intro items n h
    rw [restoreAt] at h
    by_cases hq : q = []
    · subst hq
      rw [if_pos rfl] at h
      obtain ⟨e1, e2⟩ := restoreNode_hash (s := v) h (fun _ => rfl) (fun h => by cases h)
      refine ⟨by simp at e1 ⊢; omega, ?_⟩
      simpa [pathBits] using e2
    · rw [if_neg hq] at h
      obtain ⟨m, h1, h2⟩ := Option.bind_eq_some_iff.mp h
      obtain ⟨i1, i2⟩ := ih _ _ h1
      rcases i2 with i2 | i2
      · have hlen : ((items.drop (4 * q.length)).take 4).length = 4 := by
          match hI : (items.drop (4 * q.length)).take 4, h2 with
          | [a, b, c, d], _ => rfl
        refine ⟨?_, .inl ?_⟩
        · simp at hlen ⊢; omega
        · exact restoreNode_error h2 i2
      · obtain ⟨e1, e2⟩ := restoreNode_hash h2 (fun h => by cases h) (fun _ => i2)
        have hlen : 4 * q.length + 4 ≤ items.length := by simp at e1; omega
        refine ⟨by simp; omega, ?_⟩
        have hz : (items.take (4 * (j :: q).length)).zip (pathBits (j :: q)) =
            (items.take (4 * q.length)).zip (pathBits q) ++ ((items.drop (4 * q.length)).take 4).zip (bits4 j).reverse := by
          have : items.take (4 * (j :: q).length) = items.take (4 * q.length) ++ (items.drop (4 * q.length)).take 4 := by
            rw [List.length_cons, Nat.mul_add, Nat.mul_one, List.take_add]
          rw [this, pathBits, List.zip_append]
          rw [pathBits_length, List.length_take]; omega
        rw [hz, evalItems_append]
        rw [List.take_take, Nat.min_self] at e2
        exact e2

/-! ### C158 -/

/-- The first 64 elements of a chain, in the order of the bits of a key. -/
def keyItems (key : UInt64) (items : List (Bytes × Bool)) : List (Bytes × Bool) :=
  ((items.take 64).map fun it => toHash it.1).zip (pathBits (digits 16 key.toNat))

/-- **C158.** The root hash of a tree restored from any chain is what the value and the first 64 elements lead to, in the order of the bits
of the key, or an error. -/
theorem C158_hash (E : HEnv) (R : Rtl) (D : HDisk) (key : UInt64) (v : Bytes) (c : List NodeProof) (t : Tree)
    (ht : restore E R D key v c = some t) :
    v.length = 32 ∧ t.expecting = key + 1 ∧ ∃ items, chainItems E.H R c = some items ∧ (keyItems key items).length = 64 ∧
      bitsNat ((keyItems key items).map Prod.snd) = key.toNat ∧
      ((t.hash E).2 = none ∨ (t.hash E).2 = some (evalItems E.H (keyItems key items) v)) := by
  rw [restore] at ht
  split at ht
  · cases ht
  · rename_i hv
    split at ht
    · cases ht
    · rename_i items hi
      split at ht
      · cases ht
      · rename_i h64
        obtain ⟨n, hn, rfl⟩ := Option.map_eq_some_iff.mp ht
        rw [heightToPrefix_eq] at hn
        obtain ⟨_, hh⟩ := restoreAt_hash _ _ _ hn
        have hl : (digits 16 key.toNat).length = 16 := digits_length _ _
        have hpl : (pathBits (digits 16 key.toNat)).length = 64 := by rw [pathBits_length, hl]
        have hil : ((items.take 64).map fun it => toHash it.1).length = 64 := by simp; omega
        rw [hl, ← List.map_take] at hh
        refine ⟨by simpa using hv, rfl, items, hi, ?_, ?_, ?_⟩
        · rw [keyItems, List.length_zip, hil, hpl]; rfl
        · rw [keyItems, List.map_snd_zip (by rw [hil, hpl]), bitsNat_pathBits, undigits_digits _ _ (u64_lt key)]
        · rcases hh with e | e
          · left; rw [Tree.hash]; simp only [e, Option.map_none]
          · right; rw [Tree.hash]; simp only [e, Option.map_some, Option.getD_some]; rfl

theorem keyItems_len (key : UInt64) (items : List (Bytes × Bool)) : ∀ it ∈ keyItems key items, it.1.length = 32 := by
  intro it h
  have := (List.of_mem_zip h).1
  obtain ⟨y, _, e⟩ := List.mem_map.mp this
  rw [← e]; exact Trie.toHash_len _

/-- What has the digest of nothing. -/
theorem nil_hspec (H : Bytes → Bytes) (hH : ∀ b, (H b).length = 32) (k : Nat) (l : List Bytes) (h32 : ∀ x ∈ l, x.length = 32)
    (hnil : ∀ x ∈ l, x ≠ nilHash H) (h0 : l ≠ []) (h : hspec H k l = some (nilHash H)) :
    ∃ y ∈ inputs H k l, y ≠ [] ∧ H y = H [] := by
  cases k with
  | zero =>
    exfalso
    cases l with
    | nil => exact h0 rfl
    | cons a l => exact hnil a (by simp) (by simpa [hspec] using h)
  | succ k =>
    obtain ⟨a, ha, hr, hm⟩ := hspec_input (H := H) (k := k) h0
    have hal := hspec_len' hH (fun x hx => h32 x (List.mem_of_mem_take hx)) ha
    refine ⟨_, hm, ?_, ?_⟩
    · intro e
      have := congrArg List.length e
      simp [hal] at this
    · rw [hr] at h
      exact Option.some.inj h

/-- A chain whose elements on the right are all the digest of nothing belongs to the last value. -/
theorem last_sound (H : Bytes → Bytes) (hH : ∀ b, (H b).length = 32) : ∀ (k : Nat) (L : List (Bytes × Bool)) (l : List Bytes)
    (v : Bytes), L.length = k → l ≠ [] → l.length ≤ 2 ^ k → (∀ x ∈ l, x.length = 32) → (∀ it ∈ L, it.1.length = 32) → v.length = 32 →
    v ≠ nilHash H → (∀ x ∈ l, x ≠ nilHash H) → (∀ it ∈ L, it.2 = false → it.1 = nilHash H) → hspec H k l = some (evalItems H L v) →
    l.length = bitsNat (L.map Prod.snd) + 1 ∨ Collision H ([] :: inputs H k l) ([] :: evalInputs H L v) := by
  intro k
  induction k with
  | zero =>
    intro L l v hL h0 hl _ _ _ _ _ _ _
    have hL0 : L = [] := List.length_eq_zero_iff.mp hL
    subst hL0
    left
    have := List.length_pos_iff.mpr h0
    simp [bitsNat] at hl ⊢
    omega
  | succ k ih =>
    intro L l v hL h0 hl h32 hs hv hv0 hnil hright he
    obtain ⟨L, ⟨s, b⟩, rfl⟩ : ∃ L' x, L = L' ++ [x] := by
      have : L ≠ [] := by intro e; subst e; cases hL
      exact ⟨L.dropLast, L.getLast this, (List.dropLast_append_getLast this).symm⟩
    have hLk : L.length = k := by simpa using hL
    obtain ⟨a, ha, hr, hm⟩ := hspec_input (H := H) (k := k) h0
    have hal := hspec_len' hH (fun x hx => h32 x (List.mem_of_mem_take hx)) ha
    have hel := evalItems_len H hH L v hv
    have hsl : s.length = 32 := hs (s, b) (by simp)
    have p2 : 2 ^ (k + 1) = 2 ^ k + 2 ^ k := by rw [Nat.pow_succ]; omega
    rw [hr, evalItems_append] at he
    have he : H (a ++ (hspec H k (l.drop (2 ^ k))).getD (nilHash H)) = hashPairOrder H b s (evalItems H L v) := Option.some.inj he
    have hbits : bitsNat ((L ++ [(s, b)]).map Prod.snd) = bitsNat (L.map Prod.snd) + 2 ^ k * b.toNat := by
      rw [List.map_append, bitsNat_append, List.length_map, hLk]
      cases b <;> simp [bitsNat]
    have hinp : (if b then s ++ evalItems H L v else evalItems H L v ++ s) ∈ evalInputs H (L ++ [(s, b)]) v := by
      rw [evalInputs_append]; simp [evalInputs]
    have hsub : ∀ x ∈ evalInputs H L v, x ∈ evalInputs H (L ++ [(s, b)]) v := by
      intro x hx; rw [evalInputs_append]; simp [hx]
    have lift : ∀ m, (∀ x ∈ inputs H k m, x ∈ inputs H (k + 1) l) →
        Collision H ([] :: inputs H k m) ([] :: evalInputs H L v) →
        Collision H ([] :: inputs H (k + 1) l) ([] :: evalInputs H (L ++ [(s, b)]) v) := by
      rintro m hm ⟨x, hx, y, hy, t⟩
      refine ⟨x, ?_, y, ?_, t⟩
      · rcases List.mem_cons.mp hx with rfl | hx
        · simp
        · exact List.mem_cons_of_mem _ (hm x hx)
      · rcases List.mem_cons.mp hy with rfl | hy
        · simp
        · exact List.mem_cons_of_mem _ (hsub y hy)
    rw [hbits]
    by_cases hx : a ++ (hspec H k (l.drop (2 ^ k))).getD (nilHash H) = if b then s ++ evalItems H L v else evalItems H L v ++ s
    · cases b with
      | false =>
        simp only [Bool.false_eq_true, if_false] at hx
        obtain ⟨e1, e2⟩ := List.append_inj hx (hal.trans hel.symm)
        have hsn : s = nilHash H := hright (s, false) (by simp) rfl
        by_cases hz : l.drop (2 ^ k) = []
        · have := ih L (l.take (2 ^ k)) v hLk (take_ne k h0) (by simp) (fun x hx => h32 x (List.mem_of_mem_take hx))
            (fun it hit => hs it (by simp [hit])) hv hv0 (fun x hx => hnil x (List.mem_of_mem_take hx))
            (fun it hit => hright it (by simp [hit])) (by rw [ha, e1])
          have hle := List.drop_eq_nil_iff.mp hz
          simp only [Bool.toNat_false, Nat.mul_zero, Nat.add_zero]
          rcases this with t | t
          · left; rw [List.length_take] at t; omega
          · exact .inr (lift _ (inputs_take k l) t)
        · obtain ⟨x, hx2⟩ := hspec_some (H := H) (k := k) hz
          rw [hx2, hsn] at e2
          have e2 : x = nilHash H := e2
          obtain ⟨y, hy, hy1, hy2⟩ := nil_hspec H hH k _ (fun x hx => h32 x (List.mem_of_mem_drop hx))
            (fun x hx => hnil x (List.mem_of_mem_drop hx)) hz (by rw [hx2, e2])
          exact .inr ⟨y, List.mem_cons_of_mem _ (inputs_drop k l y hy), [], by simp, hy1, hy2⟩
      | true =>
        simp only [if_true] at hx
        obtain ⟨_, e2⟩ := List.append_inj hx (hal.trans hsl.symm)
        simp only [Bool.toNat_true, Nat.mul_one]
        by_cases hz : l.drop (2 ^ k) = []
        · rw [hz, hspec_nil] at e2
          rcases List.eq_nil_or_concat L with hLn | ⟨L1, x1, hL1⟩
          · subst hLn
            exact absurd e2.symm hv0
          · refine .inr ?_
            obtain ⟨s1, b1⟩ := x1
            rw [List.concat_eq_append] at hL1
            have hmem : (if b1 then s1 ++ evalItems H L1 v else evalItems H L1 v ++ s1) ∈ evalInputs H L v := by
              rw [hL1, evalInputs_append]; simp [evalInputs]
            have hs1 : s1.length = 32 := hs (s1, b1) (by simp [hL1])
            refine ⟨[], by simp, _, List.mem_cons_of_mem _ (hsub _ hmem), ?_, ?_⟩
            · intro e
              have := congrArg List.length e
              cases b1 <;> simp [hs1] at this <;> omega
            · rw [hL1, evalItems_append] at e2
              have : nilHash H = hashPairOrder H b1 s1 (evalItems H L1 v) := e2
              rw [nilHash] at this
              rw [this, hashPairOrder]
              cases b1 <;> rfl
        · obtain ⟨x, hx2⟩ := hspec_some (H := H) (k := k) hz
          rw [hx2] at e2
          have := ih L (l.drop (2 ^ k)) v hLk hz (by simp; omega) (fun x hx => h32 x (List.mem_of_mem_drop hx))
            (fun it hit => hs it (by simp [hit])) hv hv0 (fun x hx => hnil x (List.mem_of_mem_drop hx))
            (fun it hit => hright it (by simp [hit])) (by rw [hx2]; exact congrArg some e2)
          have hpos : 0 < (l.drop (2 ^ k)).length := List.length_pos_iff.mpr hz
          rcases this with t | t
          · left
            rw [List.length_drop] at t hpos
            omega
          · exact .inr (lift _ (inputs_drop k l) t)
    · refine .inr ⟨_, List.mem_cons_of_mem _ hm, _, List.mem_cons_of_mem _ hinp, hx, ?_⟩
      rw [he, hashPairOrder]
      cases b <;> rfl

theorem restored_eval (E : HEnv) (hH : ∀ b, (E.H b).length = 32) (R : Rtl) (D D' : HDisk) (vs : List Bytes) (h0 : vs ≠ [])
    (h32 : ∀ v ∈ vs, v.length = 32) (hn : vs.length < 2 ^ 64) (key : UInt64) (v : Bytes) (c : List NodeProof)
    (items : List (Bytes × Bool)) (hi : chainItems E.H R c = some items) (t : Tree)
    (ht : restore E R D' key v c = some t) (hr : (t.hash E).2 = ((appended E D vs).hash E).2) :
    v.length = 32 ∧ (keyItems key items).length = 64 ∧ bitsNat ((keyItems key items).map Prod.snd) = key.toNat ∧
      hspec E.H 64 vs = some (evalItems E.H (keyItems key items) v) := by
  obtain ⟨hv, _, items', hi', h64, hb, hh⟩ := C158_hash E R D' key v c t ht
  cases Option.some.inj (hi.symm.trans hi')
  have hvn : ∀ v ∈ vs, v ≠ [] := fun v hv e => by have := h32 v hv; rw [e] at this; cases this
  obtain ⟨t', f1, _⟩ := hash_holds (appended_holds E hH D vs hvn hn)
  obtain ⟨x, hx⟩ := hspec_some (H := E.H) (k := 64) h0
  rw [f1, hx] at hr
  refine ⟨hv, h64, hb, ?_⟩
  rcases hh with e | e
  · rw [e] at hr; cases hr
  · rw [e] at hr
    rw [hx]
    exact hr.symm

/-- **C158.** If a tree restored from any chain has the root hash of the tree of some values, the value it was restored with is the one at
that key, or the key is not used yet and the value is the digest of nothing, or a collision is exhibited. -/
theorem C158_value (E : HEnv) (hH : ∀ b, (E.H b).length = 32) (R : Rtl) (D D' : HDisk) (vs : List Bytes) (h0 : vs ≠ [])
    (h32 : ∀ v ∈ vs, v.length = 32) (hn : vs.length < 2 ^ 64) (key : UInt64) (v : Bytes) (c : List NodeProof)
    (items : List (Bytes × Bool)) (hi : chainItems E.H R c = some items) (t : Tree)
    (ht : restore E R D' key v c = some t) (hr : (t.hash E).2 = ((appended E D vs).hash E).2) :
    vs[key.toNat]? = some v ∨ (v = nilHash E.H ∧ vs.length ≤ key.toNat) ∨
      Collision E.H ([] :: inputs E.H 64 vs) (evalInputs E.H (keyItems key items) v) := by
  obtain ⟨hv, h64, hb, hev⟩ := restored_eval E hH R D D' vs h0 h32 hn key v c items hi t ht hr
  rcases proof_sound E.H hH 64 _ vs v h64 h0 (Nat.le_of_lt hn) h32 (keyItems_len _ _) hv hev with e | e | e
  · left; rwa [hb] at e
  · right; left; rwa [hb] at e
  · right; right; exact e

/-- **C158.** If besides all elements on the right of the path are the digest of nothing, the key is the last one, so that the restored
tree expects the right next key, or a collision is exhibited. -/
theorem C158_last (E : HEnv) (hH : ∀ b, (E.H b).length = 32) (R : Rtl) (D D' : HDisk) (vs : List Bytes) (h0 : vs ≠ [])
    (h32 : ∀ v ∈ vs, v.length = 32 ∧ v ≠ nilHash E.H) (hn : vs.length < 2 ^ 64) (key : UInt64) (v : Bytes) (hv0 : v ≠ nilHash E.H)
    (c : List NodeProof) (items : List (Bytes × Bool)) (hi : chainItems E.H R c = some items) (t : Tree)
    (ht : restore E R D' key v c = some t) (hr : (t.hash E).2 = ((appended E D vs).hash E).2)
    (hright : ∀ it ∈ keyItems key items, it.2 = false → it.1 = nilHash E.H) :
    (vs.length = key.toNat + 1 ∧ t.expecting.toNat = vs.length) ∨
      Collision E.H ([] :: inputs E.H 64 vs) ([] :: evalInputs E.H (keyItems key items) v) := by
  have h32' : ∀ v ∈ vs, v.length = 32 := fun v hv => (h32 v hv).1
  obtain ⟨hv, h64, hb, hev⟩ := restored_eval E hH R D D' vs h0 h32' hn key v c items hi t ht hr
  rcases last_sound E.H hH 64 _ vs v h64 h0 (Nat.le_of_lt hn) h32' (keyItems_len _ _) hv hv0 (fun x hx => (h32 x hx).2) hright hev with e | e
  · left
    rw [hb] at e
    refine ⟨e, ?_⟩
    rw [(C158_hash E R D' key v c t ht).2.1, e, UInt64.toNat_add]
    apply Nat.mod_eq_of_lt
    show key.toNat + 1 < 2 ^ 64
    omega
  · exact .inr e

/-! ### Witnesses -/

def threeVals : List Bytes := [toyLeaf 100, toyLeaf 101, toyLeaf 102]

/-- A tree of three values, restored from the proof of a key. -/
def restoredAt (key : UInt64) : Option Tree :=
  ((appended toyHE noDisk threeVals).getProof toyHE key).2.bind fun r => restore toyHE toyRtl noDisk key r.1 r.2

/-- Restored from the proof of the last value: the root of the full tree, and the next key is expected. -/
example : (restoredAt 2).map (fun t => (t.expecting, (t.hash toyHE).2)) = some (3, hspec toyH 64 threeVals) := by decide +kernel

/-- **C158, where it ends.** A tree restored from the proof of another key has the root hash of the full tree too, but it expects the key
after the one it was restored from: the next value of the full tree is refused, and a value at a key that is in use is accepted and
replaces the one that was there. -/
theorem C158_overwrite_refuted :
    (restoredAt 0).map (fun t =>
      let a := t.append toyHE 1 (toyLeaf 55)
      ((t.hash toyHE).2, (t.append toyHE 3 (toyLeaf 103)).2, a.2, (a.1.hash toyHE).2)) =
    some (hspec toyH 64 threeVals, false, true, hspec toyH 64 [toyLeaf 100, toyLeaf 55, toyLeaf 102]) := by
  decide +kernel

end Verif.HTree

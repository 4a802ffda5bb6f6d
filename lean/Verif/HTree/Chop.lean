import Verif.HTree.Restore

/-!
# Chopping a history tree (C119)

`Chop` and `_chop` (`/repo/trie/historytree.go:1695-1807`): a new tree without the values after a key.  The nodes on the path of
the key are new and not dirty, the nodes beside it are copied as their hashes.
-/

namespace Verif.HTree
open Verif Verif.Merkle Verif.Trie

/-! ### The code -/

/-- The prefixes whose hashes are dropped by `_chop` with `indexingChanged == false` (`/repo/trie/historytree.go:1730-1740`): the
first three bits of `index + 1`, `index + 3`, …, and what is above. -/
def chopped (j : Nib) (q : List Bool) : Bool :=
  nibbles.any fun m => decide (j.val < m.val) && (m.val - j.val) % 2 == 1 && decide (q <+: (bits4 m).take 3)

/-- `isLeaf` of a node. -/
def TNode.leafFlag : TNode → Bool
  | .nil => false
  | .mk i _ => i.leaf

/-- What `copy` makes of a node with this leaf flag and hash (`/repo/trie/historytree.go:653-669`). -/
def copyOf (leaf : Bool) : Option Bytes → TNode
  | none => .nil
  | some r => .mk ⟨false, leaf, fun p => if p = [] then some r else none, fun _ => none⟩ fun _ => .nil

/-- The loop of `_chop` over the children up to the index (`/repo/trie/historytree.go:1717-1725`): the old children, of which the
hashes were asked for, the new ones, and the success. -/
def copyKids (H : Bytes → Bytes) : List Nib → (Nib → TNode) → (Nib → TNode) → (Nib → TNode) × (Nib → TNode) × Bool
  | [], c, new => (c, new, true)
  | k :: ks, c, new =>
    if (c k).isSome then
      let h := hashNode H (c k)
      match h.2 with
      | none => (setKid c k h.1, new, false)
      | some o => copyKids H ks (setKid c k h.1) (setKid new k (copyOf (c k).leafFlag o))
    else copyKids H ks c new

/-- The slot after the index is used, or a hash is dropped (`/repo/trie/historytree.go:1711-1713, 1726-1728, 1741-1744`). -/
def chopChanged (i : TInfo) (c : Nib → TNode) (j : Nib) : Bool :=
  (nibbles.any fun m => m.val == j.val + 1 && (if i.leaf then (i.leafs m).isSome else (c m).isSome)) ||
    prefixes.any fun q => chopped j q && (i.br q).isSome

/-- `_chop` (`/repo/trie/historytree.go:1696-1751`): the old children, the new node and whether it changed (`none` is an error). -/
def chopNode (H : Bytes → Bytes) (i : TInfo) (c : Nib → TNode) (j : Nib) : (Nib → TNode) × Option (TNode × Bool) :=
  let br := fun q => if chopped j q then none else i.br q
  if i.leaf then
    (c, if (i.leafs j).isSome then
      some (.mk ⟨false, true, br, fun m => if m.val ≤ j.val then i.leafs m else none⟩ fun _ => .nil, chopChanged i c j)
    else none)
  else if (c j).isSome then
    let r := copyKids H (nibbles.filter fun m => m.val ≤ j.val) c fun _ => .nil
    (r.1, if r.2.2 then some (.mk ⟨false, false, br, fun _ => none⟩ r.2.1, chopChanged i c j) else none)
  else (c, none)

/-- The new node gets the new node below it; if anything changed there, the hashes above are dropped
(`/repo/trie/historytree.go:1784, 1789-1798`). -/
def attach (n : TNode) (j : Nib) (sub : TNode) (below : Bool) : TNode :=
  match n with
  | .nil => .nil
  | .mk i c => .mk { i with br := if below then clearAnc j i.br else i.br } (setKid c j sub)

/-- The loops of `Chop` (`/repo/trie/historytree.go:1762-1799`): the old node, the new one and whether it changed (`none` is an
error). -/
def chopAt (E : HEnv) (D : HDisk) : List Nib → TNode → TNode × Option (TNode × Bool)
  | [], n => (n, none)
  | j :: q, n =>
    let e := opened E D n
    if e.2 = false then (e.1, none)
    else
      match e.1 with
      | .nil => (.nil, none)
      | .mk i c =>
        let r := chopNode E.H i c j
        match r.2 with
        | none => (.mk i r.1, none)
        | some (new, ch) =>
          if q = [] then (.mk i r.1, some (new, ch))
          else
            let d := chopAt E D q (if i.leaf then .mk i r.1 else r.1 j)
            let old := if i.leaf then d.1 else .mk i (setKid r.1 j d.1)
            match d.2 with
            | none => (old, none)
            | some (sub, below) => (old, some (attach new j sub below, ch || below))

/-- `Chop` (`/repo/trie/historytree.go:1753-1807`): the old tree and the new one (`none` is an error). -/
def Tree.chop (E : HEnv) (t : Tree) (key : UInt64) : Tree × Option Tree :=
  let r := chopAt E t.D (heightToPrefix key) t.root
  ({ t with root := r.1 }, r.2.map fun x => ⟨key + 1, x.1, t.D⟩)

/-! ### The right edge -/

section
variable {H : Bytes → Bytes} {S : Nat → List Bytes → Prop}

/-- The right edge is in memory, filled blocks beside it are known by their hash and satisfy `S`. -/
def Edge (H : Bytes → Bytes) (S : Nat → List Bytes → Prop) : Nat → TNode → List Bytes → Prop
  | 0, n, l => l ≠ [] ∧ l.length ≤ 2 ^ 4 ∧ ∃ i c, n = .mk i c ∧ OpenC H false 0 (fun _ _ => False) i c l
  | h + 1, n, l => l ≠ [] ∧ l.length ≤ 2 ^ (4 * (h + 1) + 4) ∧ ∃ i c, n = .mk i c ∧
      OpenC H false (h + 1) (fun n a => Edge H S h n a ∨ (ClosedAs H h n a ∧ a.length = 2 ^ (4 * h + 4) ∧ S h a)) i c l

/-- What the children satisfy. -/
def EKid (H : Bytes → Bytes) (S : Nat → List Bytes → Prop) : Nat → TNode → List Bytes → Prop
  | 0 => fun _ _ => False
  | h + 1 => fun n a => Edge H S h n a ∨ (ClosedAs H h n a ∧ a.length = 2 ^ (4 * h + 4) ∧ S h a)

theorem edge_iff (h : Nat) (n : TNode) (l : List Bytes) : Edge H S h n l ↔
    l ≠ [] ∧ l.length ≤ 2 ^ (4 * h + 4) ∧ ∃ i c, n = .mk i c ∧ OpenC H false h (EKid H S h) i c l := by
  cases h <;> rfl

theorem EKid.isSome {h : Nat} {n : TNode} {a : List Bytes} (hk : EKid H S h n a) : n.isSome = true := by
  cases h with
  | zero => exact hk.elim
  | succ h =>
    rcases hk with hk | ⟨⟨i, rfl, _⟩, _⟩
    · obtain ⟨_, _, i, c, rfl, _⟩ := (edge_iff h n a).mp hk
      rfl
    · rfl

theorem OpenC.weaken {h : Nat} {K : TNode → List Bytes → Prop} {i : TInfo} {c : Nib → TNode} {l : List Bytes}
    (ho : OpenC H false h K i c l) : OpenC H true h K i c l := by
  refine ⟨ho.leaf, ho.br, fun j => ?_, ho.held⟩
  rcases ho.slot j with h1 | ⟨h1, _⟩
  · exact .inl h1
  · cases h1

theorem edge_front : ∀ (h : Nat) (n : TNode) (l : List Bytes), Edge H S h n l → Front H h n l := by
  intro h
  induction h with
  | zero =>
    rintro n l ⟨h0, h1, i, c, rfl, ho⟩
    exact ⟨h0, h1, i, c, rfl, ho.weaken⟩
  | succ h ih =>
    rintro n l ⟨h0, h1, i, c, rfl, ho⟩
    refine ⟨h0, h1, i, c, rfl, ho.weaken.mono ?_⟩
    rintro j n _ (hk | ⟨hk, hl, _⟩)
    · exact .inl (ih _ _ hk)
    · exact .inr ⟨hk, hl⟩

/-! ### Cutting a list -/

theorem block_take {a B m : Nat} {l : List Bytes} (h : a + B ≤ m ∨ l.length ≤ m) :
    ((l.take m).drop a).take B = (l.drop a).take B := by
  rcases h with h | h
  · rw [List.drop_take, List.take_take, Nat.min_eq_left (by omega)]
  · rw [List.take_of_length_le h]

theorem chopped_end : ∀ q ∈ prefixes, ∀ j : Nib, chopped j q = false → (ofBits q + 1) * 2 ^ (4 - q.length) ≤ j.val + 1 := by
  decide +kernel

theorem prefix_end : ∀ q ∈ prefixes, ∀ j : Nib, (ofBits q + 1) * 2 ^ (4 - q.length) = j.val + 1 → q <+: (bits4 j).take 3 := by
  decide +kernel

/-- The hashes that are kept are those of the blocks of the shorter list. -/
theorem brOk_chop {h k : Nat} {l : List Bytes} {br br' : List Bool → Option Bytes} {j : Nib} (hb : BrOk H (4 * h) l br)
    (hj : k / 2 ^ (4 * h) = j.val)
    (hbr : ∀ q x, br' q = some x → br q = some x ∧ chopped j q = false ∧
      (q <+: (bits4 j).take 3 → k % 2 ^ (4 * h) + 1 = (part h j l).length)) :
    BrOk H (4 * h) (l.take (k + 1)) br' := by
  intro q x hq
  obtain ⟨h1, h2, h3⟩ := hbr q x hq
  obtain ⟨h4, h5⟩ := hb q x h1
  refine ⟨h4, ?_⟩
  rw [← h5]
  congr 1
  unfold sub
  have hm := mem_prefixes.mpr h4
  have he := chopped_end q hm j h2
  have e : 2 ^ (4 * h + 4 - q.length) = 2 ^ (4 - q.length) * 2 ^ (4 * h) := by
    rw [← Nat.pow_add]; congr 1; omega
  have hB := pow_pos2 (4 * h)
  have hd := Nat.div_add_mod k (2 ^ (4 * h))
  have hlt := Nat.mod_lt k hB
  rw [hj] at hd
  have hend : ofBits q * 2 ^ (4 * h + 4 - q.length) + 2 ^ (4 * h + 4 - q.length) =
      (ofBits q + 1) * 2 ^ (4 - q.length) * 2 ^ (4 * h) := by
    rw [e]; ring
  rcases Nat.lt_or_eq_of_le he with hlt' | heq
  · apply block_take
    left
    rw [hend]
    have h6 : (ofBits q + 1) * 2 ^ (4 - q.length) * 2 ^ (4 * h) ≤ j.val * 2 ^ (4 * h) := Nat.mul_le_mul_right _ (by omega)
    rw [Nat.mul_comm (2 ^ (4 * h))] at hd
    omega
  · have h6 := h3 (prefix_end q hm j heq)
    rw [part_eq, List.length_take, List.length_drop] at h6
    apply block_take
    rw [hend, heq]
    rw [Nat.mul_comm (2 ^ (4 * h))] at hd
    rw [Nat.add_mul, Nat.one_mul]
    generalize 2 ^ (4 * h) = B at *
    generalize j.val * B = z at *
    generalize k % B = r at *
    omega

/-- The blocks before the key are kept. -/
theorem part_take_lt {h k : Nat} {l : List Bytes} {j m : Nib} (hj : k / 2 ^ (4 * h) = j.val) (hm : m.val < j.val) :
    part h m (l.take (k + 1)) = part h m l := by
  rw [part_eq, part_eq]
  apply block_take
  left
  have hd := Nat.div_add_mod k (2 ^ (4 * h))
  rw [hj] at hd
  have h6 : (m.val + 1) * 2 ^ (4 * h) ≤ j.val * 2 ^ (4 * h) := Nat.mul_le_mul_right _ (by omega)
  rw [Nat.add_mul, Nat.one_mul] at h6
  rw [Nat.mul_comm (2 ^ (4 * h))] at hd
  omega

/-- They are filled. -/
theorem part_full_lt {h k : Nat} {l : List Bytes} {j m : Nib} (hj : k / 2 ^ (4 * h) = j.val) (hk : k < l.length) (hm : m.val < j.val) :
    (part h m l).length = 2 ^ (4 * h) := by
  rw [part_eq, List.length_take, List.length_drop]
  have hd := Nat.div_add_mod k (2 ^ (4 * h))
  rw [hj] at hd
  have h6 : (m.val + 1) * 2 ^ (4 * h) ≤ j.val * 2 ^ (4 * h) := Nat.mul_le_mul_right _ (by omega)
  rw [Nat.add_mul, Nat.one_mul] at h6
  rw [Nat.mul_comm (2 ^ (4 * h))] at hd
  omega

/-- The block of the key is cut. -/
theorem part_take_eq {h k : Nat} {l : List Bytes} {j : Nib} (hj : k / 2 ^ (4 * h) = j.val) :
    part h j (l.take (k + 1)) = (part h j l).take (k % 2 ^ (4 * h) + 1) := by
  rw [part_eq, part_eq, List.drop_take, List.take_take, List.take_take]
  have hd := Nat.div_add_mod k (2 ^ (4 * h))
  have hlt := Nat.mod_lt k (pow_pos2 (4 * h))
  rw [hj, Nat.mul_comm (2 ^ (4 * h))] at hd
  congr 1
  omega

theorem part_key {h k : Nat} {l : List Bytes} {j : Nib} (hj : k / 2 ^ (4 * h) = j.val) (hk : k < l.length) :
    k % 2 ^ (4 * h) < (part h j l).length := by
  rw [part_eq, List.length_take, List.length_drop]
  have hd := Nat.div_add_mod k (2 ^ (4 * h))
  have hlt := Nat.mod_lt k (pow_pos2 (4 * h))
  rw [hj, Nat.mul_comm (2 ^ (4 * h))] at hd
  omega

/-- The blocks after it are empty. -/
theorem part_take_gt {h k : Nat} {l : List Bytes} {j m : Nib} (hj : k / 2 ^ (4 * h) = j.val) (hm : j.val < m.val) :
    part h m (l.take (k + 1)) = [] := by
  rw [part_eq_nil]
  have hd := Nat.div_add_mod k (2 ^ (4 * h))
  have hlt := Nat.mod_lt k (pow_pos2 (4 * h))
  rw [hj] at hd
  have h6 : (j.val + 1) * 2 ^ (4 * h) ≤ m.val * 2 ^ (4 * h) := Nat.mul_le_mul_right _ (by omega)
  rw [Nat.add_mul, Nat.one_mul] at h6
  rw [Nat.mul_comm (2 ^ (4 * h))] at hd
  rw [List.length_take]
  omega

/-- If the next slot is empty and the block is not cut, nothing is. -/
theorem part_whole {h k : Nat} {l : List Bytes} {j : Nib} (hj : k / 2 ^ (4 * h) = j.val) (hk : k < l.length)
    (hl : l.length ≤ 2 ^ (4 * h + 4)) (hnext : ∀ m : Nib, m.val = j.val + 1 → part h m l = [])
    (hp : k % 2 ^ (4 * h) + 1 = (part h j l).length) : k + 1 = l.length := by
  rw [part_eq, List.length_take, List.length_drop] at hp
  have hd := Nat.div_add_mod k (2 ^ (4 * h))
  have hlt := Nat.mod_lt k (pow_pos2 (4 * h))
  rw [hj, Nat.mul_comm (2 ^ (4 * h))] at hd
  have hle : l.length ≤ (j.val + 1) * 2 ^ (4 * h) := by
    by_cases h15 : j.val + 1 < 16
    · have := hnext ⟨j.val + 1, h15⟩ rfl
      rwa [part_eq_nil] at this
    · have : j.val + 1 = 16 := by have := j.isLt; omega
      rw [this, ← pow_h4]
      exact hl
  rw [Nat.add_mul, Nat.one_mul] at hle
  generalize 2 ^ (4 * h) = B at *
  generalize j.val * B = z at *
  generalize k % B = r at *
  omega

/-! ### The copies -/

theorem copyKids_spec : ∀ (ks : List Nib) (c new : Nib → TNode), ks.Nodup → (∀ k ∈ ks, (hashNode H (c k)).2 ≠ none) →
    ∃ c' new', copyKids H ks c new = (c', new', true) ∧
      (∀ m, c' m = if m ∈ ks then (hashNode H (c m)).1 else c m) ∧
      ∀ m, new' m = if m ∈ ks ∧ (c m).isSome = true then copyOf (c m).leafFlag ((hashNode H (c m)).2.getD none) else new m := by
  intro ks
  induction ks with
  | nil => intro c new _ _; exact ⟨_, _, rfl, by simp, by simp⟩
  | cons k ks ih =>
    intro c new hnd hok
    obtain ⟨hk, hnd'⟩ := List.nodup_cons.mp hnd
    rw [copyKids]
    by_cases hs : (c k).isSome = true
    · rw [if_pos hs]
      simp only
      cases ho : (hashNode H (c k)).2 with
      | none => exact absurd ho (hok k (by simp))
      | some o =>
        simp only
        have hne : ∀ m ∈ ks, m ≠ k := fun m hm e => hk (e ▸ hm)
        obtain ⟨c', new', e1, e2, e3⟩ := ih (setKid c k (hashNode H (c k)).1) (setKid new k (copyOf (c k).leafFlag o)) hnd' (by
          intro m hm
          simp only [setKid, hne m hm, if_false]
          exact hok m (List.mem_cons_of_mem _ hm))
        refine ⟨c', new', e1, fun m => ?_, fun m => ?_⟩
        · rw [e2]
          by_cases hm : m = k
          · subst hm; simp [hk, setKid]
          · simp [hm, setKid]
        · rw [e3]
          by_cases hm : m = k
          · subst hm; simp [hk, setKid, hs, ho]
          · simp [hm, setKid]
    · rw [if_neg hs]
      have hn : c k = .nil := by cases hc : c k with | nil => rfl | mk i c' => rw [hc] at hs; exact absurd rfl hs
      obtain ⟨c', new', e1, e2, e3⟩ := ih c new hnd' fun m hm => hok m (List.mem_cons_of_mem _ hm)
      refine ⟨c', new', e1, fun m => ?_, fun m => ?_⟩
      · rw [e2]
        by_cases hm : m = k
        · subst hm; simp [hk, hn, hashNode]
        · simp [hm]
      · rw [e3]
        by_cases hm : m = k
        · subst hm; simp [hk, hn, TNode.isSome]
        · simp [hm]

theorem copy_closed {h : Nat} {n : TNode} {a : List Bytes} (h0 : a ≠ []) (hh : (hashNode H n).2 = some (hspec H (4 * h + 4) a)) :
    ClosedAs H h (copyOf n.leafFlag ((hashNode H n).2.getD none)) a := by
  obtain ⟨x, hx⟩ := hspec_some (H := H) (k := 4 * h + 4) h0
  rw [hh, hx]
  exact ⟨_, rfl, rfl, fun _ => rfl, x, hx, rfl⟩

theorem next_nil {h : Nat} {i : TInfo} {c : Nib → TNode} {l : List Bytes} {K : TNode → List Bytes → Prop} {j : Nib}
    (hK : ∀ n a, K n a → n.isSome = true) (ho : OpenC H false h K i c l)
    (hch : chopChanged i c j = false) : ∀ m : Nib, m.val = j.val + 1 → part h m l = [] := by
  intro m hm
  unfold chopChanged at hch
  rw [Bool.or_eq_false_iff, List.any_eq_false] at hch
  have h1 := hch.1 m (mem_nibbles m)
  simp only [hm, beq_self_eq_true, Bool.true_and, Bool.not_eq_true] at h1
  have hk : Known h K i c m (part h m l) := (ho.slot m).resolve_right (by simp)
  unfold Known at hk
  by_cases h0 : h = 0
  · rw [if_pos h0] at hk
    have hlf : i.leaf = true := by rw [ho.leaf, h0]; rfl
    rw [if_pos hlf, hk] at h1
    cases hp : part h m l with
    | nil => rfl
    | cons a b => rw [hp] at h1; cases h1
  · rw [if_neg h0] at hk
    have hlf : i.leaf = false := by rw [ho.leaf]; simp [h0]
    rw [if_neg (by simp [hlf])] at h1
    rcases hk with hk | ⟨_, hk⟩
    · exact hk.1
    · rw [hK _ _ hk] at h1; cases h1

end

section
variable {E : HEnv} {D : HDisk} {S : Nat → List Bytes → Prop}

/-- The copied children. -/
theorem copyKids_known {h : Nat} {i : TInfo} {c : Nib → TNode} {l : List Bytes} {j : Nib}
    (ho : OpenC E.H false (h + 1) (Kid E D false (h + 1)) i c l) :
    ∃ c' new, copyKids E.H (nibbles.filter fun m => m.val ≤ j.val) c (fun _ => .nil) = (c', new, true) ∧
      OpenC E.H false (h + 1) (Kid E D false (h + 1)) i c' l ∧ (∀ m, (c' m).isSome = (c m).isSome) ∧
      (∀ m : Nib, j.val < m.val → new m = .nil) ∧
      ∀ m : Nib, m.val ≤ j.val → part (h + 1) m l ≠ [] → ClosedAs E.H h (new m) (part (h + 1) m l) := by
  have hk : ∀ m, (part (h + 1) m l = [] ∧ c m = .nil) ∨ (part (h + 1) m l ≠ [] ∧ Kid E D false (h + 1) (c m) (part (h + 1) m l)) := by
    intro m
    have := (ho.slot m).resolve_right (by simp)
    unfold Known at this
    rwa [if_neg (by omega)] at this
  obtain ⟨c', new, e1, e2, e3⟩ := copyKids_spec (H := E.H) (nibbles.filter fun m => m.val ≤ j.val) c (fun _ => .nil)
    ((by decide : nibbles.Nodup).filter _) (by
      intro m _
      rcases hk m with ⟨_, h1⟩ | ⟨_, h1⟩
      · rw [h1]; simp [hashNode]
      · rw [(kid_hash (h + 1) (by omega) _ _ h1).1]; simp)
  have hmem : ∀ m : Nib, m ∈ nibbles.filter (fun m => decide (m.val ≤ j.val)) ↔ m.val ≤ j.val := by
    intro m
    simp [mem_nibbles]
  have hsome : ∀ m, (c' m).isSome = (c m).isSome := by
    intro m
    rw [e2]
    split
    · cases c m <;> rfl
    · rfl
  refine ⟨c', new, e1, ?_, hsome, ?_, ?_⟩
  · refine ho.congr rfl rfl ho.br (fun _ h => h) ?_ ?_
    · intro m hm
      have := hsome m
      rw [hm] at this
      cases hc : c' m with
      | nil => rfl
      | mk a b => rw [hc] at this; cases this
    · intro _ m hm
      rw [e2]
      split
      · exact (kid_hash (h + 1) (by omega) _ _ hm).2
      · exact hm
  · intro m hm
    rw [e3, if_neg]
    rw [hmem]
    omega
  · intro m hm hp
    rcases hk m with ⟨h1, _⟩ | ⟨_, h1⟩
    · exact absurd h1 hp
    · rw [e3, if_pos ⟨(hmem m).mpr hm, h1.isSome⟩]
      refine copy_closed hp ?_
      exact (kid_hash (h + 1) (by omega) _ _ h1).1

/-- Chopping at a key that is in the tree. -/
theorem chop_spec (hH : ∀ b, (E.H b).length = 32)
    (hS : ∀ h l j, S (h + 1) l → part (h + 1) j l ≠ [] → S h (part (h + 1) j l)) : ∀ (h : Nat) (n : TNode) (l : List Bytes) (k : Nat),
    Rep E D false h n l → S h l → k < l.length →
    ∃ n' m ch, chopAt E D (digits (h + 1) k) n = (n', some (m, ch)) ∧ Rep E D false h n' l ∧
      Edge E.H S h m (l.take (k + 1)) ∧ (ch = false → k + 1 = l.length) := by
  intro h
  induction h with
  | zero =>
    intro n l k hr _ hk
    obtain ⟨i, c, hop, ho, hs⟩ := opened_rep hH hr
    rw [rep_eq] at hr
    obtain ⟨h0, h1, _⟩ := hr
    obtain ⟨j, hj, hdig⟩ := digits_succ 0 k (by omega)
    have hlf : i.leaf = true := by rw [ho.leaf]; rfl
    have hkn : ∀ m, i.leafs m = (part 0 m l).head? := by
      intro m
      have := (ho.slot m).resolve_right (by simp)
      unfold Known at this
      rwa [if_pos rfl] at this
    have hpk := part_key (h := 0) hj hk
    have hsome : (i.leafs j).isSome = true := by
      rw [hkn]
      cases hp : part 0 j l with
      | nil => rw [hp] at hpk; simp at hpk
      | cons a b => rfl
    have hone : k % 2 ^ (4 * 0) + 1 = (part 0 j l).length := by
      have := part_length_le 0 j l
      simp only [Nat.mul_zero, Nat.pow_zero, Nat.mod_one] at *
      omega
    rw [hdig, chopAt]
    simp only [hop, Bool.true_eq_false, if_false, chopNode, hlf, if_true, hsome, digits]
    refine ⟨_, _, _, rfl, ?_, ?_, ?_⟩
    · rw [rep_eq]
      exact ⟨h0, h1, .inr ⟨i, c, rfl, ho, hs⟩⟩
    · rw [edge_iff]
      have hslot : ∀ m, Known 0 (EKid E.H S 0)
          ⟨false, true, fun q => if chopped j q then none else i.br q, fun m => if m.val ≤ j.val then i.leafs m else none⟩
          (fun _ => .nil) m (part 0 m (l.take (k + 1))) := by
        intro m
        unfold Known
        rw [if_pos rfl]
        simp only
        by_cases hm : m.val ≤ j.val
        · rw [if_pos hm, hkn]
          rcases Nat.lt_or_eq_of_le hm with hm | hm
          · rw [part_take_lt hj hm]
          · have : m = j := Fin.ext hm
            subst this
            rw [part_take_eq hj, hone, List.take_length]
        · rw [if_neg hm, part_take_gt hj (by omega)]
          rfl
      refine ⟨?_, ?_, _, _, rfl, rfl, ?_, fun m => .inl (hslot m), held_all (by rw [List.length_take]; omega) hslot⟩
      · intro e
        have := congrArg List.length e
        rw [List.length_take] at this
        simp at this
        exact h0 this
      · rw [List.length_take]; omega
      · refine brOk_chop ho.br hj ?_
        intro q x hq
        simp only at hq
        split at hq
        · cases hq
        · rename_i hc
          exact ⟨hq, by simpa using hc, fun _ => hone⟩
    · intro hch
      exact part_whole hj hk h1 (next_nil (fun _ _ hk => Kid.isSome hk) ho hch) hone
  | succ h ih =>
    intro n l k hr hSl hk
    obtain ⟨i, c, hop, ho, hs⟩ := opened_rep hH hr
    rw [rep_eq] at hr
    obtain ⟨h0, h1, _⟩ := hr
    obtain ⟨j, hj, hdig⟩ := digits_succ (h + 1) k (by omega)
    have hlf : i.leaf = false := by rw [ho.leaf]; rfl
    obtain ⟨c', new, f1, f2, f3, f4, f5⟩ := copyKids_known (j := j) ho
    have hpk := part_key (h := h + 1) hj hk
    have hpne : part (h + 1) j l ≠ [] := by intro e; rw [e] at hpk; simp at hpk
    have hkj : Kid E D false (h + 1) (c' j) (part (h + 1) j l) := by
      have := (f2.slot j).resolve_right (by simp)
      unfold Known at this
      rw [if_neg (by omega)] at this
      exact (this.resolve_left fun h => hpne h.1).2
    have hsome : (c j).isSome = true := by rw [← f3]; exact hkj.isSome
    obtain ⟨n1, m1, ch1, g1, g2, g3, g4⟩ := ih (c' j) (part (h + 1) j l) (k % 2 ^ (4 * (h + 1))) hkj (hS _ _ _ hSl hpne) hpk
    rw [hdig, chopAt]
    simp only [hop, Bool.true_eq_false, if_false, chopNode, hlf, if_true, hsome, f1, digits_ne_nil, Nat.succ_ne_zero,
      Bool.false_eq_true, g1]
    have hbelow : ch1 = false → k % 2 ^ (4 * (h + 1)) + 1 = (part (h + 1) j l).length := g4
    refine ⟨_, _, _, rfl, ?_, ?_, ?_⟩
    · rw [rep_eq]
      refine ⟨h0, h1, .inr ⟨i, _, rfl, f2.congr rfl rfl f2.br (fun _ h => h) ?_ ?_, hs⟩⟩
      · intro m hm
        by_cases hmj : m = j
        · subst hmj; rw [hm] at hkj; exact absurd hkj.isSome (by simp [TNode.isSome])
        · simp [setKid, hmj, hm]
      · intro _ m hm
        by_cases hmj : m = j
        · subst hmj; simp only [setKid, if_true]; exact g2
        · simp only [setKid, hmj, if_false]; exact hm
    · rw [edge_iff]
      unfold attach
      simp only
      have hslot : ∀ (br : List Bool → Option Bytes) (m : Nib), Known (h + 1) (EKid E.H S (h + 1)) ⟨false, false, br, fun _ => none⟩
          (setKid new j m1) m (part (h + 1) m (l.take (k + 1))) := by
        intro br m
        unfold Known
        rw [if_neg (by omega)]
        rcases Nat.lt_trichotomy m.val j.val with hm | hm | hm
        · have hmj : m ≠ j := fun e => by rw [e] at hm; omega
          right
          rw [part_take_lt hj hm]
          have hfull := part_full_lt (h := h + 1) hj hk hm
          have hne : part (h + 1) m l ≠ [] := by
            intro e
            rw [e] at hfull
            have := pow_pos2 (4 * (h + 1))
            simp at hfull
            omega
          refine ⟨hne, ?_⟩
          simp only [setKid, hmj, if_false]
          exact .inr ⟨f5 m (by omega) hne, hfull, hS _ _ _ hSl hne⟩
        · have : m = j := Fin.ext hm
          subst this
          right
          rw [part_take_eq hj]
          simp only [setKid, if_true]
          refine ⟨?_, .inl g3⟩
          intro e
          have := congrArg List.length e
          rw [List.length_take] at this
          simp at this
          exact hpne this
        · have hmj : m ≠ j := fun e => by rw [e] at hm; omega
          left
          refine ⟨part_take_gt hj hm, ?_⟩
          simp only [setKid, hmj, if_false]
          exact f4 m hm
      refine ⟨?_, ?_, _, _, rfl, rfl, ?_, fun m => .inl (hslot _ m), held_all (by rw [List.length_take]; omega) (hslot _)⟩
      · intro e
        have := congrArg List.length e
        rw [List.length_take] at this
        simp at this
        exact h0 this
      · rw [List.length_take]; omega
      · refine brOk_chop ho.br hj ?_
        intro q x hq
        simp only at hq
        by_cases hb : ch1 = true
        · rw [if_pos hb] at hq
          unfold clearAnc at hq
          split at hq
          · cases hq
          · rename_i hp
            simp only at hq
            split at hq
            · cases hq
            · rename_i hc
              exact ⟨hq, by simpa using hc, fun h => absurd h hp⟩
        · rw [if_neg hb] at hq
          split at hq
          · cases hq
          · rename_i hc
            exact ⟨hq, by simpa using hc, fun _ => hbelow (by simpa using hb)⟩
    · intro hch
      rw [Bool.or_eq_false_iff] at hch
      exact part_whole hj hk h1 (next_nil (fun _ _ hk => Kid.isSome hk) ho hch.1) (hbelow hch.2)

/-- Chopping at a key that is not in the tree. -/
theorem chop_absent (hH : ∀ b, (E.H b).length = 32) : ∀ (h : Nat) (n : TNode) (l : List Bytes) (k : Nat),
    Rep E D false h n l → l.length ≤ k → k < 2 ^ (4 * h + 4) →
    ∃ n', chopAt E D (digits (h + 1) k) n = (n', none) ∧ Rep E D false h n' l := by
  intro h
  induction h with
  | zero =>
    intro n l k hr hk hk2
    obtain ⟨i, c, hop, ho, hs⟩ := opened_rep hH hr
    rw [rep_eq] at hr
    obtain ⟨h0, h1, _⟩ := hr
    obtain ⟨j, hj, hdig⟩ := digits_succ 0 k (by omega)
    have hlf : i.leaf = true := by rw [ho.leaf]; rfl
    have hnone : i.leafs j = none := by
      have := (ho.slot j).resolve_right (by simp)
      unfold Known at this
      rw [if_pos rfl] at this
      rw [this, part_eq_nil.mpr (by rw [← hj]; simpa using hk)]
      rfl
    rw [hdig, chopAt]
    simp only [hop, Bool.true_eq_false, if_false, chopNode, hlf, if_true, hnone, Option.isSome_none, Bool.false_eq_true]
    refine ⟨_, rfl, ?_⟩
    rw [rep_eq]
    exact ⟨h0, h1, .inr ⟨i, c, rfl, ho, hs⟩⟩
  | succ h ih =>
    intro n l k hr hk hk2
    obtain ⟨i, c, hop, ho, hs⟩ := opened_rep hH hr
    rw [rep_eq] at hr
    obtain ⟨h0, h1, _⟩ := hr
    obtain ⟨j, hj, hdig⟩ := digits_succ (h + 1) k (by omega)
    have hlf : i.leaf = false := by rw [ho.leaf]; rfl
    obtain ⟨c', new, f1, f2, f3, f4, f5⟩ := copyKids_known (j := j) ho
    have hkn := (f2.slot j).resolve_right (by simp)
    unfold Known at hkn
    rw [if_neg (by omega)] at hkn
    rw [hdig, chopAt]
    rcases hkn with ⟨_, hn⟩ | ⟨hpne, hkj⟩
    · have hsome : (c j).isSome = false := by rw [← f3, hn]; rfl
      simp only [hop, Bool.true_eq_false, if_false, chopNode, hlf, hsome, Bool.false_eq_true]
      refine ⟨_, rfl, ?_⟩
      rw [rep_eq]
      exact ⟨h0, h1, .inr ⟨i, c, rfl, ho, hs⟩⟩
    · have hsome : (c j).isSome = true := by rw [← f3]; exact hkj.isSome
      have hd := Nat.div_add_mod k (2 ^ (4 * (h + 1)))
      rw [hj, Nat.mul_comm (2 ^ (4 * (h + 1)))] at hd
      have hple : (part (h + 1) j l).length ≤ k % 2 ^ (4 * (h + 1)) := by
        rw [part_eq, List.length_take, List.length_drop]
        omega
      obtain ⟨n1, g1, g2⟩ := ih (c' j) (part (h + 1) j l) (k % 2 ^ (4 * (h + 1))) hkj hple (Nat.mod_lt _ (pow_pos2 _))
      simp only [hop, Bool.true_eq_false, if_false, chopNode, hlf, if_true, hsome, f1, digits_ne_nil, Nat.succ_ne_zero,
        Bool.false_eq_true, g1]
      refine ⟨_, rfl, ?_⟩
      rw [rep_eq]
      refine ⟨h0, h1, .inr ⟨i, _, rfl, f2.congr rfl rfl f2.br (fun _ h => h) ?_ ?_, hs⟩⟩
      · intro m hm
        by_cases hmj : m = j
        · subst hmj; rw [hm] at hkj; exact absurd hkj.isSome (by simp [TNode.isSome])
        · simp [setKid, hmj, hm]
      · intro _ m hm
        by_cases hmj : m = j
        · subst hmj; simp only [setKid, if_true]; exact g2
        · simp only [setKid, hmj, if_false]; exact hm

/-! ### Reading the chopped tree -/

/-- The nodes in memory made dirty: reading does not look at it. -/
def soil : TNode → TNode
  | .nil => .nil
  | .mk i c => if isCollapsed i c then .mk i c else .mk { i with dirty := true } fun j => soil (c j)

theorem soil_isSome (n : TNode) : (soil n).isSome = n.isSome := by
  cases n with
  | nil => rfl
  | mk i c => rw [soil]; split <;> rfl

theorem soil_collapsed (i : TInfo) (c : Nib → TNode) :
    isCollapsed { i with dirty := true } (fun j => soil (c j)) = isCollapsed i c := by
  simp only [isCollapsed, hasChild, TInfo.hasLeaf, soil_isSome]

theorem soil_closed {h : Nat} {n : TNode} {a : List Bytes} (hc : ClosedAs E.H h n a) : soil n = n := by
  obtain ⟨i, rfl, _, hl, x, _, hb⟩ := hc
  rw [soil, if_pos (closed_isCollapsed hl hb)]

theorem edge_rep : ∀ (h : Nat) (n : TNode) (l : List Bytes), Edge E.H (Stored E D false) h n l → Rep E D false h (soil n) l := by
  intro h
  induction h with
  | zero =>
    intro n l hf
    obtain ⟨h0, h1, i, c, rfl, ho⟩ := (edge_iff 0 n l).mp hf
    rw [rep_eq, soil, if_neg (by rw [notCollapsed (fun _ _ => EKid.isSome) h1 ho]; simp)]
    refine ⟨h0, h1, .inr ⟨_, _, rfl, ⟨ho.leaf, ho.br, fun j => .inl ?_, fun hl => ?_⟩, by simp⟩⟩
    · exact (ho.slot j).resolve_right (by simp)
    · exact ho.held hl
  | succ h ih =>
    intro n l hf
    obtain ⟨h0, h1, i, c, rfl, ho⟩ := (edge_iff (h + 1) n l).mp hf
    rw [rep_eq, soil, if_neg (by rw [notCollapsed (fun _ _ => EKid.isSome) h1 ho]; simp)]
    have key : ∀ j, Known (h + 1) (EKid E.H (Stored E D false) (h + 1)) i c j (part (h + 1) j l) →
        Known (h + 1) (Kid E D false (h + 1)) { i with dirty := true } (fun j => soil (c j)) j (part (h + 1) j l) := by
      intro j hk
      unfold Known at hk ⊢
      rw [if_neg (by omega)] at hk ⊢
      rcases hk with ⟨e1, e2⟩ | ⟨e1, e2 | ⟨e2, e3, e4⟩⟩
      · exact .inl ⟨e1, by show soil (c j) = .nil; rw [e2]; rfl⟩
      · exact .inr ⟨e1, ih _ _ e2⟩
      · refine .inr ⟨e1, ?_⟩
        show Rep E D false h (soil (c j)) _
        rw [soil_closed e2]
        rw [rep_eq]
        exact ⟨e1, part_length_le _ _ _, .inl ⟨e2, e4⟩⟩
    refine ⟨h0, h1, .inr ⟨_, _, rfl, ⟨ho.leaf, ho.br, fun j => .inl ?_, fun hl => ?_⟩, by simp⟩⟩
    · exact key j ((ho.slot j).resolve_right (by simp))
    · obtain ⟨j, e1, e2⟩ := ho.held hl
      exact ⟨j, e1, key j e2⟩

theorem stored_kid {h : Nat} {l : List Bytes} (j : Nib) (hs : Stored E D false (h + 1) l) (hne : part (h + 1) j l ≠ []) :
    Stored E D false h (part (h + 1) j l) := by
  rw [stored_eq] at hs
  obtain ⟨i, c, _, _, ho⟩ := hs
  have := (ho.slot j).resolve_right (by simp)
  unfold Known at this
  rw [if_neg (by omega)] at this
  exact (this.resolve_left fun h => hne h.1).2.2

/-- `Chop` on a tree that holds its values. -/
theorem chop_holds (hH : ∀ b, (E.H b).length = 32) {t : Tree} {vals : List Bytes} (hh : Holds E false t vals) (k : UInt64)
    (hS : ∀ h l j, S (h + 1) l → part (h + 1) j l ≠ [] → S h (part (h + 1) j l)) (hS15 : S 15 vals) :
    ∃ t' u, t.chop E k = (t', u) ∧ Holds E false t' vals ∧ t'.D = t.D ∧
      (vals.length ≤ k.toNat → u = none) ∧ (k.toNat < vals.length → ∃ v, u = some v ∧ v.D = t.D ∧ v.expecting = k + 1 ∧
        Edge E.H S 15 v.root (vals.take (k.toNat + 1))) := by
  obtain ⟨he, hr⟩ := hh
  unfold Tree.chop
  rw [heightToPrefix_eq]
  rcases hr with ⟨h1, h2⟩ | h1
  · rw [h2, h1]
    have hn : digits 16 k.toNat ≠ [] := by rw [Ne, digits_ne_nil]; omega
    cases hd : digits 16 k.toNat with
    | nil => exact absurd hd hn
    | cons j q =>
      simp only [chopAt, opened]
      refine ⟨_, _, rfl, ⟨by rw [he, h1], .inl ⟨rfl, rfl⟩⟩, rfl, ?_, ?_⟩
      · simp
      · simp
  · by_cases hk : k.toNat < vals.length
    · obtain ⟨n', m, ch, g1, g2, g3, _⟩ := chop_spec hH hS 15 _ vals k.toNat h1 hS15 hk
      rw [g1]
      exact ⟨_, _, rfl, ⟨he, .inr g2⟩, rfl, fun h => absurd hk (by omega), fun _ => ⟨_, rfl, rfl, rfl, g3⟩⟩
    · obtain ⟨n', g1, g2⟩ := chop_absent hH 15 _ vals k.toNat h1 (by omega) (u64_lt k)
      rw [g1]
      exact ⟨_, _, rfl, ⟨he, .inr g2⟩, rfl, fun _ => rfl, fun h => absurd h hk⟩

/-- The edge of stored values is a tree for them. -/
theorem edge_stored : ∀ (h : Nat) (n : TNode) (l : List Bytes), Edge E.H (Stored E D false) h n l → Stored E D false h l →
    Rep E D false h n l := by
  intro h
  induction h with
  | zero =>
    intro n l hf hs
    obtain ⟨h0, h1, i, c, rfl, ho⟩ := (edge_iff 0 n l).mp hf
    rw [rep_eq]
    exact ⟨h0, h1, .inr ⟨i, c, rfl, ho, fun _ => hs⟩⟩
  | succ h ih =>
    intro n l hf hs
    obtain ⟨h0, h1, i, c, rfl, ho⟩ := (edge_iff (h + 1) n l).mp hf
    rw [rep_eq]
    refine ⟨h0, h1, .inr ⟨i, c, rfl, ho.mono ?_, fun _ => hs⟩⟩
    intro j n hne hk
    rcases hk with hk | ⟨e2, _, e4⟩
    · exact ih _ _ hk (stored_kid j hs hne)
    · show Rep E D false h n _
      rw [rep_eq]
      exact ⟨hne, part_length_le _ _ _, .inl ⟨e2, e4⟩⟩

theorem opened_edge {h : Nat} {i : TInfo} {c : Nib → TNode} {l : List Bytes}
    (hl : l.length ≤ 2 ^ (4 * h + 4)) (ho : OpenC E.H false h (EKid E.H S h) i c l) : opened E D (.mk i c) = (.mk i c, true) := by
  rw [opened, notCollapsed (fun _ _ => EKid.isSome) hl ho]
  simp

theorem part_prefix {h : Nat} {l L : List Bytes} (j : Nib) (hp : l <+: L) : part h j l <+: part h j L := by
  obtain ⟨t, rfl⟩ := hp
  rw [part_eq, part_eq]
  by_cases hj : j.val * 2 ^ (4 * h) ≤ l.length
  · rw [List.drop_append_of_le_length hj, List.take_append]
    exact List.prefix_append _ _
  · rw [List.drop_eq_nil_of_le (by omega)]
    simp

/-- Appending to the edge of a prefix of stored values makes a tree in which all that is clean is stored. -/
theorem edge_append (hH : ∀ b, (E.H b).length = 32) (v : Bytes) (hv : v ≠ []) : ∀ (h : Nat) (n : TNode) (l L : List Bytes),
    Edge E.H (Stored E D false) h n l → l <+: L → Stored E D false h L → l.length < 2 ^ (4 * h + 4) →
    ∃ n', appendAt E D (digits (h + 1) l.length) n v = (n', some true) ∧ Rep E D false h n' (l ++ [v]) := by
  intro h
  induction h with
  | zero =>
    intro n l L hf hp hS hl
    obtain ⟨h0, h1, i, c, rfl, ho⟩ := (edge_iff 0 n l).mp hf
    obtain ⟨j, hj, hdig⟩ := digits_succ 0 l.length hl
    have hnc := notCollapsed (fun _ _ => EKid.isSome) (by omega) ho
    have hlf : i.leaf = true := by rw [ho.leaf]; rfl
    rw [hdig, appendAt]
    simp only [opened_edge h1 ho, Bool.true_eq_false, if_false, digits, if_true, hlf, hnc, Bool.false_or, beq_iff_eq, hv]
    refine ⟨_, rfl, ?_⟩
    rw [rep_eq]
    refine ⟨by simp, by simp; omega, .inr ⟨_, _, rfl, ho.appended hj rfl rfl ?_ ?_, ?_⟩⟩
    · intro k hk
      simp [hk]
    · unfold Known
      rw [if_pos rfl]
      have : part 0 j l = [] := by
        rw [part_eq_nil, ← hj]
        simp
      simp [this]
    · intro hd; simp [TInfo.touch] at hd
  | succ h ih =>
    intro n l L hf hp hS hl
    obtain ⟨h0, h1, i, c, rfl, ho⟩ := (edge_iff (h + 1) n l).mp hf
    obtain ⟨j, hj, hdig⟩ := digits_succ (h + 1) l.length hl
    have hlf : i.leaf = false := by rw [ho.leaf]; rfl
    have hplen := part_length_path hj
    have hplt : (part (h + 1) j l).length < 2 ^ (4 * h + 4) := by
      rw [hplen]; exact Nat.mod_lt _ (pow_pos2 _)
    have hknown := ho.next_known hj
    unfold Known at hknown
    rw [if_neg (by omega)] at hknown
    rw [hdig, appendAt]
    simp only [opened_edge h1 ho, Bool.true_eq_false, if_false, digits_ne_nil, Nat.succ_ne_zero, hlf, Bool.false_eq_true]
    have hStored : ∀ k : Nib, part (h + 1) k l ≠ [] → Stored E D false h (part (h + 1) k L) := by
      intro k hk
      refine stored_kid k hS fun e => hk ?_
      have := part_prefix (h := h + 1) k hp
      rw [e] at this
      exact List.prefix_nil.mp this
    -- the other children stand for their blocks
    have hrep : ∀ k : Nib, k ≠ j → Known (h + 1) (Kid E D false (h + 1)) i c k (part (h + 1) k l) := by
      intro k hk
      refine Known.mono (fun n hne hkk => ?_) ((ho.slot k).resolve_right (by simp))
      rcases hkk with hkk | ⟨e2, _, e4⟩
      · have hfull : (part (h + 1) k l).length = 2 ^ (4 * (h + 1)) := by
          have hkl : k.val * 2 ^ (4 * (h + 1)) < l.length := by
            by_contra hc
            exact hne (part_eq_nil.mpr (by omega))
          have hd := Nat.div_add_mod l.length (2 ^ (4 * (h + 1)))
          rw [hj, Nat.mul_comm (2 ^ (4 * (h + 1)))] at hd
          have hkj : k.val < j.val := by
            have h1 : k.val ≤ j.val := by
              rw [← hj, Nat.le_div_iff_mul_le (pow_pos2 _)]
              omega
            have h2 : k.val ≠ j.val := fun e => hk (Fin.ext e)
            omega
          have h6 : (k.val + 1) * 2 ^ (4 * (h + 1)) ≤ j.val * 2 ^ (4 * (h + 1)) := Nat.mul_le_mul_right _ (by omega)
          rw [Nat.add_mul, Nat.one_mul] at h6
          rw [part_eq, List.length_take, List.length_drop]
          omega
        refine edge_stored h n _ hkk ?_
        have e := (part_prefix (h := h + 1) k hp).eq_of_length (by
          have := part_length_le (h + 1) k L
          have := (part_prefix (h := h + 1) k hp).length_le
          omega)
        rw [e]
        exact hStored k hne
      · show Rep E D false h n _
        rw [rep_eq]
        exact ⟨hne, part_length_le _ _ _, .inl ⟨e2, e4⟩⟩
    have fin : ∀ n', Rep E D false h n' (part (h + 1) j l ++ [v]) →
        Rep E D false (h + 1) (.mk (i.touch j) (setKid c j n')) (l ++ [v]) := by
      intro n' hr'
      have hgen : OpenC E.H false (h + 1) (fun _ _ => True) (i.touch j) (setKid c j n') (l ++ [v]) := by
        refine (ho.mono fun _ _ _ _ => trivial).appended hj rfl rfl ?_ ?_
        · intro k hk
          simp [TInfo.touch, setKid, hk]
        · unfold Known
          rw [if_neg (by omega)]
          exact .inr ⟨by simp, trivial⟩
      have hall : ∀ k, Known (h + 1) (Kid E D false (h + 1)) (i.touch j) (setKid c j n') k (part (h + 1) k (l ++ [v])) := by
        intro k
        by_cases hk : k = j
        · subst hk
          rw [part_append_eq hj]
          unfold Known
          rw [if_neg (by omega)]
          right
          refine ⟨by simp, ?_⟩
          simp only [setKid, if_true]
          exact hr'
        · rw [part_append_ne hj hk]
          exact (Known.congr (by simp [TInfo.touch]) (by simp [setKid, hk])).mpr (hrep k hk)
      rw [rep_eq]
      exact ⟨by simp, by simp; omega, .inr ⟨_, _, rfl, ⟨hgen.leaf, hgen.br, fun k => .inl (hall k), held_all (by simp; omega) hall⟩,
        by simp [TInfo.touch]⟩⟩
    rcases hknown with ⟨h1, h2⟩ | ⟨h1, h2⟩
    · have hs : (c j).isSome = false := by rw [h2]; rfl
      simp only [hs, Bool.false_eq_true, if_false]
      have h3 : ((digits (h + 1) (l.length % 2 ^ (4 * (h + 1)))).length == 1) = decide (h = 0) := by
        rw [digits_length]; by_cases h00 : h = 0 <;> simp [h00]
      rw [h3, ← hplen]
      obtain ⟨n', he, hr'⟩ := append_spec (E := E) (D := D) (M := false) hH v hv h (newTNode (decide (h = 0))) (part (h + 1) j l)
        (.inr ⟨rfl, h1⟩) hplt
      rw [he]
      exact ⟨_, rfl, fin _ hr'⟩
    · have hs : (c j).isSome = true := EKid.isSome (h := h + 1) h2
      simp only [hs, if_true]
      rw [← hplen]
      rcases h2 with h2 | ⟨_, h2, _⟩
      · obtain ⟨n', he, hr'⟩ := ih (c j) (part (h + 1) j l) _ h2 (part_prefix j hp) (hStored j h1) hplt
        rw [he]
        exact ⟨_, rfl, fin _ hr'⟩
      · omega

/-! ### Trees that differ in what is dirty -/

/-- Every node dirty. -/
def TNode.wash : TNode → TNode
  | .nil => .nil
  | .mk i c => .mk { i with dirty := true } fun j => (c j).wash

/-- Equal but for what is dirty. -/
def Sim (n m : TNode) : Prop := n.wash = m.wash

theorem Sim.cases {n m : TNode} (h : Sim n m) : (n = .nil ∧ m = .nil) ∨
    ∃ i i' c c', n = .mk i c ∧ m = .mk i' c' ∧ i'.leaf = i.leaf ∧ i'.br = i.br ∧ i'.leafs = i.leafs ∧ ∀ j, Sim (c j) (c' j) := by
  unfold Sim at h
  cases n with
  | nil =>
    cases m with
    | nil => exact .inl ⟨rfl, rfl⟩
    | mk => cases h
  | mk i c =>
    cases m with
    | nil => cases h
    | mk i' c' =>
      simp only [TNode.wash, TNode.mk.injEq, TInfo.mk.injEq, true_and] at h
      exact .inr ⟨i, i', c, c', rfl, rfl, h.1.1.symm, h.1.2.1.symm, h.1.2.2.symm, fun j => congrFun h.2 j⟩

theorem Sim.mk {i i' : TInfo} {c c' : Nib → TNode} (h1 : i'.leaf = i.leaf) (h2 : i'.br = i.br) (h3 : i'.leafs = i.leafs)
    (h4 : ∀ j, Sim (c j) (c' j)) : Sim (.mk i c) (.mk i' c') := by
  unfold Sim at *
  simp only [TNode.wash, h1, h2, h3, h4]

theorem Sim.isSome {n m : TNode} (h : Sim n m) : m.isSome = n.isSome := by
  rcases h.cases with ⟨rfl, rfl⟩ | ⟨i, i', c, c', rfl, rfl, _⟩ <;> rfl

theorem Sim.setKid {c c' : Nib → TNode} (h : ∀ j, Sim (c j) (c' j)) (k : Nib) {n m : TNode} (hn : Sim n m) :
    ∀ j, Sim (setKid c k n j) (setKid c' k m j) := by
  intro j
  unfold HTree.setKid
  split
  · exact hn
  · exact h j

theorem Sim.collapsed {i i' : TInfo} {c c' : Nib → TNode} (h1 : i'.leaf = i.leaf) (h2 : i'.br = i.br) (h3 : i'.leafs = i.leafs)
    (h4 : ∀ j, Sim (c j) (c' j)) : isCollapsed i' c' = isCollapsed i c := by
  simp only [isCollapsed, hasChild, TInfo.hasLeaf, h1, h2, h3, fun j => (h4 j).isSome]

theorem sim_soil : ∀ n, Sim (soil n) n := by
  intro n
  induction n with
  | nil => rfl
  | mk i c ih =>
    rw [soil]
    split
    · rfl
    · exact Sim.mk rfl rfl rfl ih

theorem sim_opened {n m : TNode} (h : Sim n m) : Sim (opened E D n).1 (opened E D m).1 ∧ (opened E D m).2 = (opened E D n).2 := by
  rcases h.cases with ⟨rfl, rfl⟩ | ⟨i, i', c, c', rfl, rfl, h1, h2, h3, h4⟩
  · exact ⟨rfl, rfl⟩
  · rw [opened, opened, Sim.collapsed h1 h2 h3 h4, h2, h1]
    split
    · split
      · exact ⟨Sim.mk h1 h2 h3 h4, rfl⟩
      · split
        · exact ⟨Sim.mk h1 h2 h3 h4, rfl⟩
        · exact ⟨rfl, rfl⟩
    · exact ⟨Sim.mk h1 h2 h3 h4, rfl⟩

theorem sim_hash (H : Bytes → Bytes) : ∀ n m, Sim n m → Sim (hashNode H n).1 (hashNode H m).1 ∧ (hashNode H m).2 = (hashNode H n).2 := by
  intro n
  induction n with
  | nil =>
    intro m h
    rcases h.cases with ⟨_, rfl⟩ | ⟨i, i', c, c', h, _⟩
    · exact ⟨rfl, rfl⟩
    · cases h
  | mk i c ih =>
    intro m h
    rcases h.cases with ⟨he, _⟩ | ⟨i0, i', c0, c', he, rfl, h1, h2, h3, h4⟩
    · cases he
    · obtain ⟨rfl, rfl⟩ := TNode.mk.inj he
      rw [hashNode, hashNode]
      have e : (fun j => if i'.leaf then some (i'.leafs j) else (hashNode H (c' j)).2) =
          fun j => if i.leaf then some (i.leafs j) else (hashNode H (c j)).2 := by
        funext j
        rw [h1, h3, (ih j _ (h4 j)).2]
      simp only [e, h2]
      refine ⟨Sim.mk h1 rfl h3 fun j => ?_, trivial⟩
      unfold settle
      rw [h1]
      split
      · exact h4 j
      · split
        · exact (ih j _ (h4 j)).1
        · exact h4 j

theorem sim_items (H : Bytes → Bytes) {i i' : TInfo} {c c' : Nib → TNode} (h1 : i'.leaf = i.leaf) (h2 : i'.br = i.br)
    (h3 : i'.leafs = i.leafs) (h4 : ∀ j, Sim (c j) (c' j)) (j : Nib) :
    Sim (nodeItems H i c j).1 (nodeItems H i' c' j).1 ∧ (nodeItems H i' c' j).2 = (nodeItems H i c j).2 := by
  have e : slotsOf H i' c' = slotsOf H i c := by
    funext j
    simp only [slotsOf, h1, h3, (sim_hash H _ _ (h4 j)).2]
  simp only [nodeItems, e, h2]
  refine ⟨Sim.mk h1 rfl h3 fun k => ?_, trivial⟩
  unfold settle
  rw [h1]
  split
  · exact h4 k
  · split
    · exact (sim_hash H _ _ (h4 k)).1
    · exact h4 k

theorem sim_get : ∀ (p : List Nib) (n m : TNode), Sim n m →
    Sim (getAt E D p n).1 (getAt E D p m).1 ∧ (getAt E D p m).2 = (getAt E D p n).2 := by
  intro p
  induction p with
  | nil => intro n m h; exact ⟨h, rfl⟩
  | cons j q ih =>
    intro n m h
    obtain ⟨h1, h2⟩ := sim_opened (E := E) (D := D) h
    rw [getAt, getAt]
    simp only
    rw [h2]
    generalize opened E D n = a at *
    generalize opened E D m = b at *
    split
    · exact ⟨h1, rfl⟩
    · rcases h1.cases with ⟨e1, e2⟩ | ⟨i, i', c, c', e1, e2, g1, g2, g3, g4⟩
      · rw [e1, e2]; exact ⟨rfl, rfl⟩
      · rw [e1, e2]
        rw [e1, e2] at h1
        simp only [g1, g3, (g4 j).isSome]
        split
        · split
          · exact ⟨h1, rfl⟩
          · exact ⟨h1, rfl⟩
        · split
          · exact ⟨h1, rfl⟩
          · split
            · obtain ⟨f1, f2⟩ := ih _ _ (g4 j)
              exact ⟨Sim.mk g1 g2 g3 (Sim.setKid g4 j f1), f2⟩
            · exact ⟨h1, rfl⟩

theorem sim_append (v : Bytes) : ∀ (p : List Nib) (n m : TNode), Sim n m →
    Sim (appendAt E D p n v).1 (appendAt E D p m v).1 ∧ (appendAt E D p m v).2 = (appendAt E D p n v).2 := by
  intro p
  induction p with
  | nil => intro n m h; exact ⟨h, rfl⟩
  | cons j q ih =>
    intro n m h
    obtain ⟨h1, h2⟩ := sim_opened (E := E) (D := D) h
    rw [appendAt, appendAt]
    simp only
    rw [h2]
    generalize opened E D n = a at *
    generalize opened E D m = b at *
    split
    · exact ⟨h1, rfl⟩
    · rcases h1.cases with ⟨e1, e2⟩ | ⟨i, i', c, c', e1, e2, g1, g2, g3, g4⟩
      · rw [e1, e2]; exact ⟨rfl, rfl⟩
      · rw [e1, e2]
        rw [e1, e2] at h1
        simp only [g1, g3, (g4 j).isSome, Sim.collapsed g1 g2 g3 g4]
        split
        · split
          · exact ⟨h1, rfl⟩
          · split
            · exact ⟨h1, rfl⟩
            · exact ⟨Sim.mk g1 (by simp [TInfo.touch, g2]) rfl g4, rfl⟩
        · split
          · exact ⟨h1, rfl⟩
          · split
            · obtain ⟨f1, f2⟩ := ih _ _ (g4 j)
              rw [f2]
              split
              · exact ⟨Sim.mk g1 (by simp [TInfo.touch, g2]) g3 (Sim.setKid g4 j f1), rfl⟩
              · exact ⟨Sim.mk g1 g2 g3 (Sim.setKid g4 j f1), rfl⟩
            · split
              · exact ⟨h1, rfl⟩
              · exact ⟨Sim.mk g1 (by simp [TInfo.touch, g2]) g3 (Sim.setKid g4 j rfl), rfl⟩

theorem sim_proof : ∀ (p : List Nib) (n m : TNode), Sim n m →
    Sim (proofAt E D p n).1 (proofAt E D p m).1 ∧ (proofAt E D p m).2 = (proofAt E D p n).2 := by
  intro p
  induction p with
  | nil => intro n m h; exact ⟨h, rfl⟩
  | cons j q ih =>
    intro n m h
    obtain ⟨h1, h2⟩ := sim_opened (E := E) (D := D) h
    rw [proofAt, proofAt]
    simp only
    rw [h2]
    generalize opened E D n = a at *
    generalize opened E D m = b at *
    split
    · exact ⟨h1, rfl⟩
    · rcases h1.cases with ⟨e1, e2⟩ | ⟨i, i', c, c', e1, e2, g1, g2, g3, g4⟩
      · rw [e1, e2]; exact ⟨rfl, rfl⟩
      · rw [e1, e2]
        rw [e1, e2] at h1
        simp only [g1, g3, (g4 j).isSome]
        split
        · split
          · split
            · exact ⟨h1, rfl⟩
            · obtain ⟨f1, f2⟩ := sim_items E.H g1 g2 g3 g4 j
              rw [f2]
              exact ⟨f1, rfl⟩
          · exact ⟨h1, rfl⟩
        · split
          · exact ⟨h1, rfl⟩
          · split
            · obtain ⟨f1, f2⟩ := ih _ _ (g4 j)
              rw [f2]
              split
              · exact ⟨Sim.mk g1 g2 g3 (Sim.setKid g4 j f1), rfl⟩
              · obtain ⟨f3, f4⟩ := sim_items E.H g1 g2 g3 (Sim.setKid g4 j f1) j
                rw [f4]
                exact ⟨f3, rfl⟩
            · exact ⟨h1, rfl⟩

/-- Trees that differ in what is dirty. -/
def TSim (t u : Tree) : Prop := t.expecting = u.expecting ∧ t.D = u.D ∧ Sim t.root u.root

/-- The calls that do not look at what is dirty. -/
def Op.calm : Op → Bool
  | .append _ _ => true
  | .get _ => true
  | .hash => true
  | .getProof _ => true
  | _ => false

theorem calm_step {t u : Tree} (h : TSim t u) (op : Op) (hop : op.calm = true) :
    TSim (step E t op).1 (step E u op).1 ∧ (step E u op).2 = (step E t op).2 := by
  obtain ⟨h1, h2, h3⟩ := h
  cases op with
  | append k v =>
    simp only [step, Tree.append, ← h1, ← h2, h3.isSome]
    split
    · exact ⟨⟨h1, h2, h3⟩, rfl⟩
    · split
      · exact ⟨⟨h1, h2, h3⟩, rfl⟩
      · have hs : Sim (if t.root.isSome then t.root else newTNode false) (if t.root.isSome then u.root else newTNode false) := by
          split
          · exact h3
          · rfl
        obtain ⟨f1, f2⟩ := sim_append (E := E) (D := t.D) v (heightToPrefix k) _ _ hs
        rw [f2]
        split
        · exact ⟨⟨rfl, rfl, f1⟩, rfl⟩
        · exact ⟨⟨rfl, rfl, f1⟩, rfl⟩
        · exact ⟨⟨rfl, rfl, f1⟩, rfl⟩
  | get k =>
    obtain ⟨f1, f2⟩ := sim_get (E := E) (D := t.D) (heightToPrefix k) _ _ h3
    simp only [step, Tree.get, ← h2, f2]
    exact ⟨⟨h1, rfl, f1⟩, trivial⟩
  | hash =>
    obtain ⟨f1, f2⟩ := sim_hash E.H _ _ h3
    simp only [step, Tree.hash, f2]
    exact ⟨⟨h1, h2, f1⟩, trivial⟩
  | getProof k =>
    obtain ⟨f1, f2⟩ := sim_proof (E := E) (D := t.D) (heightToPrefix k) _ _ h3
    simp only [step, Tree.getProof, ← h2, f2]
    exact ⟨⟨h1, rfl, f1⟩, trivial⟩
  | _ => cases hop

theorem calm_run (ops : List Op) : ∀ {t u : Tree}, TSim t u → (∀ op ∈ ops, op.calm = true) →
    (run E u ops).2 = (run E t ops).2 := by
  induction ops with
  | nil => intro t u _ _; rfl
  | cons op ops ih =>
    intro t u h hop
    obtain ⟨h1, h2⟩ := calm_step (E := E) h op (hop op (by simp))
    simp only [run]
    rw [h2, ih h1 fun o ho => hop o (by simp [ho])]

end

/-! ### C119 -/

/-- What is left of the values after chopping at a key. -/
def upTo (vals : List Bytes) (key : UInt64) : List Bytes := vals.take (key.toNat + 1)

section
variable (E : HEnv) (hH : ∀ b, (E.H b).length = 32) (R : Rtl) (D : HDisk) (ops : List Op) (hn : (specRun [] ops).length < 2 ^ 64)
  (hw : (∃ op ∈ ops, op.writes = true) → E.C.Lawful ∧ Fair E.H (specRun [] ops)) (key : UInt64)

include hH hn hw in
/-- C119: after any calls, `Chop` succeeds exactly for the keys in the tree. -/
theorem C119_keys : (((run E (emptyTree D) ops).1.chop E key).2.isSome = true ↔ key.toNat < (specRun [] ops).length) := by
  have hh := (run_holds hH toyRtl _ ops (emptyTree D) [] rfl hn hw (holds_empty E false D)).1
  obtain ⟨t', u, g1, _, _, g2, g3⟩ := chop_holds (S := fun _ _ => True) hH hh key (fun _ _ _ _ _ => trivial) trivial
  rw [g1]
  by_cases hk : key.toNat < (specRun [] ops).length
  · obtain ⟨v, rfl, _⟩ := g3 hk
    simp [hk]
  · rw [g2 (by omega)]
    simp [hk]

include hH hn hw in
/-- C119: after `Chop` the tree itself answers every sequence of calls as if it had not been called. -/
theorem C119_original (more : List Op) (hn' : (specRun (specRun [] ops) more).length < 2 ^ 64)
    (hw' : (∃ op ∈ more, op.writes = true) → E.C.Lawful ∧ Fair E.H (specRun (specRun [] ops) more)) :
    Answers E R (specRun [] ops) more (run E ((run E (emptyTree D) ops).1.chop E key).1 more).2 := by
  have hh := (run_holds hH R _ ops (emptyTree D) [] rfl hn hw (holds_empty E false D)).1
  obtain ⟨t', u, g1, g2, _⟩ := chop_holds (S := fun _ _ => True) hH hh key (fun _ _ _ _ _ => trivial) trivial
  rw [g1]
  exact (run_holds hH R _ more t' _ rfl hn' hw' g2).2

include hH hn hw in
/-- C119: the new tree answers every sequence of `Append` and `HashValue` as a tree of the values up to the key, whatever is in
the storage. -/
theorem C119_run (hk : key.toNat < (specRun [] ops).length) (more : List Op) (hl : ∀ op ∈ more, op.light = true)
    (hn' : (specRun (upTo (specRun [] ops) key) more).length < 2 ^ 64) :
    ∃ u, ((run E (emptyTree D) ops).1.chop E key).2 = some u ∧
      Answers E R (upTo (specRun [] ops) key) more (run E u more).2 := by
  have hh := (run_holds hH R _ ops (emptyTree D) [] rfl hn hw (holds_empty E false D)).1
  obtain ⟨t', u, g1, _, _, _, g3⟩ := chop_holds (S := fun _ _ => True) hH hh key (fun _ _ _ _ _ => trivial) trivial
  obtain ⟨v, rfl, _, e2, e3⟩ := g3 hk
  rw [g1]
  refine ⟨v, rfl, (light_run R more v _ hn' hl ⟨?_, edge_front _ _ _ e3⟩).2.2⟩
  rw [e2, upTo, List.length_take, Nat.min_eq_left (by omega), UInt64.ofNat_add, UInt64.ofNat_toNat]
  rfl

include hH hn in
/-- The new tree of a tree that has just been saved. -/
theorem chop_saved (hC : E.C.Lawful) (hf : Fair E.H (specRun [] ops)) {t : Tree}
    (ht : (run E (emptyTree D) ops).1.commit E = (t, true)) (hk : key.toNat < (specRun [] ops).length) :
    ∃ t' u, t.chop E key = (t', some u) ∧ u.D = t.D ∧ u.expecting = UInt64.ofNat (upTo (specRun [] ops) key).length ∧
      Edge E.H (Stored E t.D false) 15 u.root (upTo (specRun [] ops) key) ∧ Stored E t.D false 15 (specRun [] ops) := by
  have hh := (run_holds hH toyRtl _ ops (emptyTree D) [] rfl hn (fun _ => ⟨hC, hf⟩) (holds_empty E false D)).1
  have h0 : specRun [] ops ≠ [] := fun e => by rw [e] at hk; exact absurd hk (by simp)
  obtain ⟨t1, ok, f1, f2, _, f3⟩ := commit_holds hH hC (fair_universe hH hf)
    (fun h0 => blocks_prefix h0 (by omega) (List.prefix_refl _)) hh
  rw [ht] at f1
  obtain ⟨rfl, rfl⟩ := Prod.mk.inj f1
  have hst := f3 rfl h0
  obtain ⟨t', u, g1, _, _, _, g3⟩ := chop_holds (S := Stored E t.D false) hH f2 key (fun _ _ j h1 h2 => stored_kid j h1 h2) hst
  obtain ⟨v, rfl, e1, e2, e3⟩ := g3 hk
  refine ⟨t', v, g1, e1, ?_, e3, hst⟩
  rw [e2, upTo, List.length_take, Nat.min_eq_left (by omega), UInt64.ofNat_add, UInt64.ofNat_toNat]
  rfl

include hH hn in
/-- C119: if the tree has just been saved, the new tree answers every sequence of `Append`, `Get`, `HashValue` and `GetProof` as a
tree of the values up to the key. -/
theorem C119_saved (hC : E.C.Lawful) (hf : Fair E.H (specRun [] ops)) {t : Tree}
    (ht : (run E (emptyTree D) ops).1.commit E = (t, true)) (hk : key.toNat < (specRun [] ops).length) (more : List Op)
    (hl : ∀ op ∈ more, op.calm = true) (hn' : (specRun (upTo (specRun [] ops) key) more).length < 2 ^ 64) :
    ∃ u, (t.chop E key).2 = some u ∧ Answers E R (upTo (specRun [] ops) key) more (run E u more).2 := by
  obtain ⟨t', u, g1, e1, e2, e3, _⟩ := chop_saved E hH D ops hn key hC hf ht hk
  rw [g1]
  refine ⟨u, rfl, ?_⟩
  rw [← e1] at e3
  have hs : TSim ⟨u.expecting, soil u.root, u.D⟩ u := ⟨rfl, rfl, sim_soil _⟩
  rw [calm_run more hs hl]
  exact (run_holds hH R _ more ⟨u.expecting, soil u.root, u.D⟩ _ rfl hn' (fun ⟨o, ho, h⟩ => by
    have := hl o ho
    cases o <;> first | (cases this; done) | (cases h; done)) ⟨e2, .inr (edge_rep _ _ _ e3)⟩).2

include hH hn in
/-- C119: if the tree has just been saved, the new tree answers every sequence of calls, `Commit` and reopening included, that
begins with an accepted `Append` as a tree of the values up to the key. -/
theorem C119_continued_partial (hC : E.C.Lawful) (hf : Fair E.H (specRun [] ops)) {t : Tree}
    (ht : (run E (emptyTree D) ops).1.commit E = (t, true)) (hk : key.toNat < (specRun [] ops).length)
    (v : Bytes) (hv : v ≠ []) (hkey : key.toNat + 1 < 2 ^ 64) (more : List Op)
    (hn' : (specRun (upTo (specRun [] ops) key ++ [v]) more).length < 2 ^ 64)
    (hf' : Fair E.H (specRun (upTo (specRun [] ops) key ++ [v]) more)) :
    ∃ u, (t.chop E key).2 = some u ∧
      Answers E R (upTo (specRun [] ops) key) (.append (key + 1) v :: more) (run E u (.append (key + 1) v :: more)).2 := by
  obtain ⟨t', u, g1, e1, e2, e3, e4⟩ := chop_saved E hH D ops hn key hC hf ht hk
  rw [g1]
  refine ⟨u, rfl, ?_⟩
  have hlen : (upTo (specRun [] ops) key).length = key.toNat + 1 := by
    rw [upTo, List.length_take, Nat.min_eq_left (by omega)]
  have hkn : (key + 1).toNat = key.toNat + 1 := by
    rw [UInt64.toNat_add]
    exact Nat.mod_eq_of_lt hkey
  have hke : key + 1 = u.expecting := by
    rw [e2, hlen, UInt64.ofNat_add, UInt64.ofNat_toNat]
    rfl
  obtain ⟨n', f1, f2⟩ := edge_append hH v hv 15 u.root _ _ e3 (List.take_prefix _ _) e4 (by rw [hlen]; exact hkey)
  have hsome : u.root.isSome = true := by
    obtain ⟨_, _, i, c, e, _⟩ := (edge_iff 15 u.root _).mp e3
    rw [e]; rfl
  have hstep : u.append E (key + 1) v = (⟨u.expecting + 1, n', u.D⟩, true) := by
    unfold Tree.append
    rw [if_neg (by simp [hke]), if_neg hv, heightToPrefix_eq, hkn, ← hlen, e1]
    simp only [hsome, if_true, f1]
  have hholds : Holds E false ⟨u.expecting + 1, n', u.D⟩ (upTo (specRun [] ops) key ++ [v]) := by
    refine ⟨?_, .inr ?_⟩
    · simp only [e2, List.length_append, List.length_singleton, UInt64.ofNat_add]
      rfl
    · simp only [e1]
      exact f2
  have hspec : specStep (upTo (specRun [] ops) key) (.append (key + 1) v) = upTo (specRun [] ops) key ++ [v] := by
    rw [specStep, hkn, hlen, if_pos ⟨rfl, hv⟩]
  simp only [run, step, hstep, Answers, hspec]
  refine ⟨?_, (run_holds hH R _ more _ _ rfl hn' (fun _ => ⟨hC, hf'⟩) hholds).2⟩
  simp only [Answer, hkn, hlen, hv, ne_eq, not_false_eq_true, and_self, decide_true]

end

/-- The tree that `Chop` makes of the values; saved before or not. -/
def choppedTree (save : Bool) (vs : List Bytes) (key : UInt64) : Option Tree :=
  let t := appended toyHE noDisk vs
  ((if save then (t.commit toyHE).1 else t).chop toyHE key).2

/-- C119 on seventeen values: the root after chopping and appending is the root of the same values. -/
example : ((choppedTree false seventeen 9).map fun u => ((run toyHE u (appends 10 [toyLeaf 200])).1.hash toyHE).2) =
    some ((appended toyHE noDisk (seventeen.take 10 ++ [toyLeaf 200])).hash toyHE).2 := by decide +kernel

example : (choppedTree false seventeen 16).isSome = true ∧ (choppedTree false seventeen 17).isSome = false := by decide +kernel

/-- C119 on saved values: an old value is read from the storage. -/
example : (choppedTree true seventeen 16).map (fun u => (u.get toyHE 3).2) = some (some (toyLeaf 103)) := by decide +kernel

/-- C119 on two saved values: chopped, continued, saved and opened. -/
example : ((choppedTree true fairVals 0).map fun u => (run toyHE u [.append 1 (toyLeaf 200), .reopen true]).1).map
    (fun t => (t.expecting, (t.get toyHE 0).2, (t.get toyHE 1).2)) =
    some (2, some (toyLeaf 100), some (toyLeaf 200)) := by decide +kernel

/-- C119 fails for a tree that has not been saved: the new tree knows the values before the last node by their hash only.  `Get`
of such a value finds nothing, and from then on the tree has no root hash. -/
theorem C119_unsaved_refuted :
    (choppedTree false seventeen 16).map (fun u => ((u.get toyHE 0).2, ((u.get toyHE 0).1.hash toyHE).2)) = some (none, none) ∧
    (choppedTree false seventeen 16).map (fun u => (u.hash toyHE).2.isSome) = some true ∧
    ((appended toyHE noDisk seventeen).get toyHE 0).2 = some (toyLeaf 100) := by decide +kernel

/-- C119 fails for `Commit` right after `Chop`: no new node is dirty, so that nothing is written although `Commit` succeeds, and the
storage cannot be opened at the root hash. -/
theorem C119_commit_refuted :
    (choppedTree true fairVals 0).map (fun u => ((u.commit toyHE).2, (u.hash toyHE).2.isSome,
      ((u.hash toyHE).2.bind fun r => openTree toyHE (u.commit toyHE).1.D r false).isSome)) = some (true, true, false) ∧
    (step toyHE (appended toyHE noDisk (fairVals.take 1)) (.reopen false)).1.expecting = 1 := by decide +kernel

end Verif.HTree

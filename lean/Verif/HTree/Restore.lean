import Verif.HTree.Claims

/-!
# Trees restored from a proof (C100, C102)

A light client holds the proof of the last value only.  `Front` says that the right edge of the tree is in memory and that
everything else is known by its hash.
-/

namespace Verif.HTree
open Verif Verif.Merkle Verif.Trie

/-! ### The code -/

/-- An element of a proof, `none` if `IsNil` (`/repo/basic.go:1364-1366`). -/
def item (H : Bytes → Bytes) (x : Bytes) : Option Bytes := if x = nilHash H then none else some x

/-- `_newNodeByHashItems`, `_mergeHashItems` (`/repo/trie/historytree.go:604-621, 1186-1235`) for a new node: the sibling of
the slot becomes a value or a node with only its hash, the other siblings are put in `Branchs`. -/
def restoreNode (H : Bytes → Bytes) (j : Nib) (leaf : Bool) (value : Bytes) (child : TNode) : List Bytes → Option TNode
  | [a, b, c, d] => some (.mk
      ⟨true, leaf,
        fun p => if p = sibling j 2 then item H b else if p = sibling j 1 then item H c
          else if p = sibling j 0 then item H d else none,
        fun k => if leaf then (if k = j then some value else if k = nibOf (sibling j 3) then item H a else none) else none⟩
      fun k => if leaf then .nil else if k = j then child
        else if k = nibOf (sibling j 3) then (match item H a with | none => .nil | some x => closed x) else .nil)
  | _ => none

/-- The loop of `RestoreTreeFromProofs` (`/repo/trie/historytree.go:122-141`): the nodes from the leaf up, four elements of
the proof for each. -/
def restoreAt (H : Bytes → Bytes) (value : Bytes) : List Nib → List Bytes → Option TNode
  | [], _ => none
  | j :: q, items =>
    if q = [] then restoreNode H j true value .nil (items.take 4)
    else (restoreAt H value q (items.take (4 * q.length))).bind fun n =>
      restoreNode H j false [] n ((items.drop (4 * q.length)).take 4)

/-- `RestoreTreeFromProofs` (`/repo/trie/historytree.go:107-150`); `none` is an error. -/
def restore (E : HEnv) (R : Rtl) (D : HDisk) (key : UInt64) (value : Bytes) (c : List NodeProof) : Option Tree :=
  if value.length ≠ 32 then none
  else
    match chainItems E.H R c with
    | none => none
    | some items =>
      if items.length < 64 then none
      else (restoreAt E.H value (heightToPrefix key) (items.map fun it => toHash it.1)).map fun n => ⟨key + 1, n, D⟩

/-! ### The right edge -/

section Front
variable {H : Bytes → Bytes}

/-- The right edge is in memory, filled blocks beside it may be known by their hash only. -/
def Front (H : Bytes → Bytes) : Nat → TNode → List Bytes → Prop
  | 0, n, l => l ≠ [] ∧ l.length ≤ 2 ^ 4 ∧ ∃ i c, n = .mk i c ∧ OpenC H true 0 (fun _ _ => False) i c l
  | h + 1, n, l => l ≠ [] ∧ l.length ≤ 2 ^ (4 * (h + 1) + 4) ∧ ∃ i c, n = .mk i c ∧
      OpenC H true (h + 1) (fun n a => Front H h n a ∨ (ClosedAs H h n a ∧ a.length = 2 ^ (4 * h + 4))) i c l

/-- What the children satisfy. -/
def FKid (H : Bytes → Bytes) : Nat → TNode → List Bytes → Prop
  | 0 => fun _ _ => False
  | h + 1 => fun n a => Front H h n a ∨ (ClosedAs H h n a ∧ a.length = 2 ^ (4 * h + 4))

theorem front_iff (h : Nat) (n : TNode) (l : List Bytes) : Front H h n l ↔
    l ≠ [] ∧ l.length ≤ 2 ^ (4 * h + 4) ∧ ∃ i c, n = .mk i c ∧ OpenC H true h (FKid H h) i c l := by
  cases h <;> rfl

theorem FKid.isSome {h : Nat} {n : TNode} {a : List Bytes} (hk : FKid H h n a) : n.isSome = true := by
  cases h with
  | zero => exact hk.elim
  | succ h =>
    rcases hk with hk | ⟨⟨i, rfl, _⟩, _⟩
    · obtain ⟨_, _, i, c, rfl, _⟩ := (front_iff h n a).mp hk
      rfl
    · rfl

theorem bits_sibling : ∀ (j : Nib) (t : Fin 4),
    ((bits4 j).getD t false = true → ofBits (sibling j t) + 1 = j.val / 2 ^ (3 - t.val)) ∧
    ((bits4 j).getD t false = false → ofBits (sibling j t) = j.val / 2 ^ (3 - t.val) + 1) := by decide

theorem sibling_length (j : Nib) {t : Nat} (ht : t < 4) : (sibling j t).length = t + 1 := by
  simp [sibling, bits4_length]; omega

theorem sibling_ne : ∀ j : Nib, nibOf (sibling j 3) ≠ j := by decide

theorem sibling_cover : ∀ (j k : Nib), k ≠ j → k ≠ nibOf (sibling j 3) → ∃ t : Fin 3, sibling j t <+: bits4 k := by
  decide +kernel

theorem sibling_block {h : Nat} {l : List Bytes} {j : Nib} (h0 : l ≠ []) (hj : (l.length - 1) / 2 ^ (4 * h) = j.val) {t : Nat}
    (ht : t < 4) :
    ((bits4 j).getD t false = true ∧ (sub (4 * h + 4) (sibling j t) l).length = 2 ^ (4 * h + 4 - (t + 1))) ∨
    l.length ≤ ofBits (sibling j t) * 2 ^ (4 * h + 4 - (t + 1)) := by
  have hpos : 0 < l.length := List.length_pos_iff.mpr h0
  have e : 2 ^ (4 * h + 4 - (t + 1)) = 2 ^ (4 * h) * 2 ^ (3 - t) := by
    rw [← Nat.pow_add]; congr 1; omega
  have hB := pow_pos2 (4 * h + 4 - (t + 1))
  have hm : (l.length - 1) / 2 ^ (4 * h + 4 - (t + 1)) = j.val / 2 ^ (3 - t) := by
    rw [e, ← Nat.div_div_eq_div_mul, hj]
  have h1 := Nat.div_add_mod (l.length - 1) (2 ^ (4 * h + 4 - (t + 1)))
  have h2 := Nat.mod_lt (l.length - 1) hB
  have hb := bits_sibling j ⟨t, ht⟩
  simp only at hb
  rw [← hm] at hb
  generalize hBd : 2 ^ (4 * h + 4 - (t + 1)) = B at *
  generalize (l.length - 1) / B = m at *
  cases hbit : (bits4 j).getD t false with
  | true =>
    left
    refine ⟨rfl, ?_⟩
    have := hb.1 hbit
    rw [sub_length, sibling_length j ht, hBd]
    subst this
    rw [Nat.mul_add, Nat.mul_comm B] at h1
    generalize ofBits (sibling j t) * B = z at *
    omega
  | false =>
    right
    have := hb.2 hbit
    rw [this, Nat.mul_comm, Nat.mul_add]
    omega

/-- No block hashes to the nil hash. -/
def NoNil (H : Bytes → Bytes) (k : Nat) (l : List Bytes) : Prop :=
  (∀ v ∈ l, v.length = 32 ∧ v ≠ nilHash H) ∧ ∀ x ∈ inputs H k l, H x ≠ nilHash H

theorem NoNil.ne {k : Nat} {l : List Bytes} (hn : NoNil H k l) {x : Bytes} (hx : hspec H k l = some x) : x ≠ nilHash H := by
  cases k with
  | zero =>
    cases l with
    | nil => cases hx
    | cons v l => exact Option.some.inj hx ▸ (hn.1 v (by simp)).2
  | succ k =>
    have h0 : l ≠ [] := by rintro rfl; rw [hspec_nil] at hx; cases hx
    obtain ⟨a, _, h1, h2⟩ := hspec_input (H := H) (k := k) h0
    rw [h1] at hx
    exact Option.some.inj hx ▸ hn.2 _ h2

theorem NoNil.sub {K : Nat} {l : List Bytes} (hn : NoNil H K l) (hl : l.length ≤ 2 ^ K) (p : List Bool) (hp : p.length ≤ K) :
    NoNil H (K - p.length) (HTree.sub K p l) :=
  ⟨fun v hv => hn.1 v (sub_mem hv), fun x hx => hn.2 x (inputs_sub hl p hp x hx)⟩

theorem item_getD (hH : ∀ b, (H b).length = 32) {k : Nat} {l : List Bytes} (hn : NoNil H k l) :
    item H (toHash (toHash ((hspec H k l).getD (nilHash H)))) = hspec H k l := by
  have hlen := getD_len (H := H) hH (k := k) fun v hv => (hn.1 v hv).1
  rw [toHash_of_len hlen, toHash_of_len hlen]
  unfold item
  cases hx : hspec H k l with
  | none => simp
  | some x => simp [hn.ne hx]

/-- Every sibling of the path through slot `j` is filled or empty. -/
def Even (h : Nat) (j : Nib) (l : List Bytes) : Prop :=
  ∀ t, t < 4 → (sub (4 * h + 4) (sibling j t) l).length = 2 ^ (4 * h + 4 - (t + 1)) ∨ sub (4 * h + 4) (sibling j t) l = []

theorem even_last {h : Nat} {l : List Bytes} {j : Nib} (h0 : l ≠ []) (hj : (l.length - 1) / 2 ^ (4 * h) = j.val) : Even h j l := by
  intro t ht
  rcases sibling_block h0 hj ht with ⟨_, h2⟩ | h2
  · exact .inl h2
  · right
    rw [← List.length_eq_zero_iff, sub_length, sibling_length j ht, Nat.sub_eq_zero_of_le h2, Nat.min_zero]

theorem sub_full {k : Nat} {l : List Bytes} (hl : l.length = 2 ^ k) (p : List Bool) (hp : p.length ≤ k) :
    (sub k p l).length = 2 ^ (k - p.length) := by
  rw [sub_length, hl]
  have h1 := ofBits_lt p
  have h2 : 2 ^ k = 2 ^ p.length * 2 ^ (k - p.length) := by rw [← Nat.pow_add]; congr 1; omega
  rw [h2, ← Nat.sub_mul]
  apply Nat.min_eq_left
  exact Nat.le_mul_of_pos_left _ (by omega)

theorem even_full {h : Nat} {l : List Bytes} (hl : l.length = 2 ^ (4 * h + 4)) (j : Nib) : Even h j l := by
  intro t ht
  left
  rw [sub_full hl _ (by rw [sibling_length j ht]; omega), sibling_length j ht]

/-- A slot in an empty block is empty. -/
theorem part_of_prefix {h : Nat} {l : List Bytes} {k : Nib} {p : List Bool} (hp : p <+: bits4 k) (hlen : p.length ≤ 4)
    (h0 : sub (4 * h + 4) p l = []) : part h k l = [] := by
  rw [← List.length_eq_zero_iff, sub_length] at h0
  rw [part_eq_nil]
  rw [prefix_bits4 hlen] at hp
  have e : 2 ^ (4 * h + 4 - p.length) = 2 ^ (4 - p.length) * 2 ^ (4 * h) := by
    rw [← Nat.pow_add]; congr 1; omega
  have hB := pow_pos2 (4 * h + 4 - p.length)
  have h2 : l.length ≤ ofBits p * 2 ^ (4 * h + 4 - p.length) := by
    generalize ofBits p * 2 ^ (4 * h + 4 - p.length) = z at *
    omega
  rw [hp, e, ← Nat.mul_assoc] at h2
  exact h2.trans (Nat.mul_le_mul_right _ (Nat.div_mul_le_self _ _))

/-- A restored node. -/
theorem restoreNode_spec (hH : ∀ b, (H b).length = 32) {h : Nat} {l : List Bytes} {j : Nib} {K : TNode → List Bytes → Prop}
    (hl : l.length ≤ 2 ^ (4 * h + 4)) (hn : NoNil H (4 * h + 4) l) (hpj : part h j l ≠ []) (he : Even h j l)
    {v : Bytes} {child : TNode} (hleaf : h = 0 → (part h j l).head? = some v) (hchild : h ≠ 0 → K child (part h j l))
    (hK : h ≠ 0 → ∀ k x, (part h k l).length = 2 ^ (4 * h) → hspec H (4 * h) (part h k l) = some x → K (closed x) (part h k l)) :
    ∃ i c, restoreNode H j (decide (h = 0)) v child ((upItems H (4 * h) l j 4).map fun it => toHash it.1) = some (.mk i c) ∧
      OpenC H true h K i c l := by
  have hS : ∀ t, t < 4 → item H (toHash (toHash ((hspec H (4 * h + (3 - t)) (sub (4 * h + 4) (sibling j t) l)).getD (nilHash H)))) =
      hspec H (4 * h + (3 - t)) (sub (4 * h + 4) (sibling j t) l) := by
    intro t ht
    have := hn.sub hl (sibling j t) (by rw [sibling_length j ht]; omega)
    rw [sibling_length j ht, show 4 * h + 4 - (t + 1) = 4 * h + (3 - t) by omega] at this
    exact item_getD hH this
  have s0 := hS 0 (by omega)
  have s1 := hS 1 (by omega)
  have s2 := hS 2 (by omega)
  have s3 := hS 3 (by omega)
  simp only [Nat.sub_zero, Nat.reduceSub, Nat.add_zero] at s0 s1 s2 s3
  refine ⟨_, _, rfl, ?_⟩
  simp only [Nat.sub_zero, Nat.reduceSub, Nat.add_zero, s0, s1, s2, s3]
  have b3 : bits4 (nibOf (sibling j 3)) = sibling j 3 := bits4_nibOf (sibling_length j (by omega))
  have p3 : part h (nibOf (sibling j 3)) l = sub (4 * h + 4) (sibling j 3) l := by rw [part, b3]
  have hjne : nibOf (sibling j 3) ≠ j := sibling_ne j
  have knownJ : Known h K
      ⟨true, decide (h = 0), fun p => if p = sibling j 2 then hspec H (4 * h + 1) (sub (4 * h + 4) (sibling j 2) l)
          else if p = sibling j 1 then hspec H (4 * h + 2) (sub (4 * h + 4) (sibling j 1) l)
          else if p = sibling j 0 then hspec H (4 * h + 3) (sub (4 * h + 4) (sibling j 0) l) else none,
        fun k => if decide (h = 0) then (if k = j then some v else if k = nibOf (sibling j 3) then
          hspec H (4 * h) (sub (4 * h + 4) (sibling j 3) l) else none) else none⟩
      (fun k => if decide (h = 0) then .nil else if k = j then child
        else if k = nibOf (sibling j 3) then
          (match hspec H (4 * h) (sub (4 * h + 4) (sibling j 3) l) with | none => .nil | some x => closed x) else .nil)
      j (part h j l) := by
    unfold Known
    by_cases hh : h = 0
    · subst hh
      simp [hleaf rfl]
    · simp [hh, hpj, hchild hh]
  refine ⟨rfl, ?_, ?_, ?_⟩
  · intro p x hp
    simp only at hp
    split at hp
    · rename_i e; subst e
      rw [sibling_length j (by omega)]
      exact ⟨by omega, hp⟩
    · split at hp
      · rename_i e; subst e
        rw [sibling_length j (by omega)]
        exact ⟨by omega, hp⟩
      · split at hp
        · rename_i e; subst e
          rw [sibling_length j (by omega)]
          exact ⟨by omega, hp⟩
        · cases hp
  · intro k
    by_cases hk : k = j
    · subst hk; exact .inl knownJ
    · by_cases hk3 : k = nibOf (sibling j 3)
      · left
        rw [hk3, p3]
        unfold Known
        by_cases hh : h = 0
        · subst hh
          simp [hjne, hspec]
        · simp only [hh, if_false, decide_false, Bool.false_eq_true, hjne, if_true]
          cases hx : hspec H (4 * h) (sub (4 * h + 4) (sibling j 3) l) with
          | none => exact .inl ⟨hspec_eq_none.mp hx, rfl⟩
          | some x =>
            have hne : sub (4 * h + 4) (sibling j 3) l ≠ [] := by
              intro e; rw [e, hspec_nil] at hx; cases hx
            refine .inr ⟨hne, ?_⟩
            have := hK hh (nibOf (sibling j 3)) x
            rw [p3] at this
            refine this ?_ hx
            rcases he 3 (by omega) with h2 | h2
            · rw [h2]; congr 1
            · exact absurd h2 hne
      · obtain ⟨t, ht⟩ := sibling_cover j k hk hk3
        have hleafs : (if h = 0 then (none : Option Bytes) else none) = none := by split <;> rfl
        rcases he t (by omega) with h2 | h2
        · right
          refine ⟨rfl, ?_, sibling j t, ht, by rw [sibling_length j (by omega)]; omega, ?_,
            by rw [sibling_length j (by omega)]; exact h2⟩
          · by_cases hh : h = 0 <;> simp [hh, hk, hk3]
          · have hne : sub (4 * h + 4) (sibling j t) l ≠ [] := by
              intro e
              rw [e] at h2
              have := pow_pos2 (4 * h + 4 - (t + 1))
              rw [List.length_nil] at h2
              omega
            have hsome : ∀ m, (hspec H m (sub (4 * h + 4) (sibling j t) l)).isSome = true := by
              intro m
              obtain ⟨x, hx⟩ := hspec_some (H := H) (k := m) hne
              rw [hx]; rfl
            have hl' : ∀ a b, a < 4 → b < 4 → a ≠ b → sibling j a ≠ sibling j b := by
              intro a b ha hb hab e
              have := congrArg List.length e
              rw [sibling_length j ha, sibling_length j hb] at this
              omega
            match t, ht, hsome with
            | 0, ht, hsome =>
              simp only [hl' 0 2 (by omega) (by omega) (by omega), hl' 0 1 (by omega) (by omega) (by omega), if_false, Fin.val_zero, if_true]
              exact hsome _
            | 1, ht, hsome =>
              simp only [hl' 1 2 (by omega) (by omega) (by omega), if_false, Fin.val_one, if_true]
              exact hsome _
            | 2, ht, hsome =>
              simp only [Fin.val_two, if_true]
              exact hsome _
        · left
          have hpk : part h k l = [] := part_of_prefix ht (by rw [sibling_length j (by omega)]; omega) h2
          unfold Known
          rw [hpk]
          by_cases hh : h = 0 <;> simp [hh, hk, hk3]
  · exact fun _ => ⟨j, hpj, knownJ⟩

theorem upItems_length (k : Nat) (l : List Bytes) (j : Nib) : ∀ t, (upItems H k l j t).length = t
  | 0 => rfl
  | t + 1 => by rw [upItems, List.length_cons, upItems_length k l j t]

theorem pathItems_length : ∀ (q : List Nib) (l : List Bytes), (pathItems H q l).length = 4 * q.length
  | [], _ => rfl
  | j :: q, l => by
    rw [pathItems, List.length_append, pathItems_length q, upItems_length, List.length_cons]; omega

theorem closed_closedAs {h : Nat} {l : List Bytes} {x : Bytes} (hx : hspec H (4 * h + 4) l = some x) :
    ClosedAs H h (closed x) l := ⟨_, rfl, rfl, fun _ => rfl, x, hx, rfl⟩

/-- The block of the last value ends where the list ends. -/
theorem part_last {h : Nat} {l : List Bytes} {j : Nib} (h0 : l ≠ []) (hj : (l.length - 1) / 2 ^ (4 * h) = j.val) :
    part h j l ≠ [] ∧ (part h j l).length - 1 = (l.length - 1) % 2 ^ (4 * h) ∧
      (part h j l)[(part h j l).length - 1]? = l[l.length - 1]? := by
  have hpos := List.length_pos_iff.mpr h0
  have hB := pow_pos2 (4 * h)
  have h1 := Nat.div_add_mod (l.length - 1) (2 ^ (4 * h))
  have h2 := Nat.mod_lt (l.length - 1) hB
  rw [hj, Nat.mul_comm] at h1
  have hlen : (part h j l).length = (l.length - 1) % 2 ^ (4 * h) + 1 := by
    rw [part_eq, List.length_take, List.length_drop]
    generalize j.val * 2 ^ (4 * h) = z at *
    generalize 2 ^ (4 * h) = B at *
    omega
  refine ⟨fun e => ?_, by omega, ?_⟩
  · rw [e] at hlen; simp at hlen
  · rw [hlen, Nat.add_sub_cancel, part_getElem? h j l _ h2, h1]

/-- C100: restoring from the proof of the last value gives the right edge. -/
theorem restore_spec (hH : ∀ b, (H b).length = 32) (v : Bytes) : ∀ (h : Nat) (l : List Bytes), l ≠ [] →
    l.length ≤ 2 ^ (4 * h + 4) → NoNil H (4 * h + 4) l → l[l.length - 1]? = some v →
    ∃ n, restoreAt H v (digits (h + 1) (l.length - 1))
      ((pathItems H (digits (h + 1) (l.length - 1)) l).map fun it => toHash it.1) = some n ∧ Front H h n l := by
  intro h
  induction h with
  | zero =>
    intro l h0 hl hn hv
    obtain ⟨j, hj, hdig⟩ := digits_succ 0 (l.length - 1) (by have := List.length_pos_iff.mpr h0; omega)
    obtain ⟨p1, p2, p3⟩ := part_last h0 hj
    have hp : (part 0 j l).length = 1 := by
      have h1 : (part 0 j l).length ≤ 1 := part_length_le 0 j l
      have := List.length_pos_iff.mpr p1
      omega
    rw [hp, hv] at p3
    obtain ⟨i, c, e, ho⟩ := restoreNode_spec hH (K := fun _ _ => False) hl hn p1 (even_last h0 hj) (v := v) (child := .nil)
      (fun _ => by rw [List.head?_eq_getElem?]; exact p3) (fun h => absurd rfl h) (fun h => absurd rfl h)
    refine ⟨_, ?_, h0, hl, i, c, rfl, ho⟩
    rw [hdig]
    simp only [digits, restoreAt, pathItems, if_true, List.length_nil, Nat.mul_zero, List.nil_append]
    rw [List.take_of_length_le (by rw [List.length_map, upItems_length])]
    exact e
  | succ h ih =>
    intro l h0 hl hn hv
    obtain ⟨j, hj, hdig⟩ := digits_succ (h + 1) (l.length - 1) (by have := List.length_pos_iff.mpr h0; omega)
    obtain ⟨p1, p2, p3⟩ := part_last h0 hj
    have hpl : (part (h + 1) j l).length ≤ 2 ^ (4 * h + 4) := part_length_le (h + 1) j l
    have hpn : NoNil H (4 * h + 4) (part (h + 1) j l) := by
      have := hn.sub hl (bits4 j) (by rw [bits4_length]; omega)
      rwa [bits4_length, show 4 * (h + 1) + 4 - 4 = 4 * h + 4 by omega] at this
    obtain ⟨n, e1, e2⟩ := ih (part (h + 1) j l) p1 hpl hpn (p3.trans hv)
    obtain ⟨i, c, e, ho⟩ := restoreNode_spec hH (K := FKid H (h + 1)) hl hn p1 (even_last h0 hj) (v := []) (child := n)
      (fun h => absurd h (by omega)) (fun _ => .inl e2)
      (fun _ k x hk hx => .inr ⟨closed_closedAs hx, hk⟩)
    refine ⟨_, ?_, h0, hl, i, c, rfl, ho⟩
    rw [hdig, restoreAt, if_neg (by simp [digits_ne_nil]), pathItems, List.map_append]
    have hlen : ((pathItems H (digits (h + 1) ((l.length - 1) % 2 ^ (4 * (h + 1))))
        (part (digits (h + 1) ((l.length - 1) % 2 ^ (4 * (h + 1)))).length j l)).map fun it => toHash it.1).length =
          4 * (digits (h + 1) ((l.length - 1) % 2 ^ (4 * (h + 1)))).length := by
      rw [List.length_map, pathItems_length]
    rw [List.take_left' hlen, List.drop_left' hlen, List.take_of_length_le (by rw [List.length_map, upItems_length])]
    simp only [digits_length]
    rw [← p2, e1]
    exact e

theorem fkid_hash {E : HEnv} : ∀ (h : Nat), h ≠ 0 → ∀ (n : TNode) (a : List Bytes), FKid E.H h n a →
    (hashNode E.H n).2 = some (hspec E.H (4 * h) a) ∧ FKid E.H h (hashNode E.H n).1 a := by
  intro h
  induction h with
  | zero => intro h; exact absurd rfl h
  | succ h ih =>
    intro _ n a hk
    rcases hk with hk | ⟨hc, hlen⟩
    · obtain ⟨h0, h1, i, c, rfl, ho⟩ := (front_iff h n a).mp hk
      obtain ⟨br, c', he, ho'⟩ := ho.hashed h1 ih
      rw [he]
      exact ⟨rfl, .inl ((front_iff h _ a).mpr ⟨h0, h1, _, _, rfl, ho'⟩)⟩
    · rw [hashNode_closed hc]
      exact ⟨rfl, .inr ⟨hc, hlen⟩⟩

theorem front_hash {E : HEnv} (h : Nat) (n : TNode) (l : List Bytes) (hf : Front E.H h n l) :
    (hashNode E.H n).2 = some (hspec E.H (4 * h + 4) l) ∧ Front E.H h (hashNode E.H n).1 l := by
  obtain ⟨h0, h1, i, c, rfl, ho⟩ := (front_iff h n l).mp hf
  obtain ⟨br, c', he, ho'⟩ := ho.hashed h1 (fkid_hash h)
  rw [he]
  exact ⟨rfl, (front_iff h _ l).mpr ⟨h0, h1, _, _, rfl, ho'⟩⟩

theorem opened_front {E : HEnv} {D : HDisk} {h : Nat} {i : TInfo} {c : Nib → TNode} {l : List Bytes}
    (hl : l.length ≤ 2 ^ (4 * h + 4)) (ho : OpenC E.H true h (FKid E.H h) i c l) : opened E D (.mk i c) = (.mk i c, true) := by
  rw [opened, notCollapsed (fun _ _ => FKid.isSome) hl ho]
  simp

/-- Appending needs nothing but the right edge. -/
theorem front_append {E : HEnv} (D : HDisk) (v : Bytes) (hv : v ≠ []) : ∀ (h : Nat) (n : TNode) (l : List Bytes),
    (Front E.H h n l ∨ (n = newTNode (decide (h = 0)) ∧ l = [])) → l.length < 2 ^ (4 * h + 4) →
    ∃ n', appendAt E D (digits (h + 1) l.length) n v = (n', some true) ∧ Front E.H h n' (l ++ [v]) := by
  have start : ∀ (h : Nat) (n : TNode) (l : List Bytes), (Front E.H h n l ∨ (n = newTNode (decide (h = 0)) ∧ l = [])) →
      l.length < 2 ^ (4 * h + 4) →
      ∃ i c, opened E D n = (.mk i c, true) ∧ OpenC E.H true h (FKid E.H h) i c l := by
    intro h n l hn hl
    rcases hn with hr | ⟨rfl, rfl⟩
    · obtain ⟨_, h1, i, c, rfl, ho⟩ := (front_iff h n l).mp hr
      exact ⟨i, c, opened_front h1 ho, ho⟩
    · refine ⟨_, _, ?_, openC_new _ _ _⟩
      rw [newTNode, opened, if_neg (by simp [isCollapsed])]
  intro h
  induction h with
  | zero =>
    intro n l hn hl
    obtain ⟨i, c, hop, ho⟩ := start 0 n l hn hl
    obtain ⟨j, hj, hdig⟩ := digits_succ 0 l.length hl
    have hnc := notCollapsed (fun _ _ => FKid.isSome) (by omega) ho
    have hlf : i.leaf = true := by rw [ho.leaf]; rfl
    rw [hdig, appendAt]
    simp only [hop, Bool.true_eq_false, if_false, digits, if_true, hlf, hnc, Bool.false_or, beq_iff_eq, hv]
    refine ⟨_, rfl, (front_iff 0 _ _).mpr ⟨by simp, by simp; omega, _, _, rfl, ho.appended hj rfl rfl ?_ ?_⟩⟩
    · intro k hk
      simp [hk]
    · unfold Known
      rw [if_pos rfl]
      have : part 0 j l = [] := by
        rw [part_eq_nil, ← hj]
        simp
      simp [this]
  | succ h ih =>
    intro n l hn hl
    obtain ⟨i, c, hop, ho⟩ := start (h + 1) n l hn hl
    obtain ⟨j, hj, hdig⟩ := digits_succ (h + 1) l.length hl
    have hlf : i.leaf = false := by rw [ho.leaf]; rfl
    have hplen := part_length_path hj
    have hplt : (part (h + 1) j l).length < 2 ^ (4 * h + 4) := by
      rw [hplen]; exact Nat.mod_lt _ (pow_pos2 _)
    have hknown := ho.next_known hj
    unfold Known at hknown
    rw [if_neg (by omega)] at hknown
    rw [hdig, appendAt]
    simp only [hop, Bool.true_eq_false, if_false, digits_ne_nil, Nat.succ_ne_zero, hlf, Bool.false_eq_true]
    have fin : ∀ n', Front E.H h n' (part (h + 1) j l ++ [v]) →
        Front E.H (h + 1) (.mk (i.touch j) (setKid c j n')) (l ++ [v]) := by
      intro n' hr'
      refine (front_iff (h + 1) _ _).mpr ⟨by simp, by simp; omega, _, _, rfl, ho.appended hj rfl rfl ?_ ?_⟩
      · intro k hk
        simp [TInfo.touch, setKid, hk]
      · unfold Known
        rw [if_neg (by omega)]
        right
        refine ⟨by simp, ?_⟩
        simp only [setKid, if_true]
        exact .inl hr'
    rcases hknown with ⟨h1, h2⟩ | ⟨h1, h2⟩
    · have hs : (c j).isSome = false := by rw [h2]; rfl
      simp only [hs, Bool.false_eq_true, if_false]
      have h3 : ((digits (h + 1) (l.length % 2 ^ (4 * (h + 1)))).length == 1) = decide (h = 0) := by
        rw [digits_length]; by_cases h00 : h = 0 <;> simp [h00]
      rw [h3, ← hplen]
      obtain ⟨n', he, hr'⟩ := ih (newTNode (decide (h = 0))) (part (h + 1) j l) (.inr ⟨rfl, h1⟩) hplt
      rw [he]
      exact ⟨_, rfl, fin _ hr'⟩
    · have hs : (c j).isSome = true := FKid.isSome (h := h + 1) h2
      simp only [hs, if_true]
      rw [← hplen]
      rcases h2 with h2 | ⟨_, h2⟩
      · obtain ⟨n', he, hr'⟩ := ih (c j) (part (h + 1) j l) (.inl h2) hplt
        rw [he]
        exact ⟨_, rfl, fin _ hr'⟩
      · omega

/-- Reading over an empty storage finds the value or nothing. -/
theorem front_get {E : HEnv} {D : HDisk} (hD : ∀ x, D x = none) : ∀ (h : Nat) (n : TNode) (l : List Bytes) (k : Nat),
    Front E.H h n l → k < 2 ^ (4 * h + 4) →
    (getAt E D (digits (h + 1) k) n).2.getD none = l[k]? ∨ (getAt E D (digits (h + 1) k) n).2.getD none = none := by
  intro h
  induction h with
  | zero =>
    intro n l k hf hk
    obtain ⟨h0, h1, i, c, rfl, ho⟩ := (front_iff 0 n l).mp hf
    obtain ⟨j, hj, hdig⟩ := digits_succ 0 k hk
    have hlf : i.leaf = true := by rw [ho.leaf]; rfl
    rw [hdig, getAt]
    simp only [opened_front h1 ho, Bool.true_eq_false, if_false, digits, if_true, hlf, Option.getD_some]
    rcases ho.slot j with hs | ⟨_, hs, _⟩
    · left
      simp only [Known, if_true] at hs
      rw [hs, List.head?_eq_getElem?, part_getElem? 0 j l 0 (by simp), ← hj]
      simp
    · right
      simpa using hs
  | succ h ih =>
    intro n l k hf hk
    obtain ⟨h0, h1, i, c, rfl, ho⟩ := (front_iff (h + 1) n l).mp hf
    obtain ⟨j, hj, hdig⟩ := digits_succ (h + 1) k hk
    have hlf : i.leaf = false := by rw [ho.leaf]; rfl
    rw [hdig, getAt]
    simp only [opened_front h1 ho, Bool.true_eq_false, if_false, digits_ne_nil, Nat.succ_ne_zero, hlf, Bool.false_eq_true]
    have hmod := Nat.mod_lt k (pow_pos2 (4 * (h + 1)))
    rcases ho.slot j with hs | ⟨_, hs, _⟩
    · simp only [Known, Nat.succ_ne_zero, if_false] at hs
      rcases hs with ⟨_, h2⟩ | ⟨h2, h3⟩
      · right; simp [h2, TNode.isSome]
      · have hsome : (c j).isSome = true := FKid.isSome (h := h + 1) h3
        simp only [hsome, if_true]
        rcases h3 with h3 | ⟨⟨i', e, hd, hlf', x, hx, hb⟩, _⟩
        · have := ih (c j) (part (h + 1) j l) (k % 2 ^ (4 * (h + 1))) h3 hmod
          rw [part_getElem? (h + 1) j l _ hmod, ← hj, Nat.div_add_mod'] at this
          exact this
        · right
          obtain ⟨j', q, hq⟩ : ∃ j' q, digits (h + 1) (k % 2 ^ (4 * (h + 1))) = j' :: q := ⟨_, _, rfl⟩
          have hop : (opened E D (c j)).1 = newTNode i'.leaf ∨ (opened E D (c j)).2 = false := by
            rw [e, opened, closed_isCollapsed hlf' hb, if_pos rfl, hb]
            simp only [if_true]
            split
            · right; rfl
            · left
              rw [readFull]
              split
              · rfl
              · rw [hD]
          rw [hq, getAt]
          simp only
          rcases hop with hop | hop
          · split
            · rfl
            · rw [hop]
              simp only [newTNode]
              by_cases hq0 : q = [] <;> cases i'.leaf <;> simp [hq0, TNode.isSome]
          · rw [if_pos hop]; rfl
    · right
      simp only [Nat.succ_ne_zero, if_false] at hs
      simp [hs, TNode.isSome]

end Front

/-! ### C100 -/

/-- The tree holds the right edge for the values. -/
def FHolds (E : HEnv) (t : Tree) (vals : List Bytes) : Prop :=
  t.expecting = UInt64.ofNat vals.length ∧ Front E.H 15 t.root vals

/-- The calls of a light client. -/
def Op.light : Op → Bool
  | .append _ _ => true
  | .hash => true
  | _ => false

theorem light_step {E : HEnv} (R : Rtl) {t : Tree} {vals : List Bytes} (hn : vals.length < 2 ^ 64) (hh : FHolds E t vals) (op : Op)
    (hop : op.light = true) (hD : t.D = D) :
    FHolds E (step E t op).1 (specStep vals op) ∧ (step E t op).1.D = D ∧ Answer E R vals op (step E t op).2 := by
  obtain ⟨he, hf⟩ := hh
  cases op with
  | append k v =>
    simp only [step, specStep, Answer]
    unfold Tree.append
    have hke := expecting_eq hn he k
    by_cases hk : k = t.expecting
    · rw [if_neg (by simp [hk])]
      have hk' := hke.mp hk
      by_cases hv : v = []
      · simp [hv, he, hf, hD, FHolds]
      · rw [if_neg hv, heightToPrefix_eq, hk']
        have hsome : t.root.isSome = true := by
          obtain ⟨_, _, i, c, e, _⟩ := (front_iff 15 t.root vals).mp hf
          rw [e]; rfl
        obtain ⟨n', g1, g2⟩ := front_append t.D v hv 15 t.root vals (.inl hf) hn
        simp only [hsome, if_true, g1, hv, ne_eq, not_false_eq_true, and_self, decide_true]
        refine ⟨⟨?_, g2⟩, hD, trivial⟩
        rw [he, List.length_append, List.length_singleton]
        exact (UInt64.ofNat_add _ _).symm
    · rw [if_pos hk]
      have hk' : ¬ k.toNat = vals.length := fun e => hk (hke.mpr e)
      simp [hk', he, hf, hD, FHolds]
  | hash =>
    obtain ⟨g1, g2⟩ := front_hash 15 t.root vals hf
    simp only [step, specStep, Answer, Tree.hash, g1]
    exact ⟨⟨he, g2⟩, hD, rfl⟩
  | _ => cases hop

theorem specRun_mono (ops : List Op) : ∀ vals, vals.length ≤ (specRun vals ops).length := by
  induction ops with
  | nil => intro vals; exact Nat.le_refl _
  | cons op ops ih =>
    intro vals
    refine Nat.le_trans ?_ (ih (specStep vals op))
    cases op <;> simp only [specStep] <;> first | (split <;> simp) | exact Nat.le_refl _

theorem light_run {E : HEnv} (R : Rtl) (ops : List Op) : ∀ (t : Tree) (vals : List Bytes), (specRun vals ops).length < 2 ^ 64 →
    (∀ op ∈ ops, op.light = true) → FHolds E t vals →
    FHolds E (run E t ops).1 (specRun vals ops) ∧ (run E t ops).1.D = t.D ∧ Answers E R vals ops (run E t ops).2 := by
  induction ops with
  | nil => intro t vals _ _ hh; exact ⟨hh, rfl, rfl⟩
  | cons op ops ih =>
    intro t vals hn hl hh
    have hlt : vals.length < 2 ^ 64 := Nat.lt_of_le_of_lt (specRun_mono (op :: ops) vals) hn
    obtain ⟨s1, s2, s3⟩ := light_step R hlt hh op (hl op (by simp)) rfl
    obtain ⟨r1, r2, r3⟩ := ih (step E t op).1 (specStep vals op) hn (fun o ho => hl o (by simp [ho])) s1
    exact ⟨r1, r2.trans s2, s3, r3⟩

/-- The tree that a light client restores from the proof of the last value of a full tree. -/
def lightTree (E : HEnv) (R : Rtl) (D D' : HDisk) (vs : List Bytes) : Option Tree :=
  let k := UInt64.ofNat (vs.length - 1)
  ((appended E D vs).getProof E k).2.bind fun r => restore E R D' k r.1 r.2

theorem restored (E : HEnv) (hH : ∀ b, (E.H b).length = 32) (R : Rtl) (D D' : HDisk) (vs : List Bytes) (h0 : vs ≠ [])
    (hnil : NoNil E.H 64 vs) (hn : vs.length < 2 ^ 64) :
    ∃ t, lightTree E R D D' vs = some t ∧ t.D = D' ∧ FHolds E t vs := by
  have hpos := List.length_pos_iff.mpr h0
  have hv : ∀ v ∈ vs, v ≠ [] := fun v hv e => by have := (hnil.1 v hv).1; rw [e] at this; cases this
  obtain ⟨_, hr⟩ := appended_holds E hH D vs hv hn
  rcases hr with ⟨h1, _⟩ | h1
  · exact absurd h1 h0
  · have hk : (UInt64.ofNat (vs.length - 1)).toNat = vs.length - 1 :=
      UInt64.toNat_ofNat_of_lt' (by change _ < 2 ^ 64; omega)
    obtain ⟨n', items, v, g1, g2, g3, g4, g5, g7, g6⟩ := proof_spec hH 15 _ vs (vs.length - 1) h1 (by omega)
    obtain ⟨n, e1, e2⟩ := restore_spec hH v 15 vs h0 (by omega) hnil g3
    refine ⟨⟨UInt64.ofNat (vs.length - 1) + 1, n, D'⟩, ?_, rfl, ?_, e2⟩
    · unfold lightTree Tree.getProof
      simp only
      rw [heightToPrefix_eq, hk, g1]
      have hv32 : v.length = 32 := (hnil.1 v (List.mem_of_getElem? g3)).1
      have hc := chain_build E.H R items
      unfold build at hc
      simp only [Option.map_some, Option.bind_some, restore, hc, hv32, ne_eq, not_true, if_false]
      have hil : items.length = 64 := by rw [g7, pathItems_length, digits_length]
      rw [if_neg (by omega), heightToPrefix_eq, hk, g7, e1]
      rfl
    · have : vs.length = (vs.length - 1) + 1 := by omega
      conv_rhs => rw [this]
      exact (UInt64.ofNat_add _ _).symm

/-- The assumption follows from that of C97. -/
theorem Fair.noNil {H : Bytes → Bytes} {vs : List Bytes} (hf : Fair H vs) (h0 : ∀ x ∈ inputs H 64 vs, x ≠ []) : NoNil H 64 vs := by
  refine ⟨fun v hv => ⟨hf.len v hv, hf.fresh v hv [] (.inl rfl)⟩, fun x hx e => h0 x hx ?_⟩
  exact hf.inj x [] (.inr ⟨vs.length, by rwa [List.take_length]⟩) (.inl rfl) e

/-- C100: a tree restored from the proof of the last value answers every sequence of `Append` and `HashValue` as the full
tree does, whatever its storage contains. -/
theorem C100_run (E : HEnv) (hH : ∀ b, (E.H b).length = 32) (R : Rtl) (D D' : HDisk) (vs : List Bytes) (h0 : vs ≠ [])
    (hnil : NoNil E.H 64 vs) (ops : List Op) (hl : ∀ op ∈ ops, op.light = true) (hn : (specRun vs ops).length < 2 ^ 64) :
    ∃ t, lightTree E R D D' vs = some t ∧ Answers E R vs ops (run E t ops).2 := by
  obtain ⟨t, e1, _, e3⟩ := restored E hH R D D' vs h0 hnil (Nat.lt_of_le_of_lt (specRun_mono ops vs) hn)
  exact ⟨t, e1, (light_run R ops t vs hn hl e3).2.2⟩

theorem appends_light : ∀ (vs : List Bytes) (i : Nat), ∀ op ∈ appends i vs, op.light = true := by
  intro vs
  induction vs with
  | nil => intro i op h; cases h
  | cons v vs ih =>
    intro i op h
    rcases List.mem_cons.mp h with rfl | h
    · rfl
    · exact ih _ op h

/-- C100: after appending the same values to the restored tree and to the full tree, their root hashes agree. -/
theorem C100_same_root (E : HEnv) (hH : ∀ b, (E.H b).length = 32) (R : Rtl) (D D' : HDisk) (vs ws : List Bytes) (h0 : vs ≠ [])
    (hnil : NoNil E.H 64 vs) (hw : ∀ v ∈ ws, v ≠ []) (hn : vs.length + ws.length < 2 ^ 64) :
    ∃ t, lightTree E R D D' vs = some t ∧
      ((run E t (appends vs.length ws)).1.hash E).2 = ((appended E D (vs ++ ws)).hash E).2 := by
  obtain ⟨t, e1, _, e3⟩ := restored E hH R D D' vs h0 hnil (by omega)
  refine ⟨t, e1, ?_⟩
  have hs := appends_spec ws vs hw hn
  obtain ⟨⟨_, f1⟩, _, _⟩ := light_run R (appends vs.length ws) t vs (by rw [hs]; simpa using hn) (appends_light ws _) e3
  rw [hs] at f1
  have hv : ∀ v ∈ vs ++ ws, v ≠ [] := by
    intro v hv
    rcases List.mem_append.mp hv with hv | hv
    · intro e; have := (hnil.1 v hv).1; rw [e] at this; cases this
    · exact hw v hv
  obtain ⟨_, f2, _⟩ := hash_holds (appended_holds E hH D (vs ++ ws) hv (by simpa using hn))
  rw [f2]
  simp only [Tree.hash, (front_hash 15 _ _ f1).1, Option.map_some]

/-- C100: what such a tree returns without any storage is the right value, or nothing. -/
theorem C100_get (E : HEnv) (hH : ∀ b, (E.H b).length = 32) (R : Rtl) (D : HDisk) (vs : List Bytes) (h0 : vs ≠ [])
    (hnil : NoNil E.H 64 vs) (ops : List Op) (hl : ∀ op ∈ ops, op.light = true) (hn : (specRun vs ops).length < 2 ^ 64) (k : UInt64) :
    ∃ t, lightTree E R D noDisk vs = some t ∧
      (((run E t ops).1.get E k).2 = (specRun vs ops)[k.toNat]? ∨ ((run E t ops).1.get E k).2 = none) := by
  obtain ⟨t, e1, e2, e3⟩ := restored E hH R D noDisk vs h0 hnil (Nat.lt_of_le_of_lt (specRun_mono ops vs) hn)
  refine ⟨t, e1, ?_⟩
  obtain ⟨f1, f2, _⟩ := light_run R ops t vs hn hl e3
  unfold Tree.get
  rw [heightToPrefix_eq]
  exact front_get (by rw [f2, e2]; exact fun _ => rfl) 15 _ _ k.toNat f1.2 (u64_lt k)

/-- The root of a tree that a light client restored, after more values. -/
def lightRoot (vs ws : List Bytes) : Option Bytes :=
  (lightTree toyHE toyRtl noDisk noDisk vs).bind fun t => ((run toyHE t (appends vs.length ws)).1.hash toyHE).2

/-- Seventeen values. -/
def seventeen : List Bytes := (List.range 17).map fun i => toyLeaf (100 + i)

example : lightRoot demoVals [toyLeaf 200, toyLeaf 201] =
    ((appended toyHE noDisk (demoVals ++ [toyLeaf 200, toyLeaf 201])).hash toyHE).2 ∧
    (lightRoot demoVals [toyLeaf 200, toyLeaf 201]).isSome := by decide +kernel

example : lightRoot seventeen [toyLeaf 200] = ((appended toyHE noDisk (seventeen ++ [toyLeaf 200])).hash toyHE).2 := by
  decide +kernel

/-- The assumption of C100 on two values. -/
example : NoNil toyH 64 fairVals := fair_vals.noNil (by decide +kernel)

/-- C100 fails if a value is the nil hash: it is taken as a missing one, and the tree has no root hash. -/
theorem C100_nil_value_refuted : lightRoot [nilHash toyH, toyLeaf 100] [] = none ∧
    ((appended toyHE noDisk [nilHash toyH, toyLeaf 100]).hash toyHE).2.isSome := by decide +kernel

/-! ### C102 -/

/-- C102 for trees made by appending: after any calls, `Get` leaves the root hash as it was. -/
theorem C102_get_partial (E : HEnv) (hH : ∀ b, (E.H b).length = 32) (D : HDisk) (ops : List Op)
    (hn : (specRun [] ops).length < 2 ^ 64)
    (hw : (∃ op ∈ ops, op.writes = true) → E.C.Lawful ∧ Fair E.H (specRun [] ops)) (k : UInt64) :
    let t := (run E (emptyTree D) ops).1
    ((t.get E k).1.hash E).2 = (t.hash E).2 := by
  have hh := (run_holds hH toyRtl _ ops (emptyTree D) [] rfl hn hw (holds_empty E false D)).1
  obtain ⟨t', o, g1, g2, _⟩ := get_holds hH hh k
  obtain ⟨_, f1, _⟩ := hash_holds hh
  obtain ⟨_, f2, _⟩ := hash_holds g2
  simp only [g1, f1, f2]

/-- C102 fails for restored trees: reading an old key opens a node that is not stored; it becomes an empty node, and the
root hash is an error from then on. -/
theorem C102_restored_refuted :
    ∃ t, lightTree toyHE toyRtl noDisk noDisk seventeen = some t ∧ (t.hash toyHE).2.isSome ∧
      ((t.get toyHE 0).1.hash toyHE).2 = none := by
  cases h : lightTree toyHE toyRtl noDisk noDisk seventeen with
  | none =>
    have : (lightTree toyHE toyRtl noDisk noDisk seventeen).isSome = true := by decide +kernel
    rw [h] at this; cases this
  | some t =>
    have : (lightTree toyHE toyRtl noDisk noDisk seventeen).all (fun t => (t.hash toyHE).2.isSome &&
      decide (((t.get toyHE 0).1.hash toyHE).2 = none)) = true := by decide +kernel
    rw [h] at this
    simp only [Option.all_some, Bool.and_eq_true, decide_eq_true_eq] at this
    exact ⟨t, rfl, this.1, this.2⟩

end Verif.HTree

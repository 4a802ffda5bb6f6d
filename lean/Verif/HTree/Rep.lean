import Verif.HTree.Height

/-!
# What the nodes of a history tree stand for

`Rep E D M h n l`: the node `n`, `h` levels above the leaf nodes, stands for the list `l` over the storage `D`.  With
`M = true` some slots may be unknown, if a cached hash of a filled block covers them (trees restored from proofs).
-/

namespace Verif.HTree
open Verif Verif.Merkle Verif.Trie

/-- A slot holds its block. -/
def Known (h : Nat) (K : TNode → List Bytes → Prop) (i : TInfo) (c : Nib → TNode) (j : Nib) (a : List Bytes) : Prop :=
  if h = 0 then i.leafs j = a.head? else (a = [] ∧ c j = .nil) ∨ (a ≠ [] ∧ K (c j) a)

/-- A slot without value, covered by the hash of a filled block. -/
def Missing (h : Nat) (i : TInfo) (c : Nib → TNode) (j : Nib) (l : List Bytes) : Prop :=
  (if h = 0 then i.leafs j = none else c j = .nil) ∧ ∃ q, q <+: bits4 j ∧ q.length < 4 ∧ (i.br q).isSome ∧
    (sub (4 * h + 4) q l).length = 2 ^ (4 * h + 4 - q.length)

/-- A node whose slots are in memory. -/
structure OpenC (H : Bytes → Bytes) (M : Bool) (h : Nat) (K : TNode → List Bytes → Prop) (i : TInfo) (c : Nib → TNode)
    (l : List Bytes) : Prop where
  leaf : i.leaf = decide (h = 0)
  br : BrOk H (4 * h) l i.br
  slot : ∀ j, Known h K i c j (part h j l) ∨ (M = true ∧ Missing h i c j l)
  held : l ≠ [] → ∃ j, part h j l ≠ [] ∧ Known h K i c j (part h j l)

/-- A node that holds only its hash. -/
def ClosedAs (H : Bytes → Bytes) (h : Nat) (n : TNode) (l : List Bytes) : Prop :=
  ∃ i, n = .mk i (fun _ => .nil) ∧ i.dirty = false ∧ (∀ j, i.leafs j = none) ∧
    ∃ x, hspec H (4 * h + 4) l = some x ∧ i.br = fun p => if p = [] then some x else none

/-- What is stored at the hash of `l` reads as a node for `l`. -/
def StoredAt (E : HEnv) (D : HDisk) (M : Bool) (h : Nat) (K : TNode → List Bytes → Prop) (l : List Bytes) : Prop :=
  ∃ i c, i.dirty = false ∧ (∀ x b, hspec E.H (4 * h + 4) l = some x → readFull E D b x = (.mk i c, true)) ∧
    OpenC E.H M h K i c l

/-- The list `l` is stored, with all the nodes below. -/
def Stored (E : HEnv) (D : HDisk) (M : Bool) : Nat → List Bytes → Prop
  | 0, l => StoredAt E D M 0 (fun _ _ => False) l
  | h + 1, l => StoredAt E D M (h + 1) (fun n a => ClosedAs E.H h n a ∧ Stored E D M h a) l

def RepAt (E : HEnv) (D : HDisk) (M : Bool) (h : Nat) (K : TNode → List Bytes → Prop) (n : TNode) (l : List Bytes) : Prop :=
  l ≠ [] ∧ l.length ≤ 2 ^ (4 * h + 4) ∧
    ((ClosedAs E.H h n l ∧ Stored E D M h l) ∨
      ∃ i c, n = .mk i c ∧ OpenC E.H M h K i c l ∧ (i.dirty = false → Stored E D M h l))

/-- The node stands for the list. -/
def Rep (E : HEnv) (D : HDisk) (M : Bool) : Nat → TNode → List Bytes → Prop
  | 0 => RepAt E D M 0 fun _ _ => False
  | h + 1 => RepAt E D M (h + 1) (Rep E D M h)

/-- What the children of a node of height `h` satisfy. -/
def Kid (E : HEnv) (D : HDisk) (M : Bool) : Nat → TNode → List Bytes → Prop
  | 0 => fun _ _ => False
  | h + 1 => Rep E D M h

/-- What the stored children of a node of height `h` satisfy. -/
def SKid (E : HEnv) (D : HDisk) (M : Bool) : Nat → TNode → List Bytes → Prop
  | 0 => fun _ _ => False
  | h + 1 => fun n a => ClosedAs E.H h n a ∧ Stored E D M h a

theorem rep_eq (E : HEnv) (D : HDisk) (M : Bool) (h : Nat) : Rep E D M h = RepAt E D M h (Kid E D M h) := by
  cases h <;> rfl

theorem stored_eq (E : HEnv) (D : HDisk) (M : Bool) (h : Nat) : Stored E D M h = StoredAt E D M h (SKid E D M h) := by
  cases h <;> rfl

variable {E : HEnv} {D : HDisk} {M : Bool}

theorem Known.mono {h : Nat} {K K' : TNode → List Bytes → Prop} {i : TInfo} {c : Nib → TNode} {j : Nib} {a : List Bytes}
    (hk : ∀ n, a ≠ [] → K n a → K' n a) (h1 : Known h K i c j a) : Known h K' i c j a := by
  unfold Known at *
  split
  · rename_i h0; rwa [if_pos h0] at h1
  · rename_i h0
    rw [if_neg h0] at h1
    rcases h1 with h | ⟨h, h'⟩
    · exact .inl h
    · exact .inr ⟨h, hk _ h h'⟩

theorem OpenC.mono {H : Bytes → Bytes} {h : Nat} {K K' : TNode → List Bytes → Prop} {i : TInfo} {c : Nib → TNode}
    {l : List Bytes} (hk : ∀ j n, part h j l ≠ [] → K n (part h j l) → K' n (part h j l)) (ho : OpenC H M h K i c l) :
    OpenC H M h K' i c l :=
  ⟨ho.leaf, ho.br, fun j => (ho.slot j).imp_left (Known.mono (hk j)), fun h0 =>
    let ⟨j, h1, h2⟩ := ho.held h0; ⟨j, h1, h2.mono (hk j)⟩⟩

theorem Kid.isSome {h : Nat} {n : TNode} {a : List Bytes} (hk : Kid E D M h n a) : n.isSome = true := by
  cases h with
  | zero => exact hk.elim
  | succ h =>
    simp only [Kid] at hk
    rw [rep_eq] at hk
    rcases hk.2.2 with ⟨⟨i, rfl, _⟩, _⟩ | ⟨i, c, rfl, _⟩ <;> rfl

theorem SKid.kid {h : Nat} {n : TNode} {a : List Bytes} (h0 : a ≠ []) (h1 : a.length ≤ 2 ^ (4 * h))
    (hk : SKid E D M h n a) : Kid E D M h n a := by
  cases h with
  | zero => exact hk.elim
  | succ h =>
    simp only [Kid, SKid] at *
    rw [rep_eq]
    exact ⟨h0, h1, .inl hk⟩

theorem pow_pos2 (n : Nat) : 0 < 2 ^ n := by positivity

theorem pow_h4 (h : Nat) : 2 ^ (4 * h + 4) = 16 * 2 ^ (4 * h) := by rw [Nat.pow_add]; omega

/-- The slot of the last value. -/
def lastNib (h : Nat) (l : List Bytes) (hl : l.length ≤ 2 ^ (4 * h + 4)) : Nib :=
  ⟨(l.length - 1) / 2 ^ (4 * h), by
    rw [pow_h4] at hl
    rw [Nat.div_lt_iff_lt_mul (pow_pos2 _)]
    have := pow_pos2 (4 * h)
    omega⟩

theorem part_lastNib {h : Nat} {l : List Bytes} (hl : l.length ≤ 2 ^ (4 * h + 4)) (h0 : l ≠ []) :
    part h (lastNib h l hl) l ≠ [] := by
  intro he
  rw [part_eq_nil] at he
  have h1 : 0 < l.length := List.length_pos_iff.mpr h0
  have := Nat.div_mul_le_self (l.length - 1) (2 ^ (4 * h))
  simp only [lastNib] at he
  omega

theorem held_all {h : Nat} {K : TNode → List Bytes → Prop} {i : TInfo} {c : Nib → TNode} {l : List Bytes}
    (hl : l.length ≤ 2 ^ (4 * h + 4)) (hk : ∀ j, Known h K i c j (part h j l)) (h0 : l ≠ []) :
    ∃ j, part h j l ≠ [] ∧ Known h K i c j (part h j l) :=
  ⟨_, part_lastNib hl h0, hk _⟩

theorem notCollapsed {h : Nat} {K : TNode → List Bytes → Prop} {i : TInfo} {c : Nib → TNode} {l : List Bytes}
    (hK : ∀ n a, K n a → n.isSome = true) (_hl : l.length ≤ 2 ^ (4 * h + 4)) (ho : OpenC E.H M h K i c l) :
    isCollapsed i c = false := by
  by_cases h0 : l = []
  · subst h0
    have : i.br [] = none := by
      cases hb : i.br [] with
      | none => rfl
      | some x => have := (ho.br [] x hb).2; rw [sub_nil, hspec_nil] at this; cases this
    simp [isCollapsed, this]
  · obtain ⟨k, h2, h1⟩ := ho.held h0
    unfold Known at h1
    split at h1
    · rename_i hz
      have h3 : i.hasLeaf = true := by
        unfold TInfo.hasLeaf
        rw [List.any_eq_true]
        refine ⟨k, mem_nibbles _, ?_⟩
        rw [h1]
        cases h4 : part h k l with
        | nil => exact absurd h4 h2
        | cons a b => rfl
      have h4 : i.leaf = true := by rw [ho.leaf]; simpa using hz
      simp [isCollapsed, h3, h4]
    · rename_i hz
      rcases h1 with ⟨h1, _⟩ | ⟨_, h1⟩
      · exact absurd h1 h2
      · have h3 : hasChild c = true := by
          unfold hasChild
          rw [List.any_eq_true]
          exact ⟨k, mem_nibbles _, hK _ _ h1⟩
        have h4 : i.leaf = false := by rw [ho.leaf]; simpa using hz
        simp [isCollapsed, h3, h4]

theorem closed_isCollapsed {i : TInfo} (hl : ∀ j, i.leafs j = none) {x : Bytes}
    (hb : i.br = fun p => if p = [] then some x else none) : isCollapsed i (fun _ => .nil) = true := by
  have h1 : i.hasLeaf = false := by simp [TInfo.hasLeaf, hl]
  have h2 : hasChild (fun _ => TNode.nil) = false := by decide
  have h3 : (prefixes.filter fun p => (i.br p).isSome).length = 1 := by
    have : (fun p => (i.br p).isSome) = fun p => decide (p = []) := by
      funext p
      rw [hb]
      by_cases h : p = [] <;> simp [h]
    rw [this]
    decide
  have h4 : (i.br []).isSome = true := by rw [hb]; simp
  rw [isCollapsed, h1, h2, h3, h4]
  cases i.leaf <;> rfl

/-- Reading a node that stands for a list. -/
theorem opened_rep (hH : ∀ b, (E.H b).length = 32) {h : Nat} {n : TNode} {l : List Bytes} (hr : Rep E D M h n l) :
    ∃ i c, opened E D n = (.mk i c, true) ∧ OpenC E.H M h (Kid E D M h) i c l ∧ (i.dirty = false → Stored E D M h l) := by
  rw [rep_eq] at hr
  obtain ⟨h0, h1, hr⟩ := hr
  rcases hr with ⟨⟨i, rfl, hd, hlf, x, hx, hb⟩, hs⟩ | ⟨i, c, rfl, ho, hs⟩
  · have hc := closed_isCollapsed hlf hb
    have hs' := hs
    rw [stored_eq] at hs'
    obtain ⟨i', c', hd', hread, ho'⟩ := hs'
    refine ⟨i', c', ?_, ho'.mono ?_, fun _ => hs⟩
    · rw [opened, if_pos hc, hb]
      have : x ≠ [] := by
        intro he
        have := hspec_len hH hx
        rw [he] at this
        simp at this
      simp only [if_true, this, if_false]
      exact hread x _ hx
    · intro j n hne hk
      exact hk.kid hne (part_length_le _ _ _)
  · refine ⟨i, c, ?_, ho, hs⟩
    rw [opened, if_neg (by rw [notCollapsed (fun _ _ => Kid.isSome) h1 ho]; simp)]

/-! ### Appending -/

theorem path_short {h : Nat} {l : List Bytes} {j : Nib} (hj : l.length / 2 ^ (4 * h) = j.val) {q : List Bool}
    (hq : q.length ≤ 4) (hp : q <+: bits4 j) : (sub (4 * h + 4) q l).length < 2 ^ (4 * h + 4 - q.length) := by
  rw [prefix_bits4 hq] at hp
  have e : 2 ^ (4 * h + 4 - q.length) = 2 ^ (4 * h) * 2 ^ (4 - q.length) := by
    rw [← Nat.pow_add]; congr 1; omega
  rw [← hj, Nat.div_div_eq_div_mul, ← e] at hp
  rw [sub_length, hp]
  have hB := pow_pos2 (4 * h + 4 - q.length)
  generalize 2 ^ (4 * h + 4 - q.length) = B at *
  have h1 := Nat.div_add_mod l.length B
  have h2 := Nat.mod_lt l.length hB
  rw [Nat.mul_comm] at h1
  omega

theorem take3_prefix {p : List Bool} {j : Nib} (hp : p.length < 4) : p <+: (bits4 j).take 3 ↔ p <+: bits4 j := by
  constructor
  · intro h; exact h.trans (List.take_prefix _ _)
  · intro h
    exact List.prefix_of_prefix_length_le h (List.take_prefix 3 (bits4 j)) (by simp [bits4_length]; omega)

theorem Known.congr {h : Nat} {K : TNode → List Bytes → Prop} {i i' : TInfo} {c c' : Nib → TNode} {j : Nib}
    {a : List Bytes} (h1 : i'.leafs j = i.leafs j) (h2 : c' j = c j) : Known h K i' c' j a ↔ Known h K i c j a := by
  unfold Known
  rw [h1, h2]

/-- The node after a value was added in slot `j`. -/
theorem OpenC.appended {H : Bytes → Bytes} {h : Nat} {K : TNode → List Bytes → Prop} {i i' : TInfo} {c c' : Nib → TNode}
    {l : List Bytes} {v : Bytes} {j : Nib} (ho : OpenC H M h K i c l) (hj : l.length / 2 ^ (4 * h) = j.val)
    (hleaf : i'.leaf = i.leaf) (hbr : i'.br = clearAnc j i.br)
    (hsame : ∀ k, k ≠ j → i'.leafs k = i.leafs k ∧ c' k = c k) (hnew : Known h K i' c' j (part h j l ++ [v])) :
    OpenC H M h K i' c' (l ++ [v]) := by
  have hkeep : ∀ p : List Bool, p.length < 4 → ¬ p <+: bits4 j →
      i'.br p = i.br p ∧ sub (4 * h + 4) p (l ++ [v]) = sub (4 * h + 4) p l := by
    intro p hp hn
    refine ⟨?_, sub_append_out (by omega) hj hn⟩
    rw [hbr, clearAnc, if_neg (by rw [take3_prefix hp]; exact hn)]
  refine ⟨by rw [hleaf, ho.leaf], ?_, ?_, ?_⟩
  · intro p x hp
    have hn : ¬ p <+: (bits4 j).take 3 := by
      intro hn
      rw [hbr, clearAnc, if_pos hn] at hp
      cases hp
    have hp' := hp
    rw [hbr, clearAnc, if_neg hn] at hp'
    obtain ⟨h4, hx⟩ := ho.br p x hp'
    rw [take3_prefix h4] at hn
    refine ⟨h4, ?_⟩
    rw [(hkeep p h4 hn).2]
    exact hx
  · intro k
    by_cases hk : k = j
    · subst hk
      left
      rw [part_append_eq hj]
      exact hnew
    · obtain ⟨e1, e2⟩ := hsame k hk
      rw [part_append_ne hj hk]
      rcases ho.slot k with hs | ⟨hM, hm, q, hq1, hq2, hq3, hq4⟩
      · exact .inl ((Known.congr e1 e2).mpr hs)
      · right
        have hn : ¬ q <+: bits4 j := by
          intro hn
          have := path_short hj (by omega) hn
          omega
        obtain ⟨e3, e4⟩ := hkeep q hq2 hn
        refine ⟨hM, by rw [e1, e2]; exact hm, q, hq1, hq2, by rw [e3]; exact hq3, by rw [e4]; exact hq4⟩
  · intro _
    refine ⟨j, ?_, ?_⟩
    · rw [part_append_eq hj]; simp
    · rw [part_append_eq hj]
      exact hnew

/-- The slot at which the next value goes is known. -/
theorem OpenC.next_known {H : Bytes → Bytes} {h : Nat} {K : TNode → List Bytes → Prop} {i : TInfo} {c : Nib → TNode}
    {l : List Bytes} {j : Nib} (ho : OpenC H M h K i c l) (hj : l.length / 2 ^ (4 * h) = j.val) :
    Known h K i c j (part h j l) := by
  rcases ho.slot j with hs | ⟨_, _, q, hq1, hq2, _, hq4⟩
  · exact hs
  · have := path_short hj (by omega) hq1
    omega

theorem openC_new (H : Bytes → Bytes) (h : Nat) (K : TNode → List Bytes → Prop) :
    OpenC H M h K ⟨false, decide (h = 0), fun _ => none, fun _ => none⟩ (fun _ => .nil) [] := by
  refine ⟨rfl, ?_, ?_, ?_⟩
  · intro p x hp; cases hp
  · intro j
    left
    unfold Known
    rw [part_nil]
    split
    · rfl
    · exact .inl ⟨rfl, rfl⟩
  · exact fun h => absurd rfl h

theorem digits_succ (h k : Nat) (hk : k < 2 ^ (4 * h + 4)) :
    ∃ j : Nib, k / 2 ^ (4 * h) = j.val ∧ digits (h + 1) k = j :: digits h (k % 2 ^ (4 * h)) := by
  have h1 : k / 2 ^ (4 * h) < 16 := by
    rw [Nat.div_lt_iff_lt_mul (pow_pos2 _), ← pow_h4]; exact hk
  refine ⟨⟨k / 2 ^ (4 * h), h1⟩, rfl, ?_⟩
  rw [digits]
  simp only [pow16, Nat.mod_eq_of_lt h1]

theorem digits_ne_nil (h k : Nat) : digits h k = [] ↔ h = 0 := by
  cases h <;> simp [digits]

/-- Appending a value at the position after the last one. -/
theorem append_spec (hH : ∀ b, (E.H b).length = 32) (v : Bytes) (hv : v ≠ []) : ∀ (h : Nat) (n : TNode) (l : List Bytes),
    (Rep E D M h n l ∨ (n = newTNode (decide (h = 0)) ∧ l = [])) → l.length < 2 ^ (4 * h + 4) →
    ∃ n', appendAt E D (digits (h + 1) l.length) n v = (n', some true) ∧ Rep E D M h n' (l ++ [v]) := by
  intro h
  induction h with
  | zero =>
    intro n l hn hl
    obtain ⟨i, c, hop, ho⟩ : ∃ i c, opened E D n = (.mk i c, true) ∧ OpenC E.H M 0 (Kid E D M 0) i c l := by
      rcases hn with hr | ⟨rfl, rfl⟩
      · obtain ⟨i, c, h1, h2, _⟩ := opened_rep hH hr
        exact ⟨i, c, h1, h2⟩
      · refine ⟨_, _, ?_, openC_new _ _ _⟩
        rw [newTNode, opened, if_neg (by simp [isCollapsed])]
    obtain ⟨j, hj, hdig⟩ := digits_succ 0 l.length hl
    have hnc := notCollapsed (fun _ _ => Kid.isSome) (by omega) ho
    have hlf : i.leaf = true := by rw [ho.leaf]; rfl
    rw [hdig, appendAt]
    simp only [hop, Bool.true_eq_false, if_false, digits, if_true, hlf, hnc, Bool.false_or, beq_iff_eq, hv]
    refine ⟨_, rfl, ?_⟩
    rw [rep_eq]
    refine ⟨by simp, by simp; omega, .inr ⟨_, _, rfl, ho.appended hj rfl rfl ?_ ?_, by simp [TInfo.touch]⟩⟩
    · intro k hk
      simp [hk]
    · unfold Known
      rw [if_pos rfl]
      have : part 0 j l = [] := by
        rw [part_eq_nil, ← hj]
        simp
      simp [this]
  | succ h ih =>
    intro n l hn hl
    obtain ⟨i, c, hop, ho⟩ : ∃ i c, opened E D n = (.mk i c, true) ∧ OpenC E.H M (h + 1) (Kid E D M (h + 1)) i c l := by
      rcases hn with hr | ⟨rfl, rfl⟩
      · obtain ⟨i, c, h1, h2, _⟩ := opened_rep hH hr
        exact ⟨i, c, h1, h2⟩
      · refine ⟨_, _, ?_, openC_new _ _ _⟩
        rw [newTNode, opened, if_neg (by simp [isCollapsed])]
    obtain ⟨j, hj, hdig⟩ := digits_succ (h + 1) l.length hl
    have hlf : i.leaf = false := by rw [ho.leaf]; rfl
    have hplen := part_length_path hj
    have hplt : (part (h + 1) j l).length < 2 ^ (4 * h + 4) := by
      rw [hplen]; exact Nat.mod_lt _ (pow_pos2 _)
    have hknown := ho.next_known hj
    unfold Known at hknown
    rw [if_neg (by omega)] at hknown
    rw [hdig, appendAt]
    simp only [hop, Bool.true_eq_false, if_false, digits_ne_nil, Nat.succ_ne_zero, hlf, Bool.false_eq_true]
    have fin : ∀ n', Rep E D M h n' (part (h + 1) j l ++ [v]) →
        Rep E D M (h + 1) (.mk (i.touch j) (setKid c j n')) (l ++ [v]) := by
      intro n' hr'
      rw [rep_eq]
      refine ⟨by simp, by simp; omega, .inr ⟨_, _, rfl, ho.appended hj rfl rfl ?_ ?_, by simp [TInfo.touch]⟩⟩
      · intro k hk
        simp [TInfo.touch, setKid, hk]
      · unfold Known
        rw [if_neg (by omega)]
        right
        refine ⟨by simp, ?_⟩
        simp only [setKid, if_true]
        exact hr'
    rcases hknown with ⟨h1, h2⟩ | ⟨h1, h2⟩
    · have hs : (c j).isSome = false := by rw [h2]; rfl
      simp only [hs, Bool.false_eq_true, if_false]
      have h3 : ((digits (h + 1) (l.length % 2 ^ (4 * (h + 1)))).length == 1) = decide (h = 0) := by
        rw [digits_length]; by_cases h00 : h = 0 <;> simp [h00]
      rw [h3, ← hplen]
      obtain ⟨n', he, hr'⟩ := ih (newTNode (decide (h = 0))) (part (h + 1) j l) (.inr ⟨rfl, h1⟩) hplt
      rw [he]
      exact ⟨_, rfl, fin _ hr'⟩
    · have hs : (c j).isSome = true := h2.isSome
      simp only [hs, if_true]
      rw [← hplen]
      obtain ⟨n', he, hr'⟩ := ih (c j) (part (h + 1) j l) (.inl h2) hplt
      rw [he]
      exact ⟨_, rfl, fin _ hr'⟩

/-! ### Reading and hashing -/

/-- A change that keeps every slot. -/
theorem OpenC.congr {H : Bytes → Bytes} {h : Nat} {K : TNode → List Bytes → Prop} {i i' : TInfo} {c c' : Nib → TNode}
    {l : List Bytes} (ho : OpenC H M h K i c l) (hleaf : i'.leaf = i.leaf) (hleafs : i'.leafs = i.leafs)
    (hb : BrOk H (4 * h) l i'.br) (hm : ∀ q, (i.br q).isSome → (i'.br q).isSome)
    (hnil : ∀ j, c j = .nil → c' j = .nil) (hkid : h ≠ 0 → ∀ j, K (c j) (part h j l) → K (c' j) (part h j l)) :
    OpenC H M h K i' c' l := by
  have hk : ∀ j, Known h K i c j (part h j l) → Known h K i' c' j (part h j l) := by
    intro j
    unfold Known
    intro h1
    split
    · rename_i h0; rw [if_pos h0] at h1; rw [hleafs]; exact h1
    · rename_i h0
      rw [if_neg h0] at h1
      rcases h1 with ⟨h1, h2⟩ | ⟨h1, h2⟩
      · exact .inl ⟨h1, hnil j h2⟩
      · exact .inr ⟨h1, hkid h0 j h2⟩
  refine ⟨by rw [hleaf, ho.leaf], hb, ?_, fun h0 => let ⟨j, h1, h2⟩ := ho.held h0; ⟨j, h1, hk j h2⟩⟩
  intro j
  rcases ho.slot j with hs | ⟨hM, h1, q, hq1, hq2, hq3, hq4⟩
  · exact .inl (hk j hs)
  · right
    refine ⟨hM, ?_, q, hq1, hq2, hm q hq3, hq4⟩
    split
    · rename_i h0; rw [if_pos h0] at h1; rw [hleafs]; exact h1
    · rename_i h0; rw [if_neg h0] at h1; exact hnil j h1

/-- Reading the value at a position. -/
theorem get_spec (hH : ∀ b, (E.H b).length = 32) : ∀ (h : Nat) (n : TNode) (l : List Bytes) (k : Nat),
    Rep E D M h n l → k < 2 ^ (4 * h + 4) →
    ∃ n' o, getAt E D (digits (h + 1) k) n = (n', some o) ∧ Rep E D M h n' l ∧
      (o = l[k]? ∨ (M = true ∧ o = none)) := by
  intro h
  induction h with
  | zero =>
    intro n l k hr hk
    obtain ⟨i, c, hop, ho, hs⟩ := opened_rep hH hr
    obtain ⟨j, hj, hdig⟩ := digits_succ 0 k hk
    have hlf : i.leaf = true := by rw [ho.leaf]; rfl
    rw [hdig, getAt]
    simp only [hop, Bool.true_eq_false, if_false, digits, if_true, hlf]
    refine ⟨_, _, rfl, ?_, ?_⟩
    · rw [rep_eq] at hr ⊢
      exact ⟨hr.1, hr.2.1, .inr ⟨i, c, rfl, ho, hs⟩⟩
    · rcases ho.slot j with h1 | ⟨hM, h1, _⟩
      · left
        unfold Known at h1
        rw [if_pos rfl] at h1
        rw [h1, List.head?_eq_getElem?, part_getElem? _ _ _ _ (by norm_num), ← hj]
        simp
      · rw [if_pos rfl] at h1
        exact .inr ⟨hM, h1⟩
  | succ h ih =>
    intro n l k hr hk
    obtain ⟨i, c, hop, ho, hs⟩ := opened_rep hH hr
    obtain ⟨j, hj, hdig⟩ := digits_succ (h + 1) k hk
    have hlf : i.leaf = false := by rw [ho.leaf]; rfl
    have hmod : k % 2 ^ (4 * (h + 1)) < 2 ^ (4 * h + 4) := Nat.mod_lt _ (pow_pos2 _)
    have hlk : l[k]? = (part (h + 1) j l)[k % 2 ^ (4 * (h + 1))]? := by
      rw [part_getElem? _ _ _ _ hmod]
      have := Nat.div_add_mod k (2 ^ (4 * (h + 1)))
      rw [hj, Nat.mul_comm] at this
      rw [this]
    rw [hdig, getAt]
    simp only [hop, Bool.true_eq_false, if_false, digits_ne_nil, Nat.succ_ne_zero, hlf, Bool.false_eq_true]
    have hrep : Rep E D M (h + 1) (.mk i c) l := by
      rw [rep_eq] at hr ⊢
      exact ⟨hr.1, hr.2.1, .inr ⟨i, c, rfl, ho, hs⟩⟩
    have hnil : c j = .nil → (part (h + 1) j l = [] ∨ M = true) →
        ∃ n' o, (if (c j).isSome = true then
          (TNode.mk i (setKid c j (getAt E D (digits (h + 1) (k % 2 ^ (4 * (h + 1)))) (c j)).1),
            (getAt E D (digits (h + 1) (k % 2 ^ (4 * (h + 1)))) (c j)).2) else (.mk i c, some none)) = (n', some o) ∧
          Rep E D M (h + 1) n' l ∧ (o = l[k]? ∨ (M = true ∧ o = none)) := by
      intro h1 h2
      rw [h1]
      refine ⟨_, none, rfl, hrep, ?_⟩
      rcases h2 with h2 | h2
      · left; rw [hlk, h2]; rfl
      · exact .inr ⟨h2, rfl⟩
    rcases ho.slot j with h1 | ⟨hM, h1, _⟩
    · unfold Known at h1
      rw [if_neg (by omega)] at h1
      rcases h1 with ⟨h1, h2⟩ | ⟨h1, h2⟩
      · exact hnil h2 (.inl h1)
      · have hsome : (c j).isSome = true := Kid.isSome h2
        simp only [hsome, if_true]
        obtain ⟨n', o, he, hr', hv⟩ := ih (c j) (part (h + 1) j l) _ h2 hmod
        rw [he]
        refine ⟨_, _, rfl, ?_, by rw [hlk]; exact hv⟩
        rw [rep_eq] at hr ⊢
        refine ⟨hr.1, hr.2.1, .inr ⟨_, _, rfl, ho.congr rfl rfl ho.br (fun _ h => h) ?_ ?_, hs⟩⟩
        · intro m hm
          by_cases hmj : m = j
          · subst hmj; rw [hm] at hsome; cases hsome
          · simp [setKid, hmj, hm]
        · intro _ m hm
          by_cases hmj : m = j
          · subst hmj; simp only [setKid, if_true]; exact hr'
          · simp only [setKid, hmj, if_false]; exact hm
    · rw [if_neg (by omega)] at h1
      exact hnil h1 (.inr hM)

/-- The hashes of the slots of a node, where known. -/
theorem slotsOf_spec {h : Nat} {i : TInfo} {c : Nib → TNode} {l : List Bytes} {K : TNode → List Bytes → Prop}
    (ho : OpenC E.H M h K i c l) (hk : h ≠ 0 → ∀ n a, K n a → (hashNode E.H n).2 = some (hspec E.H (4 * h) a)) (j : Nib)
    (hj : Known h K i c j (part h j l)) : slotsOf E.H i c j = some (hspec E.H (4 * h) (part h j l)) := by
  unfold Known at hj
  unfold slotsOf
  split at hj
  · rename_i h0
    have : i.leaf = true := by rw [ho.leaf]; simpa using h0
    rw [this, hj, h0]
    rfl
  · rename_i h0
    have : i.leaf = false := by rw [ho.leaf]; simpa using h0
    rw [this]
    simp only [Bool.false_eq_true, if_false]
    rcases hj with ⟨h1, h2⟩ | ⟨h1, h2⟩
    · rw [h1, h2, hspec_nil]; rfl
    · exact hk h0 _ _ h2

theorem OpenC.cov {h : Nat} {i : TInfo} {c : Nib → TNode} {l : List Bytes} {K : TNode → List Bytes → Prop}
    (ho : OpenC E.H M h K i c l) (hk : h ≠ 0 → ∀ n a, K n a → (hashNode E.H n).2 = some (hspec E.H (4 * h) a)) :
    Cov E.H (4 * h) l (slotsOf E.H i c) i.br [] := by
  intro j _
  rcases ho.slot j with h1 | ⟨_, _, q, hq1, hq2, hq3, _⟩
  · exact .inl (slotsOf_spec ho hk j h1)
  · exact .inr ⟨q, List.nil_prefix, hq1, hq2, hq3⟩

/-- Hashing keeps a node, and gives the hash of the list. -/
theorem OpenC.hashed {h : Nat} {i : TInfo} {c : Nib → TNode} {l : List Bytes} {K : TNode → List Bytes → Prop}
    (ho : OpenC E.H M h K i c l) (hl : l.length ≤ 2 ^ (4 * h + 4))
    (hk : h ≠ 0 → ∀ n a, K n a → (hashNode E.H n).2 = some (hspec E.H (4 * h) a) ∧ K (hashNode E.H n).1 a) :
    ∃ br c', hashNode E.H (.mk i c) = (.mk { i with br := br } c', some (hspec E.H (4 * h + 4) l)) ∧
      OpenC E.H M h K { i with br := br } c' l := by
  have hc := ho.cov fun h0 n a hn => (hk h0 n a hn).1
  obtain ⟨h1, h2, f1, f2, h3, _⟩ := hashPfx_spec (H := E.H) (4 * h) l (slotsOf E.H i c) 4 [] ⟨i.br, fun _ => false⟩ rfl ho.br hc
  rw [hashNode]
  have e : (fun j => if i.leaf = true then some (i.leafs j) else (hashNode E.H (c j)).2) = slotsOf E.H i c := rfl
  rw [e]
  rw [h3, sub_nil_prefix hl]
  refine ⟨_, _, rfl, ho.congr rfl rfl h1 h2 ?_ ?_⟩
  · intro j hj
    simp only [settle, hj]
    split
    · rfl
    · split
      · rfl
      · rfl
  · intro h0 j hj
    simp only [settle]
    split
    · exact hj
    · split
      · exact (hk h0 _ _ hj).2
      · exact hj

theorem hashPfx_cached {H : Bytes → Bytes} {slot : Nib → Option (Option Bytes)} {d : Nat} {p : List Bool} {st : HState}
    {r : Bytes} (h : st.br p = some r) : hashPfx H slot (d + 1) p st = (st, some (some r, false, false)) := by
  rw [hashPfx, h]

theorem hashNode_closed {h : Nat} {n : TNode} {l : List Bytes} (hc : ClosedAs E.H h n l) :
    hashNode E.H n = (n, some (hspec E.H (4 * h + 4) l)) := by
  obtain ⟨i, rfl, hd, hlf, x, hx, hb⟩ := hc
  rw [hashNode]
  have : i.br [] = some x := by rw [hb]; simp
  rw [hashPfx_cached (st := ⟨i.br, fun _ => false⟩) this, hx]
  simp only [Option.map_some]
  congr 2
  funext j
  simp [settle]

/-- The hash of a node is the hash of its list. -/
theorem hash_spec (h : Nat) : ∀ (n : TNode) (l : List Bytes), Rep E D M h n l →
    (hashNode E.H n).2 = some (hspec E.H (4 * h + 4) l) ∧ Rep E D M h (hashNode E.H n).1 l := by
  induction h with
  | zero =>
    intro n l hr
    have hr' := hr
    rw [rep_eq] at hr
    obtain ⟨h0, h1, hr⟩ := hr
    rcases hr with ⟨hc, hs⟩ | ⟨i, c, rfl, ho, hs⟩
    · rw [hashNode_closed hc]
      exact ⟨rfl, hr'⟩
    · obtain ⟨br, c', he, ho'⟩ := ho.hashed h1 (fun h => absurd rfl h)
      rw [he, rep_eq]
      exact ⟨rfl, h0, h1, .inr ⟨_, _, rfl, ho', hs⟩⟩
  | succ h ih =>
    intro n l hr
    have hr' := hr
    rw [rep_eq] at hr
    obtain ⟨h0, h1, hr⟩ := hr
    rcases hr with ⟨hc, hs⟩ | ⟨i, c, rfl, ho, hs⟩
    · rw [hashNode_closed hc]
      exact ⟨rfl, hr'⟩
    · obtain ⟨br, c', he, ho'⟩ := ho.hashed h1 (fun _ n a hn => ih n a hn)
      rw [he, rep_eq]
      exact ⟨rfl, h0, h1, .inr ⟨_, _, rfl, ho', hs⟩⟩

theorem kid_hash (h : Nat) (_h0 : h ≠ 0) (n : TNode) (a : List Bytes) (hk : Kid E D M h n a) :
    (hashNode E.H n).2 = some (hspec E.H (4 * h) a) ∧ Kid E D M h (hashNode E.H n).1 a := by
  cases h with
  | zero => exact hk.elim
  | succ h => exact hash_spec h n a hk

end Verif.HTree

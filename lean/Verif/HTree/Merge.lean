import Verif.HTree.Restore

/-!
# Merging proofs into a tree (C118)

`MergeProof` adds a value and its proof to a tree that does not hold it, such as a tree restored from a proof.
-/

namespace Verif.HTree
open Verif Verif.Merkle Verif.Trie

/-! ### The code -/

/-- `putValue` (`/repo/trie/historytree.go:1097-1117`) for a prefix of less than four bits, with an adapter: the node and the
success. -/
def putVal (E : HEnv) (D : HDisk) (p : List Bool) (x : Bytes) (n : TNode) : TNode × Bool :=
  let e := opened E D n
  if e.2 = false then (e.1, false)
  else
    match e.1 with
    | .nil => (.nil, false)
    | .mk i c => (.mk { i with br := fun q => if q = p then some x else i.br q } c, true)

/-- One round of the loop of `_mergeHashItems` (`/repo/trie/historytree.go:1200-1231`): an element that is the sibling of the
first `t + 1` bits of the slot `j`. -/
def mergeItem (E : HEnv) (D : HDisk) (j : Nib) (t : Nat) (x : Bytes) (n : TNode) : TNode × Bool :=
  match item E.H x with
  | none => (n, true)
  | some a =>
    if t = 3 then
      match n with
      | .nil => (.nil, false)
      | .mk i c =>
        if i.leaf then (.mk { i with leafs := fun k => if k = nibOf (sibling j 3) then some a else i.leafs k } c, true)
        else if (c (nibOf (sibling j 3))).isSome then
          let r := putVal E D [] a (c (nibOf (sibling j 3)))
          (.mk i (setKid c (nibOf (sibling j 3)) r.1), r.2)
        else (.mk i (setKid c (nibOf (sibling j 3)) (closed a)), true)
    else putVal E D (sibling j t) a n

/-- The next step, unless there was an error. -/
def andThen (r : TNode × Bool) (f : TNode → TNode × Bool) : TNode × Bool := if r.2 then f r.1 else r

/-- The slot is set (`/repo/trie/historytree.go:1194-1198`). -/
def setSlot (j : Nib) (value : Bytes) (child : TNode) : TNode → TNode
  | .nil => .nil
  | .mk i c =>
    if i.leaf then .mk { i with leafs := fun k => if k = j then some value else i.leafs k } c else .mk i (setKid c j child)

/-- `isDirty` is set (`/repo/trie/historytree.go:1233`). -/
def TNode.soiled : TNode → TNode
  | .nil => .nil
  | .mk i c => .mk { i with dirty := true } c

/-- `_mergeHashItems` (`/repo/trie/historytree.go:1186-1235`). -/
def mergeItems (E : HEnv) (D : HDisk) (j : Nib) (value : Bytes) (child : TNode) (n : TNode) : List Bytes → TNode × Bool
  | [a, b, c, d] =>
    andThen (andThen (andThen (andThen (mergeItem E D j 3 a (setSlot j value child n)) (mergeItem E D j 2 b)) (mergeItem E D j 1 c))
      (mergeItem E D j 0 d)) fun m => (m.soiled, true)
  | _ => (n, false)

/-- `locateNode` (`/repo/trie/historytree.go:229-280`): the node, and what is at the end of the path: an error, nothing, a value, or
a node without value. -/
def locAt (E : HEnv) (D : HDisk) : List Nib → TNode → TNode × Option (Option (Option Bytes))
  | [], n => (n, none)
  | j :: q, n =>
    let e := opened E D n
    if e.2 = false then (e.1, none)
    else
      match e.1 with
      | .nil => (.nil, none)
      | .mk i c =>
        if i.leaf then (.mk i c, if q = [] then some ((i.leafs j).map some) else none)
        else if q = [] then (.mk i c, some (if (c j).isSome then some none else none))
        else if (c j).isSome then
          let r := locAt E D q (c j)
          (.mk i (setKid c j r.1), r.2)
        else (.mk i c, some none)

/-- The loop of `MergeProof` (`/repo/trie/historytree.go:531-561`) on a node that `locateNode` has found: what is missing below is
made of the proof, then the elements of this node are merged. -/
def mergeAt (E : HEnv) (D : HDisk) (value : Bytes) : List Nib → TNode → List Bytes → TNode × Bool
  | [], n, _ => (n, false)
  | j :: q, n, items =>
    match n with
    | .nil => (.nil, false)
    | .mk i c =>
      if q = [] then mergeItems E D j value .nil (.mk i c) (items.take 4)
      else if (c j).isSome then
        let r := mergeAt E D value q (c j) (items.take (4 * q.length))
        if r.2 then mergeItems E D j [] r.1 (.mk i (setKid c j r.1)) ((items.drop (4 * q.length)).take 4)
        else (.mk i (setKid c j r.1), false)
      else
        match restoreAt E.H value q (items.take (4 * q.length)) with
        | none => (.mk i c, false)
        | some m => mergeItems E D j [] m (.mk i c) ((items.drop (4 * q.length)).take 4)

/-- `MergeProof` (`/repo/trie/historytree.go:473-563`): the tree and the success.  An empty chain counts as the nil slice. -/
def Tree.mergeProof (E : HEnv) (R : Rtl) (t : Tree) (key : UInt64) (value : Bytes) (chain : List NodeProof) : Tree × Bool :=
  if value.length ≠ 32 ∨ chain = [] ∨ t.root.isSome = false ∨ chainBigKey chain ≠ key.toNat then (t, false)
  else
    let h := t.hash E
    match h.2, chainItems E.H R chain with
    | some r, some items =>
      if evalItems E.H items (toHash value) ≠ r then (h.1, false)
      else
        let e := locAt E t.D (heightToPrefix key) h.1.root
        match e.2 with
        | none => ({ h.1 with root := e.1 }, false)
        | some (some v) => ({ h.1 with root := e.1 }, decide (v = some value))
        | some none =>
          if items.length < 64 then ({ h.1 with root := e.1 }, false)
          else
            let m := mergeAt E t.D value (heightToPrefix key) e.1 (items.map fun it => toHash it.1)
            ({ h.1 with root := m.1 }, m.2)
    | _, _ => (h.1, false)

/-- The value at the end of the path, without any storage. -/
def peek : List Nib → TNode → Option Bytes
  | [], _ => none
  | _ :: _, .nil => none
  | j :: q, .mk i c => if i.leaf then (if q = [] then i.leafs j else none) else peek q (c j)

/-- No node on the path is known by its hash only. -/
def clear : List Nib → TNode → Bool
  | [], _ => true
  | _ :: _, .nil => true
  | j :: q, .mk i c => !isCollapsed i c && (i.leaf || clear q (c j))

/-! ### What can be read -/

/-- What can be read in the first node can be read in the second. -/
def Keeps (n n' : TNode) : Prop := ∀ q x, peek q n = some x → peek q n' = some x

theorem Keeps.trans {a b c : TNode} (h1 : Keeps a b) (h2 : Keeps b c) : Keeps a c := fun q x h => h2 q x (h1 q x h)

theorem Keeps.rfl {a : TNode} : Keeps a a := fun _ _ h => h

theorem keeps_nil (n : TNode) : Keeps .nil n := by
  intro q x h
  cases q <;> cases h

theorem peek_collapsed {i : TInfo} {c : Nib → TNode} (hc : isCollapsed i c = true) (q : List Nib) : peek q (.mk i c) = none := by
  cases q with
  | nil => rfl
  | cons j q =>
    unfold isCollapsed at hc
    simp only [Bool.and_eq_true, Bool.or_eq_true, Bool.not_eq_true'] at hc
    rcases hc.2 with ⟨h1, h2⟩ | ⟨h1, h2⟩
    · unfold TInfo.hasLeaf at h2
      have : i.leafs j = none := by
        rw [List.any_eq_false] at h2
        have := h2 j (mem_nibbles j)
        simpa using this
      simp [peek, h1, this]
    · unfold hasChild at h2
      rw [List.any_eq_false] at h2
      have := h2 j (mem_nibbles j)
      have : c j = .nil := by
        cases hcj : c j with
        | nil => rfl
        | mk i c => rw [hcj] at this; exact absurd rfl this
      cases q <;> simp [peek, h1, this]

theorem keeps_congr {i i' : TInfo} {c c' : Nib → TNode} (hl : i'.leaf = i.leaf)
    (h1 : i.leaf = true → ∀ k x, i.leafs k = some x → i'.leafs k = some x) (h2 : i.leaf = false → ∀ k, Keeps (c k) (c' k)) :
    Keeps (.mk i c) (.mk i' c') := by
  intro q x h
  cases q with
  | nil => cases h
  | cons j q =>
    rw [peek] at h ⊢
    rw [hl]
    cases hlf : i.leaf with
    | true =>
      rw [hlf] at h
      simp only [if_true] at h ⊢
      by_cases hq : q = []
      · rw [if_pos hq] at h ⊢
        exact h1 hlf _ _ h
      · rw [if_neg hq] at h; cases h
    | false =>
      rw [hlf] at h
      simp only [Bool.false_eq_true, if_false] at h ⊢
      exact h2 hlf j q x h

theorem keeps_putVal (E : HEnv) (D : HDisk) (p : List Bool) (x : Bytes) (n : TNode) : Keeps n (putVal E D p x n).1 := by
  cases n with
  | nil => exact keeps_nil _
  | mk i c =>
    by_cases hc : isCollapsed i c = true
    · intro q y h
      rw [peek_collapsed hc] at h
      cases h
    · rw [putVal, opened, if_neg hc]
      exact keeps_congr rfl (fun _ _ _ h => h) fun _ _ => .rfl

theorem hash_keeps (H : Bytes → Bytes) : ∀ n, Keeps n (hashNode H n).1 := by
  intro n
  induction n with
  | nil => exact keeps_nil _
  | mk i c ih =>
    rw [hashNode]
    refine keeps_congr rfl (fun _ _ _ h => h) fun hl k => ?_
    rw [settle]
    split
    · exact .rfl
    · split
      · exact ih k
      · exact .rfl

/-- The path ends at a node that is known by its hash only. -/
def shutAt : List Nib → TNode → Bool
  | _, .nil => false
  | [], .mk i c => isCollapsed i c
  | j :: q, .mk i c => !i.leaf && shutAt q (c j)

/-- The path `p` is beside the path `q`: they part in the last bit of the last nibble of `p`. -/
def Beside (q p : List Nib) : Prop := ∃ a j b, q = a ++ j :: b ∧ p = a ++ [nibOf (sibling j 3)]

theorem Beside.cons {q p : List Nib} (j : Nib) (h : Beside q p) : Beside (j :: q) (j :: p) := by
  obtain ⟨a, k, b, rfl, rfl⟩ := h
  exact ⟨j :: a, k, b, rfl, rfl⟩

theorem peek_shut : ∀ (p : List Nib) (n : TNode), shutAt p n = true → ∀ q, peek (p ++ q) n = none := by
  intro p
  induction p with
  | nil =>
    intro n h q
    cases n with
    | nil => cases h
    | mk i c => exact peek_collapsed h q
  | cons j p ih =>
    intro n h q
    cases n with
    | nil => cases h
    | mk i c =>
      simp only [shutAt, Bool.and_eq_true, Bool.not_eq_true'] at h
      rw [List.cons_append, peek, h.1]
      exact ih _ h.2 q

theorem clear_of_shut : ∀ (q : List Nib) (n : TNode), (∀ p j b, q = p ++ j :: b → shutAt p n = false) → clear q n = true := by
  intro q
  induction q with
  | nil => intro n _; rfl
  | cons j q ih =>
    intro n h
    cases n with
    | nil => rfl
    | mk i c =>
      have h1 := h [] j q rfl
      simp only [shutAt] at h1
      rw [clear, h1]
      cases hl : i.leaf with
      | true => rfl
      | false =>
        simp only [Bool.not_false, Bool.false_or, Bool.true_and]
        refine ih _ fun p k b e => ?_
        have := h (j :: p) k b (by rw [e]; rfl)
        simpa [shutAt, hl] using this

theorem shut_closed {x : Bytes} {p : List Nib} (hp : p ≠ []) : shutAt p (closed x) = false := by
  cases p with
  | nil => exact absurd rfl hp
  | cons j q => cases q <;> rfl

theorem shut_putVal {E : HEnv} {D : HDisk} (hD : ∀ x, D x = none) {b : List Bool} {x : Bytes} {n : TNode} {p : List Nib} (hp : p ≠ [])
    (h : shutAt p (putVal E D b x n).1 = true) : shutAt p n = true := by
  obtain ⟨j, q, rfl⟩ := List.exists_cons_of_ne_nil hp
  cases n with
  | nil => cases h
  | mk i c =>
    by_cases hc : isCollapsed i c = true
    · exfalso
      have hr : ∀ root, readFull E D i.leaf root = (newTNode i.leaf, true) := by
        intro root
        unfold readFull
        rw [hD]
        split <;> rfl
      have hj : i.leaf = false → c j = .nil := by
        intro hlf
        simp only [isCollapsed, hlf, Bool.and_eq_true, Bool.or_eq_true, Bool.not_eq_true', Bool.false_eq_true,
          false_and, Bool.not_false, true_and, false_or] at hc
        have h2 := hc.2
        unfold hasChild at h2
        rw [List.any_eq_false] at h2
        have h3 := h2 j (mem_nibbles j)
        cases hcj : c j with
        | nil => rfl
        | mk i c => rw [hcj] at h3; exact absurd rfl h3
      have k1 : shutAt (j :: q) (.mk i c) = false := by
        cases hlf : i.leaf with
        | true => simp [shutAt, hlf]
        | false => rw [shutAt, hj hlf]; cases q <;> simp [shutAt]
      have k2 : ∀ (lf : Bool) (br : List Bool → Option Bytes) (lv : Nib → Option Bytes),
          shutAt (j :: q) (.mk ⟨false, lf, br, lv⟩ fun _ => .nil) = false := by
        intro lf br lv
        cases q <;> simp [shutAt]
      simp only [putVal, opened, hc, if_true] at h
      cases hb : i.br [] with
      | none =>
        rw [hb] at h
        simp only [if_true] at h
        rw [k1] at h; cases h
      | some root =>
        rw [hb] at h
        by_cases hroot : root = []
        · simp only [hroot, if_true] at h
          rw [k1] at h; cases h
        · simp only [hroot, if_false, hr] at h
          unfold newTNode at h
          simp only [Bool.true_eq_false, if_false] at h
          rw [k2] at h; cases h
    · rw [putVal, opened, if_neg hc] at h
      exact h

/-! ### One node -/

section Node
variable {E : HEnv} {D : HDisk} {h : Nat} {K : TNode → List Bytes → Prop} {l : List Bytes}

theorem putVal_open (hK : ∀ n a, K n a → n.isSome = true) (hl : l.length ≤ 2 ^ (4 * h + 4)) {i : TInfo} {c : Nib → TNode}
    (ho : OpenC E.H true h K i c l) {p : List Bool} (hp : p.length < 4) {x : Bytes}
    (hx : hspec E.H (4 * h + (4 - p.length)) (sub (4 * h + 4) p l) = some x) :
    putVal E D p x (.mk i c) = (.mk { i with br := fun q => if q = p then some x else i.br q } c, true) ∧
      OpenC E.H true h K { i with br := fun q => if q = p then some x else i.br q } c l := by
  refine ⟨?_, ho.congr rfl rfl ?_ ?_ (fun _ h => h) fun _ _ h => h⟩
  · rw [putVal, opened, notCollapsed hK hl ho]
    rfl
  · intro q y hq
    simp only at hq
    split at hq
    · rename_i e
      subst e
      exact ⟨hp, by rw [hx]; exact hq⟩
    · exact ho.br q y hq
  · intro q hq
    simp only
    split
    · rfl
    · exact hq

/-- The slot of the value. -/
theorem setSlot_open {i : TInfo} {c : Nib → TNode} (ho : OpenC E.H true h K i c l) {j : Nib} {v : Bytes} {child : TNode}
    (hpj : part h j l ≠ []) (hleaf : h = 0 → (part h j l).head? = some v) (hchild : h ≠ 0 → K child (part h j l))
    (hkeep : h ≠ 0 → Keeps (c j) child) :
    ∃ i' c', setSlot j v child (.mk i c) = .mk i' c' ∧ OpenC E.H true h K i' c' l ∧ Keeps (.mk i c) (.mk i' c') ∧
      (h = 0 → i'.leafs j = some v) ∧ (h ≠ 0 → c' j = child) ∧ ∀ k, k ≠ j → c' k = c k := by
  have hlf := ho.leaf
  by_cases h0 : h = 0
  · subst h0
    have hlf' : i.leaf = true := by rw [hlf]; rfl
    refine ⟨{ i with leafs := fun k => if k = j then some v else i.leafs k }, c, by rw [setSlot, if_pos hlf'], ⟨hlf, ho.br, ?_, ?_⟩, ?_,
      fun _ => by simp, fun h => absurd rfl h, fun _ _ => rfl⟩
    · intro k
      by_cases hk : k = j
      · subst hk
        left
        simp [Known, hleaf rfl]
      · rcases ho.slot k with hs | ⟨hM, hs, q, hq⟩
        · left
          simp only [Known, if_true, hk, if_false] at hs ⊢
          exact hs
        · right
          refine ⟨hM, ?_, q, hq⟩
          simp only [if_true, hk, if_false] at hs ⊢
          exact hs
    · intro _
      refine ⟨j, hpj, ?_⟩
      simp [Known, hleaf rfl]
    · refine keeps_congr rfl (fun _ k x hx => ?_) fun _ _ => .rfl
      by_cases hk : k = j
      · subst hk
        simp only [if_true]
        rcases ho.slot k with hs | ⟨_, hs, _⟩
        · simp only [Known, if_true] at hs
          rw [← hx, hs, hleaf rfl]
        · simp only [if_true] at hs
          rw [hs] at hx; cases hx
      · simp only [hk, if_false]; exact hx
  · have hlf' : i.leaf = false := by rw [hlf]; simp [h0]
    refine ⟨i, setKid c j child, by rw [setSlot, if_neg (by simp [hlf'])], ⟨hlf, ho.br, ?_, ?_⟩, ?_,
      fun h => absurd h h0, fun _ => by simp [setKid], fun k hk => by simp [setKid, hk]⟩
    · intro k
      by_cases hk : k = j
      · subst hk
        left
        simp [Known, h0, setKid, hpj, hchild h0]
      · rcases ho.slot k with hs | ⟨hM, hs, q, hq⟩
        · left
          simp only [Known, h0, if_false, setKid, hk] at hs ⊢
          exact hs
        · right
          refine ⟨hM, ?_, q, hq⟩
          simp only [h0, if_false, setKid, hk] at hs ⊢
          exact hs
    · intro _
      refine ⟨j, hpj, ?_⟩
      simp [Known, h0, setKid, hpj, hchild h0]
    · refine keeps_congr rfl (fun _ _ _ hx => hx) fun _ k => ?_
      rw [setKid]
      split
      · rename_i e; subst e; exact hkeep h0
      · exact .rfl

/-- A slot that is covered by the hash of a filled block is in a filled block. -/
theorem Missing.full {i : TInfo} {c : Nib → TNode} {k : Nib} (hm : Missing h i c k l) : (part h k l).length = 2 ^ (4 * h) := by
  obtain ⟨_, q, h1, h2, _, h4⟩ := hm
  have hq := h1
  rw [prefix_bits4 (by omega)] at h1
  rw [sub_length] at h4
  rw [part_eq, List.length_take, List.length_drop]
  have e : 2 ^ (4 * h + 4 - q.length) = 2 ^ (4 - q.length) * 2 ^ (4 * h) := by
    rw [← Nat.pow_add]; congr 1; omega
  have hB := pow_pos2 (4 * h)
  have hP := pow_pos2 (4 - q.length)
  have h5 : (ofBits q + 1) * 2 ^ (4 * h + 4 - q.length) ≤ l.length := by
    have := pow_pos2 (4 * h + 4 - q.length)
    rw [Nat.add_mul, Nat.one_mul]
    generalize ofBits q * 2 ^ (4 * h + 4 - q.length) = z at *
    omega
  rw [h1, e, ← Nat.mul_assoc] at h5
  have h6 : k.val + 1 ≤ (k.val / 2 ^ (4 - q.length) + 1) * 2 ^ (4 - q.length) := by
    have h7 := Nat.div_add_mod k.val (2 ^ (4 - q.length))
    have h8 := Nat.mod_lt k.val hP
    rw [Nat.add_mul, Nat.one_mul, Nat.mul_comm (k.val / _)]
    omega
  have h7 : (k.val + 1) * 2 ^ (4 * h) ≤ l.length := (Nat.mul_le_mul_right _ h6).trans h5
  rw [Nat.add_mul, Nat.one_mul] at h7
  generalize k.val * 2 ^ (4 * h) = z at *
  omega

/-- What the children have to satisfy. -/
structure KidOk (E : HEnv) (D : HDisk) (h : Nat) (K : TNode → List Bytes → Prop) (l : List Bytes) : Prop where
  pointer : ∀ n a, K n a → n.isSome = true
  shut : h ≠ 0 → ∀ k x, (part h k l).length = 2 ^ (4 * h) → hspec E.H (4 * h) (part h k l) = some x → K (closed x) (part h k l)
  put : h ≠ 0 → ∀ n k x, K n (part h k l) → hspec E.H (4 * h) (part h k l) = some x →
    ∃ n', putVal E D [] x n = (n', true) ∧ K n' (part h k l)

/-- One element of the proof. -/
theorem mergeItem_open (hD : ∀ x, D x = none) (hK : KidOk E D h K l) (hl : l.length ≤ 2 ^ (4 * h + 4)) {i : TInfo} {c : Nib → TNode}
    (ho : OpenC E.H true h K i c l) {j : Nib} {t : Nat} (ht : t < 4) {x : Bytes}
    (hx : item E.H x = hspec E.H (4 * h + (3 - t)) (sub (4 * h + 4) (sibling j t) l)) :
    ∃ i' c', mergeItem E D j t x (.mk i c) = (.mk i' c', true) ∧ OpenC E.H true h K i' c' l ∧ Keeps (.mk i c) (.mk i' c') ∧
      i'.leafs j = i.leafs j ∧ (∀ k, k ≠ nibOf (sibling j 3) → c' k = c k) ∧
      ∀ p, p ≠ [] → shutAt p (c' (nibOf (sibling j 3))) = true → shutAt p (c (nibOf (sibling j 3))) = true := by
  unfold mergeItem
  cases hi : item E.H x with
  | none => exact ⟨i, c, rfl, ho, .rfl, rfl, fun _ _ => rfl, fun _ _ h => h⟩
  | some a =>
    rw [hi] at hx
    simp only
    by_cases h3 : t = 3
    · subst h3
      rw [if_pos rfl]
      have b3 : bits4 (nibOf (sibling j 3)) = sibling j 3 := bits4_nibOf (sibling_length j (by omega))
      have p3 : part h (nibOf (sibling j 3)) l = sub (4 * h + 4) (sibling j 3) l := by rw [part, b3]
      have hne : nibOf (sibling j 3) ≠ j := sibling_ne j
      rw [← p3] at hx
      generalize nibOf (sibling j 3) = s at *
      have hx' : hspec E.H (4 * h) (part h s l) = some a := hx.symm
      have hps : part h s l ≠ [] := by intro e; rw [e, hspec_nil] at hx'; cases hx'
      by_cases h0 : h = 0
      · subst h0
        have hlf : i.leaf = true := by rw [ho.leaf]; rfl
        obtain ⟨i', c', e1, e2, e3, e4, _, _⟩ := setSlot_open (E := E) ho (j := s) (v := a) (child := .nil) hps (fun _ => hx')
          (fun h => absurd rfl h) (fun h => absurd rfl h)
        rw [if_pos hlf]
        rw [setSlot, if_pos hlf] at e1
        refine ⟨i', c', by rw [e1], e2, e3, ?_⟩
        obtain ⟨rfl, rfl⟩ := TNode.mk.inj e1
        refine ⟨by simp [hne.symm], fun _ _ => rfl, fun _ _ h => h⟩
      · have hlf : i.leaf = false := by rw [ho.leaf]; simp [h0]
        rw [if_neg (by simp [hlf])]
        have key : ∀ n', K n' (part h s l) → Keeps (c s) n' → (∀ p, p ≠ [] → shutAt p n' = true → shutAt p (c s) = true) →
            OpenC E.H true h K i (setKid c s n') l ∧ Keeps (.mk i c) (.mk i (setKid c s n')) ∧ i.leafs j = i.leafs j ∧
              (∀ k, k ≠ s → setKid c s n' k = c k) ∧ ∀ p, p ≠ [] → shutAt p (setKid c s n' s) = true → shutAt p (c s) = true := by
          intro n' h1 h2 h3
          obtain ⟨i', c', e1, e2, e3, _, _, _⟩ := setSlot_open (E := E) ho (j := s) (v := []) (child := n') hps
            (fun h => absurd h h0) (fun _ => h1) (fun _ => h2)
          rw [setSlot, if_neg (by simp [hlf])] at e1
          obtain ⟨rfl, rfl⟩ := TNode.mk.inj e1
          exact ⟨e2, e3, rfl, fun k hk => by simp [setKid, hk], by simpa [setKid] using h3⟩
        by_cases hs : (c s).isSome = true
        · rw [if_pos hs]
          have hk : K (c s) (part h s l) := by
            rcases ho.slot s with hk | ⟨_, hk, _⟩
            · simp only [Known, h0, if_false] at hk
              rcases hk with ⟨hk, _⟩ | ⟨_, hk⟩
              · exact absurd hk hps
              · exact hk
            · simp only [h0, if_false] at hk
              rw [hk] at hs; cases hs
          obtain ⟨n', e1, e2⟩ := hK.put h0 (c s) s a hk hx'
          have e3 := keeps_putVal E D [] a (c s)
          have e4 := fun p hp => shut_putVal (E := E) hD (b := []) (x := a) (n := c s) (p := p) hp
          simp only [e1] at e3 e4 ⊢
          exact ⟨_, _, rfl, key n' e2 e3 e4⟩
        · rw [if_neg hs]
          have hnil : c s = .nil := by
            cases hcs : c s with
            | nil => rfl
            | mk i c => rw [hcs] at hs; exact absurd rfl hs
          have hfull : (part h s l).length = 2 ^ (4 * h) := by
            rcases ho.slot s with hk | ⟨_, hk⟩
            · simp only [Known, h0, if_false] at hk
              rcases hk with ⟨hk, _⟩ | ⟨_, hk⟩
              · exact absurd hk hps
              · exact absurd (hK.pointer _ _ hk) hs
            · exact Missing.full hk
          refine ⟨_, _, rfl, key _ (hK.shut h0 s a hfull hx') ?_ ?_⟩
          · rw [hnil]
            exact keeps_nil _
          · intro p hp hs
            rw [shut_closed hp] at hs; cases hs
    · rw [if_neg h3]
      have hlen := sibling_length j ht
      obtain ⟨e1, e2⟩ := putVal_open (D := D) hK.pointer hl ho (p := sibling j t) (by omega) (x := a) (by
        rw [hlen, show 4 - (t + 1) = 3 - t by omega]; exact hx.symm)
      rw [e1]
      exact ⟨_, _, rfl, e2, keeps_congr rfl (fun _ _ _ h => h) fun _ _ => .rfl, rfl, fun _ _ => rfl, fun _ _ h => h⟩

/-- All elements for a node. -/
theorem mergeItems_open (hH : ∀ b, (E.H b).length = 32) (hD : ∀ x, D x = none) (hK : KidOk E D h K l) (hl : l.length ≤ 2 ^ (4 * h + 4))
    (hn : NoNil E.H (4 * h + 4) l) {i : TInfo} {c : Nib → TNode} (ho : OpenC E.H true h K i c l) {j : Nib} {v : Bytes} {child : TNode}
    (hpj : part h j l ≠ []) (hleaf : h = 0 → (part h j l).head? = some v) (hchild : h ≠ 0 → K child (part h j l))
    (hkeep : h ≠ 0 → Keeps (c j) child) :
    ∃ i' c', mergeItems E D j v child (.mk i c) ((upItems E.H (4 * h) l j 4).map fun it => toHash it.1) = (.mk i' c', true) ∧
      OpenC E.H true h K i' c' l ∧ Keeps (.mk i c) (.mk i' c') ∧ (h = 0 → i'.leafs j = some v) ∧ (h ≠ 0 → c' j = child) ∧
      (∀ k, k ≠ j → k ≠ nibOf (sibling j 3) → c' k = c k) ∧
      ∀ p, p ≠ [] → shutAt p (c' (nibOf (sibling j 3))) = true → shutAt p (c (nibOf (sibling j 3))) = true := by
  have hS : ∀ t, t < 4 → item E.H (toHash (toHash ((hspec E.H (4 * h + (3 - t)) (sub (4 * h + 4) (sibling j t) l)).getD (nilHash E.H)))) =
      hspec E.H (4 * h + (3 - t)) (sub (4 * h + 4) (sibling j t) l) := by
    intro t ht
    have := hn.sub hl (sibling j t) (by rw [sibling_length j ht]; omega)
    rw [sibling_length j ht, show 4 * h + 4 - (t + 1) = 4 * h + (3 - t) by omega] at this
    exact item_getD hH this
  obtain ⟨i0, c0, a1, a2, a3, a4, a5, a6⟩ := setSlot_open (E := E) ho hpj hleaf hchild hkeep
  obtain ⟨i1, c1, b1, b2, b3, b4, b5, b6⟩ := mergeItem_open hD hK hl a2 (j := j) (t := 3) (by omega) (hS 3 (by omega))
  obtain ⟨i2, c2, d1, d2, d3, d4, d5, d6⟩ := mergeItem_open hD hK hl b2 (j := j) (t := 2) (by omega) (hS 2 (by omega))
  obtain ⟨i3, c3, e1, e2, e3, e4, e5, e6⟩ := mergeItem_open hD hK hl d2 (j := j) (t := 1) (by omega) (hS 1 (by omega))
  obtain ⟨i4, c4, f1, f2, f3, f4, f5, f6⟩ := mergeItem_open hD hK hl e2 (j := j) (t := 0) (by omega) (hS 0 (by omega))
  refine ⟨{ i4 with dirty := true }, c4, ?_, f2.congr rfl rfl f2.br (fun _ h => h) (fun _ h => h) fun _ _ h => h,
    ((((a3.trans b3).trans d3).trans e3).trans f3).trans (keeps_congr rfl (fun _ _ _ h => h) fun _ _ => .rfl), ?_, ?_, ?_, ?_⟩
  · simp only [upItems, List.map_cons, List.map_nil, mergeItems]
    simp only [a1, b1, andThen, if_true, d1, e1, f1, TNode.soiled]
  · intro h0
    show i4.leafs j = some v
    rw [f4, e4, d4, b4, a4 h0]
  · intro h0
    have hne := (sibling_ne j).symm
    rw [f5 j hne, e5 j hne, d5 j hne, b5 j hne, a5 h0]
  · intro k hk hk3
    rw [f5 k hk3, e5 k hk3, d5 k hk3, b5 k hk3, a6 k hk]
  · intro p hp hs
    rw [← a6 _ (sibling_ne j)]
    exact b6 p hp (d6 p hp (e6 p hp (f6 p hp hs)))

end Node

/-! ### The whole path -/

section Path
variable {E : HEnv} {D : HDisk}

theorem fkid_ok (hH : ∀ b, (E.H b).length = 32) (hD : ∀ x, D x = none) (h : Nat) (l : List Bytes) : KidOk E D h (FKid E.H h) l := by
  refine ⟨fun _ _ => FKid.isSome, ?_, ?_⟩
  · intro h0 k x hk hx
    obtain ⟨m, rfl⟩ := Nat.exists_eq_succ_of_ne_zero h0
    exact .inr ⟨closed_closedAs hx, hk⟩
  · intro h0 n k x hk hx
    obtain ⟨m, rfl⟩ := Nat.exists_eq_succ_of_ne_zero h0
    generalize part (m + 1) k l = a at *
    rcases hk with hk | ⟨hc, hlen⟩
    · obtain ⟨g0, g1, i, c, rfl, ho⟩ := (front_iff m n a).mp hk
      obtain ⟨e1, e2⟩ := putVal_open (D := D) (fun _ _ => FKid.isSome) g1 ho (p := []) (by simp) (x := x)
        (by rw [sub_nil_prefix g1]; exact hx)
      exact ⟨_, e1, .inl ((front_iff m _ a).mpr ⟨g0, g1, _, _, rfl, e2⟩)⟩
    · obtain ⟨i, rfl, hd, hlf, y, hy, hb⟩ := hc
      have hxy : y = x := Option.some.inj (hy.symm.trans hx)
      subst hxy
      by_cases hy0 : y = []
      · have := hspec_len hH (k := 4 * m + 3) hy
        rw [hy0] at this; cases this
      · have hop : opened E D (.mk i fun _ => .nil) = (newTNode i.leaf, true) := by
          rw [opened, closed_isCollapsed hlf hb, if_pos rfl, hb]
          simp only [if_true, hy0, if_false]
          rw [readFull]
          split
          · rfl
          · rw [hD]
        refine ⟨_, by rw [putVal, hop]; rfl, .inr ⟨⟨_, rfl, rfl, fun _ => rfl, y, hy, ?_⟩, hlen⟩⟩
        rfl

theorem part_noNil {H : Bytes → Bytes} {h : Nat} {l : List Bytes} (hl : l.length ≤ 2 ^ (4 * (h + 1) + 4))
    (hn : NoNil H (4 * (h + 1) + 4) l) (j : Nib) : NoNil H (4 * h + 4) (part (h + 1) j l) := by
  have := hn.sub hl (bits4 j) (by rw [bits4_length]; omega)
  rwa [bits4_length, show 4 * (h + 1) + 4 - 4 = 4 * h + 4 by omega] at this

/-- The value at a position, in its block. -/
theorem part_path {h k : Nat} {l : List Bytes} {j : Nib} (hj : k / 2 ^ (4 * h) = j.val) :
    (part h j l)[k % 2 ^ (4 * h)]? = l[k]? := by
  rw [part_getElem? h j l _ (Nat.mod_lt _ (pow_pos2 _)), ← hj, Nat.div_add_mod']

/-- The nodes that are known by their hash only after restoring are beside the path. -/
theorem restore_shut {H : Bytes → Bytes} {v : Bytes} : ∀ (q : List Nib) (items : List Bytes) (n : TNode), restoreAt H v q items = some n →
    ∀ p, shutAt p n = true → Beside q p := by
  have node : ∀ (j : Nib) (lf : Bool) (v : Bytes) (m : TNode) (items : List Bytes) (n : TNode), restoreNode H j lf v m items = some n →
      ∀ p, shutAt p n = true → lf = false ∧ ((∃ p', p = j :: p' ∧ shutAt p' m = true) ∨ p = [nibOf (sibling j 3)]) := by
    intro j lf v m items n he p hs
    unfold restoreNode at he
    split at he
    · obtain rfl := Option.some.inj he
      cases p with
      | nil =>
        exfalso
        have h1 : ∀ t, t < 4 → ([] : List Bool) ≠ sibling j t := by
          intro t ht e
          have := sibling_length j ht
          rw [← e] at this; cases this
        simp [shutAt, isCollapsed, h1 2 (by omega), h1 1 (by omega), h1 0 (by omega)] at hs
      | cons k p =>
        simp only [shutAt, Bool.and_eq_true, Bool.not_eq_true'] at hs
        obtain ⟨h1, h2⟩ := hs
        refine ⟨h1, ?_⟩
        rw [h1] at h2
        simp only [Bool.false_eq_true, if_false] at h2
        split at h2
        · rename_i e; subst e
          exact .inl ⟨p, rfl, h2⟩
        · split at h2
          · rename_i e; subst e
            split at h2
            · cases p <;> cases h2
            · by_cases hp : p = []
              · right; rw [hp]
              · rw [shut_closed hp] at h2; cases h2
          · cases p <;> cases h2
    · cases he
  intro q
  induction q with
  | nil => intro items n he; cases he
  | cons j q ih =>
    intro items n he p hs
    rw [restoreAt] at he
    split at he
    · obtain ⟨h1, _⟩ := node _ _ _ _ _ _ he p hs
      cases h1
    · rw [Option.bind_eq_some_iff] at he
      obtain ⟨m, e1, e2⟩ := he
      obtain ⟨_, ⟨p', rfl, h2⟩ | rfl⟩ := node _ _ _ _ _ _ e2 p hs
      · exact (ih _ _ e1 p' h2).cons j
      · exact ⟨[], j, q, rfl, rfl⟩

/-- Restoring a position of a filled block. -/
theorem restore_full {H : Bytes → Bytes} (hH : ∀ b, (H b).length = 32) (v : Bytes) : ∀ (h : Nat) (l : List Bytes) (k : Nat),
    l.length = 2 ^ (4 * h + 4) → NoNil H (4 * h + 4) l → l[k]? = some v →
    ∃ n, restoreAt H v (digits (h + 1) k) ((pathItems H (digits (h + 1) k) l).map fun it => toHash it.1) = some n ∧ Front H h n l ∧
      peek (digits (h + 1) k) n = some v := by
  intro h
  induction h with
  | zero =>
    intro l k hl hn hv
    have h0 : l ≠ [] := by intro e; rw [e] at hl; cases hl
    have hk : k < l.length := (List.getElem?_eq_some_iff.mp hv).1
    obtain ⟨j, hj, hdig⟩ := digits_succ 0 k (by omega)
    have hp := part_path (l := l) hj
    have hmod : k % 2 ^ (4 * 0) = 0 := by simp [Nat.mod_one]
    rw [hmod, hv] at hp
    have p1 : part 0 j l ≠ [] := by intro e; rw [e] at hp; cases hp
    obtain ⟨i, c, e, ho⟩ := restoreNode_spec hH (K := fun _ _ => False) hl.le hn p1 (even_full hl j) (v := v) (child := .nil)
      (fun _ => by rw [List.head?_eq_getElem?]; exact hp) (fun h => absurd rfl h) (fun h => absurd rfl h)
    refine ⟨_, ?_, ⟨h0, hl.le, i, c, rfl, ho⟩, ?_⟩
    · rw [hdig]
      simp only [digits, restoreAt, pathItems, if_true, List.length_nil, Nat.mul_zero, List.nil_append]
      rw [List.take_of_length_le (by rw [List.length_map, upItems_length])]
      exact e
    · have hlf : i.leaf = true := by rw [ho.leaf]; rfl
      rw [hdig]
      simp only [digits, peek, hlf, if_true]
      obtain ⟨rfl, _⟩ := TNode.mk.inj (Option.some.inj e)
      simp
  | succ h ih =>
    intro l k hl hn hv
    have h0 : l ≠ [] := by intro e; rw [e] at hl; have := pow_pos2 (4 * (h + 1) + 4); simp only [List.length_nil] at hl; omega
    have hk : k < l.length := (List.getElem?_eq_some_iff.mp hv).1
    obtain ⟨j, hj, hdig⟩ := digits_succ (h + 1) k (by omega)
    have hp := part_path (l := l) hj
    rw [hv] at hp
    have p1 : part (h + 1) j l ≠ [] := by intro e; rw [e] at hp; cases hp
    have hpl : (part (h + 1) j l).length = 2 ^ (4 * h + 4) := by
      have := sub_full hl (bits4 j) (by rw [bits4_length]; omega)
      rw [bits4_length] at this
      exact this
    obtain ⟨n, e1, e2, e3⟩ := ih (part (h + 1) j l) (k % 2 ^ (4 * (h + 1))) hpl (part_noNil hl.le hn j) hp
    obtain ⟨i, c, e, ho⟩ := restoreNode_spec hH (K := FKid H (h + 1)) hl.le hn p1 (even_full hl j) (v := []) (child := n)
      (fun h => absurd h (by omega)) (fun _ => .inl e2)
      (fun _ k x hk hx => .inr ⟨closed_closedAs hx, hk⟩)
    refine ⟨_, ?_, ⟨h0, hl.le, i, c, rfl, ho⟩, ?_⟩
    · rw [hdig, restoreAt, if_neg (by simp [digits_ne_nil]), pathItems, List.map_append]
      have hlen : ((pathItems H (digits (h + 1) (k % 2 ^ (4 * (h + 1))))
          (part (digits (h + 1) (k % 2 ^ (4 * (h + 1)))).length j l)).map fun it => toHash it.1).length =
            4 * (digits (h + 1) (k % 2 ^ (4 * (h + 1)))).length := by
        rw [List.length_map, pathItems_length]
      rw [List.take_left' hlen, List.drop_left' hlen, List.take_of_length_le (by rw [List.length_map, upItems_length])]
      simp only [digits_length]
      rw [e1]
      exact e
    · have hlf : i.leaf = false := by rw [ho.leaf]; rfl
      rw [hdig]
      simp only [peek, hlf, Bool.false_eq_true, if_false]
      obtain ⟨_, hc⟩ := TNode.mk.inj (Option.some.inj e)
      rw [← hc]
      simpa using e3

/-- Finding a position without any storage. -/
theorem loc_front : ∀ (h : Nat) (n : TNode) (l : List Bytes) (k : Nat), Front E.H h n l → k < 2 ^ (4 * h + 4) →
    clear (digits (h + 1) k) n = true →
    locAt E D (digits (h + 1) k) n = (n, some ((peek (digits (h + 1) k) n).map some)) := by
  intro h
  induction h with
  | zero =>
    intro n l k hf hk hcl
    obtain ⟨h0, h1, i, c, rfl, ho⟩ := (front_iff 0 n l).mp hf
    obtain ⟨j, hj, hdig⟩ := digits_succ 0 k hk
    have hlf : i.leaf = true := by rw [ho.leaf]; rfl
    rw [hdig, locAt]
    simp [opened_front h1 ho, digits, hlf, peek]
  | succ h ih =>
    intro n l k hf hk hcl
    obtain ⟨h0, h1, i, c, rfl, ho⟩ := (front_iff (h + 1) n l).mp hf
    obtain ⟨j, hj, hdig⟩ := digits_succ (h + 1) k hk
    have hlf : i.leaf = false := by rw [ho.leaf]; rfl
    have hmod := Nat.mod_lt k (pow_pos2 (4 * (h + 1)))
    rw [hdig] at hcl ⊢
    simp only [clear, hlf, Bool.false_or, Bool.and_eq_true] at hcl
    rw [locAt]
    simp only [opened_front h1 ho, Bool.true_eq_false, if_false, digits_ne_nil, Nat.succ_ne_zero, hlf, Bool.false_eq_true, peek]
    have hnil : c j = .nil → (if (c j).isSome = true then
        ((.mk i (setKid c j (locAt E D (digits (h + 1) (k % 2 ^ (4 * (h + 1)))) (c j)).1) : TNode),
          (locAt E D (digits (h + 1) (k % 2 ^ (4 * (h + 1)))) (c j)).2) else (.mk i c, some none)) =
        (.mk i c, some ((peek (digits (h + 1) (k % 2 ^ (4 * (h + 1)))) (c j)).map some)) := by
      intro e
      rw [e]
      rfl
    rcases ho.slot j with hs | ⟨_, hs, _⟩
    · simp only [Known, Nat.succ_ne_zero, if_false] at hs
      rcases hs with ⟨_, h2⟩ | ⟨h2, h3⟩
      · exact hnil h2
      · have hsome : (c j).isSome = true := FKid.isSome (h := h + 1) h3
        simp only [hsome, if_true]
        rcases h3 with h3 | ⟨⟨i', e, hd, hlf', x, hx, hb⟩, _⟩
        · rw [ih (c j) _ _ h3 hmod hcl.2]
          simp only [Prod.mk.injEq, TNode.mk.injEq, true_and, and_true]
          funext m
          rw [setKid]
          split
          · rename_i e; rw [e]
          · rfl
        · exfalso
          have h4 := hcl.2
          rw [e] at h4
          obtain ⟨j', q, hq⟩ : ∃ j' q, digits (h + 1) (k % 2 ^ (4 * (h + 1))) = j' :: q := ⟨_, _, rfl⟩
          rw [hq, clear, closed_isCollapsed hlf' hb] at h4
          simp at h4
    · simp only [Nat.succ_ne_zero, if_false] at hs
      exact hnil hs

/-- Merging a position of which nothing on the path is known by its hash only. -/
theorem merge_front (hH : ∀ b, (E.H b).length = 32) (hD : ∀ x, D x = none) (v : Bytes) : ∀ (h : Nat) (n : TNode) (l : List Bytes)
    (k : Nat), Front E.H h n l → NoNil E.H (4 * h + 4) l → l[k]? = some v → clear (digits (h + 1) k) n = true →
    ∃ n', mergeAt E D v (digits (h + 1) k) n ((pathItems E.H (digits (h + 1) k) l).map fun it => toHash it.1) = (n', true) ∧
      Front E.H h n' l ∧ Keeps n n' ∧ peek (digits (h + 1) k) n' = some v ∧
      ∀ p, shutAt p n' = true → shutAt p n = true ∨ Beside (digits (h + 1) k) p := by
  intro h
  induction h with
  | zero =>
    intro n l k hf hn hv hcl
    obtain ⟨h0, h1, i, c, rfl, ho⟩ := (front_iff 0 n l).mp hf
    have hk : k < l.length := (List.getElem?_eq_some_iff.mp hv).1
    obtain ⟨j, hj, hdig⟩ := digits_succ 0 k (by omega)
    have hp := part_path (l := l) hj
    have hmod : k % 2 ^ (4 * 0) = 0 := by simp [Nat.mod_one]
    rw [hmod, hv] at hp
    have p1 : part 0 j l ≠ [] := by intro e; rw [e] at hp; cases hp
    obtain ⟨i', c', e1, e2, e3, e4, _, _⟩ := mergeItems_open hH hD (fkid_ok hH hD 0 l) h1 hn ho (j := j) (v := v) (child := .nil) p1
      (fun _ => by rw [List.head?_eq_getElem?]; exact hp) (fun h => absurd rfl h) (fun h => absurd rfl h)
    refine ⟨_, ?_, (front_iff 0 _ l).mpr ⟨h0, h1, i', c', rfl, e2⟩, e3, ?_, ?_⟩
    · rw [hdig]
      simp only [digits, mergeAt, pathItems, if_true, List.length_nil, Nat.mul_zero, List.nil_append]
      rw [List.take_of_length_le (by rw [List.length_map, upItems_length])]
      exact e1
    · have hlf : i'.leaf = true := by rw [e2.leaf]; rfl
      rw [hdig]
      simp only [digits, peek, hlf, if_true]
      exact e4 rfl
    · intro p hs
      have hlf : i'.leaf = true := by rw [e2.leaf]; rfl
      cases p with
      | nil =>
        rw [shutAt, notCollapsed (fun _ _ => FKid.isSome) h1 e2] at hs
        cases hs
      | cons k p => simp [shutAt, hlf] at hs
  | succ h ih =>
    intro n l k hf hn hv hcl
    obtain ⟨h0, h1, i, c, rfl, ho⟩ := (front_iff (h + 1) n l).mp hf
    have hk : k < l.length := (List.getElem?_eq_some_iff.mp hv).1
    obtain ⟨j, hj, hdig⟩ := digits_succ (h + 1) k (by omega)
    have hlf : i.leaf = false := by rw [ho.leaf]; rfl
    have hp := part_path (l := l) hj
    rw [hv] at hp
    have p1 : part (h + 1) j l ≠ [] := by intro e; rw [e] at hp; cases hp
    have hpn := part_noNil h1 hn j
    rw [hdig] at hcl ⊢
    simp only [clear, hlf, Bool.false_or, Bool.and_eq_true] at hcl
    have hlen : ((pathItems E.H (digits (h + 1) (k % 2 ^ (4 * (h + 1))))
        (part (digits (h + 1) (k % 2 ^ (4 * (h + 1)))).length j l)).map fun it => toHash it.1).length =
          4 * (digits (h + 1) (k % 2 ^ (4 * (h + 1)))).length := by
      rw [List.length_map, pathItems_length]
    rw [mergeAt, pathItems, List.map_append, if_neg (by simp [digits_ne_nil]), List.take_left' hlen, List.drop_left' hlen,
      List.take_of_length_le (by rw [List.length_map, upItems_length])]
    simp only [digits_length]
    have fin : ∀ (c' : Nib → TNode) (m : TNode), OpenC E.H true (h + 1) (FKid E.H (h + 1)) i c' l → Front E.H h m (part (h + 1) j l) →
        Keeps (c' j) m → peek (digits (h + 1) (k % 2 ^ (4 * (h + 1)))) m = some v → Keeps (.mk i c) (.mk i c') →
        (∀ k, k ≠ j → c' k = c k) →
        (∀ p, shutAt p m = true → shutAt p (c j) = true ∨ Beside (digits (h + 1) (k % 2 ^ (4 * (h + 1)))) p) →
        ∃ n', mergeItems E D j [] m (.mk i c') ((upItems E.H (4 * (h + 1)) l j 4).map fun it => toHash it.1) = (n', true) ∧
          Front E.H (h + 1) n' l ∧ Keeps (.mk i c) n' ∧ peek (j :: digits (h + 1) (k % 2 ^ (4 * (h + 1)))) n' = some v ∧
          ∀ p, shutAt p n' = true → shutAt p (.mk i c) = true ∨ Beside (j :: digits (h + 1) (k % 2 ^ (4 * (h + 1)))) p := by
      intro c' m g1 g2 g3 g4 g5 g6 g7
      obtain ⟨i', c'', e1, e2, e3, _, e5, e6, e7⟩ := mergeItems_open hH hD (fkid_ok hH hD (h + 1) l) h1 hn g1 (j := j) (v := []) (child := m) p1
        (fun h => absurd h (by omega)) (fun _ => .inl g2) (fun _ => g3)
      refine ⟨_, e1, (front_iff (h + 1) _ l).mpr ⟨h0, h1, i', c'', rfl, e2⟩, g5.trans e3, ?_, ?_⟩
      · have hlf' : i'.leaf = false := by rw [e2.leaf]; rfl
        rw [peek, hlf', e5 (by omega)]
        exact g4
      · intro p hs
        have hlf' : i'.leaf = false := by rw [e2.leaf]; rfl
        cases p with
        | nil =>
          rw [shutAt, notCollapsed (fun _ _ => FKid.isSome) h1 e2] at hs
          cases hs
        | cons k' p =>
          simp only [shutAt, hlf', hlf, Bool.not_false, Bool.true_and] at hs ⊢
          by_cases hk : k' = j
          · subst hk
            rw [e5 (by omega)] at hs
            exact (g7 p hs).imp_right fun h => h.cons k'
          · by_cases hk3 : k' = nibOf (sibling j 3)
            · subst hk3
              by_cases hp : p = []
              · subst hp
                exact .inr ⟨[], j, _, rfl, rfl⟩
              · left
                have := e7 p hp hs
                rwa [g6 _ hk] at this
            · left
              rwa [e6 k' hk hk3, g6 k' hk] at hs
    have hmiss : c j = .nil → (part (h + 1) j l).length = 2 ^ (4 * h + 4) := by
      intro hnil
      rcases ho.slot j with hs | ⟨_, hs⟩
      · simp only [Known, Nat.succ_ne_zero, if_false] at hs
        rcases hs with ⟨h2, _⟩ | ⟨h2, h3⟩
        · exact absurd h2 p1
        · have := FKid.isSome (h := h + 1) h3
          rw [hnil] at this; cases this
      · exact Missing.full hs
    by_cases hsome : (c j).isSome = true
    · rw [if_pos hsome]
      have h3 : FKid E.H (h + 1) (c j) (part (h + 1) j l) := by
        rcases ho.slot j with hs | ⟨_, hs, _⟩
        · simp only [Known, Nat.succ_ne_zero, if_false] at hs
          rcases hs with ⟨h2, _⟩ | ⟨h2, h3⟩
          · exact absurd h2 p1
          · exact h3
        · simp only [Nat.succ_ne_zero, if_false] at hs
          rw [hs] at hsome; cases hsome
      rcases h3 with h3 | ⟨⟨i', e, hd, hlf', x, hx, hb⟩, _⟩
      · obtain ⟨m, e1, e2, e3, e4, e5⟩ := ih (c j) _ _ h3 hpn hp hcl.2
        rw [e1, if_pos rfl]
        obtain ⟨i1, c1, a1, a2, a3, _, _, a6⟩ := setSlot_open (E := E) ho (j := j) (v := []) (child := m) p1
          (fun h => absurd h (by omega)) (fun _ => .inl e2) (fun _ => e3)
        rw [setSlot, if_neg (by simp [hlf])] at a1
        obtain ⟨rfl, rfl⟩ := TNode.mk.inj a1
        exact fin _ m a2 e2 (by simp only [setKid, if_true]; exact .rfl) e4 a3 a6 e5
      · exfalso
        have h4 := hcl.2
        rw [e] at h4
        obtain ⟨j', q, hq⟩ : ∃ j' q, digits (h + 1) (k % 2 ^ (4 * (h + 1))) = j' :: q := ⟨_, _, rfl⟩
        rw [hq, clear, closed_isCollapsed hlf' hb] at h4
        simp at h4
    · rw [if_neg hsome]
      have hnil : c j = .nil := by
        cases hcj : c j with
        | nil => rfl
        | mk i c => rw [hcj] at hsome; exact absurd rfl hsome
      obtain ⟨m, e1, e2, e3⟩ := restore_full hH v h (part (h + 1) j l) (k % 2 ^ (4 * (h + 1))) (hmiss hnil) hpn hp
      rw [e1]
      exact fin c m ho e2 (by rw [hnil]; exact keeps_nil _) e3 .rfl (fun _ _ => rfl) (fun p hs => .inr (restore_shut _ _ _ e1 p hs))

end Path

/-! ### Appending, hashing and reading -/

section Held
variable {E : HEnv} {D : HDisk}

theorem opened_kids (hD : ∀ x, D x = none) {n : TNode} {i : TInfo} {c : Nib → TNode} (h : opened E D n = (.mk i c, true)) :
    n = .mk i c ∨ (∀ k, c k = .nil) := by
  cases n with
  | nil => cases h
  | mk i0 c0 =>
    rw [opened] at h
    by_cases hc : isCollapsed i0 c0 = true
    · right
      rw [if_pos hc] at h
      cases hb : i0.br [] with
      | none => rw [hb] at h; cases h
      | some root =>
        rw [hb] at h
        by_cases hr : root = []
        · simp only [hr, if_true] at h; cases h
        · simp only [hr, if_false, readFull, hD] at h
          have : newTNode i0.leaf = .mk i c := by
            split at h <;> exact (Prod.mk.inj h).1
          obtain ⟨_, rfl⟩ := TNode.mk.inj this
          intro k; rfl
    · left
      rw [if_neg hc] at h
      exact (Prod.mk.inj h).1

theorem opened_isSome (hD : ∀ x, D x = none) (n : TNode) : (opened E D n).1.isSome = n.isSome := by
  cases n with
  | nil => rfl
  | mk i0 c0 =>
    rw [opened]
    split
    · split
      · rfl
      · split
        · rfl
        · rw [readFull, hD]
          split <;> rfl
    · rfl

theorem append_some (hD : ∀ x, D x = none) (v : Bytes) {q : List Nib} (hq : q ≠ []) {n : TNode} (hn : n.isSome = true) :
    (appendAt E D q n v).2 ≠ some false := by
  induction q generalizing n with
  | nil => exact absurd rfl hq
  | cons j q ih =>
    rw [appendAt]
    have h1 := opened_isSome (E := E) hD n
    rw [hn] at h1
    generalize opened E D n = e at *
    obtain ⟨m, b⟩ := e
    cases m with
    | nil => cases h1
    | mk i c =>
      cases b with
      | false => simp
      | true =>
        simp only [Bool.true_eq_false, if_false]
        by_cases hq0 : q = []
        · simp only [hq0, if_true]
          split
          · simp
          · split <;> simp
        · simp only [hq0, if_false]
          split
          · simp
          · split
            · rename_i hs
              have := ih hq0 hs
              split
              · simp
              · exact this
            · split <;> simp

theorem peek_opened {n : TNode} {j : Nib} {q : List Nib} {x : Bytes} (h : peek (j :: q) n = some x) :
    ∃ i c, n = .mk i c ∧ opened E D n = (.mk i c, true) := by
  cases n with
  | nil => cases h
  | mk i c =>
    refine ⟨i, c, rfl, ?_⟩
    rw [opened]
    by_cases hc : isCollapsed i c = true
    · rw [peek_collapsed hc] at h; cases h
    · rw [if_neg hc]

theorem touch_br (i : TInfo) (j : Nib) : (i.touch j).br [] = none := by
  simp [TInfo.touch, clearAnc]

theorem append_facts (hD : ∀ x, D x = none) (v : Bytes) : ∀ (q : List Nib) (n : TNode), (appendAt E D q n v).2 = some true →
    peek q (appendAt E D q n v).1 = some v ∧
    (∀ q' x, q' ≠ q → peek q' n = some x → peek q' (appendAt E D q n v).1 = some x) ∧
    ∀ p, shutAt p (appendAt E D q n v).1 = true → shutAt p n = true := by
  intro q
  induction q with
  | nil => intro n h; cases h
  | cons j q ih =>
    intro n h
    have hop : ∀ k q x, peek (k :: q) n = some x → ∃ i c, n = .mk i c ∧ opened E D n = (.mk i c, true) :=
      fun k q x => peek_opened
    have hk := fun i c => opened_kids (E := E) hD (n := n) (i := i) (c := c)
    rw [appendAt] at h ⊢
    generalize opened E D n = e at *
    obtain ⟨m, b⟩ := e
    cases m with
    | nil => cases b <;> simp at h
    | mk i c =>
      cases b with
      | false => simp at h
      | true =>
        simp only [Bool.true_eq_false, if_false] at h ⊢
        have hk' := hk i c rfl
        have hn : ∀ k q x, peek (k :: q) n = some x → n = .mk i c := by
          intro k q x hp
          obtain ⟨i', c', e1, e2⟩ := hop k q x hp
          rw [e1, (Prod.mk.inj e2).1]
        have hs : ∀ k p, i.leaf = false → shutAt p (c k) = true → shutAt (k :: p) n = true := by
          intro k p hlf hp
          rcases hk' with e | e
          · rw [e, shutAt, hlf]; exact hp
          · rw [e k] at hp; cases p <;> cases hp
        have hcol : ∀ i' c', i'.br [] = none → isCollapsed i' c' = false := by
          intro i' c' hb; simp [isCollapsed, hb]
        have kid : ∀ (m : TNode) (r : TNode), i.leaf = false → q ≠ [] → peek q r = some v →
            (∀ q' x, q' ≠ q → peek q' (c j) = some x → peek q' r = some x) → (∀ p, shutAt p r = true → shutAt p (c j) = true) →
            peek (j :: q) (.mk (i.touch j) (setKid c j r)) = some v ∧
            (∀ q' x, q' ≠ j :: q → peek q' n = some x → peek q' (.mk (i.touch j) (setKid c j r)) = some x) ∧
            ∀ p, shutAt p (.mk (i.touch j) (setKid c j r)) = true → shutAt p n = true := by
          intro m r hlf hq h1 h2 h3
          have hlf' : (i.touch j).leaf = false := hlf
          refine ⟨?_, ?_, ?_⟩
          · rw [peek, hlf']
            simpa [setKid] using h1
          · intro q' x hne hp
            cases q' with
            | nil => cases hp
            | cons k q' =>
              rw [hn k q' x hp, peek, hlf] at hp
              rw [peek, hlf']
              simp only [Bool.false_eq_true, if_false, setKid] at hp ⊢
              split
              · rename_i e; subst e
                exact h2 q' x (fun e => hne (by rw [e])) hp
              · exact hp
          · intro p hp
            cases p with
            | nil => rw [shutAt, hcol _ _ (touch_br i j)] at hp; cases hp
            | cons k p =>
              simp only [shutAt, hlf', Bool.not_false, Bool.true_and, setKid] at hp
              apply hs k p hlf
              split at hp
              · rename_i e; subst e; exact h3 p hp
              · exact hp
        by_cases hq : q = []
        · subst hq
          simp only [if_true] at h ⊢
          cases hlf : i.leaf with
          | false => simp [hlf] at h
          | true =>
            simp only [hlf, Bool.true_eq_false, if_false] at h ⊢
            split at h
            · simp at h
            · rename_i hcl
              rw [if_neg hcl]
              have hlf' : (i.touch j).leaf = true := hlf
              refine ⟨?_, ?_, ?_⟩
              · simp [peek, hlf']
              · intro q' x hne hp
                cases q' with
                | nil => cases hp
                | cons k q' =>
                  rw [hn k q' x hp, peek, hlf] at hp
                  simp only [if_true] at hp
                  split at hp
                  · rename_i e; subst e
                    have : k ≠ j := fun e => hne (by rw [e])
                    simp [peek, hlf', this]
                    exact hp
                  · cases hp
              · intro p hp
                cases p with
                | nil =>
                  rw [shutAt, hcol _ _ (by exact touch_br i j)] at hp
                  cases hp
                | cons k p => simp [shutAt, hlf'] at hp
        · simp only [hq, if_false] at h ⊢
          cases hlf : i.leaf with
          | true => simp [hlf] at h
          | false =>
            simp only [hlf, Bool.false_eq_true, if_false] at h ⊢
            by_cases hcs : (c j).isSome = true
            · simp only [hcs, if_true] at h ⊢
              have g := ih (c j)
              generalize appendAt E D q (c j) v = r at *
              obtain ⟨r, o⟩ := r
              have ho : o = some true := by
                cases o with
                | none => simp at h
                | some b => cases b <;> simp at h ⊢
              subst ho
              obtain ⟨g1, g2, g3⟩ := g rfl
              exact kid r r hlf hq g1 g2 g3
            · have hnil : c j = .nil := by
                cases hc : c j with
                | nil => rfl
                | mk i c => rw [hc] at hcs; exact absurd rfl hcs
              have hnew : (newTNode (q.length == 1)).isSome = true := rfl
              have hsf := append_some (E := E) hD v hq hnew
              simp only [hcs] at h ⊢
              have g := ih (newTNode (q.length == 1))
              generalize appendAt E D q (newTNode (q.length == 1)) v = r at *
              obtain ⟨r, o⟩ := r
              have ho : o = some true := by
                cases o with
                | none => simp at h
                | some b => cases b with
                  | false => exact absurd rfl hsf
                  | true => rfl
              subst ho
              obtain ⟨g1, g2, g3⟩ := g rfl
              refine kid r r hlf hq g1 ?_ ?_
              · intro q' x _ hp
                rw [hnil] at hp
                cases q' <;> cases hp
              · intro p hp
                have := g3 p hp
                exfalso
                cases p with
                | nil => cases hz : (q.length == 1) <;> rw [hz] at this <;> revert this <;> decide
                | cons k p => cases p <;> simp [newTNode, shutAt] at this

theorem hash_shut : ∀ (h : Nat) (n : TNode) (l : List Bytes), Front E.H h n l → ∀ p, shutAt p (hashNode E.H n).1 = true →
    shutAt p n = true := by
  have top : ∀ (h : Nat) (n : TNode) (l : List Bytes), Front E.H h n l → shutAt [] n = false := by
    intro h n l hf
    obtain ⟨_, h1, i, c, rfl, ho⟩ := (front_iff h n l).mp hf
    exact notCollapsed (fun _ _ => FKid.isSome) h1 ho
  have kids : ∀ (i : TInfo) (c : Nib → TNode) (k : Nib) (p : List Nib), i.leaf = false →
      shutAt (k :: p) (hashNode E.H (.mk i c)).1 = true → shutAt p (c k) = true ∨ shutAt p (hashNode E.H (c k)).1 = true := by
    intro i c k p hlf hs
    rw [hashNode] at hs
    simp only [shutAt, hlf, Bool.not_false, Bool.true_and] at hs
    rw [settle] at hs
    split at hs
    · exact .inl hs
    · split at hs
      · exact .inr hs
      · exact .inl hs
  intro h
  induction h with
  | zero =>
    intro n l hf p hs
    have hf' := (front_hash 0 n l hf).2
    cases p with
    | nil => rw [top 0 _ l hf'] at hs; cases hs
    | cons k p =>
      obtain ⟨_, _, i, c, e, ho⟩ := (front_iff 0 _ l).mp hf'
      have hlf : i.leaf = true := by rw [ho.leaf]; rfl
      rw [e] at hs
      simp [shutAt, hlf] at hs
  | succ h ih =>
    intro n l hf p hs
    have hf' := (front_hash (h + 1) n l hf).2
    cases p with
    | nil => rw [top (h + 1) _ l hf'] at hs; cases hs
    | cons k p =>
      obtain ⟨_, _, i, c, rfl, ho⟩ := (front_iff (h + 1) _ l).mp hf
      have hlf : i.leaf = false := by rw [ho.leaf]; rfl
      rw [shutAt, hlf]
      simp only [Bool.not_false, Bool.true_and]
      rcases kids i c k p hlf hs with h1 | h1
      · exact h1
      · by_cases hnil : c k = .nil
        · rw [hnil] at h1; cases p <;> cases h1
        · have hK : ∃ a, FKid E.H (h + 1) (c k) a := by
            rcases ho.slot k with hs | ⟨_, hs, _⟩
            · simp only [Known, Nat.succ_ne_zero, if_false] at hs
              rcases hs with ⟨_, h2⟩ | ⟨_, h3⟩
              · exact absurd h2 hnil
              · exact ⟨_, h3⟩
            · simp only [Nat.succ_ne_zero, if_false] at hs
              exact absurd hs hnil
          obtain ⟨a, h3 | ⟨⟨i', e, hd, hlf', x, hx, hb⟩, _⟩⟩ := hK
          · exact ih _ _ h3 p h1
          · rw [e] at h1 ⊢
            cases p with
            | nil => exact closed_isCollapsed hlf' hb
            | cons k' p =>
              by_cases hl : i'.leaf = true
              · rw [hashNode] at h1
                simp [shutAt, hl] at h1
              · rcases kids _ _ k' p (by simpa using hl) h1 with h2 | h2 <;> cases p <;> cases h2

theorem getAt_peek : ∀ (q : List Nib) (n : TNode) (x : Bytes), peek q n = some x → getAt E D q n = (n, some (some x)) := by
  intro q
  induction q with
  | nil => intro n x h; cases h
  | cons j q ih =>
    intro n x h
    obtain ⟨i, c, rfl, e2⟩ := peek_opened (E := E) (D := D) h
    rw [getAt]
    simp only [e2, Bool.true_eq_false, if_false]
    rw [peek] at h
    cases hlf : i.leaf with
    | true =>
      rw [hlf] at h
      simp only [if_true] at h
      split at h
      · rename_i hq
        simp [hq, h]
      · cases h
    | false =>
      rw [hlf] at h
      simp only [Bool.false_eq_true, if_false] at h
      have hq : q ≠ [] := by rintro rfl; cases h
      have hcs : (c j).isSome = true := by
        cases hc : c j with
        | nil => rw [hc] at h; cases q <;> cases h
        | mk => rfl
      simp only [hq, if_false, Bool.false_eq_true, hcs, if_true, ih _ _ h]
      congr
      funext k
      simp only [setKid]
      split
      · rename_i e; rw [e]
      · rfl

theorem front_peek {h : Nat} {n : TNode} {l : List Bytes} {k : Nat} {x : Bytes} (hf : Front E.H h n l) (hk : k < 2 ^ (4 * h + 4))
    (hp : peek (digits (h + 1) k) n = some x) : l[k]? = some x := by
  have h1 := getAt_peek (E := E) (D := fun _ => none) _ _ _ hp
  rcases front_get (E := E) (D := fun _ => none) (fun _ => rfl) h n l k hf hk with h2 | h2
  · rw [h1] at h2; exact h2.symm
  · rw [h1] at h2; cases h2

theorem restore_peek {H : Bytes → Bytes} {v : Bytes} : ∀ (q : List Nib) (items : List Bytes) (n : TNode), restoreAt H v q items = some n →
    peek q n = some v := by
  intro q
  induction q with
  | nil => intro items n h; cases h
  | cons j q ih =>
    intro items n h
    rw [restoreAt] at h
    split at h
    · rename_i hq
      unfold restoreNode at h
      split at h
      · obtain rfl := Option.some.inj h
        simp [peek, hq]
      · cases h
    · rw [Option.bind_eq_some_iff] at h
      obtain ⟨m, e1, e2⟩ := h
      unfold restoreNode at e2
      split at e2
      · obtain rfl := Option.some.inj e2
        simp only [peek, Bool.false_eq_true, if_false, if_true]
        exact ih _ _ e1
      · cases e2

end Held

/-! ### Keys -/

theorem digits_take : ∀ (n m k : Nat), m ≤ n → (digits n k).take m = digits m (k / 16 ^ (n - m)) := by
  intro n
  induction n with
  | zero => intro m k h; obtain rfl : m = 0 := by omega
            rfl
  | succ n ih =>
    intro m k h
    cases m with
    | zero => rfl
    | succ m =>
      have e : n + 1 - (m + 1) = n - m := by omega
      have hp : 16 ^ n = 16 ^ (n - m) * 16 ^ m := by rw [← Nat.pow_add]; congr 1; omega
      rw [e, digits, digits, List.take_succ_cons, ih m _ (by omega)]
      congr 1
      · apply Fin.ext
        simp only
        rw [Nat.div_div_eq_div_mul, ← hp]
      · rw [hp, Nat.mod_mul_right_div_self]

theorem undigits_snoc (a : List Nib) (j : Nib) : undigits (a ++ [j]) = undigits a * 16 + j.val := by
  induction a with
  | nil => simp [undigits]
  | cons d a ih =>
    simp only [List.cons_append, undigits, ih, List.length_append, List.length_singleton, Nat.pow_succ]
    ring

/-- The digits in front are those of the quotient. -/
theorem digits_front {k : Nat} (hk : k < 2 ^ 64) {p q : List Nib} (h : digits 16 k = p ++ q) :
    p.length ≤ 16 ∧ undigits p = k / 16 ^ (16 - p.length) ∧ p = digits p.length (k / 16 ^ (16 - p.length)) := by
  have hl : p.length ≤ 16 := by
    have := congrArg List.length h
    rw [digits_length, List.length_append] at this
    omega
  have hp : p = digits p.length (k / 16 ^ (16 - p.length)) := by
    rw [← digits_take 16 p.length k hl, h, List.take_left]
  refine ⟨hl, ?_, hp⟩
  conv_lhs => rw [hp]
  apply undigits_digits
  apply Nat.div_lt_of_lt_mul
  rw [← Nat.pow_add, show 16 - p.length + p.length = 16 by omega]
  exact hk

/-- A key cannot be added: at some level of nodes its block is beside a block of the keys at hand (the other of a pair), and none of them is in
it. -/
def Blocked (S : List Nat) (k : Nat) : Prop :=
  ∃ e, 1 ≤ e ∧ e ≤ 15 ∧ (∃ s ∈ S, s / 16 ^ e / 2 = k / 16 ^ e / 2) ∧ ∀ s ∈ S, s / 16 ^ e ≠ k / 16 ^ e

theorem sibling_half : ∀ j : Nib, (nibOf (sibling j 3)).val / 2 = j.val / 2 := by decide

/-- The values of the keys can be read, and the nodes that are known by their hash only are beside them. -/
structure Reach (S : List Nat) (n : TNode) : Prop where
  below : ∀ s ∈ S, s < 2 ^ 64
  read : ∀ s ∈ S, (peek (digits 16 s) n).isSome = true
  shut : ∀ p, shutAt p n = true → ∃ s ∈ S, Beside (digits 16 s) p

theorem Reach.clear {S : List Nat} {n : TNode} (hr : Reach S n) {k : Nat} (hk : k < 2 ^ 64) (hb : ¬ Blocked S k) :
    clear (digits 16 k) n = true := by
  apply clear_of_shut
  intro p j b hp
  by_contra hs
  have hs : shutAt p n = true := by simpa using hs
  apply hb
  obtain ⟨s, hS, a, j', b', e1, rfl⟩ := hr.shut p hs
  have h1 := digits_front hk hp
  have h2 := digits_front (hr.below s hS) (p := a ++ [j']) (q := b') (by rw [e1]; simp)
  have hlen : (a ++ [j']).length = a.length + 1 := by simp
  have hlen' : (a ++ [nibOf (sibling j' 3)]).length = a.length + 1 := by simp
  have hl16 : (a ++ [nibOf (sibling j' 3)]).length + 1 ≤ 16 := by
    have := congrArg List.length hp
    rw [digits_length, List.length_append, List.length_cons] at this
    omega
  rw [hlen'] at h1 hl16
  rw [hlen] at h2
  refine ⟨16 - (a.length + 1), by omega, by omega, ⟨s, hS, ?_⟩, ?_⟩
  · rw [← h1.2.1, ← h2.2.1, undigits_snoc, undigits_snoc]
    have := sibling_half j'
    omega
  · intro s' hS' e
    have h3 := hr.read s' hS'
    have h4 : digits 16 s' = (a ++ [nibOf (sibling j' 3)]) ++ (digits 16 s').drop (a.length + 1) := by
      conv_lhs => rw [← List.take_append_drop (a.length + 1) (digits 16 s')]
      rw [digits_take 16 _ s' (by omega), e, ← h1.2.2]
    rw [h4, peek_shut _ _ hs] at h3
    cases h3

/-! ### C118 -/

/-- The calls of a light client that also merges proofs of a full tree. -/
inductive LOp where
  | op (o : Op)
  | merge (key : UInt64)

/-- One call; the proof to be merged is that of a full tree with the same values. -/
def lstep (E : HEnv) (R : Rtl) (D : HDisk) (vals : List Bytes) (t : Tree) : LOp → Tree × Out
  | .op o => step E t o
  | .merge k =>
    match ((appended E D vals).getProof E k).2 with
    | none => (t, .done false)
    | some (v, c) => let r := t.mergeProof E R k v c; (r.1, .done r.2)

/-- The values after a call. -/
def lspec (vals : List Bytes) : LOp → List Bytes
  | .op o => specStep vals o
  | .merge _ => vals

/-- The keys at hand after a call: those appended and those merged. -/
def lkeys (vals : List Bytes) (S : List Nat) : LOp → List Nat
  | .op (.append k v) => if k.toNat = vals.length ∧ v ≠ [] then vals.length :: S else S
  | .op _ => S
  | .merge k => k.toNat :: S

/-- `Append` and `HashValue` at any time, `Get` of keys at hand, `MergeProof` of keys that are not blocked. -/
def Allowed (vals : List Bytes) (S : List Nat) : LOp → Prop
  | .op (.append _ _) => True
  | .op .hash => True
  | .op (.get k) => k.toNat ∈ S
  | .op _ => False
  | .merge k => k.toNat < vals.length ∧ ¬ Blocked S k.toNat

/-- A sequence of calls. -/
def lrun (E : HEnv) (R : Rtl) (D : HDisk) : List Bytes → Tree → List LOp → Tree × List Out
  | _, t, [] => (t, [])
  | vals, t, o :: os =>
    let r := lstep E R D vals t o
    let s := lrun E R D (lspec vals o) r.1 os
    (s.1, r.2 :: s.2)

/-- The values after the calls. -/
def lvals (vals : List Bytes) (os : List LOp) : List Bytes := os.foldl lspec vals

/-- The keys at hand after the calls. -/
def lheld : List Bytes → List Nat → List LOp → List Nat
  | _, S, [] => S
  | vals, S, o :: os => lheld (lspec vals o) (lkeys vals S o) os

/-- Every call is allowed when it is made. -/
def AllAllowed : List Bytes → List Nat → List LOp → Prop
  | _, _, [] => True
  | vals, S, o :: os => Allowed vals S o ∧ AllAllowed (lspec vals o) (lkeys vals S o) os

/-- The answer to a call: that of a full tree; a proof is merged. -/
def LAnswer (E : HEnv) (R : Rtl) (vals : List Bytes) : LOp → Out → Prop
  | .op o, a => Answer E R vals o a
  | .merge _, a => a = .done true

/-- All the answers. -/
def LAnswers (E : HEnv) (R : Rtl) : List Bytes → List LOp → List Out → Prop
  | _, [], os => os = []
  | vals, o :: os, a :: as => LAnswer E R vals o a ∧ LAnswers E R (lspec vals o) os as
  | _, _ :: _, [] => False

section Run
variable {E : HEnv} {R : Rtl} {D : HDisk}

/-- The proof that a full tree gives. -/
theorem full_proof (hH : ∀ b, (E.H b).length = 32) {vals : List Bytes} (h32 : ∀ v ∈ vals, v.length = 32) (hn : vals.length < 2 ^ 64)
    {k : UInt64} {v : Bytes} (hk : vals[k.toNat]? = some v) :
    let items := pathItems E.H (digits 16 k.toNat) vals
    ((appended E D vals).getProof E k).2 = some (v, chainOf items) ∧ items.length = 64 ∧ bitsNat (items.map Prod.snd) = k.toNat ∧
      hspec E.H 64 vals = some (evalItems E.H items v) := by
  have hlt : k.toNat < vals.length := (List.getElem?_eq_some_iff.mp hk).1
  have hv : ∀ v ∈ vals, v ≠ [] := fun v hv e => by have := h32 v hv; rw [e] at this; cases this
  obtain ⟨_, hr⟩ := appended_holds E hH D vals hv hn
  rcases hr with ⟨h1, _⟩ | h1
  · rw [h1] at hlt; cases hlt
  · obtain ⟨n', items, v', g1, g2, g3, g4, g5, g7, g6⟩ := proof_spec hH 15 _ vals k.toNat h1 hlt
    obtain rfl : v' = v := Option.some.inj (g3.symm.trans hk)
    subst g7
    refine ⟨?_, g4, g5, g6 h32⟩
    unfold Tree.getProof
    rw [heightToPrefix_eq, g1]
    rfl

theorem front_isSome {H : Bytes → Bytes} {h : Nat} {n : TNode} {l : List Bytes} (hf : Front H h n l) : n.isSome = true := by
  obtain ⟨_, _, i, c, e, _⟩ := (front_iff h n l).mp hf
  rw [e]; rfl

theorem Reach.hash {S : List Nat} {n : TNode} {l : List Bytes} (hf : Front E.H 15 n l) (hr : Reach S n) : Reach S (hashNode E.H n).1 := by
  refine ⟨hr.below, fun s hs => ?_, fun p hp => hr.shut p (hash_shut 15 n l hf p hp)⟩
  obtain ⟨x, hx⟩ := Option.isSome_iff_exists.mp (hr.read s hs)
  rw [hash_keeps E.H n _ x hx]; rfl

theorem merge_step (hH : ∀ b, (E.H b).length = 32) {t : Tree} {vals : List Bytes} {S : List Nat} (hD : ∀ x, t.D x = none)
    (hn : vals.length < 2 ^ 64) (hnil : NoNil E.H 64 vals) (hh : FHolds E t vals) (hr : Reach S t.root) {k : UInt64} {v : Bytes}
    (hk : vals[k.toNat]? = some v) (hb : ¬ Blocked S k.toNat) :
    ∃ t', t.mergeProof E R k v (chainOf (pathItems E.H (digits 16 k.toNat) vals)) = (t', true) ∧ t'.D = t.D ∧ FHolds E t' vals ∧
      Reach (k.toNat :: S) t'.root := by
  obtain ⟨g1, g4, g5, g6⟩ := full_proof (D := noDisk) hH (fun v hv => (hnil.1 v hv).1) hn hk
  have hv32 : v.length = 32 := (hnil.1 v (List.mem_of_getElem? hk)).1
  have hf := (front_hash 15 t.root vals hh.2).2
  have hr' := hr.hash (E := E) hh.2
  have hcl := hr'.clear (u64_lt k) hb
  have hfin : ∀ n', Front E.H 15 n' vals → Keeps (hashNode E.H t.root).1 n' → peek (digits 16 k.toNat) n' = some v →
      (∀ p, shutAt p n' = true → shutAt p (hashNode E.H t.root).1 = true ∨ Beside (digits 16 k.toNat) p) → Reach (k.toNat :: S) n' := by
    intro n' _ h2 h3 h4
    refine ⟨?_, ?_, ?_⟩
    · intro s hs
      rcases List.mem_cons.mp hs with rfl | hs
      · exact u64_lt k
      · exact hr.below s hs
    · intro s hs
      rcases List.mem_cons.mp hs with rfl | hs
      · rw [h3]; rfl
      · obtain ⟨x, hx⟩ := Option.isSome_iff_exists.mp (hr'.read s hs)
        rw [h2 _ x hx]; rfl
    · intro p hp
      rcases h4 p hp with h | h
      · obtain ⟨s, h5, h6⟩ := hr'.shut p h
        exact ⟨s, by simp [h5], h6⟩
      · exact ⟨k.toNat, by simp, h⟩
  unfold Tree.mergeProof
  rw [if_neg (by
    rw [front_isSome hh.2, hv32]
    simp only [ne_eq, not_true, false_or, Bool.true_eq_false, not_or, not_not]
    exact ⟨by simp [chainOf], (chainBigKey_build _).trans g5⟩)]
  simp only [Tree.hash, (front_hash 15 t.root vals hh.2).1, Option.map_some, chainOf, chain_build]
  rw [g6, toHash_of_len hv32, Option.getD_some, if_neg (by simp), heightToPrefix_eq, loc_front 15 _ vals k.toNat hf (u64_lt k) hcl]
  cases hp : peek (digits 16 k.toNat) (hashNode E.H t.root).1 with
  | some x =>
    have : x = v := Option.some.inj ((front_peek hf (u64_lt k) hp).symm.trans hk)
    subst this
    simp only [Option.map_some, decide_true]
    exact ⟨_, rfl, rfl, ⟨hh.1, hf⟩, hfin _ hf .rfl hp fun p h => .inl h⟩
  | none =>
    obtain ⟨n', e1, e2, e3, e4, e5⟩ := merge_front hH hD v 15 _ vals k.toNat hf hnil hk hcl
    simp only [Option.map_none, g4, Nat.lt_irrefl, if_false, e1]
    exact ⟨_, rfl, rfl, ⟨hh.1, e2⟩, hfin _ e2 e3 e4 e5⟩

theorem Reach.get {S : List Nat} {t : Tree} {vals : List Bytes} (hh : FHolds E t vals) (hr : Reach S t.root) {k : UInt64} (hk : k.toNat ∈ S) :
    t.get E k = (t, vals[k.toNat]?) := by
  obtain ⟨x, hx⟩ := Option.isSome_iff_exists.mp (hr.read _ hk)
  unfold Tree.get
  rw [heightToPrefix_eq, getAt_peek _ _ x hx, front_peek hh.2 (u64_lt k) hx]
  rfl

theorem digits_inj {k k' : Nat} (hk : k < 2 ^ 64) (hk' : k' < 2 ^ 64) (h : digits 16 k = digits 16 k') : k = k' := by
  rw [← undigits_digits 16 k hk, ← undigits_digits 16 k' hk', h]

theorem lstep_spec (hH : ∀ b, (E.H b).length = 32) {t : Tree} {vals : List Bytes} {S : List Nat} (hD : ∀ x, t.D x = none)
    (hn : vals.length < 2 ^ 64) (hnil : NoNil E.H 64 vals) (hh : FHolds E t vals) (hr : Reach S t.root)
    (o : LOp) (ha : Allowed vals S o) :
    FHolds E (lstep E R D vals t o).1 (lspec vals o) ∧ (lstep E R D vals t o).1.D = t.D ∧
      Reach (lkeys vals S o) (lstep E R D vals t o).1.root ∧ LAnswer E R vals o (lstep E R D vals t o).2 := by
  cases o with
  | op o =>
    cases o with
    | append k v =>
      obtain ⟨s1, s2, s3⟩ := light_step R hn hh (.append k v) rfl (D := t.D) rfl
      refine ⟨s1, s2, ?_, s3⟩
      have hke := expecting_eq hn hh.1 k
      simp only [lkeys, lstep, step]
      unfold Tree.append
      by_cases hk : k = t.expecting
      · rw [if_neg (show ¬ k ≠ t.expecting from fun h => h hk)]
        have hk' := hke.mp hk
        by_cases hv : v = []
        · simp [hv, hr]
        · obtain ⟨n', g1, g2⟩ := front_append t.D v hv 15 t.root vals (.inl hh.2) hn
          rw [if_neg hv, if_pos ⟨hk', hv⟩, heightToPrefix_eq, hk']
          simp only [front_isSome hh.2, if_true]
          obtain ⟨f1, f2, f3⟩ := append_facts (E := E) (D := t.D) hD v (digits (15 + 1) vals.length) t.root (by rw [g1])
          rw [g1] at f1 f2 f3 ⊢
          refine ⟨?_, ?_, ?_⟩
          · intro s hs
            rcases List.mem_cons.mp hs with rfl | hs
            · exact hn
            · exact hr.below s hs
          · intro s hs
            by_cases e : s = vals.length
            · rw [e]
              change (peek (digits (15 + 1) vals.length) n').isSome = true
              rw [f1]; rfl
            · rcases List.mem_cons.mp hs with e' | hs
              · exact absurd e' e
              · obtain ⟨x, hx⟩ := Option.isSome_iff_exists.mp (hr.read s hs)
                change (peek (digits 16 s) n').isSome = true
                rw [f2 _ x (fun e' => e (digits_inj (hr.below s hs) hn e')) hx]; rfl
          · intro p hp
            obtain ⟨s, h1, h2⟩ := hr.shut p (f3 p hp)
            exact ⟨s, by simp [h1], h2⟩
      · rw [if_pos (show k ≠ t.expecting from hk), if_neg (fun h => hk (hke.mpr h.1))]
        exact hr
    | hash =>
      obtain ⟨s1, s2, s3⟩ := light_step R hn hh .hash rfl (D := t.D) rfl
      exact ⟨s1, s2, hr.hash hh.2, s3⟩
    | get k =>
      simp only [lstep, step, lspec, specStep, lkeys, LAnswer, Answer, hr.get hh ha]
      exact ⟨hh, trivial, hr, trivial⟩
    | getProof => exact ha.elim
    | collapseBefore => exact ha.elim
    | commit => exact ha.elim
    | reopen => exact ha.elim
  | merge k =>
    obtain ⟨hk, hb⟩ := ha
    have hv := List.getElem?_eq_getElem hk
    obtain ⟨g1, _⟩ := full_proof (D := D) hH (fun v hv => (hnil.1 v hv).1) hn hv
    obtain ⟨t', e1, e2, e3, e4⟩ := merge_step (R := R) hH hD hn hnil hh hr hv hb
    simp only [lstep, g1, e1, lspec, lkeys, LAnswer]
    exact ⟨e3, e2, e4, trivial⟩

theorem lspec_prefix (vals : List Bytes) (o : LOp) : vals <+: lspec vals o := by
  cases o with
  | op o =>
    cases o <;> try exact List.prefix_refl _
    simp only [lspec, specStep]
    split
    · exact List.prefix_append _ _
    · exact List.prefix_refl _
  | merge => exact List.prefix_refl _

theorem lvals_prefix (os : List LOp) : ∀ (vals : List Bytes), vals <+: lvals vals os := by
  induction os with
  | nil => intro vals; exact List.prefix_refl _
  | cons o os ih => intro vals; exact (lspec_prefix vals o).trans (ih _)

theorem lrun_spec (hH : ∀ b, (E.H b).length = 32) (os : List LOp) : ∀ (t : Tree) (vals : List Bytes) (S : List Nat), (∀ x, t.D x = none) →
    (lvals vals os).length < 2 ^ 64 → (∀ l, vals <+: l → l <+: lvals vals os → NoNil E.H 64 l) → FHolds E t vals → Reach S t.root →
    AllAllowed vals S os →
    FHolds E (lrun E R D vals t os).1 (lvals vals os) ∧ (∀ x, (lrun E R D vals t os).1.D x = none) ∧
      Reach (lheld vals S os) (lrun E R D vals t os).1.root ∧ LAnswers E R vals os (lrun E R D vals t os).2 := by
  induction os with
  | nil => intro t vals S hD _ _ hh hr _; exact ⟨hh, hD, hr, rfl⟩
  | cons o os ih =>
    intro t vals S hD hn hnil hh hr ha
    have hpre := lvals_prefix (o :: os) vals
    obtain ⟨s1, s2, s3, s4⟩ := lstep_spec (R := R) (D := D) hH hD (Nat.lt_of_le_of_lt hpre.length_le hn)
      (hnil vals (List.prefix_refl _) hpre) hh hr o ha.1
    obtain ⟨r1, r2, r3, r4⟩ := ih (lstep E R D vals t o).1 (lspec vals o) (lkeys vals S o) (by rw [s2]; exact hD) hn
      (fun l h1 h2 => hnil l ((lspec_prefix vals o).trans h1) h2) s1 s3 ha.2
    exact ⟨r1, r2, r3, s4, r4⟩

theorem light_reach {vs : List Bytes} {t : Tree} (hn : vs.length < 2 ^ 64) (h0 : vs ≠ []) (ht : lightTree E R D noDisk vs = some t) :
    Reach [vs.length - 1] t.root := by
  have hpos := List.length_pos_iff.mpr h0
  have hk : (UInt64.ofNat (vs.length - 1)).toNat = vs.length - 1 :=
    UInt64.toNat_ofNat_of_lt' (by change _ < 2 ^ 64; omega)
  unfold lightTree at ht
  rw [Option.bind_eq_some_iff] at ht
  obtain ⟨⟨v, c⟩, _, ht⟩ := ht
  unfold restore at ht
  split at ht
  · cases ht
  · split at ht
    · cases ht
    · split at ht
      · cases ht
      · rw [Option.map_eq_some_iff] at ht
        obtain ⟨n, e1, rfl⟩ := ht
        rw [heightToPrefix_eq, hk] at e1
        refine ⟨?_, ?_, ?_⟩
        · intro s hs
          obtain rfl := List.mem_singleton.mp hs
          omega
        · intro s hs
          obtain rfl := List.mem_singleton.mp hs
          change (peek (digits 16 (vs.length - 1)) n).isSome = true
          rw [restore_peek _ _ _ e1]; rfl
        · intro p hp
          exact ⟨_, by simp, restore_shut _ _ _ e1 p hp⟩

end Run

/-- C118, for keys that are not blocked: a tree restored from the proof of the last value, over an empty storage, answers every sequence
of `Append`, `HashValue`, `MergeProof` of the proofs of a full tree and `Get` of the keys merged or appended as the full tree does; no
merging is refused, and `Get` of any other key is right or nothing.  Missing: blocked keys, see `C118_blocked_refuted`. -/
theorem C118_run_partial (E : HEnv) (hH : ∀ b, (E.H b).length = 32) (R : Rtl) (D : HDisk) (vs : List Bytes) (h0 : vs ≠ [])
    (ops : List LOp) (hal : AllAllowed vs [vs.length - 1] ops) (hn : (lvals vs ops).length < 2 ^ 64)
    (hnil : ∀ l, vs <+: l → l <+: lvals vs ops → NoNil E.H 64 l) :
    ∃ t, lightTree E R D noDisk vs = some t ∧ LAnswers E R vs ops (lrun E R D vs t ops).2 ∧
      ∀ k : UInt64, (k.toNat ∈ lheld vs [vs.length - 1] ops → ((lrun E R D vs t ops).1.get E k).2 = (lvals vs ops)[k.toNat]?) ∧
        (((lrun E R D vs t ops).1.get E k).2 = (lvals vs ops)[k.toNat]? ∨ ((lrun E R D vs t ops).1.get E k).2 = none) := by
  have hpre := lvals_prefix ops vs
  have hlt := Nat.lt_of_le_of_lt hpre.length_le hn
  obtain ⟨t, e1, e2, e3⟩ := restored E hH R D noDisk vs h0 (hnil vs (List.prefix_refl _) hpre) hlt
  obtain ⟨r1, r2, r3, r4⟩ := lrun_spec (R := R) (D := D) hH ops t vs _ (by rw [e2]; exact fun _ => rfl) hn hnil e3 (light_reach hlt h0 e1) hal
  refine ⟨t, e1, r4, fun k => ⟨fun hk => by rw [r3.get r1 hk], ?_⟩⟩
  unfold Tree.get
  rw [heightToPrefix_eq]
  exact front_get r2 15 _ _ k.toNat r1.2 (u64_lt k)

/-! ### Forged proofs -/

theorem bitsNat_inj : ∀ (a b : List Bool), a.length = b.length → bitsNat a = bitsNat b → a = b := by
  intro a
  induction a with
  | nil => intro b h _; exact (List.length_eq_zero_iff.mp h.symm).symm
  | cons x a ih =>
    intro b h e
    cases b with
    | nil => cases h
    | cons y b =>
      simp only [bitsNat] at e
      have h1 : x = y := by cases x <;> cases y <;> simp at e ⊢ <;> omega
      subst h1
      rw [ih b (by simpa using h) (by omega)]

/-- Two lists of siblings that lead from the same value to the same root. -/
theorem eval_inj (H : Bytes → Bytes) (hH : ∀ b, (H b).length = 32) (v : Bytes) (hv : v.length = 32) : ∀ (L M : List (Bytes × Bool)),
    L.map Prod.snd = M.map Prod.snd → (∀ it ∈ L, it.1.length = 32) → (∀ it ∈ M, it.1.length = 32) →
    evalItems H L v = evalItems H M v → L = M ∨ Collision H (evalInputs H L v) (evalInputs H M v) := by
  intro L
  induction L using List.reverseRecOn with
  | nil =>
    intro M h _ _ _
    left
    simpa using h
  | append_singleton L x ih =>
    intro M hm hL hM he
    obtain ⟨M, y, rfl⟩ : ∃ M' y, M = M' ++ [y] := by
      have : M ≠ [] := by rintro rfl; simp at hm
      exact ⟨M.dropLast, M.getLast this, (List.dropLast_append_getLast this).symm⟩
    obtain ⟨s, b⟩ := x
    obtain ⟨s', b'⟩ := y
    rw [List.map_append, List.map_append] at hm
    obtain ⟨hm1, hm2⟩ := List.append_inj' hm rfl
    obtain rfl : b = b' := by simpa using hm2
    rw [evalItems_append, evalItems_append] at he
    have he : H (if b then s ++ evalItems H L v else evalItems H L v ++ s) = H (if b then s' ++ evalItems H M v else evalItems H M v ++ s') := by
      simp only [evalItems, List.foldl_cons, List.foldl_nil, hashPairOrder] at he ⊢
      cases b <;> exact he
    have hl := evalItems_len H hH L v hv
    have hl' := evalItems_len H hH M v hv
    have hs : s.length = 32 := hL (s, b) (by simp)
    have hs' : s'.length = 32 := hM (s', b) (by simp)
    rw [evalInputs_append, evalInputs_append]
    by_cases hx : (if b then s ++ evalItems H L v else evalItems H L v ++ s) = if b then s' ++ evalItems H M v else evalItems H M v ++ s'
    · have : s = s' ∧ evalItems H L v = evalItems H M v := by
        cases b with
        | false =>
          obtain ⟨h1, h2⟩ := List.append_inj (by simpa using hx) (hl.trans hl'.symm)
          exact ⟨h2, h1⟩
        | true =>
          obtain ⟨h1, h2⟩ := List.append_inj (by simpa using hx) (hs.trans hs'.symm)
          exact ⟨h1, h2⟩
      rcases ih M hm1 (fun it h => hL it (by simp [h])) (fun it h => hM it (by simp [h])) this.2 with h | ⟨x, h1, y, h2, h3⟩
      · left; rw [h, this.1]
      · exact .inr ⟨x, by simp [h1], y, by simp [h2], h3⟩
    · refine .inr ⟨_, ?_, _, ?_, hx, he⟩ <;> simp [evalInputs]

theorem pathItems_len {H : Bytes → Bytes} : ∀ (q : List Nib) (l : List Bytes), ∀ it ∈ pathItems H q l, it.1.length = 32 := by
  have up : ∀ (k : Nat) (l : List Bytes) (j : Nib) (t : Nat), ∀ it ∈ upItems H k l j t, it.1.length = 32 := by
    intro k l j t
    induction t with
    | zero => intro it h; cases h
    | succ t ih =>
      intro it h
      rcases List.mem_cons.mp h with rfl | h
      · exact Trie.toHash_len _
      · exact ih it h
  intro q
  induction q with
  | nil => intro l it h; cases h
  | cons j q ih =>
    intro l it h
    rcases List.mem_append.mp h with h | h
    · exact ih _ it h
    · exact up _ _ _ _ it h

/-- C118: a chain of 64 elements that is not the proof of the full tree is refused and changes nothing but cached hashes, or it proves the
digest of nothing at a key not yet used (see `C118_nil_value_refuted`), or a collision is exhibited.  For chains of other lengths see `C118_short`,
`C118_long_partial` and `C118_long_refuted`. -/
theorem C118_sound_partial (E : HEnv) (hH : ∀ b, (E.H b).length = 32) (R : Rtl) (D : HDisk) (vs : List Bytes) (h0 : vs ≠ [])
    (ops : List LOp) (hal : AllAllowed vs [vs.length - 1] ops) (hn : (lvals vs ops).length < 2 ^ 64)
    (hnil : ∀ l, vs <+: l → l <+: lvals vs ops → NoNil E.H 64 l)
    (L : List (Bytes × Bool)) (h64 : L.length = 64) (hs : ∀ it ∈ L, it.1.length = 32) (key : UInt64) (v : Bytes) :
    ∃ t, lightTree E R D noDisk vs = some t ∧
      let t' := (lrun E R D vs t ops).1
      let r := t'.mergeProof E R key v (chainOf L)
      let full := ((appended E D (lvals vs ops)).getProof E key).2
      (r.2 = false ∧ (r.1 = t' ∨ r.1 = (t'.hash E).1)) ∨ full = some (v, chainOf L) ∨
        (v = nilHash E.H ∧ (lvals vs ops).length ≤ key.toNat) ∨
        Collision E.H ([] :: inputs E.H 64 (lvals vs ops)) (evalInputs E.H L v) ∨
        ∃ M, full = some (v, chainOf M) ∧ Collision E.H (evalInputs E.H L v) (evalInputs E.H M v) := by
  have hpre := lvals_prefix ops vs
  have hlt := Nat.lt_of_le_of_lt hpre.length_le hn
  obtain ⟨t, e1, e2, e3⟩ := restored E hH R D noDisk vs h0 (hnil vs (List.prefix_refl _) hpre) hlt
  obtain ⟨r1, r2, r3, r4⟩ := lrun_spec (R := R) (D := D) hH ops t vs _ (by rw [e2]; exact fun _ => rfl) hn hnil e3 (light_reach hlt h0 e1) hal
  refine ⟨t, e1, ?_⟩
  have hne : lvals vs ops ≠ [] := by
    intro e
    rw [e] at hpre
    exact h0 (List.prefix_nil.mp hpre)
  have hnil := hnil _ hpre (List.prefix_refl _)
  generalize (lrun E R D vs t ops).1 = t' at *
  generalize lvals vs ops = vals at *
  have h32 : ∀ v ∈ vals, v.length = 32 := fun v hv => (hnil.1 v hv).1
  simp only
  by_cases hc : v.length ≠ 32 ∨ chainOf L = [] ∨ t'.root.isSome = false ∨ chainBigKey (chainOf L) ≠ key.toNat
  · left
    rw [Tree.mergeProof, if_pos hc]
    exact ⟨rfl, .inl rfl⟩
  · have hc' := hc
    simp only [not_or, ne_eq, not_not] at hc'
    obtain ⟨hv, _, _, hkey⟩ := hc'
    rw [chainOf, chainBigKey_build] at hkey
    obtain ⟨x, hx⟩ := hspec_some (H := E.H) (k := 64) hne
    by_cases he : evalItems E.H L v = x
    · right
      have hxe : hspec E.H 64 vals = some (evalItems E.H L v) := by rw [hx, he]
      rcases proof_sound E.H hH 64 L vals v h64 hne (by omega) h32 hs hv hxe with t1 | t1 | t1
      · rw [hkey] at t1
        obtain ⟨g1, g4, g5, g6⟩ := full_proof (D := D) hH h32 hn t1
        have hsnd : L.map Prod.snd = (pathItems E.H (digits 16 key.toNat) vals).map Prod.snd :=
          bitsNat_inj _ _ (by rw [List.length_map, List.length_map, h64, g4]) (hkey.trans g5.symm)
        rcases eval_inj E.H hH v hv L _ hsnd hs (pathItems_len _ _) (Option.some.inj (hxe.symm.trans g6)) with t2 | t2
        · left; rw [g1, t2]
        · exact .inr (.inr (.inr ⟨_, g1, t2⟩))
      · rw [hkey] at t1
        exact .inr (.inl t1)
      · exact .inr (.inr (.inl t1))
    · left
      have hh : (t'.hash E).2 = some x := by
        simp only [Tree.hash, (front_hash 15 t'.root vals r1.2).1, Option.map_some, hx, Option.getD_some]
      rw [Tree.mergeProof, if_neg hc]
      simp only [hh, chainOf, chain_build, toHash_of_len hv]
      rw [if_pos he]
      exact ⟨rfl, .inr rfl⟩

/-! ### Witnesses -/

instance (S : List Nat) (k : Nat) : Decidable (Blocked S k) :=
  decidable_of_iff (∃ e, e < 16 ∧ (1 ≤ e ∧ (∃ s ∈ S, s / 16 ^ e / 2 = k / 16 ^ e / 2) ∧ ∀ s ∈ S, s / 16 ^ e ≠ k / 16 ^ e))
    ⟨fun ⟨e, h1, h2, h3⟩ => ⟨e, h2, by omega, h3⟩, fun ⟨e, h1, h2, h3⟩ => ⟨e, by omega, h1, h3⟩⟩

/-- So many values. -/
def someVals (n : Nat) : List Bytes := (List.range n).map fun i => toyLeaf (100 + i)

/-- A tree of a light client with so many values, after calls. -/
def lightRun (n : Nat) (ops : List LOp) : Option (Tree × List Out) :=
  (lightTree toyHE toyRtl noDisk noDisk (someVals n)).map fun t => lrun toyHE toyRtl noDisk (someVals n) t ops

/-- What a call returned: the success, the value or the root. -/
def Out.plain : Out → Option (Bool ⊕ Option Bytes)
  | .done b => some (.inl b)
  | .value v => some (.inr v)
  | .root r => some (.inr r)
  | _ => none

example : ¬ Blocked [32] 0 ∧ ¬ Blocked [1, 16] 0 ∧ Blocked [16] 0 ∧ Blocked [0, 32] 16 := by decide +kernel

/-- In a tree of three values the first one cannot be read before merging, and can be afterwards. -/
example : (lightRun 3 [.op (.get 0), .merge 0, .op (.get 0)]).map (fun r => r.2.map Out.plain) =
    some [some (.inr none), some (.inl true), some (.inr (some (toyLeaf 100)))] := by decide +kernel

/-- In a tree of thirty-three values the block of key 0 is made of the proof. -/
example : (lightRun 33 [.merge 0, .op (.get 0)]).map (fun r => r.2.map Out.plain) =
    some [some (.inl true), some (.inr (some (toyLeaf 100)))] := by decide +kernel

/-- C118 fails for blocked keys: with seventeen values the proof of key 0 is said to be merged, but key 0 cannot be read. -/
theorem C118_blocked_refuted : (someVals 17)[0]? = some (toyLeaf 100) ∧
    (lightRun 17 [.merge 0, .op (.get 0)]).map (fun r => r.2.map Out.plain) = some [some (.inl true), some (.inr none)] := by
  decide +kernel

/-- C118 fails for blocked keys: after merging the proof of key 0 a value can be appended, but the root hash is an error from then on;
without the merging it is right. -/
theorem C118_blocked_root_refuted :
    (lightRun 17 [.merge 0, .op (.append 17 (toyLeaf 7)), .op .hash]).map (fun r => r.2.map Out.plain) =
      some [some (.inl true), some (.inl true), some (.inr none)] ∧
    lightRoot (someVals 17) [toyLeaf 7] = hspec toyH 64 (someVals 17 ++ [toyLeaf 7]) := by
  decide +kernel

/-- The proof of key 0 of a tree with one value, with the value as the first sibling: it proves the digest of nothing at key 1. -/
def nilChain : List NodeProof :=
  chainOf ((toyLeaf 100, true) :: (pathItems toyH (digits 16 0) [toyLeaf 100]).tail)

/-- C118 fails for the digest of nothing: it is merged at a key that was never appended, and `Get` returns it. -/
theorem C118_nil_value_refuted :
    (lightTree toyHE toyRtl noDisk noDisk [toyLeaf 100]).map (fun t =>
      let r := t.mergeProof toyHE toyRtl 1 (nilHash toyH) nilChain
      (r.2, (r.1.get toyHE 1).2)) = some (true, some (nilHash toyH)) := by
  decide +kernel

end Verif.HTree

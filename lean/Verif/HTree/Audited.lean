import Verif.HTree.Damaged

/-!
# Property C169 for history trees: a storage whose entries are checked

The check of an entry is an independent definition: the bytes are read as the slots of a node, every slot has 32 bytes, and the
binary tree over the slots has the hash the entry is stored under.  The code makes no such check
(`C169_history_forged_refuted`); the flag for leaves and stored hashes of branches need not be checked for `Get`.
-/

namespace Verif.HTree
open Verif Verif.Merkle Verif.Trie

/-! ### Specification: what is checked -/

/-- The node that bytes describe, in the three formats. -/
def entry (C : HCodec) : Bytes → Option (Bool × (List Bool → Option Bytes) × (Nib → Option Bytes))
  | [] => none
  | t :: body =>
    if t = 1 then (C.decSlots body).map fun s => (true, fun _ => none, s)
    else if t = 0 then (C.decSlots body).map fun s => (false, fun _ => none, s)
    else if t = 0xff then C.decNode body
    else none

/-- The hash of the binary tree over slots, `d` bits above them; nothing if there are no slots. -/
def slotTree (H : Bytes → Bytes) (s : Nib → Option Bytes) : Nat → List Bool → Option Bytes
  | 0, p => s (nibOf p)
  | d + 1, p =>
    match slotTree H s d (p ++ [false]), slotTree H s d (p ++ [true]) with
    | none, none => none
    | x, y => some (H (x.getD (H []) ++ y.getD (H [])))

/-- What is hashed for it. -/
def slotInputs (H : Bytes → Bytes) (s : Nib → Option Bytes) : Nat → List Bool → List Bytes
  | 0, _ => []
  | d + 1, p => ((slotTree H s d (p ++ [false])).getD (H []) ++ (slotTree H s d (p ++ [true])).getD (H [])) ::
      (slotInputs H s d (p ++ [false]) ++ slotInputs H s d (p ++ [true]))

/-- Every entry that describes a node has 32-byte slots and the hash it is stored under. -/
def HAudited (E : HEnv) (D : HDisk) : Prop :=
  ∀ k b leaf br s, D k = some b → entry E.C b = some (leaf, br, s) →
    (∀ j x, s j = some x → x.length = 32) ∧ slotTree E.H s 4 [] = some k

/-- No entry collides with something hashed for the values. -/
def HClean (E : HEnv) (D : HDisk) (l : List Bytes) : Prop :=
  ∀ k b leaf br s, D k = some b → entry E.C b = some (leaf, br, s) →
    ¬ Collision E.H ([] :: inputs E.H 64 l) ([] :: slotInputs E.H s 4 [])

/-! ### One node -/

section Node
variable {H : Bytes → Bytes} {s : Nib → Option Bytes}

theorem slotTree_len (hH : ∀ b, (H b).length = 32) (hs : ∀ j x, s j = some x → x.length = 32) :
    ∀ d p, ((slotTree H s d p).getD (H [])).length = 32 := by
  intro d p
  cases d with
  | zero =>
    simp only [slotTree]
    cases h : s (nibOf p) with
    | none => exact hH _
    | some x => exact hs _ _ h
  | succ d =>
    simp only [slotTree]
    split
    · exact hH _
    · exact hH _

theorem prefix_next {p : List Bool} {j : Nib} (h : p <+: bits4 j) (hp : p.length < 4) : ∃ b, (p ++ [b]) <+: bits4 j := by
  obtain ⟨t, ht⟩ := h
  cases t with
  | nil => rw [List.append_nil] at ht; have := congrArg List.length ht; rw [bits4_length] at this; omega
  | cons b t => exact ⟨b, t, by rw [← ht]; simp⟩

/-- Slots with the hash of a block are those of the block, up to the digest of nothing for an unused one. -/
theorem slot_binding (hH : ∀ b, (H b).length = 32) (hs : ∀ j x, s j = some x → x.length = 32) {ins : List Bytes}
    (hc : ¬ Collision H ([] :: ins) ([] :: slotInputs H s 4 [])) (k : Nat) (a : List Bytes) (h32 : ∀ v ∈ a, v.length = 32) :
    ∀ (d : Nat) (p : List Bool), p.length + d = 4 → (∀ x ∈ slotInputs H s d p, x ∈ slotInputs H s 4 []) →
      (∀ x ∈ inputs H (k + d) (sub (k + 4) p a), x ∈ ins) →
      (slotTree H s d p).getD (H []) = (hspec H (k + d) (sub (k + 4) p a)).getD (H []) →
      ∀ j, p <+: bits4 j → (s j).getD (H []) = (hspec H k (sub (k + 4) (bits4 j) a)).getD (H []) := by
  intro d
  induction d with
  | zero =>
    intro p hp _ _ he j hj
    have e : p = bits4 j := hj.eq_of_length (by rw [bits4_length]; omega)
    subst e
    simpa [slotTree, nibOf_bits4] using he
  | succ d ih =>
    intro p hp h1 h2 he j hj
    have hlK : p.length < k + 4 := by omega
    have hdl : k + 4 - (p.length + 1) = k + d := by omega
    have ef := sub_false a hlK
    have et := sub_true a hlK
    rw [hdl] at ef et
    have h64 : ((slotTree H s d (p ++ [false])).getD (H []) ++ (slotTree H s d (p ++ [true])).getD (H [])).length = 64 := by
      rw [List.length_append, slotTree_len hH hs, slotTree_len hH hs]
    have hin : (slotTree H s d (p ++ [false])).getD (H []) ++ (slotTree H s d (p ++ [true])).getD (H []) ∈ slotInputs H s 4 [] :=
      h1 _ (by simp [slotInputs])
    have hsome : ∀ x, slotTree H s (d + 1) p = some x →
        x = H ((slotTree H s d (p ++ [false])).getD (H []) ++ (slotTree H s d (p ++ [true])).getD (H [])) := by
      intro x hx
      simp only [slotTree] at hx
      split at hx
      · cases hx
      · cases hx; rfl
    have hnone : slotTree H s (d + 1) p = none → slotTree H s d (p ++ [false]) = none ∧ slotTree H s d (p ++ [true]) = none := by
      intro hx
      simp only [slotTree] at hx
      split at hx
      · exact ⟨by assumption, by assumption⟩
      · cases hx
    obtain ⟨b, hb⟩ := prefix_next hj (by omega)
    suffices hside : (slotTree H s d (p ++ [b])).getD (H []) = (hspec H (k + d) (sub (k + 4) (p ++ [b]) a)).getD (H []) by
      refine ih (p ++ [b]) (by simp; omega) (fun x hx => h1 x ?_) (fun x hx => h2 x ?_) hside j hb
      · cases b <;> simp [slotInputs, hx]
      · cases b
        · rw [ef] at hx; exact inputs_take (k + d) _ x hx
        · rw [et] at hx; exact inputs_drop (k + d) _ x hx
    by_cases h0 : sub (k + 4) p a = []
    · have hb0 : sub (k + 4) (p ++ [b]) a = [] := by
        cases b
        · rw [ef, h0, List.take_nil]
        · rw [et, h0, List.drop_nil]
      rw [hb0, hspec_nil]
      rw [h0, hspec_nil] at he
      cases ht : slotTree H s (d + 1) p with
      | none =>
        obtain ⟨n1, n2⟩ := hnone ht
        cases b
        · rw [n1]
        · rw [n2]
      | some x =>
        exfalso
        rw [ht, hsome x ht] at he
        refine hc ⟨[], by simp, _, List.mem_cons_of_mem _ hin, fun e => ?_, he.symm⟩
        rw [← e] at h64
        simp at h64
    · obtain ⟨y, y1, y2, y3⟩ := hspec_input (H := H) (k := k + d) h0
      have h32s : ∀ q, ∀ v ∈ sub (k + 4) q a, v.length = 32 := fun q v hv => h32 v (sub_mem hv)
      have ly : y.length = 32 := hspec_len' hH (fun v hv => h32s p v (List.mem_of_mem_take hv)) y1
      have lz := getD_len (H := H) hH (k := k + d) (l := (sub (k + 4) p a).drop (2 ^ (k + d)))
        (fun v hv => h32s p v (List.mem_of_mem_drop hv))
      rw [show k + (d + 1) = k + d + 1 from rfl, y2] at he
      cases ht : slotTree H s (d + 1) p with
      | none =>
        exfalso
        rw [ht] at he
        refine hc ⟨_, List.mem_cons_of_mem _ (h2 _ y3), [], by simp, fun e => ?_, he.symm⟩
        have := congrArg List.length e
        rw [List.length_append, ly] at this
        simp at this
      | some x =>
        rw [ht, hsome x ht] at he
        simp only [Option.getD_some] at he
        have hu : (slotTree H s d (p ++ [false])).getD (H []) ++ (slotTree H s d (p ++ [true])).getD (H []) =
            y ++ (hspec H (k + d) ((sub (k + 4) p a).drop (2 ^ (k + d)))).getD (nilHash H) := by
          by_contra hne
          exact hc ⟨_, List.mem_cons_of_mem _ (h2 _ y3), _, List.mem_cons_of_mem _ hin, fun e => hne e.symm, he.symm⟩
        obtain ⟨u1, u2⟩ := List.append_inj hu (by rw [slotTree_len hH hs, ly])
        cases b
        · rw [ef, y1, u1]; rfl
        · rw [et, u2]; rfl

theorem slotTree_some {x : Bytes} : ∀ d p, slotTree H s d p = some x → ∃ j y, s j = some y := by
  intro d
  induction d generalizing x with
  | zero => intro p h; exact ⟨_, _, h⟩
  | succ d ih =>
    intro p h
    simp only [slotTree] at h
    split at h
    · cases h
    · rename_i hn
      cases h1 : slotTree H s d (p ++ [false]) with
      | some y => exact ih _ h1
      | none =>
        cases h2 : slotTree H s d (p ++ [true]) with
        | some y => exact ih _ h2
        | none => exact absurd h2 (hn h1)

end Node

/-! ### Reading -/

variable {E : HEnv} {D : HDisk}

theorem readFull_entry (leaf : Bool) (root : Bytes) (h1 : root ≠ []) :
    (∃ b ok, readFull E D leaf root = (newTNode b, ok)) ∨
    ∃ bs l br s, D root = some bs ∧ entry E.C bs = some (l, br, s) ∧ root ≠ nilHash E.H ∧ readFull E D leaf root = (ofParts l br s, true) := by
  by_cases h2 : root = nilHash E.H
  · exact .inl ⟨leaf, true, by simp [readFull, h2]⟩
  · simp only [readFull, h1, h2, or_self, if_false]
    cases hD : D root with
    | none => exact .inl ⟨_, _, rfl⟩
    | some bs =>
      cases bs with
      | nil => exact .inl ⟨_, _, rfl⟩
      | cons t body =>
        simp only
        by_cases t1 : t = 1
        · simp only [t1, if_true]
          cases hs : E.C.decSlots body with
          | none => exact .inl ⟨_, _, rfl⟩
          | some s => exact .inr ⟨_, true, _, s, rfl, by simp [entry, hs], h2, rfl⟩
        · by_cases t0 : t = 0
          · subst t0
            simp only [t1, if_true, if_false]
            cases hs : E.C.decSlots body with
            | none => exact .inl ⟨_, _, rfl⟩
            | some s => exact .inr ⟨_, false, _, s, rfl, by simp [entry, hs], h2, rfl⟩
          · by_cases tf : t = 0xff
            · subst tf
              simp only [t1, t0, if_true, if_false]
              cases hs : E.C.decNode body with
              | none => exact .inl ⟨_, _, rfl⟩
              | some x =>
                obtain ⟨l, br, s⟩ := x
                exact .inr ⟨_, l, br, s, rfl, by simp [entry, hs], h2, rfl⟩
            · simp only [t1, t0, tf, if_false]
              exact .inl ⟨_, _, rfl⟩

/-- A node through which nothing but the values is read. -/
def AudAt (E : HEnv) (h : Nat) (K : TNode → List Bytes → Prop) (n : TNode) (a : List Bytes) : Prop :=
  n = .nil ∨ (∃ y, n = closed y ∧ y ≠ [] ∧ (y = nilHash E.H ∨ hspec E.H (4 * h + 4) a = some y)) ∨
    ∃ i c, n = .mk i c ∧ isCollapsed i c = false ∧
      (i.leaf = true → h = 0 → ∀ j, i.leafs j = none ∨ (i.leafs j).getD (nilHash E.H) = (hspec E.H 0 (part 0 j a)).getD (nilHash E.H)) ∧
      (i.leaf = false → h ≠ 0 → ∀ j, K (c j) (part h j a))

def Aud (E : HEnv) : Nat → TNode → List Bytes → Prop
  | 0 => AudAt E 0 fun _ _ => True
  | h + 1 => AudAt E (h + 1) (Aud E h)

def AKid (E : HEnv) : Nat → TNode → List Bytes → Prop
  | 0 => fun _ _ => True
  | h + 1 => Aud E h

theorem aud_eq (h : Nat) : Aud E h = AudAt E h (AKid E h) := by cases h <;> rfl

theorem aud_nil (h : Nat) (a : List Bytes) : AKid E h .nil a := by
  cases h with
  | zero => trivial
  | succ h => show Aud E h .nil a; rw [aud_eq]; exact .inl rfl

theorem newTNode_open (b : Bool) : ∃ i, newTNode b = .mk i (fun _ => .nil) ∧ isCollapsed i (fun _ => .nil) = false ∧ ∀ j, i.leafs j = none :=
  ⟨_, rfl, by simp [isCollapsed], fun _ => rfl⟩

theorem hasChild_some {c : Nib → TNode} {j : Nib} (h : (c j).isSome = true) : hasChild c = true := by
  simp only [hasChild, List.any_eq_true]
  exact ⟨j, by simp [nibbles], h⟩

theorem rightmost_has (has : Nib → Bool) : ∀ (js : List Nib) (check : Bool) (j : Nib), rightmost has check none js = some j → has j = true := by
  have gen : ∀ (js : List Nib) (check : Bool) (r : Option Nib) (j : Nib), (∀ x, r = some x → has x = true) →
      rightmost has check r js = some j → has j = true := by
    intro js
    induction js with
    | nil => intro check r j hr h; exact hr j h
    | cons x js ih =>
      intro check r j hr h
      simp only [rightmost] at h
      split at h
      · exact ih _ _ j (fun y hy => by cases hy; assumption) h
      · split at h
        · exact hr j h
        · exact ih _ _ j hr h
  exact fun js check j h => gen js check none j (by simp) h

theorem rightmost_none : ∀ (js : List Nib) (check : Bool), rightmost (fun _ => false) check none js = none
  | [], _ => rfl
  | _ :: js, check => by cases check <;> simp [rightmost, rightmost_none js]

theorem nibbles_all (j : Nib) : j ∈ nibbles := by revert j; decide

/-- An opened node. -/
theorem opened_aud (hH : ∀ b, (E.H b).length = 32) (hA : HAudited E D) {l : List Bytes} (hC : HClean E D l) {h : Nat} {n : TNode}
    {a : List Bytes} (h32 : ∀ v ∈ a, v.length = 32) (hl : a.length ≤ 2 ^ (4 * h + 4)) (hin : ∀ x ∈ inputs E.H (4 * h + 4) a, x ∈ inputs E.H 64 l)
    (ha : Aud E h n a) :
    (n = .nil ∧ (opened E D n).1 = .nil) ∨ ∃ i c, (opened E D n).1 = .mk i c ∧ isCollapsed i c = false ∧
      (i.leaf = true → h = 0 → ∀ j, i.leafs j = none ∨ (i.leafs j).getD (nilHash E.H) = (hspec E.H 0 (part 0 j a)).getD (nilHash E.H)) ∧
      (i.leaf = false → h ≠ 0 → ∀ j, AKid E h (c j) (part h j a)) := by
  rw [aud_eq] at ha
  rcases ha with rfl | ⟨y, rfl, hy, hy'⟩ | ⟨i, c, rfl, hi⟩
  · exact .inl ⟨rfl, rfl⟩
  · right
    rw [opened_closed E D y hy]
    rcases readFull_entry (E := E) (D := D) false y hy with ⟨b, ok, e⟩ | ⟨bs, lf, br, s, e1, e2, e3, e4⟩
    · rw [e]
      obtain ⟨i, h1, h2, h3⟩ := newTNode_open b
      exact ⟨i, _, h1, h2, fun _ _ j => .inl (h3 j), fun _ _ j => aud_nil h _⟩
    · rw [e4]
      have hy : hspec E.H (4 * h + 4) a = some y := by
        rcases hy' with h | h
        · exact absurd h e3
        · exact h
      obtain ⟨a1, a2⟩ := hA y bs lf br s e1 e2
      have hb := slot_binding hH a1 (hC y bs lf br s e1 e2) (4 * h) a h32 4 [] rfl (fun x hx => hx)
        (by rw [sub_nil_prefix hl]; exact hin) (by rw [sub_nil_prefix hl, a2, hy])
      have hb : ∀ j, (s j).getD (E.H []) = (hspec E.H (4 * h) (part h j a)).getD (E.H []) := fun j => hb j List.nil_prefix
      obtain ⟨j0, y0, hj0⟩ := slotTree_some 4 [] a2
      cases lf with
      | true =>
        refine ⟨⟨false, true, br, s⟩, fun _ => .nil, by simp [ofParts], ?_, ?_, by simp⟩
        · have : TInfo.hasLeaf ⟨false, true, br, s⟩ = true := by
            simp only [TInfo.hasLeaf, List.any_eq_true]
            exact ⟨j0, nibbles_all j0, by simp [hj0]⟩
          simp [isCollapsed, this]
        · rintro _ rfl j
          exact .inr (hb j)
      | false =>
        refine ⟨⟨false, false, br, fun _ => none⟩, kidsOf s, by simp [ofParts], ?_, by simp, ?_⟩
        · have : hasChild (kidsOf s) = true := hasChild_some (j := j0) (by simp [kidsOf, hj0, closed, TNode.isSome])
          simp [isCollapsed, this]
        · intro _ h0 j
          obtain ⟨m, rfl⟩ := Nat.exists_eq_succ_of_ne_zero h0
          show Aud E m (kidsOf s j) _
          rw [aud_eq]
          cases hs : s j with
          | none => exact .inl (kidsOf_none hs)
          | some x =>
            refine .inr (.inl ⟨x, kidsOf_some hs, ?_, ?_⟩)
            · have := a1 j x hs; rintro rfl; simp at this
            · have := hb j
              rw [hs, Option.getD_some] at this
              cases hp : hspec E.H (4 * (m + 1)) (part (m + 1) j a) with
              | none => rw [hp] at this; exact .inl this
              | some z => rw [hp] at this; exact .inr (by rw [this]; rfl)
  · right
    have : opened E D (.mk i c) = (.mk i c, true) := by simp [opened, hi.1]
    rw [this]
    exact ⟨i, c, rfl, hi⟩

theorem inputs_below {H : Bytes → Bytes} (k : Nat) (a : List Bytes) : ∀ (p : List Bool), p.length ≤ 4 →
    ∀ x ∈ inputs H (k + (4 - p.length)) (sub (k + 4) p a), a.length ≤ 2 ^ (k + 4) → x ∈ inputs H (k + 4) a := by
  intro p
  induction p using List.reverseRecOn with
  | nil => intro _ x hx hl; rw [sub_nil_prefix hl] at hx; exact hx
  | append_singleton p b ih =>
    intro hp x hx hl
    rw [List.length_append, List.length_singleton] at hp hx
    refine ih (by omega) x ?_ hl
    have hlK : p.length < k + 4 := by omega
    have e : k + (4 - p.length) = k + (4 - (p.length + 1)) + 1 := by omega
    have hdl : k + 4 - (p.length + 1) = k + (4 - (p.length + 1)) := by omega
    rw [e]
    cases b
    · rw [sub_false a hlK, hdl] at hx; exact inputs_take _ _ x hx
    · rw [sub_true a hlK, hdl] at hx; exact inputs_drop _ _ x hx

theorem inputs_part {H : Bytes → Bytes} {h : Nat} {j : Nib} {a : List Bytes} (hl : a.length ≤ 2 ^ (4 * (h + 1) + 4)) :
    ∀ x ∈ inputs H (4 * h + 4) (part (h + 1) j a), x ∈ inputs H (4 * (h + 1) + 4) a := by
  intro x hx
  exact inputs_below (4 * (h + 1)) a (bits4 j) (by rw [bits4_length]) x (by rw [bits4_length]; exact hx) hl

/-- Reading one value. -/
theorem get_aud (hH : ∀ b, (E.H b).length = 32) (hA : HAudited E D) {l : List Bytes} (hC : HClean E D l) :
    ∀ (h : Nat) (n : TNode) (a : List Bytes) (k : Nat), (∀ v ∈ a, v.length = 32) → a.length ≤ 2 ^ (4 * h + 4) →
    (∀ x ∈ inputs E.H (4 * h + 4) a, x ∈ inputs E.H 64 l) → Aud E h n a → k < 2 ^ (4 * h + 4) →
    Aud E h (getAt E D (digits (h + 1) k) n).1 a ∧ (n.isSome = true → (getAt E D (digits (h + 1) k) n).1.isSome = true) ∧
      ∀ v, (getAt E D (digits (h + 1) k) n).2 = some (some v) → v = (a[k]?).getD (nilHash E.H) := by
  intro h
  induction h with
  | zero =>
    intro n a k h32 hl hin ha hk
    obtain ⟨j, hj, hdig⟩ := digits_succ 0 k hk
    rw [hdig, getAt]
    rcases opened_aud hH hA hC h32 hl hin ha with ⟨rfl, ho⟩ | ⟨i, c, ho, hi⟩
    · simp [opened, aud_eq, AudAt]
    · have hmk : Aud E 0 (.mk i c) a := by rw [aud_eq]; exact .inr (.inr ⟨i, c, rfl, hi⟩)
      simp only [ho, digits, if_true]
      split
      · exact ⟨hmk, fun _ => rfl, by simp⟩
      · split
        · exact ⟨hmk, fun _ => rfl, by simp⟩
        · rename_i hlf
          refine ⟨hmk, fun _ => rfl, fun v hv => ?_⟩
          simp only [Option.some.injEq] at hv
          rcases hi.2.1 (by simpa using hlf) rfl j with h1 | h1
          · rw [h1] at hv; cases hv
          · rw [hv, Option.getD_some, hspec, List.head?_eq_getElem?, part_getElem? _ _ _ _ (by norm_num), ← hj] at h1
            simpa using h1
  | succ h ih =>
    intro n a k h32 hl hin ha hk
    obtain ⟨j, hj, hdig⟩ := digits_succ (h + 1) k hk
    have hmod : k % 2 ^ (4 * (h + 1)) < 2 ^ (4 * h + 4) := Nat.mod_lt _ (pow_pos2 _)
    have hlk : a[k]? = (part (h + 1) j a)[k % 2 ^ (4 * (h + 1))]? := by
      rw [part_getElem? _ _ _ _ hmod]
      have := Nat.div_add_mod k (2 ^ (4 * (h + 1)))
      rw [hj, Nat.mul_comm] at this
      rw [this]
    rw [hdig, getAt]
    rcases opened_aud hH hA hC h32 hl hin ha with ⟨rfl, ho⟩ | ⟨i, c, ho, hi⟩
    · simp [opened, aud_eq, AudAt]
    · have hmk : Aud E (h + 1) (.mk i c) a := by rw [aud_eq]; exact .inr (.inr ⟨i, c, rfl, hi⟩)
      simp only [ho, digits_ne_nil, Nat.succ_ne_zero, if_false]
      split
      · exact ⟨hmk, fun _ => rfl, by simp⟩
      · split
        · exact ⟨hmk, fun _ => rfl, by simp⟩
        · rename_i hlf
          have hlf : i.leaf = false := by simpa using hlf
          split
          · rename_i hsome
            obtain ⟨g1, g2, g3⟩ := ih (c j) (part (h + 1) j a) _ (fun v hv => h32 v (part_mem hv)) (part_length_le (h + 1) j a)
              (fun x hx => hin x (inputs_part hl x hx)) (hi.2.2 hlf (by omega) j) hmod
            refine ⟨?_, fun _ => rfl, fun v hv => by rw [hlk]; exact g3 v hv⟩
            rw [aud_eq]
            refine .inr (.inr ⟨_, _, rfl, ?_, (fun h => by rw [hlf] at h; cases h), fun _ _ m => ?_⟩)
            · have : hasChild (setKid c j (getAt E D (digits (h + 1) (k % 2 ^ (4 * (h + 1)))) (c j)).1) = true :=
                hasChild_some (j := j) (by simp only [setKid, if_true]; exact g2 hsome)
              simp [isCollapsed, this, hlf]
            · by_cases hm : m = j
              · subst hm; simp only [setKid, if_true]; exact g1
              · simp only [setKid, hm, if_false]; exact hi.2.2 hlf (by omega) m
          · exact ⟨hmk, fun _ => rfl, by simp⟩

/-- Looking for the last value. -/
theorem find_aud (hH : ∀ b, (E.H b).length = 32) (hA : HAudited E D) {l : List Bytes} (hC : HClean E D l) (check : Bool) :
    ∀ (h : Nat) (n : TNode) (a : List Bytes), (∀ v ∈ a, v.length = 32) → a.length ≤ 2 ^ (4 * h + 4) →
    (∀ x ∈ inputs E.H (4 * h + 4) a, x ∈ inputs E.H 64 l) → Aud E h n a →
    Aud E h (findRightmost E D check (h + 1) n).1 a ∧ (n.isSome = true → (findRightmost E D check (h + 1) n).1.isSome = true) := by
  intro h
  induction h with
  | zero =>
    intro n a h32 hl hin ha
    rw [findRightmost]
    rcases opened_aud hH hA hC h32 hl hin ha with ⟨rfl, ho⟩ | ⟨i, c, ho, hi⟩
    · simp [opened, aud_eq, AudAt]
    · have hmk : Aud E 0 (.mk i c) a := by rw [aud_eq]; exact .inr (.inr ⟨i, c, rfl, hi⟩)
      simp only [ho]
      split
      · exact ⟨hmk, fun _ => rfl⟩
      · split
        · exact ⟨hmk, fun _ => rfl⟩
        · split
          · exact ⟨hmk, fun _ => rfl⟩
          · rename_i j _
            have : setKid c j (findRightmost E D check 0 (c j)).1 = c := by
              funext m
              by_cases hm : m = j
              · subst hm; simp [setKid, findRightmost]
              · simp [setKid, hm]
            rw [this]
            exact ⟨hmk, fun _ => rfl⟩
  | succ h ih =>
    intro n a h32 hl hin ha
    rw [findRightmost]
    rcases opened_aud hH hA hC h32 hl hin ha with ⟨rfl, ho⟩ | ⟨i, c, ho, hi⟩
    · simp [opened, aud_eq, AudAt]
    · have hmk : Aud E (h + 1) (.mk i c) a := by rw [aud_eq]; exact .inr (.inr ⟨i, c, rfl, hi⟩)
      simp only [ho]
      split
      · exact ⟨hmk, fun _ => rfl⟩
      · split
        · exact ⟨hmk, fun _ => rfl⟩
        · rename_i hlf
          have hlf : i.leaf = false := by simpa using hlf
          split
          · exact ⟨hmk, fun _ => rfl⟩
          · rename_i j hj
            obtain ⟨g1, g2⟩ := ih (c j) (part (h + 1) j a) (fun v hv => h32 v (part_mem hv)) (part_length_le (h + 1) j a)
              (fun x hx => hin x (inputs_part hl x hx)) (hi.2.2 hlf (by omega) j)
            have hsome := rightmost_has _ _ _ _ hj
            refine ⟨?_, fun _ => rfl⟩
            rw [aud_eq]
            refine .inr (.inr ⟨_, _, rfl, ?_, (fun h => by rw [hlf] at h; cases h), fun _ _ m => ?_⟩)
            · have : hasChild (setKid c j (findRightmost E D check (h + 1) (c j)).1) = true :=
                hasChild_some (j := j) (by simp only [setKid, if_true]; exact g2 hsome)
              simp [isCollapsed, this, hlf]
            · by_cases hm : m = j
              · subst hm; simp only [setKid, if_true]; exact g1
              · simp only [setKid, hm, if_false]; exact hi.2.2 hlf (by omega) m

/-- Calls of `Get` one after the other. -/
def hgets (E : HEnv) (t : Tree) : List UInt64 → List (Option Bytes)
  | [] => []
  | k :: ks => (t.get E k).2 :: hgets E (t.get E k).1 ks

/-- **C169 for history trees, in part.** Over a storage whose entries have been checked, a history tree opened at the root hash
of a list of 32-byte values gives, for every sequence of calls of `Get`, nothing, or the value of the list, or the digest of
nothing at a height that the list does not have; unless an entry of the storage collides with the list. -/
theorem C169_history_audited_partial (hH : ∀ b, (E.H b).length = 32) (hA : HAudited E D) (l : List Bytes) (hl : l.length ≤ 2 ^ 64)
    (h32 : ∀ v ∈ l, v.length = 32) (hC : HClean E D l) {root : Bytes} (hroot : hspec E.H 64 l = some root) (check : Bool) {t : Tree}
    (ht : openTree E D root check = some t) (ks : List UInt64) (n : Nat) (k : UInt64) (v : Bytes) (hk : ks[n]? = some k)
    (hv : (hgets E t ks)[n]? = some (some v)) : v = (l[k.toNat]?).getD (nilHash E.H) := by
  have main : ∀ (ks : List UInt64) (t : Tree) (n : Nat), t.D = D → Aud E 15 t.root l → ks[n]? = some k →
      (hgets E t ks)[n]? = some (some v) → v = (l[k.toNat]?).getD (nilHash E.H) := by
    intro ks
    induction ks with
    | nil => intro t n _ _ hk; simp at hk
    | cons k' ks ih =>
      intro t n hD ha hk hv
      obtain ⟨g1, _, g3⟩ := get_aud hH hA hC 15 t.root l k'.toNat h32 hl (fun x hx => hx) ha (u64_lt k')
      cases n with
      | zero =>
        simp only [List.getElem?_cons_zero, Option.some.injEq] at hk
        subst hk
        simp only [hgets, List.getElem?_cons_zero, Option.some.injEq, Tree.get, hD, heightToPrefix_eq] at hv
        refine g3 v ?_
        cases hg : (getAt E D (digits (15 + 1) k'.toNat) t.root).2 with
        | none => rw [show (15 + 1) = 16 from rfl] at hg; rw [hg] at hv; cases hv
        | some o => rw [show (15 + 1) = 16 from rfl] at hg; rw [hg] at hv; rw [← hv]; rfl
      | succ n =>
        simp only [List.getElem?_cons_succ] at hk
        simp only [hgets, List.getElem?_cons_succ] at hv
        refine ih (t.get E k').1 n hD ?_ hk hv
        simp only [Tree.get, hD, heightToPrefix_eq]
        exact g1
  have hlen : root.length = 32 := hspec_len' hH h32 hroot
  have hne : root ≠ [] := by rintro rfl; simp at hlen
  simp only [openTree, hlen, ne_eq, not_true_eq_false, false_or] at ht
  split at ht
  · cases ht
    refine main ks _ n rfl ?_ hk hv
    rw [aud_eq]; exact .inl rfl
  · simp only [Option.bind_eq_some_iff, Option.map_eq_some_iff] at ht
    obtain ⟨q, hq, x, -, rfl⟩ := ht
    refine main ks _ n rfl ?_ hk hv
    refine (find_aud hH hA hC check 15 _ l h32 hl (fun x hx => hx) ?_).1
    rw [aud_eq]
    exact .inr (.inl ⟨root, rfl, hne, .inr hroot⟩)

/-! ### How many values there are -/

/-- No entry has the digest of nothing in a slot. -/
def HNoNil (E : HEnv) (D : HDisk) : Prop :=
  ∀ k b leaf br s, D k = some b → entry E.C b = some (leaf, br, s) → ∀ j, s j ≠ some (nilHash E.H)

/-- Then the slots are those of the block. -/
theorem slots_exact (hH : ∀ b, (E.H b).length = 32) (hA : HAudited E D) {l : List Bytes} (hC : HClean E D l) (hN : HNoNil E D)
    {h : Nat} {a : List Bytes} (h32 : ∀ v ∈ a, v.length = 32) (hn : ∀ v ∈ a, v ≠ nilHash E.H) (hl : a.length ≤ 2 ^ (4 * h + 4))
    (hin : ∀ x ∈ inputs E.H (4 * h + 4) a, x ∈ inputs E.H 64 l) {y bs : Bytes} (hy : hspec E.H (4 * h + 4) a = some y) {lf : Bool}
    {br : List Bool → Option Bytes} {s : Nib → Option Bytes} (e1 : D y = some bs) (e2 : entry E.C bs = some (lf, br, s)) (j : Nib) :
    s j = hspec E.H (4 * h) (part h j a) := by
  obtain ⟨a1, a2⟩ := hA y bs lf br s e1 e2
  have hc := hC y bs lf br s e1 e2
  have hb := slot_binding hH a1 hc (4 * h) a h32 4 [] rfl (fun x hx => hx)
    (by rw [sub_nil_prefix hl]; exact hin) (by rw [sub_nil_prefix hl, a2, hy]) j List.nil_prefix
  replace hb : (s j).getD (E.H []) = (hspec E.H (4 * h) (part h j a)).getD (E.H []) := hb
  cases hs : s j with
  | some x =>
    cases hp : hspec E.H (4 * h) (part h j a) with
    | some z => rw [hs, hp] at hb; exact congrArg some hb
    | none => rw [hs, hp] at hb; exact absurd (hs.trans (congrArg some hb)) (hN y bs lf br s e1 e2 j)
  | none =>
    cases hp : hspec E.H (4 * h) (part h j a) with
    | none => rfl
    | some z =>
      exfalso
      rw [hs, hp] at hb
      simp only [Option.getD_none, Option.getD_some] at hb
      cases h with
      | zero =>
        have : z ∈ part 0 j a := List.mem_of_head? hp
        exact hn z (part_mem this) hb.symm
      | succ h =>
        have hne : part (h + 1) j a ≠ [] := by intro e; rw [e, hspec_nil] at hp; cases hp
        obtain ⟨u, u1, u2, u3⟩ := hspec_input (H := E.H) (k := 4 * h + 3) hne
        have hp : hspec E.H (4 * h + 3 + 1) (part (h + 1) j a) = some z := hp
        rw [u2] at hp
        have hu : u.length = 32 := hspec_len' hH (fun v hv => h32 v (part_mem (List.mem_of_mem_take hv))) u1
        refine hc ⟨_, List.mem_cons_of_mem _ (hin _ (inputs_part hl _ u3)), [], by simp, fun e => ?_, ?_⟩
        · have := congrArg List.length e
          rw [List.length_append, hu] at this
          simp at this
        · rw [hb]; exact Option.some.inj hp

theorem part_used {h : Nat} {l : List Bytes} (h0 : l ≠ []) (hl : l.length ≤ 2 ^ (4 * h + 4)) (j : Nib) :
    (hspec E.H (4 * h) (part h j l)).isSome = decide (j ≤ lastNib h l hl) := by
  have hp : part h j l = [] ↔ ¬ j ≤ lastNib h l hl := by
    rw [part_eq_nil, Fin.le_def]
    simp only [lastNib]
    have hpos := pow_pos2 (4 * h)
    have h1 : 0 < l.length := List.length_pos_iff.mpr h0
    rw [Nat.le_div_iff_mul_le hpos]
    omega
  rw [hspec_isSome]
  by_cases hj : j ≤ lastNib h l hl
  · have : part h j l ≠ [] := fun e => hp.mp e hj
    cases hq : part h j l with
    | nil => exact absurd hq this
    | cons a b => simpa using hj
  · rw [hp.mpr hj]; simpa using hj

theorem find_len (hH : ∀ b, (E.H b).length = 32) (hA : HAudited E D) {l : List Bytes} (hC : HClean E D l) (hN : HNoNil E D) (check : Bool) :
    ∀ (h : Nat) (y : Bytes) (a : List Bytes) (q : List Nib), (∀ v ∈ a, v.length = 32) → (∀ v ∈ a, v ≠ nilHash E.H) →
    a.length ≤ 2 ^ (4 * h + 4) → (∀ x ∈ inputs E.H (4 * h + 4) a, x ∈ inputs E.H 64 l) → hspec E.H (4 * h + 4) a = some y →
    (findRightmost E D check (h + 1) (closed y)).2 = some q → q.length = h + 1 → q = digits (h + 1) (a.length - 1) := by
  intro h
  induction h with
  | zero =>
    intro y a q h32 hn hl hin hy hq hlen
    have hy0 : y ≠ [] := by have := hspec_len' hH h32 hy; rintro rfl; simp at this
    have ha : a ≠ [] := by rintro rfl; rw [hspec_nil] at hy; cases hy
    rw [findRightmost, opened_closed E D y hy0] at hq
    rcases readFull_entry (E := E) (D := D) false y hy0 with ⟨b, ok, e⟩ | ⟨bs, lf, br, s, e1, e2, e3, e4⟩
    · rw [e] at hq
      cases ok <;> cases b <;> simp [newTNode, rightmost_none, TNode.isSome] at hq
    · have hs := slots_exact hH hA hC hN h32 hn hl hin hy e1 e2
      rw [e4] at hq
      cases lf with
      | false =>
        simp only [ofParts, Bool.true_eq_false, Bool.false_eq_true, if_false] at hq
        split at hq
        · cases hq
        · simp [findRightmost] at hq
      | true =>
        simp only [ofParts, Bool.true_eq_false, if_false, if_true] at hq
        have hfun : (fun j => (s j).isSome) = fun j => decide (j ≤ lastNib 0 a hl) := by
          funext j; rw [hs j, part_used ha hl]
        rw [hfun, rightmost_initial] at hq
        obtain ⟨j, hj, hdig⟩ := digits_succ 0 (a.length - 1) (by have := List.length_pos_iff.mpr ha; omega)
        have hlast : lastNib 0 a hl = j := Fin.ext hj
        rw [hdig, ← hlast]
        simpa [digits] using hq.symm
  | succ h ih =>
    intro y a q h32 hn hl hin hy hq hlen
    have hy0 : y ≠ [] := by have := hspec_len' hH h32 hy; rintro rfl; simp at this
    have ha : a ≠ [] := by rintro rfl; rw [hspec_nil] at hy; cases hy
    rw [findRightmost, opened_closed E D y hy0] at hq
    rcases readFull_entry (E := E) (D := D) false y hy0 with ⟨b, ok, e⟩ | ⟨bs, lf, br, s, e1, e2, e3, e4⟩
    · rw [e] at hq
      cases ok <;> cases b <;> simp [newTNode, rightmost_none, TNode.isSome] at hq
    · have hs := slots_exact hH hA hC hN h32 hn hl hin hy e1 e2
      rw [e4] at hq
      cases lf with
      | true =>
        simp only [ofParts, Bool.true_eq_false, if_false, if_true, Option.map_eq_some_iff] at hq
        obtain ⟨j, -, rfl⟩ := hq
        simp at hlen
      | false =>
        simp only [ofParts, Bool.true_eq_false, Bool.false_eq_true, if_false] at hq
        have hfun : (fun j => (kidsOf s j).isSome) = fun j => decide (j ≤ lastNib (h + 1) a hl) := by
          funext j
          rw [← part_used (E := E) ha hl j, ← hs j]
          cases hsj : s j with
          | none => rw [kidsOf_none hsj]; rfl
          | some x => rw [kidsOf_some hsj]; rfl
        rw [hfun, rightmost_initial] at hq
        simp only [Option.map_eq_some_iff] at hq
        obtain ⟨q', hq', rfl⟩ := hq
        obtain ⟨j, hj, hdig⟩ := digits_succ (h + 1) (a.length - 1) (by have := List.length_pos_iff.mpr ha; omega)
        have hlast : lastNib (h + 1) a hl = j := Fin.ext hj
        rw [hlast] at hq' ⊢
        have hpn : part (h + 1) j a ≠ [] := by rw [← hlast]; exact part_lastNib hl ha
        obtain ⟨x, hx⟩ := hspec_some (H := E.H) (k := 4 * (h + 1)) hpn
        rw [kidsOf_some ((hs j).trans hx)] at hq'
        have := ih x (part (h + 1) j a) q' (fun v hv => h32 v (part_mem hv)) (fun v hv => hn v (part_mem hv))
          (part_length_le (h + 1) j a) (fun x hx => hin x (inputs_part hl x hx)) hx hq' (by simpa using hlen)
        have hlen : (part (h + 1) j a).length - 1 = (a.length - 1) % 2 ^ (4 * (h + 1)) := by
          have e1 := Nat.div_add_mod (a.length - 1) (2 ^ (4 * (h + 1)))
          have e2 := Nat.mod_lt (a.length - 1) (pow_pos2 (4 * (h + 1)))
          rw [hj, Nat.mul_comm] at e1
          rw [part_eq, List.length_take, List.length_drop]
          omega
        rw [hdig, this, hlen]

/-- **C169 for history trees, in part: the length.** If moreover no entry and no value is the digest of nothing, a tree that can be
opened at the root hash of a list expects the height after the last of the list. -/
theorem C169_history_length_partial (hH : ∀ b, (E.H b).length = 32) (hA : HAudited E D) (hN : HNoNil E D) (l : List Bytes)
    (hl : l.length < 2 ^ 64) (h32 : ∀ v ∈ l, v.length = 32) (hn : ∀ v ∈ l, v ≠ nilHash E.H) (hC : HClean E D l) {root : Bytes}
    (hroot : hspec E.H 64 l = some root) (hr : root ≠ nilHash E.H) (check : Bool) {t : Tree}
    (ht : openTree E D root check = some t) : t.expecting.toNat = l.length := by
  have hlen : root.length = 32 := hspec_len' hH h32 hroot
  have hl0 : l ≠ [] := by rintro rfl; rw [hspec_nil] at hroot; cases hroot
  simp only [openTree, hlen, ne_eq, not_true_eq_false, hr, or_self, if_false, Option.bind_eq_some_iff, Option.map_eq_some_iff] at ht
  obtain ⟨q, hq, x, hx, rfl⟩ := ht
  have hq16 : q.length = 16 := by
    by_contra hne
    simp [prefixToHeight, hne] at hx
  have hd := find_len hH hA hC hN check 15 root l q h32 hn (by omega) (fun x hx => hx) hroot hq hq16
  have hlp := List.length_pos_iff.mpr hl0
  have en : (UInt64.ofNat (l.length - 1)).toNat = l.length - 1 := by
    rw [UInt64.toNat_ofNat']
    exact Nat.mod_eq_of_lt (by omega)
  have e : digits (15 + 1) (l.length - 1) = heightToPrefix (UInt64.ofNat (l.length - 1)) := by
    rw [heightToPrefix_eq, en]
  rw [hd, e, prefixToHeight_heightToPrefix, Option.some.injEq] at hx
  show (x + 1).toNat = _
  rw [← hx, UInt64.toNat_add, en, UInt64.toNat_one]
  omega

/-! ### What is written is accepted -/

theorem slotTree_hspec {H : Bytes → Bytes} {k : Nat} {a : List Bytes} {s : Nib → Option Bytes}
    (hs : ∀ j, s j = hspec H k (sub (k + 4) (bits4 j) a)) : ∀ (d : Nat) (p : List Bool), p.length + d = 4 →
    slotTree H s d p = hspec H (k + d) (sub (k + 4) p a) := by
  intro d
  induction d with
  | zero =>
    intro p hp
    rw [slotTree, hs, bits4_nibOf (by omega)]; rfl
  | succ d ih =>
    intro p hp
    have hlK : p.length < k + 4 := by omega
    have hdl : k + 4 - (p.length + 1) = k + d := by omega
    rw [slotTree, ih (p ++ [false]) (by simp; omega), ih (p ++ [true]) (by simp; omega), sub_false a hlK, sub_true a hlK, hdl,
      show k + (d + 1) = k + d + 1 from rfl]
    by_cases h0 : sub (k + 4) p a = []
    · rw [h0, List.take_nil, List.drop_nil, hspec_nil, hspec_nil]
    · obtain ⟨y, y1, y2, -⟩ := hspec_input (H := H) (k := k + d) h0
      rw [y2, y1]
      rfl

/-- **C169.** A storage in which every entry has the hashes of the blocks of a list of 32-byte values, under the hash of the list, is
a checked one. -/
theorem C169_history_honest (hH : ∀ b, (E.H b).length = 32)
    (h : ∀ k b leaf br s, D k = some b → entry E.C b = some (leaf, br, s) → ∃ (m : Nat) (a : List Bytes), (∀ v ∈ a, v.length = 32) ∧
      a.length ≤ 2 ^ (4 * m + 4) ∧ hspec E.H (4 * m + 4) a = some k ∧ ∀ j, s j = hspec E.H (4 * m) (part m j a)) : HAudited E D := by
  intro k b leaf br s hD he
  obtain ⟨m, a, h32, hl, hk, hs⟩ := h k b leaf br s hD he
  refine ⟨fun j x hx => ?_, ?_⟩
  · rw [hs j] at hx
    exact hspec_len' hH (fun v hv => h32 v (part_mem hv)) hx
  · rw [slotTree_hspec hs 4 [] rfl, sub_nil_prefix hl, hk]

/-- A storage with one entry, which is checked: two values, in the format of leaves. -/
def oneSlots : Nib → Option Bytes := fun j => if j = 0 then some (toyLeaf 100) else if j = 1 then some (toyLeaf 101) else none
def oneRoot : Bytes := (slotTree toyH oneSlots 4 []).getD []
def oneDisk : HDisk := fun k => if k = oneRoot then some (1 :: toyC.encSlots oneSlots) else none

example : HAudited toyHE oneDisk := by
  intro k b leaf br s hD he
  unfold oneDisk at hD
  split at hD
  · rename_i hk
    cases hD
    have hs : toyC.decSlots (toyC.encSlots oneSlots) = some oneSlots := by
      refine toyC_lawful.slots oneSlots fun j x hx => ?_
      unfold oneSlots at hx
      split at hx
      · cases hx; decide
      · split at hx
        · cases hx; decide
        · cases hx
    have he : ((toyC.decSlots (toyC.encSlots oneSlots)).map fun s => (true, (fun _ => none : List Bool → Option Bytes), s)) = some (leaf, br, s) := he
    rw [hs] at he
    cases he
    refine ⟨fun j x hx => ?_, by subst hk; decide +kernel⟩
    unfold oneSlots at hx
    split at hx
    · cases hx; decide
    · split at hx
      · cases hx; decide
      · cases hx
  · cases hD

example : ((getAt toyHE oneDisk [0] (closed oneRoot)).2, (getAt toyHE oneDisk [1] (closed oneRoot)).2, (getAt toyHE oneDisk [2] (closed oneRoot)).2) =
    (some (some (toyLeaf 100)), some (some (toyLeaf 101)), some none) := by decide +kernel

/-- The hypotheses on the storage are what the storage of the forger lacks: the entry under the root asked for has another hash. -/
example : ((forgedDisk askedRoot).bind fun b => (entry toyC b).map fun e => slotTree toyH e.2.2 4 []) = some (some forgerRoot) := by
  decide +kernel

end Verif.HTree

import Verif.Trie.Lemmas
import Verif.Trie.Spec

/-!
# Histories of calls keep the tree and the map in step
-/

namespace Verif.Trie

variable {V : Type}

theorem specStep_put (m : Bytes → Option V) (k : Bytes) (x : V) (k' : Bytes) :
    specStep m (.put k x) k' = if k' = k then some x else m k' := rfl

theorem specStep_del (m : Bytes → Option V) (k k' : Bytes) :
    specStep m (.del k) k' = if k' = k then none else m k' := rfl

/-! ### keys and nibbles -/

theorem keyToPrefix_nil : keyToPrefix [] = [] := rfl

theorem keyToPrefix_cons (b : UInt8) (k : Bytes) : keyToPrefix (b :: k) =
    (⟨b.toNat / 16, by have := b.toNat_lt; omega⟩ : Nib) :: (⟨b.toNat % 16, by omega⟩ : Nib) :: keyToPrefix k := by
  simp [keyToPrefix]

theorem keyToPrefix_append (a b : Bytes) : keyToPrefix (a ++ b) = keyToPrefix a ++ keyToPrefix b := by
  simp [keyToPrefix]

theorem keyToPrefix_length (k : Bytes) : (keyToPrefix k).length = 2 * k.length := by
  induction k with
  | nil => rfl
  | cons b k ih => rw [keyToPrefix_cons]; simp [ih]; omega

theorem nib_inj {a b : UInt8} (h1 : a.toNat / 16 = b.toNat / 16) (h2 : a.toNat % 16 = b.toNat % 16) : a = b := by
  apply UInt8.toNat_inj.1
  omega

theorem keyToPrefix_prefix (a b : Bytes) : keyToPrefix a <+: keyToPrefix b ↔ a <+: b := by
  induction a generalizing b with
  | nil => simp [keyToPrefix_nil]
  | cons x a ih =>
    cases b with
    | nil => simp [keyToPrefix_nil, keyToPrefix_cons]
    | cons y b =>
      rw [keyToPrefix_cons, keyToPrefix_cons, List.cons_prefix_cons, List.cons_prefix_cons, List.cons_prefix_cons, ih]
      constructor
      · rintro ⟨h1, h2, h3⟩
        exact ⟨nib_inj (by simpa using h1) (by simpa using h2), h3⟩
      · rintro ⟨rfl, h⟩
        exact ⟨rfl, rfl, h⟩

theorem keyToPrefix_inj {a b : Bytes} (h : keyToPrefix a = keyToPrefix b) : a = b := by
  have h1 := (keyToPrefix_prefix a b).1 (h ▸ List.prefix_refl _)
  have h2 := keyToPrefix_length a
  rw [h, keyToPrefix_length] at h2
  exact h1.eq_of_length (by omega)

/-! ### roots -/

theorem WFRoot.isSome {n : Node V} (h : WFRoot n) : n.isSome = true := by
  cases n with
  | nil => exact h.elim
  | mk => rfl

theorem WFRoot_new : WFRoot (newTrie (V := V)).root := by
  left
  simp [isEmpty_iff, noChild]

theorem WFRoot_insert {n : Node V} (h : WFRoot n) (q : List Nib) (x : V) : WFRoot (insert n q x).node := by
  cases n with
  | nil => exact h.elim
  | mk p v c =>
    have key : WF (insert (.mk p v c) q x).node := by
      rcases h with h | h
      · obtain ⟨rfl, rfl, hc⟩ := (isEmpty_iff _ _ _).1 h
        have hcw : ∀ i, WF (c i) := fun i => by rw [hc i]; exact WF_nil
        rw [insert]
        split
        · exact ⟨Or.inl rfl, hcw⟩
        · exact ⟨Or.inl rfl, hcw⟩
      · exact insert_WF _ h q x
    have hs := insert_isSome (.mk p v c) rfl q x
    cases hn : (insert (.mk p v c) q x).node with
    | nil => rw [hn] at hs; simp [Node.isSome] at hs
    | mk p2 v2 c2 => rw [hn] at key; exact Or.inr key

/-- The root that `Delete` leaves. -/
def afterDelete (n : Node V) (q : List Nib) : Node V :=
  if (delete n q).remove then clearPrefix (delete n q).node else (delete n q).node

theorem delete_empty {p : List Nib} {v : Option V} {c : Nib → Node V} (h : isEmpty p v c = true) (q : List Nib) :
    delete (.mk p v c) q = ⟨.mk p v c, false, false, none, 0⟩ := by
  rw [delete, if_pos h]

theorem lookup_clearPrefix {p : List Nib} {c : Nib → Node V} (hc : ∀ i, c i = .nil) (k : List Nib) :
    lookup (clearPrefix (.mk p none c)) k = none :=
  lookup_empty ((isEmpty_iff _ _ _).2 ⟨rfl, rfl, hc⟩) k

theorem lookup_noValue {p : List Nib} {c : Nib → Node V} (hc : ∀ i, c i = .nil) (k : List Nib) :
    lookup (.mk p none c) k = none := by
  rcases query_cases p k with h | rfl | ⟨a, b, rfl⟩
  · exact lookup_not_prefix _ _ h
  · simp
  · simp [hc]

/-- Deletion at the root, for every root: contents, flag and delta. -/
theorem delete_root {n : Node V} (h : WFRoot n) (q : List Nib) :
    WFRoot (afterDelete n q) ∧
    (∀ k, lookup (afterDelete n q) k = if k = reach n q then none else lookup n k) ∧
    (delete n q).changed = (lookup n (reach n q)).isSome ∧
    (delete n q).old = lookup n (reach n q) ∧
    (delete n q).delta = delDelta (lookup n (reach n q)) := by
  cases n with
  | nil => exact h.elim
  | mk p v c =>
    rcases h with h | h
    · rw [afterDelete, delete_empty h]
      refine ⟨Or.inl h, fun k => ?_, ?_, ?_, ?_⟩ <;> simp [lookup_empty h, delDelta]
    · have S := delete_spec (.mk p v c) rfl h q
      refine ⟨?_, ?_, S.changed, S.old, S.delta⟩
      · rw [afterDelete]
        split
        · rename_i hr
          obtain ⟨-, p0, c0, hn, hc0⟩ := S.removed hr
          rw [hn]
          exact Or.inl ((isEmpty_iff _ _ _).2 ⟨rfl, rfl, hc0⟩)
        · rename_i hr
          have := S.kept (by simpa using hr)
          have hs := S.some
          cases hn : (delete (.mk p v c) q).node with
          | nil => rw [hn] at hs; simp [Node.isSome] at hs
          | mk p2 v2 c2 => rw [hn] at this; exact Or.inr this
      · intro k
        rw [← S.look, afterDelete]
        split
        · rename_i hr
          obtain ⟨-, p0, c0, hn, hc0⟩ := S.removed hr
          rw [hn, lookup_clearPrefix hc0, lookup_noValue hc0]
        · rfl

theorem reach_root {n : Node V} (hwf : WFRoot n) {q : List Nib}
    (h : (lookup n q).isSome = true ∨ ∀ k, (lookup n k).isSome = true → q <+: k → k = q) : reach n q = q := by
  cases n with
  | nil => exact hwf.elim
  | mk p v c =>
    rcases hwf with he | hw
    · obtain ⟨rfl, rfl, hc⟩ := (isEmpty_iff _ _ _).1 he
      rw [reach]
      split
      · simp [*]
      · simp
    · exact reach_eq hw h

/-- Two roots that denote the same map differ at most in the representation of nil children: they are equal. -/
theorem canonical_root {n m : Node V} (hn : WFRoot n) (hm : WFRoot m) (h : ∀ k, lookup n k = lookup m k) : n = m := by
  have empty_eq : ∀ {p : List Nib} {v : Option V} {c : Nib → Node V}, isEmpty p v c = true →
      Node.mk p v c = .mk [] none noChild := by
    intro p v c he
    obtain ⟨rfl, rfl, hc⟩ := (isEmpty_iff _ _ _).1 he
    congr 1
    exact funext hc
  have absurd_of : ∀ {p : List Nib} {v : Option V} {c : Nib → Node V} {m : Node V}, WF (.mk p v c) →
      (∀ k, lookup m k = none) → (∀ k, lookup (.mk p v c) k = lookup m k) → False := by
    intro p v c m hw he h
    obtain ⟨q, hq⟩ := hw.nonempty rfl
    rw [h, he] at hq
    simp at hq
  cases n with
  | nil => exact hn.elim
  | mk p v c =>
    cases m with
    | nil => exact hm.elim
    | mk p2 v2 c2 =>
      rcases hn with hn | hn <;> rcases hm with hm | hm
      · rw [empty_eq hn, empty_eq hm]
      · exact (absurd_of hm (lookup_empty hn) (fun k => (h k).symm)).elim
      · exact (absurd_of hn (lookup_empty hm) h).elim
      · exact canonical hn hm h

/-! ### the invariant of a history -/

/-- The tree stores exactly the map `m`. -/
structure Inv (t : MTrie V) (m : Bytes → Option V) : Prop where
  wf : WFRoot t.root
  look : ∀ k, lookup t.root (keyToPrefix k) = m k
  keys : ∀ q, (lookup t.root q).isSome = true → ∃ k, q = keyToPrefix k
  count : ∃ n : Nat, t.count = n ∧ Holds m n

theorem Inv.new : Inv (newTrie (V := V)) (fun _ => none) := by
  have h : ∀ q, lookup (newTrie (V := V)).root q = none :=
    lookup_empty ((isEmpty_iff _ _ _).2 ⟨rfl, rfl, fun _ => rfl⟩)
  refine ⟨WFRoot_new, fun k => h _, fun q hq => ?_, 0, rfl, [], by simp, by simp, rfl⟩
  rw [h] at hq
  simp at hq

theorem Inv.reach {t : MTrie V} {m : Bytes → Option V} (h : Inv t m) {k : Bytes} (hc : Clear m k) :
    reach t.root (keyToPrefix k) = keyToPrefix k := by
  apply reach_root h.wf
  rcases hc with hc | hc
  · left; rw [h.look]; exact hc
  · right
    intro q hq hp
    obtain ⟨k', rfl⟩ := h.keys q hq
    rw [h.look] at hq
    rw [hc k' hq ((keyToPrefix_prefix _ _).1 hp)]

theorem Inv.get {t : MTrie V} {m : Bytes → Option V} (h : Inv t m) {k : Bytes} (hc : Clear m k) : t.get k = m k := by
  rw [MTrie.get, get_eq, h.reach hc, h.look]

theorem Inv.putFlag {t : MTrie V} {m : Bytes → Option V} (h : Inv t m) (k : Bytes) (x : V) : (t.put k x).2 = true :=
  insert_changed _ h.wf.isSome _ _

theorem Inv.delFlag {t : MTrie V} {m : Bytes → Option V} (h : Inv t m) {k : Bytes} (hc : Clear m k) :
    (t.del k).2 = ((m k).isSome, m k) := by
  obtain ⟨-, -, h1, h2, -⟩ := delete_root h.wf (keyToPrefix k)
  rw [MTrie.del]
  simp only
  rw [h1, h2, h.reach hc, h.look]

theorem Holds.put {m : Bytes → Option V} {n : Nat} (h : Holds m n) (k : Bytes) (x : V) :
    Holds (specStep m (.put k x)) (if (m k).isSome then n else n + 1) := by
  obtain ⟨ks, hnd, hmem, hl⟩ := h
  cases hk : (m k).isSome with
  | true =>
    refine ⟨ks, hnd, fun k' => ?_, hl⟩
    rw [hmem, specStep_put]
    split
    · rename_i e; subst e; simp [hk]
    · rfl
  | false =>
    refine ⟨k :: ks, ?_, fun k' => ?_, by simp [hl]⟩
    · refine List.nodup_cons.2 ⟨?_, hnd⟩
      rw [hmem, hk]; simp
    · rw [List.mem_cons, hmem, specStep_put]
      by_cases e : k' = k <;> simp [e]

theorem Holds.del {m : Bytes → Option V} {n : Nat} (h : Holds m n) (k : Bytes) :
    Holds (specStep m (.del k)) (if (m k).isSome then n - 1 else n) ∧ ((m k).isSome = true → 0 < n) := by
  obtain ⟨ks, hnd, hmem, hl⟩ := h
  cases hk : (m k).isSome with
  | false =>
    refine ⟨⟨ks, hnd, fun k' => ?_, hl⟩, by simp⟩
    rw [hmem, specStep_del]
    split
    · rename_i e; subst e; simp [hk]
    · rfl
  | true =>
    have hin := (hmem k).2 hk
    refine ⟨⟨ks.erase k, hnd.erase k, fun k' => ?_, by simp [List.length_erase_of_mem hin, hl]⟩, fun _ => ?_⟩
    · rw [hnd.mem_erase_iff, hmem, specStep_del]
      by_cases e : k' = k <;> simp [e]
    · rw [← hl]; exact List.length_pos_of_mem hin

theorem Inv.step {t : MTrie V} {m : Bytes → Option V} (h : Inv t m) {op : Op V} (hc : Clear m op.key) :
    Inv (t.step op) (specStep m op) := by
  obtain ⟨n, hn, hh⟩ := h.count
  cases op with
  | put k x =>
    have hr := h.reach hc
    simp only [Op.key] at hr
    have hl : ∀ q, lookup (t.step (.put k x)).root q = if q = keyToPrefix k then some x else lookup t.root q := by
      intro q
      have := lookup_insert t.root h.wf.isSome (keyToPrefix k) x q
      rw [hr] at this
      exact this
    refine ⟨WFRoot_insert h.wf _ _, ?_, ?_, ?_⟩
    · intro k'
      rw [hl, specStep_put, h.look]
      by_cases e : k' = k
      · simp [e]
      · rw [if_neg e, if_neg (fun e' => e (keyToPrefix_inj e'))]
    · intro q hq
      rw [hl] at hq
      split at hq
      · exact ⟨k, by assumption⟩
      · exact h.keys q hq
    · refine ⟨_, ?_, hh.put k x⟩
      show t.count + (insert t.root (keyToPrefix k) x).delta = _
      rw [insert_delta _ h.wf.isSome, hr, h.look, putDelta, hn]
      cases (m k).isSome <;> simp
  | del k =>
    have hr := h.reach hc
    simp only [Op.key] at hr
    obtain ⟨hw, hlk, -, -, hd⟩ := delete_root h.wf (keyToPrefix k)
    rw [hr] at hlk hd
    refine ⟨hw, ?_, ?_, ?_⟩
    · intro k'
      show lookup (afterDelete t.root (keyToPrefix k)) _ = _
      rw [hlk, specStep_del, h.look]
      by_cases e : k' = k
      · simp [e]
      · rw [if_neg e, if_neg (fun e' => e (keyToPrefix_inj e'))]
    · intro q hq
      change (lookup (afterDelete t.root (keyToPrefix k)) q).isSome = true at hq
      rw [hlk] at hq
      split at hq
      · simp at hq
      · exact h.keys q hq
    · obtain ⟨h1, h2⟩ := hh.del k
      refine ⟨_, ?_, h1⟩
      show t.count + (delete t.root (keyToPrefix k)).delta = _
      rw [hd, h.look, delDelta, hn]
      cases hk : (m k).isSome with
      | false => simp
      | true =>
        have := h2 hk
        simp
        omega

theorem Inv.run {t : MTrie V} {m : Bytes → Option V} (h : Inv t m) (ops : List (Op V)) (hc : ClearFrom m ops) :
    Inv (t.run ops) (ops.foldl specStep m) := by
  induction ops generalizing t m with
  | nil => exact h
  | cons op ops ih => exact ih (h.step hc.1) hc.2

/-! ### prefix-free key sets -/

theorem PrefixFree.clear {K : Bytes → Prop} (hK : PrefixFree K) {m : Bytes → Option V}
    (hm : ∀ k, (m k).isSome = true → K k) {k : Bytes} (hk : K k) : Clear m k :=
  Or.inr fun k' h' hp => (hK k k' hk (hm k' h') hp).symm

theorem PrefixFree.clearFrom {K : Bytes → Prop} (hK : PrefixFree K) {m : Bytes → Option V}
    (hm : ∀ k, (m k).isSome = true → K k) (ops : List (Op V)) (ho : ∀ op ∈ ops, K op.key) : ClearFrom m ops := by
  induction ops generalizing m with
  | nil => trivial
  | cons op ops ih =>
    refine ⟨hK.clear hm (ho op (by simp)), ih ?_ (fun o h => ho o (by simp [h]))⟩
    have hk := ho op (by simp)
    intro k h
    cases op with
    | put a x =>
      rw [specStep_put] at h
      split at h
      · rename_i e; subst e; exact hk
      · exact hm k h
    | del a =>
      rw [specStep_del] at h
      split at h
      · simp at h
      · exact hm k h

theorem spec_keys {K : Bytes → Prop} (ops : List (Op V)) (ho : ∀ op ∈ ops, K op.key) (m : Bytes → Option V)
    (hm : ∀ k, (m k).isSome = true → K k) : ∀ k, (ops.foldl specStep m k).isSome = true → K k := by
  induction ops generalizing m with
  | nil => exact hm
  | cons op ops ih =>
    apply ih (fun o h => ho o (by simp [h]))
    have hk := ho op (by simp)
    intro k h
    cases op with
    | put a x =>
      rw [specStep_put] at h
      split at h
      · rename_i e; subst e; exact hk
      · exact hm k h
    | del a =>
      rw [specStep_del] at h
      split at h
      · simp at h
      · exact hm k h

/-- The invariant after any history over a prefix-free key set. -/
theorem Inv.of_prefixFree {K : Bytes → Prop} (hK : PrefixFree K) (ops : List (Op V)) (ho : ∀ op ∈ ops, K op.key) :
    Inv ((newTrie (V := V)).run ops) (spec ops) :=
  Inv.new.run ops (hK.clearFrom (by simp) ops ho)

theorem clear_of_prefixFree {K : Bytes → Prop} (hK : PrefixFree K) (ops : List (Op V)) (ho : ∀ op ∈ ops, K op.key)
    {k : Bytes} (hk : K k) : Clear (spec ops) k :=
  hK.clear (spec_keys ops ho _ (by simp)) hk

/-- The invariant after any unambiguous history. -/
theorem Inv.of_clear (ops : List (Op V)) (hc : ClearFrom (fun _ => none) ops) :
    Inv ((newTrie (V := V)).run ops) (spec ops) := Inv.new.run ops hc

end Verif.Trie

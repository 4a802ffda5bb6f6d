import Verif.Trie.History

/-!
# The trie as a map: C01, C02, C05, C06

`spec ops` (in `Verif.Trie.Spec`) is the map a history of calls denotes; `newTrie.run ops` is the modelled trie.
-/

namespace Verif.Trie

variable {V : Type}

/-- Keys of one fixed length. -/
theorem prefixFree_fixed (L : Nat) : PrefixFree (fun k => k.length = L) :=
  fun _ _ ha hb hp => hp.eq_of_length (ha.trans hb.symm)

/-! ## C01 -/

/-- **C01.** Over a prefix-free set of keys, `Get` after any history of `Put` and `Delete` returns what the map holds. -/
theorem C01_get (K : Bytes → Prop) (hK : PrefixFree K) (ops : List (Op V)) (ho : ∀ op ∈ ops, K op.key)
    (k : Bytes) (hk : K k) : ((newTrie (V := V)).run ops).get k = spec ops k :=
  (Inv.of_prefixFree hK ops ho).get (clear_of_prefixFree hK ops ho hk)

/-- **C01**, for keys of one fixed length. -/
theorem C01_get_fixed (L : Nat) (ops : List (Op V)) (ho : ∀ op ∈ ops, op.key.length = L) (k : Bytes)
    (hk : k.length = L) : ((newTrie (V := V)).run ops).get k = spec ops k :=
  C01_get _ (prefixFree_fixed L) ops ho k hk

/-- **C01**, read without the specification's fold: `Get(k)` is the value of the last `Put(k, v)` that no
`Delete(k)` follows. -/
theorem C01_last_put (K : Bytes → Prop) (hK : PrefixFree K) (a b : List (Op V)) (k : Bytes) (x : V)
    (ho : ∀ op ∈ a ++ .put k x :: b, K op.key) (hb : ∀ op ∈ b, op.key ≠ k) :
    ((newTrie (V := V)).run (a ++ .put k x :: b)).get k = some x := by
  rw [C01_get K hK _ ho k (ho (.put k x) (by simp)), spec, List.foldl_append, List.foldl_cons]
  have : ∀ (m : Bytes → Option V), m k = some x → ∀ b : List (Op V), (∀ op ∈ b, op.key ≠ k) →
      b.foldl specStep m k = some x := by
    intro m hm b
    induction b generalizing m with
    | nil => intro _; exact hm
    | cons op b ih =>
      intro hb
      apply ih _ _ (fun o h => hb o (by simp [h]))
      have := hb op (by simp)
      cases op with
      | put a y => rw [specStep_put, if_neg (fun e => this (by rw [e]; rfl))]; exact hm
      | del a => rw [specStep_del, if_neg (fun e => this (by rw [e]; rfl))]; exact hm
  exact this _ (by simp [specStep_put]) b hb

/-- **C01**, absence: a key that was never put, or deleted since, is not found. -/
theorem C01_absent (K : Bytes → Prop) (hK : PrefixFree K) (a b : List (Op V)) (k : Bytes)
    (ho : ∀ op ∈ a ++ .del k :: b, K op.key) (hb : ∀ op ∈ b, op.key ≠ k) :
    ((newTrie (V := V)).run (a ++ .del k :: b)).get k = none := by
  rw [C01_get K hK _ ho k (ho (.del k) (by simp)), spec, List.foldl_append, List.foldl_cons]
  have : ∀ (m : Bytes → Option V), m k = none → ∀ b : List (Op V), (∀ op ∈ b, op.key ≠ k) →
      b.foldl specStep m k = none := by
    intro m hm b
    induction b generalizing m with
    | nil => intro _; exact hm
    | cons op b ih =>
      intro hb
      apply ih _ _ (fun o h => hb o (by simp [h]))
      have := hb op (by simp)
      cases op with
      | put a y => rw [specStep_put, if_neg (fun e => this (by rw [e]; rfl))]; exact hm
      | del a => rw [specStep_del, if_neg (fun e => this (by rw [e]; rfl))]; exact hm
  exact this _ (by simp [specStep_del]) b hb

/-- A history with splits, overwrites and a merge. -/
def demoOps : List (Op Nat) :=
  [.put [0x12, 0x34] 1, .put [0x12, 0x35] 2, .put [0x13, 0x34] 3, .put [0x12, 0x34] 4, .del [0x12, 0x35],
   .del [0x77, 0x77]]

example : (∀ op ∈ demoOps, op.key.length = 2) ∧
    (newTrie.run demoOps).get [0x12, 0x34] = some 4 ∧ (newTrie.run demoOps).get [0x12, 0x35] = none ∧
    (newTrie.run demoOps).get [0x13, 0x34] = some 3 ∧ (newTrie.run demoOps).get [0x13, 0x35] = none := by
  decide +kernel

/-! ## C02 -/

/-- The law of C01 for arbitrary keys. -/
def MapLaw (V : Type) : Prop :=
  ∀ (ops : List (Op V)) (k : Bytes), ((newTrie (V := V)).run ops).get k = spec ops k

/-- **C02 is false of the code**: with `[12 34]` and `[13 34]` stored, `Get([12])` finds the value of `[12 34]`. -/
theorem C02_refuted : ¬ MapLaw Nat := by
  intro h
  have := h [.put [0x12, 0x34] 1, .put [0x13, 0x34] 2] [0x12]
  revert this
  decide +kernel

/-- **C02 refuted for `Put`**: storing `[12]` overwrites `[12 34]`. -/
theorem C02_refuted_put : ∃ ops : List (Op Nat),
    spec ops [0x12, 0x34] = some 1 ∧ (newTrie.run ops).get [0x12, 0x34] = some 9 :=
  ⟨[.put [0x12, 0x34] 1, .put [0x13, 0x34] 2, .put [0x12] 9], by decide +kernel, by decide +kernel⟩

/-- **C02 refuted for `Delete`**: deleting `[12]`, which is not stored, removes `[12 34]`. -/
theorem C02_refuted_del : ∃ ops : List (Op Nat),
    spec ops [0x12, 0x34] = some 1 ∧ (newTrie.run ops).get [0x12, 0x34] = none :=
  ⟨[.put [0x12, 0x34] 1, .put [0x13, 0x34] 2, .del [0x12]], by decide +kernel, by decide +kernel⟩

/-- **C02 refuted for the empty key**: on a trie that holds one key, `Get` of the empty key finds its value. -/
theorem C02_refuted_empty_key : ∃ ops : List (Op Nat), spec ops [] = none ∧ (newTrie.run ops).get [] = some 1 :=
  ⟨[.put [0x12] 1], by decide +kernel, by decide +kernel⟩

/-- **C02, partial.** Keys may be prefixes of one another. The map law holds if every call (and the final query)
addresses a key that is stored at that moment, or that no stored key properly extends. Missing: calls on an absent
key that some stored key properly extends. -/
theorem C02_get_partial (ops : List (Op V)) (hc : ClearFrom (fun _ => none) ops) (k : Bytes) (hk : Clear (spec ops) k) :
    ((newTrie (V := V)).run ops).get k = spec ops k :=
  (Inv.of_clear ops hc).get hk

/-- **C02, partial**: what happens for *every* key and every history. A call on `k` acts on exactly one key, `k`
itself or an extension of it, and on no other: `Get`, `Put` and `Delete` agree on which. -/
theorem C02_one_key_partial (ops : List (Op V)) (k : Bytes) :
    ∃ r : List Nib, keyToPrefix k <+: r ∧
      (let t := (newTrie (V := V)).run ops
       t.get k = lookup t.root r ∧
       (∀ x q, lookup (t.put k x).1.root q = if q = r then some x else lookup t.root q) ∧
       (∀ q, lookup (t.del k).1.root q = if q = r then none else lookup t.root q) ∧
       (t.del k).2 = ((lookup t.root r).isSome, lookup t.root r)) := by
  have hwf : ∀ (ops : List (Op V)) (t : MTrie V), WFRoot t.root → WFRoot (t.run ops).root := by
    intro ops
    induction ops with
    | nil => intro t h; exact h
    | cons op ops ih =>
      intro t h
      apply ih
      cases op with
      | put k x => exact WFRoot_insert h _ _
      | del k => exact (delete_root h _).1
  have h := hwf ops newTrie WFRoot_new
  generalize (newTrie (V := V)).run ops = t at h
  refine ⟨reach t.root (keyToPrefix k), prefix_reach _ _, get_eq _ _, ?_, ?_, ?_⟩
  · intro x q
    exact lookup_insert t.root h.isSome _ x q
  · exact (delete_root h (keyToPrefix k)).2.1
  · obtain ⟨-, -, h1, h2, -⟩ := delete_root h (keyToPrefix k)
    rw [MTrie.del]
    simp only
    rw [h1, h2]


example : ClearFrom (fun _ => none) [Op.put [0x12] 1, .put [0x12, 0x34] 2, .put [0x12] 4] ∧
    (newTrie.run [Op.put [0x12] 1, .put [0x12, 0x34] 2, .put [0x12] 4]).get [0x12] = some 4 ∧
    (newTrie.run [Op.put [0x12] 1, .put [0x12, 0x34] 2, .put [0x12] 4]).get [0x12, 0x34] = some 2 := by
  refine ⟨⟨?_, ?_, ?_, trivial⟩, by decide +kernel, by decide +kernel⟩
  · right; intro k h; simp at h
  · right
    intro k h hp
    rw [specStep_put] at h
    split at h
    · rename_i e
      subst e
      revert hp
      decide
    · simp at h
  · left; decide

/-! ## C05 -/

/-- **C05, `Delete`.** Over a prefix-free key set, `Delete(k)` returns `(true, v)` if `k` holds `v` and
`(false, nil)` if `k` is absent. -/
theorem C05_delete (K : Bytes → Prop) (hK : PrefixFree K) (ops : List (Op V)) (ho : ∀ op ∈ ops, K op.key)
    (k : Bytes) (hk : K k) :
    (((newTrie (V := V)).run ops).del k).2 =
      match spec ops k with | some v => (true, some v) | none => (false, none) := by
  rw [(Inv.of_prefixFree hK ops ho).delFlag (clear_of_prefixFree hK ops ho hk)]
  cases spec ops k <;> rfl

/-- The claim of C05 about `Put`. -/
def PutLaw (V : Type) : Prop :=
  ∀ (ops : List (Op V)) (k : Bytes) (x : V), (∀ op ∈ ops, op.key.length = k.length) →
    ((((newTrie (V := V)).run ops).put k x).2 = true ↔ spec ops k ≠ some x)

/-- **C05 is false for `Put`**: storing the value that is already stored reports a change. -/
theorem C05_put_refuted : ¬ PutLaw Nat := by
  intro h
  have := h [.put [0x12] 1] [0x12] 1 (by decide +kernel)
  revert this
  decide +kernel

/-- **C05, `Put`, partial**: whenever the stored value differs from the new one (and also otherwise), `Put` reports
a change. Missing: it does so even if nothing changed. -/
theorem C05_put_partial (K : Bytes → Prop) (hK : PrefixFree K) (ops : List (Op V)) (ho : ∀ op ∈ ops, K op.key)
    (k : Bytes) (x : V) : (((newTrie (V := V)).run ops).put k x).2 = true :=
  (Inv.of_prefixFree hK ops ho).putFlag k x

example : ((newTrie.run demoOps).del [0x12, 0x34]).2 = (true, some 4) ∧
    ((newTrie.run demoOps).del [0x12, 0x35]).2 = (false, none) := by decide +kernel

/-! ## C06 -/

/-- **C06.** Over a prefix-free key set, `Count` is the number of keys the map holds. -/
theorem C06_count (K : Bytes → Prop) (hK : PrefixFree K) (ops : List (Op V)) (ho : ∀ op ∈ ops, K op.key) :
    ∃ n : Nat, ((newTrie (V := V)).run ops).count = n ∧ Holds (spec ops) n :=
  (Inv.of_prefixFree hK ops ho).count

/-- **C06**, in terms of `Get`: `Count` is the number of keys of the set for which `Get` succeeds. -/
theorem C06_count_get (K : Bytes → Prop) (hK : PrefixFree K) (ops : List (Op V)) (ho : ∀ op ∈ ops, K op.key) :
    ∃ ks : List Bytes, ks.Nodup ∧ ((newTrie (V := V)).run ops).count = ks.length ∧
      ∀ k, K k → (k ∈ ks ↔ (((newTrie (V := V)).run ops).get k).isSome = true) := by
  obtain ⟨n, hn, ks, hnd, hmem, hl⟩ := C06_count K hK ops ho
  refine ⟨ks, hnd, by rw [hn, hl], fun k hk => ?_⟩
  rw [hmem, C01_get K hK ops ho k hk]

example : (newTrie.run demoOps).count = 2 := by decide +kernel

end Verif.Trie

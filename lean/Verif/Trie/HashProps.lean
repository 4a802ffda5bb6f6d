import Verif.Trie.HashLemmas
import Verif.Trie.Props

/-!
# Properties C03, C04, C09, C10: root hashes, proofs of values, existence proofs
-/

namespace Verif.Trie
open Verif Verif.Merkle

variable {V : Type} {H : Bytes → Bytes} {R : Rtl} {vh : V → Bytes}

/-! ### C03 -/

/-- **C03.** Histories over a prefix-free key set that leave the same contents leave the same root hash. -/
theorem C03_root_depends_on_contents (H : Bytes → Bytes) (R : Rtl) (vh : V → Bytes) (K : Bytes → Prop)
    (hK : PrefixFree K) (ops1 ops2 : List (Op V)) (h1 : ∀ op ∈ ops1, K op.key) (h2 : ∀ op ∈ ops2, K op.key)
    (h : ∀ k, K k → spec ops1 k = spec ops2 k) :
    ((newTrie (V := V)).run ops1).hash H R vh = ((newTrie (V := V)).run ops2).hash H R vh := by
  have i1 := Inv.of_prefixFree hK ops1 h1
  have i2 := Inv.of_prefixFree hK ops2 h2
  have hall : ∀ k, spec ops1 k = spec ops2 k := by
    intro k
    by_cases hk : K k
    · exact h k hk
    · have e1 := mt (spec_keys ops1 h1 (fun _ => none) (by simp) k) hk
      have e2 := mt (spec_keys ops2 h2 (fun _ => none) (by simp) k) hk
      simp only [Bool.not_eq_true, Option.isSome_eq_false_iff, Option.isNone_iff_eq_none] at e1 e2
      exact e1.trans e2.symm
  rw [MTrie.hash, MTrie.hash, canonical_root i1.wf i2.wf]
  intro q
  by_cases hq : ∃ k, q = keyToPrefix k
  · obtain ⟨k, rfl⟩ := hq
    rw [i1.look, i2.look, hall]
  · have e1 := mt (i1.keys q) hq
    have e2 := mt (i2.keys q) hq
    simp only [Bool.not_eq_true, Option.isSome_eq_false_iff, Option.isNone_iff_eq_none] at e1 e2
    exact e1.trans e2.symm

/-- **C03.** In particular deleting a freshly added key restores the root hash, and the order of two calls on different
keys does not matter. -/
theorem C03_put_delete_restores (H : Bytes → Bytes) (R : Rtl) (vh : V → Bytes) (K : Bytes → Prop)
    (hK : PrefixFree K) (ops : List (Op V)) (h1 : ∀ op ∈ ops, K op.key) (k : Bytes) (hk : K k) (x : V)
    (hfresh : spec ops k = none) :
    ((newTrie (V := V)).run (ops ++ [.put k x, .del k])).hash H R vh = ((newTrie (V := V)).run ops).hash H R vh := by
  apply C03_root_depends_on_contents H R vh K hK _ _ _ h1
  · intro k' _
    simp only [spec, List.foldl_append, List.foldl_cons, List.foldl_nil, specStep]
    by_cases e : k' = k
    · subst e; simpa [spec] using hfresh.symm
    · simp [e]
  · intro op hop
    simp only [List.mem_append, List.mem_cons, List.not_mem_nil, or_false] at hop
    rcases hop with h | rfl | rfl
    · exact h1 op h
    · exact hk
    · exact hk

theorem C03_order_irrelevant (H : Bytes → Bytes) (R : Rtl) (vh : V → Bytes) (K : Bytes → Prop)
    (hK : PrefixFree K) (ops rest : List (Op V)) (a b : Op V) (hab : a.key ≠ b.key)
    (h1 : ∀ op ∈ ops, K op.key) (h2 : ∀ op ∈ rest, K op.key) (ha : K a.key) (hb : K b.key) :
    ((newTrie (V := V)).run (ops ++ a :: b :: rest)).hash H R vh =
      ((newTrie (V := V)).run (ops ++ b :: a :: rest)).hash H R vh := by
  apply C03_root_depends_on_contents H R vh K hK
  · intro op hop
    simp only [List.mem_append, List.mem_cons] at hop
    rcases hop with h | rfl | rfl | h
    · exact h1 op h
    · exact ha
    · exact hb
    · exact h2 op h
  · intro op hop
    simp only [List.mem_append, List.mem_cons] at hop
    rcases hop with h | rfl | rfl | h
    · exact h1 op h
    · exact hb
    · exact ha
    · exact h2 op h
  · intro k _
    have comm : ∀ m : Bytes → Option V, specStep (specStep m a) b = specStep (specStep m b) a := by
      intro m
      funext k'
      cases a <;> cases b <;> simp only [specStep, Op.key] at hab ⊢ <;> split <;> split <;> simp_all
    simp only [spec, List.foldl_append, List.foldl_cons, comm]

/-! ### C09 -/

/-- **C09.** For every key found in a trie, `GetProof` returns the value and a chain of node proofs that verifies the
hash of the value against the root hash.  (For every trie, hence for every reachable one.) -/
theorem C09_proof_verifies (H : Bytes → Bytes) (hH : ∀ b, (H b).length = 32) (R : Rtl) (vh : V → Bytes)
    (hv : ∀ x, (vh x).length = 32) (t : MTrie V) (key : Bytes) (x : V) (h : t.get key = some x) :
    ∃ c, t.getProof H R vh key = some (x, c) ∧ chainProof H R c (vh x) = some (t.hash H R vh) ∧
      verifyProofChain H R (vh x) c (t.hash H R vh) = true := by
  obtain ⟨L, h1, h2⟩ := proofAlong_value (R := R) hH hv t.root (keyToPrefix key) x h
  have h3 : chainProof H R (proofAlong H R vh proofValue t.root (keyToPrefix key)) (vh x) = some (t.hash H R vh) := by
    rw [chainProof, h1, Option.map_some, h2]; rfl
  refine ⟨_, by rw [MTrie.getProof, h]; rfl, h3, ?_⟩
  rw [verifyProofChain, h3]
  simp

/-- **C09.** On a reachable trie over a prefix-free key set the proved value is the one the map holds, and there is a
proof for every key the map holds. -/
theorem C09_stored_keys (H : Bytes → Bytes) (hH : ∀ b, (H b).length = 32) (R : Rtl) (vh : V → Bytes)
    (hv : ∀ x, (vh x).length = 32) (K : Bytes → Prop) (hK : PrefixFree K) (ops : List (Op V))
    (ho : ∀ op ∈ ops, K op.key) (key : Bytes) (hk : K key) :
    (∀ x, spec ops key = some x → ∃ c, ((newTrie (V := V)).run ops).getProof H R vh key = some (x, c) ∧
      verifyProofChain H R (vh x) c (((newTrie (V := V)).run ops).hash H R vh) = true) ∧
    (spec ops key = none → ((newTrie (V := V)).run ops).getProof H R vh key = none) := by
  have hg := (Inv.of_prefixFree hK ops ho).get (clear_of_prefixFree hK ops ho hk)
  constructor
  · intro x hx
    obtain ⟨c, h1, -, h3⟩ := C09_proof_verifies H hH R vh hv _ key x (hg.trans hx)
    exact ⟨c, h1, h3⟩
  · intro hn
    rw [MTrie.getProof, hg, hn]; rfl

/-! ### C10 -/

theorem headerOf_prefix (p : List Nib) (v : Option V) (c : Nib → Node V) : (headerOf p v c).prefix = p :=
  (C15_header_describes_node p (fun i => (c i).isSome) v.isSome).2.1

theorem headerOf_child (p : List Nib) (v : Option V) (c : Nib → Node V) (i : Nib) :
    (headerOf p v c).hasChild i = (c i).isSome :=
  (C15_header_describes_node p (fun i => (c i).isSome) v.isSome).2.2.1 i

theorem match_full {p : List Nib} (q : List Nib) : p.drop (matchPrefix p (p ++ q)) = [] ∧ (p ++ q).drop (matchPrefix p (p ++ q)) = q := by
  rw [matchPrefix_append]; simp

theorem match_not_prefix {p q : List Nib} (h : ¬ p <+: q) : p.drop (matchPrefix p q) ≠ [] := by
  intro hc
  obtain ⟨h1, h2⟩ := matchPrefix_full hc
  exact h ⟨q.drop (matchPrefix p q), h1.symm⟩

/-- `ExistenceMatch` in terms of the prefix of the node. -/
theorem existenceMatch_cases (n : NodeProof) (q : List Nib)
    (ht : isProofChild n.ptype = true ∨ n.ptype = proofValue ∨ n.ptype = proofExistence) :
    (¬ n.header.prefix <+: q ∧ n.existenceMatch q = .absent) ∨
    (q = n.header.prefix ∧ n.existenceMatch q = n.exact) ∨
    (∃ i q', q = n.header.prefix ++ i :: q' ∧ n.existenceMatch q = n.descend (i :: q')) := by
  have hg : (!isProofChild n.ptype && n.ptype ≠ proofValue && n.ptype ≠ proofExistence) = false := by
    rcases ht with h | h | h <;> simp [h]
  rcases query_cases n.header.prefix q with h | h | ⟨i, q', h⟩
  · left
    refine ⟨h, ?_⟩
    have hp : n.header.prefix ≠ [] := by intro hc; rw [hc] at h; simp at h
    rw [NodeProof.existenceMatch, hg]
    simp only [Bool.false_eq_true, if_false, hp, match_not_prefix h, ne_eq, not_false_eq_true, if_true]
    split <;> rfl
  · right; left
    refine ⟨h, ?_⟩
    rw [NodeProof.existenceMatch, hg, h]
    simp only [Bool.false_eq_true, if_false]
    by_cases hp : n.header.prefix = []
    · simp [hp]
    · have := match_full (p := n.header.prefix) []
      rw [List.append_nil] at this
      simp [hp, this.1]
  · right; right
    refine ⟨i, q', h, ?_⟩
    rw [NodeProof.existenceMatch, hg, h]
    have hne : n.header.prefix ++ i :: q' ≠ [] := by simp
    simp only [Bool.false_eq_true, if_false, hne]
    by_cases hp : n.header.prefix = []
    · simp [hp]
    · obtain ⟨h1, h2⟩ := match_full (p := n.header.prefix) (i :: q')
      simp only [hp, if_false, h1, ne_eq, not_true_eq_false, h2, List.cons_ne_nil]

theorem get_next {p : List Nib} {v : Option V} {c : Nib → Node V} (i : Nib) (q' : List Nib) {t : UInt8}
    (hi : (c i).isSome = true) :
    proofAlong H R vh t (.mk p v c) (p ++ i :: q') =
      proofAlong H R vh t (c i) q' ++ nodeProof H R vh (nibByte i) (.mk p v c) := by
  have hne : p ++ i :: q' ≠ [] := by simp
  have he : isEmpty p v c = false := by
    cases h : isEmpty p v c with
    | false => rfl
    | true =>
      obtain ⟨-, -, hc⟩ := (isEmpty_iff _ _ _).1 h
      rw [hc i] at hi; simp [Node.isSome] at hi
  obtain ⟨h1, h2⟩ := match_full (p := p) (i :: q')
  rw [proofAlong]
  simp only [hne, if_false, he, Bool.false_eq_true, h1, if_true, h2, hi]

theorem get_last {p : List Nib} {v : Option V} {c : Nib → Node V} (q : List Nib) {t : UInt8}
    (h : ∀ i q', q = p ++ i :: q' → (c i).isSome = false) :
    proofAlong H R vh t (.mk p v c) q = nodeProof H R vh t (.mk p v c) := by
  rw [proofAlong]
  split
  · rfl
  · split
    · rfl
    · simp only
      split
      · rename_i hp
        obtain ⟨h1, -⟩ := matchPrefix_full hp
        cases hd : q.drop (matchPrefix p q) with
        | nil => rfl
        | cons i q' =>
          rw [hd] at h1
          simp [h i q' h1]
      · rfl

theorem child_header {p : List Nib} {v : Option V} {c : Nib → Node V} (t : UInt8) (n : NodeProof)
    (h : nodeProof H R vh t (.mk p v c) = [n]) : n.header = headerOf p v c ∧ n.ptype = t ∧
      (t ≠ proofValue → n.valueHash = valueHashOf vh v) := by
  simp only [nodeProof, makeProof, newNodeProof, List.cons.injEq, and_true] at h
  subst h
  exact ⟨rfl, rfl, fun ht => by simp [ht]⟩

/-- The existence proof of a key decides it. -/
theorem exist_along (hH : ∀ b, (H b).length = 32) (hv : ∀ x, (vh x).length = 32) (n : Node V) (hs : n.isSome = true)
    (q : List Nib) (hwf : WF n ∨ (q ≠ [] ∧ WFRoot n))
    (hq : (lookup n q).isSome = true ∨ ∀ k, (lookup n k).isSome = true → ¬ q <+: k) :
    existDown (proofAlong H R vh proofExistence n q).reverse q = some ((lookup n q).map vh) := by
  induction n generalizing q with
  | nil => simp [Node.isSome] at hs
  | mk p v c ih =>
    by_cases hnext : ∃ i q', q = p ++ i :: q' ∧ (c i).isSome = true
    · obtain ⟨i, q', rfl, hi⟩ := hnext
      have hwf' : WF (.mk p v c) := by
        rcases hwf with h | ⟨-, h⟩
        · exact h
        · rcases h with h | h
          · obtain ⟨-, -, hc⟩ := (isEmpty_iff _ _ _).1 h
            rw [hc i] at hi; simp [Node.isSome] at hi
          · exact h
      rw [get_next i q' hi]
      obtain ⟨m, -, hm, -⟩ := child_proof (R := R) (vh := vh) hH (p := p) (v := v) hi
      obtain ⟨e1, e2, e3⟩ := child_header _ m hm
      rw [hm, List.reverse_append, List.reverse_singleton, List.singleton_append, existDown]
      have hmatch : m.existenceMatch (p ++ i :: q') = .next q' := by
        have hch : isProofChild m.ptype = true := by rw [e2]; exact isProofChild_nib i
        rcases existenceMatch_cases m (p ++ i :: q') (Or.inl hch) with ⟨h, -⟩ | ⟨h, -⟩ | ⟨j, r, h, h'⟩
        · rw [e1, headerOf_prefix] at h; exact absurd ⟨i :: q', rfl⟩ h
        · rw [e1, headerOf_prefix] at h; simp at h
        · rw [e1, headerOf_prefix] at h
          obtain ⟨rfl, rfl⟩ : i = j ∧ q' = r := by simpa using h
          rw [h', NodeProof.descend, e1, headerOf_child, hi, hch, e2]
          simp
      rw [hmatch]
      simp only
      have hl : ∀ r, lookup (.mk p v c) (p ++ i :: r) = lookup (c i) r := fun r => by rw [lookup_mk]
      rw [hl]
      apply ih i hi q' (Or.inl (hwf'.2 i))
      rcases hq with h | h
      · left; rwa [hl] at h
      · right
        intro k hk hpre
        apply h (p ++ i :: k) (by rwa [hl])
        simpa using hpre
    · have hlast : ∀ i q', q = p ++ i :: q' → (c i).isSome = false := by
        intro i q' e
        cases hc : (c i).isSome with
        | false => rfl
        | true => exact absurd ⟨i, q', e, hc⟩ hnext
      rw [get_last q hlast]
      obtain ⟨m, hm, -, e2, e1, e3⟩ := existence_proof (R := R) (vh := vh) hH p v c
      rw [hm, List.reverse_singleton, existDown]
      rcases existenceMatch_cases m q (Or.inr (Or.inr e2)) with ⟨h, h'⟩ | ⟨h, h'⟩ | ⟨j, r, h, h'⟩
      · rw [e1, headerOf_prefix] at h
        rw [h', lookup_not_prefix _ _ h]; rfl
      · rw [e1, headerOf_prefix] at h
        subst h
        have hne : proofExistence ≠ proofValue := by decide
        have hlk : lookup (.mk q v c) q = v := by simp
        rw [h', NodeProof.exact, e2, e3, hlk]
        cases v with
        | some x => simp [hne, valueHashOf, toHash_of_len (hv x)]
        | none =>
          exfalso
          rcases hq with h | h
          · rw [hlk] at h; simp at h
          · have hwf' : WF (.mk q none c) := by
              rcases hwf with h | ⟨hne, h⟩
              · exact h
              · rcases h with h | h
                · exact absurd ((isEmpty_iff _ _ _).1 h).1 hne
                · exact h
            obtain ⟨k, hk⟩ := hwf'.nonempty rfl
            apply h k hk
            by_contra hnp
            rw [lookup_not_prefix _ _ hnp] at hk
            simp at hk
      · rw [e1, headerOf_prefix] at h
        subst h
        rw [h', NodeProof.descend, e1, headerOf_child, hlast j r rfl, lookup_mk]
        simp only [(isSome_false _).1 (hlast j r rfl), lookup]
        simp

/-- **C10.** On a reachable trie over a prefix-free key set, the existence proof of any non-empty key of the set hashes to
the root hash and decides the key. -/
theorem C10_existence_complete (H : Bytes → Bytes) (hH : ∀ b, (H b).length = 32) (R : Rtl) (vh : V → Bytes)
    (hv : ∀ x, (vh x).length = 32) (K : Bytes → Prop) (hK : PrefixFree K) (ops : List (Op V))
    (ho : ∀ op ∈ ops, K op.key) (key : Bytes) (hk : K key) (hne : key ≠ []) :
    let t := (newTrie (V := V)).run ops
    let r := t.getExistence H R vh key
    r.1 = (spec ops key).isSome ∧ existenceHash H R r.2 = some (t.hash H R vh) ∧
      exist r.2 (keyToPrefix key) = some ((spec ops key).map vh) ∧
      isExist r.2 key = some (spec ops key).isSome := by
  have i1 := Inv.of_prefixFree hK ops ho
  have hclear := clear_of_prefixFree hK ops ho hk
  have hx : exist (((newTrie (V := V)).run ops).getExistence H R vh key).2 (keyToPrefix key) =
      some ((spec ops key).map vh) := by
    have hne' : keyToPrefix key ≠ [] := by
      intro hc
      have := keyToPrefix_length key
      rw [hc] at this
      simp only [List.length_nil] at this
      exact hne (List.length_eq_zero_iff.1 (by omega))
    have := exist_along (H := H) (R := R) (vh := vh) hH hv ((newTrie (V := V)).run ops).root i1.wf.isSome (keyToPrefix key)
      (Or.inr ⟨hne', i1.wf⟩) (by
        rw [i1.look]
        cases hs : (spec ops key).isSome with
        | true => left; rfl
        | false =>
          right
          intro q hq hpre
          obtain ⟨k', rfl⟩ := i1.keys q hq
          rw [i1.look] at hq
          have hp := (keyToPrefix_prefix _ _).1 hpre
          have := hK key k' hk (spec_keys ops ho (fun _ => none) (by simp) k' hq) hp
          subst this
          have hq' : (spec ops key).isSome = true := hq
          rw [hs] at hq'
          exact absurd hq' (by simp))
    rw [i1.look] at this
    exact this
  refine ⟨?_, ?_, hx, ?_⟩
  · show (MTrie.get _ key).isSome = _
    rw [i1.get hclear]
  · exact proofAlong_existence hH _ i1.wf.isSome _
  · have hl : ¬ key.length = 0 := by simpa using hne
    rw [isExist, if_neg hl, hx]
    simp

/-! ### Concrete cases -/

/-- Three two-byte keys, two of which share three nibbles. -/
def proofDemo : MTrie Bytes :=
  (newTrie (V := Bytes)).run [.put [0x12, 0x34] [1], .put [0x12, 0x35] [2], .put [0x13, 0x34] [3], .del [0x13, 0x34]]

/-- A stand-in for the hash of values. -/
def demoVh (v : Bytes) : Bytes := toyH (7 :: v)

example : (proofDemo.getProof toyH toyRtl demoVh [0x12, 0x35]).map (fun r => (r.1, r.2.length)) = some ([2], 2) := by
  decide +kernel

example : proofDemo.hash toyH toyRtl demoVh =
    ((newTrie (V := Bytes)).run [.put [0x12, 0x35] [2], .put [0x12, 0x34] [1]]).hash toyH toyRtl demoVh := by
  decide +kernel

example : proofDemo.hash toyH toyRtl demoVh ≠
    ((newTrie (V := Bytes)).run [.put [0x12, 0x35] [2], .put [0x12, 0x34] [9]]).hash toyH toyRtl demoVh := by
  decide +kernel

example : isExist (proofDemo.getExistence toyH toyRtl demoVh [0x12, 0x35]).2 [0x12, 0x35] = some true ∧
    isExist (proofDemo.getExistence toyH toyRtl demoVh [0x12, 0x36]).2 [0x12, 0x36] = some false := by
  decide +kernel

end Verif.Trie

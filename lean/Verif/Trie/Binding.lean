import Verif.Trie.HashProps

/-!
# Properties C04 and C11: what a root hash commits to, and what an existence proof shows
-/

namespace Verif.Trie
open Verif Verif.Merkle

variable {V : Type}

/-! ### Vocabulary of the statements -/

/-- The depth of the Merkle tree over `n` children. -/
def depthOf (n : Nat) : Nat := growDepth 2 1 n

/-- Everything the hash of a tree feeds to the digest. -/
def inputs (H : Bytes → Bytes) (R : Rtl) (vh : V → Bytes) : Node V → List Bytes
  | .nil => []
  | .mk p v c =>
    (headerOf p v c).ser R :: ((headerOf p v c).hash H R ++ orNil H (valueHashOf vh v)) ::
      (if hasChildren c then
        (leftHash H R vh p v c ++ (merkleHashComplete H (childHashes H R vh c) (-1) none).1) ::
          (minputs H (depthOf (childIds c).length) (leaves (H []) (childHashes H R vh c)) ++
            (childIds c).flatMap fun i => inputs H R vh (c i))
      else [])

/-- No header of the tree serializes to exactly 64 bytes.  (A 64-byte header could be confused with the pair of hashes
that make up the left part of a node hash.) -/
def No64 (R : Rtl) : Node V → Prop
  | .nil => True
  | .mk p v c => ((headerOf p v c).ser R).length ≠ 64 ∧ ∀ i, No64 R (c i)

/-- The tree with every value replaced by its hash. -/
def hashed (vh : V → Bytes) : Node V → Node Bytes
  | .nil => .nil
  | .mk p v c => .mk p (v.map vh) fun i => hashed vh (c i)

variable {H : Bytes → Bytes} {R : Rtl} {vh : V → Bytes}

theorem hashed_isSome (n : Node V) : (hashed vh n).isSome = n.isSome := by
  cases n <;> rfl

theorem depthOf_spec (n : Nat) : IsDepth n (depthOf n) := by
  obtain ⟨d, hd⟩ := exists_depth n
  have := growDepth_spec d n hd 1 (by omega) hd.1
  rw [show (2 : Nat) ^ 1 = 2 from rfl] at this
  rw [depthOf, this]
  exact hd

theorem _root_.Verif.Merkle.Collision.mono {xs ys xs' ys' : List Bytes} (h : Collision H xs ys) (h1 : ∀ x ∈ xs, x ∈ xs')
    (h2 : ∀ y ∈ ys, y ∈ ys') : Collision H xs' ys' := by
  obtain ⟨x, hx, y, hy, hne, he⟩ := h
  exact ⟨x, h1 x hx, y, h2 y hy, hne, he⟩

/-- Two equal digests: the inputs are equal or collide. -/
theorem same_or_collision {a b : Bytes} (h : H a = H b) : a = b ∨ Collision H [a] [b] := by
  by_cases e : a = b
  · exact Or.inl e
  · exact Or.inr ⟨a, by simp, b, by simp, e, h⟩

theorem pair_or_collision {a b a' b' : Bytes} (hl : a.length = a'.length) (h : H (a ++ b) = H (a' ++ b')) :
    (a = a' ∧ b = b') ∨ Collision H [a ++ b] [a' ++ b'] := by
  rcases same_or_collision h with e | e
  · exact Or.inl (List.append_inj e hl)
  · exact Or.inr e

theorem orNil_len (hH : ∀ b, (H b).length = 32) {v : Option Bytes} (h : ∀ x, v = some x → x.length = 32) :
    (orNil H v).length = 32 := by
  cases v with
  | none => exact hH []
  | some x => exact h x rfl

theorem toHash_len (b : Bytes) : (toHash b).length = 32 := by
  rw [toHash]
  split <;> simp <;> omega

theorem valueHashOf_len (v : Option V) (x : Bytes) (h : valueHashOf vh v = some x) : x.length = 32 := by
  cases v with
  | none => simp [valueHashOf] at h
  | some y =>
    simp only [valueHashOf, Option.map_some, Option.some.injEq] at h
    subst h; exact toHash_len _

/-! ### Headers with the same serialization -/

/-- A header without the parts that are not serialized. -/
def Header.norm (h : Header) : Header :=
  ⟨h.nt, if ntHasPrefix h.nt then h.keyString else [], if ntHasChildren h.nt then h.flag0 else 0,
    if ntHasChildren h.nt then h.flag1 else 0⟩

theorem Header.norm_normal (h : Header) : h.norm.Normal := by
  constructor
  · intro hp
    simp only [norm] at hp ⊢
    simp [hp]
  · intro hp
    simp only [norm] at hp ⊢
    simp [hp]

theorem Header.norm_ser (h : Header) : h.norm.ser R = h.ser R := by
  by_cases h1 : ntHasPrefix h.nt = true <;> by_cases h2 : ntHasChildren h.nt = true <;> simp [ser, norm, h1, h2]

theorem Header.norm_prefix (h : Header) : h.norm.prefix = h.prefix := by
  by_cases h1 : ntHasPrefix h.nt = true <;> simp [Header.prefix, norm, keystringToPrefix, h1]

theorem Header.norm_hasChild (h : Header) (i : Nib) : h.norm.hasChild i = h.hasChild i := by
  by_cases h1 : ntHasChildren h.nt = true <;> simp [hasChild, norm, h1]

theorem same_header (hR : R.Lawful) {h h' : Header} (e : h.ser R = h'.ser R) :
    h.nt = h'.nt ∧ h.prefix = h'.prefix ∧ ∀ i, h.hasChild i = h'.hasChild i := by
  have e' : h.norm.ser R ++ [] = h'.norm.ser R ++ [] := by rw [h.norm_ser, h'.norm_ser, e]
  have hn := (C15_injective R hR _ _ h.norm_normal h'.norm_normal [] [] e').1
  refine ⟨?_, ?_, ?_⟩
  · have : h.norm.nt = h'.norm.nt := by rw [hn]
    exact this
  · rw [← h.norm_prefix, hn, h'.norm_prefix]
  · intro i
    rw [← h.norm_hasChild, hn, h'.norm_hasChild]

theorem headerOf_hasValue (p : List Nib) (v : Option V) (c : Nib → Node V) :
    ntHasValue (headerOf p v c).nt = v.isSome :=
  (C15_header_describes_node p (fun i => (c i).isSome) v.isSome).2.2.2.1

theorem childIds_congr {W : Type} {c : Nib → Node V} {c' : Nib → Node W} (h : ∀ i, (c i).isSome = (c' i).isSome) :
    childIds c = childIds c' := by
  simp only [childIds, h]

/-! ### C04 -/

/-- Two trees with the same hash agree, with values replaced by their hashes, or two digest inputs collide. -/
theorem nodeHash_binding (hH : ∀ b, (H b).length = 32) (hv : ∀ x, (vh x).length = 32) (hR : R.Lawful)
    (n m : Node V) (hn : No64 R n) (hm : No64 R m) (hs : n.isSome = true) (hs' : m.isSome = true)
    (h : nodeHash H R vh n = nodeHash H R vh m) :
    hashed vh n = hashed vh m ∨ Collision H (inputs H R vh n) (inputs H R vh m) := by
  induction n generalizing m with
  | nil => simp [Node.isSome] at hs
  | mk p v c ih =>
    cases m with
    | nil => simp [Node.isSome] at hs'
    | mk p' v' c' =>
      have hh : ((headerOf p v c).hash H R).length = 32 := hH _
      have hh' : ((headerOf p' v' c').hash H R).length = 32 := hH _
      have hlen : ((headerOf p v c).hash H R).length = ((headerOf p' v' c').hash H R).length := by rw [hh, hh']
      -- the same left part determines header and value
      have left : leftHash H R vh p v c = leftHash H R vh p' v' c' →
          (p = p' ∧ v.map vh = v'.map vh ∧ ∀ i, (c i).isSome = (c' i).isSome) ∨
            Collision H (inputs H R vh (.mk p v c)) (inputs H R vh (.mk p' v' c')) := by
        intro e
        rcases pair_or_collision hlen e with ⟨e1, e2⟩ | hc
        · rcases same_or_collision e1 with e3 | hc
          · obtain ⟨f1, f2, f3⟩ := same_header hR e3
            refine Or.inl ⟨?_, ?_, ?_⟩
            · rwa [headerOf_prefix, headerOf_prefix] at f2
            · have f4 := congrArg ntHasValue f1
              rw [headerOf_hasValue, headerOf_hasValue] at f4
              cases v with
              | none => cases v' with
                | none => rfl
                | some y => simp at f4
              | some x => cases v' with
                | none => simp at f4
                | some y =>
                  simp only [valueHashOf, orNil, Option.map_some, Option.getD_some, toHash_of_len (hv _)] at e2
                  simp [e2]
            · intro i
              have := f3 i
              rwa [headerOf_child, headerOf_child] at this
          · refine Or.inr (hc.mono ?_ ?_) <;> simp [inputs]
        · refine Or.inr (hc.mono ?_ ?_) <;> simp [inputs]
      rw [nodeHash_mk, nodeHash_mk] at h
      cases hc : hasChildren c with
      | false =>
        cases hc' : hasChildren c' with
        | false =>
          simp only [hc, hc', Bool.false_eq_true, if_false] at h
          rcases left h with ⟨rfl, e2, e3⟩ | hcol
          · left
            rw [hashed, hashed, e2]
            congr 1
            funext i
            rw [(hasChildren_false c).1 hc i, (hasChildren_false c').1 hc' i]
          · exact Or.inr hcol
        | true =>
          simp only [hc, hc', Bool.false_eq_true, if_false, if_true] at h
          right
          rcases pair_or_collision (H := H) (by rw [hh]; exact (hH _).symm) h with ⟨e1, e2⟩ | hcol
          · refine ⟨(headerOf p v c).ser R, by simp [inputs],
              (headerOf p' v' c').hash H R ++ orNil H (valueHashOf vh v'), by simp [inputs], ?_, e1⟩
            intro e
            apply hn.1
            rw [e, List.length_append, hh', orNil_len hH (valueHashOf_len v')]
          · exact hcol.mono (by simp [inputs]) (by simp [inputs, hc'])
      | true =>
        cases hc' : hasChildren c' with
        | false =>
          simp only [hc, hc', Bool.false_eq_true, if_false, if_true] at h
          right
          rcases pair_or_collision (H := H) (by rw [hh']; exact (hH _)) h with ⟨e1, e2⟩ | hcol
          · refine ⟨(headerOf p v c).hash H R ++ orNil H (valueHashOf vh v), by simp [inputs],
              (headerOf p' v' c').ser R, by simp [inputs], ?_, e1⟩
            intro e
            apply hm.1
            rw [← e, List.length_append, hh, orNil_len hH (valueHashOf_len v)]
          · exact hcol.mono (by simp [inputs, hc]) (by simp [inputs])
        | true =>
          simp only [hc, hc', if_true] at h
          rcases pair_or_collision (H := H) (by rw [leftHash, leftHash, hashPair, hashPair, hH, hH]) h with
            ⟨e1, e2⟩ | hcol
          · rcases left e1 with ⟨rfl, e3, e4⟩ | hcol
            · have hids := childIds_congr e4
              have hl1 : (childHashes H R vh c).length = (childIds c).length := by simp [childHashes]
              have hl2 : (childHashes H R vh c').length = (childIds c).length := by simp [childHashes, hids]
              rcases C29_complete_binding H hH _ _ (childHashes_len hH c) (childHashes_len hH c')
                (hl1.trans hl2.symm) (depthOf (childIds c).length) (hl1 ▸ depthOf_spec _) e2 with e5 | hcol
              · -- compare the children one by one
                have each : ∀ i, (c i).isSome = true → nodeHash H R vh (c i) = nodeHash H R vh (c' i) := by
                  intro i hi
                  have e6 : (childIds c).map (fun i => nodeHash H R vh (c i)) =
                      (childIds c).map (fun i => nodeHash H R vh (c' i)) := by
                    have : childHashes H R vh c' = (childIds c).map (fun i => nodeHash H R vh (c' i)) := by
                      rw [childHashes, hids]
                    rw [← this]; exact e5
                  exact List.map_inj_left.1 e6 i ((mem_childIds c i).2 hi)
                by_cases hall : ∀ i, hashed vh (c i) = hashed vh (c' i)
                · left
                  rw [hashed, hashed, e3]
                  congr 1
                  funext i
                  exact hall i
                · right
                  obtain ⟨i, hi⟩ := not_forall.1 hall
                  have his : (c i).isSome = true := by
                    cases hs1 : (c i).isSome with
                    | true => rfl
                    | false =>
                      have hs2 := e4 i
                      rw [hs1] at hs2
                      rw [(isSome_false _).1 hs1, (isSome_false _).1 hs2.symm] at hi
                      exact absurd rfl hi
                  have his' : (c' i).isSome = true := by rw [← e4]; exact his
                  rcases ih i (c' i) (hn.2 i) (hm.2 i) his his' (each i his) with e | hcol
                  · exact absurd e hi
                  · refine hcol.mono ?_ ?_
                    · intro x hx
                      simp only [inputs, hc, if_true, List.mem_cons, List.mem_append, List.mem_flatMap]
                      exact Or.inr (Or.inr (Or.inr (Or.inr ⟨i, (mem_childIds c i).2 his, hx⟩)))
                    · intro x hx
                      simp only [inputs, hc', if_true, List.mem_cons, List.mem_append, List.mem_flatMap]
                      exact Or.inr (Or.inr (Or.inr (Or.inr ⟨i, (mem_childIds c' i).2 his', hx⟩)))
              · right
                refine hcol.mono ?_ ?_
                · intro x hx
                  simp only [inputs, hc, if_true, List.mem_cons, List.mem_append]
                  exact Or.inr (Or.inr (Or.inr (Or.inl hx)))
                · intro x hx
                  simp only [inputs, hc', if_true, List.mem_cons, List.mem_append, ← hids]
                  exact Or.inr (Or.inr (Or.inr (Or.inl hx)))
            · exact Or.inr hcol
          · exact Or.inr (hcol.mono (by simp [inputs, hc]) (by simp [inputs, hc']))

theorem lookup_hashed (n : Node V) (q : List Nib) : lookup (hashed vh n) q = (lookup n q).map vh := by
  induction n generalizing q with
  | nil => simp [hashed, lookup]
  | mk p v c ih =>
    rw [hashed]
    rcases query_cases p q with h | rfl | ⟨i, q', rfl⟩
    · rw [lookup_not_prefix _ _ h, lookup_not_prefix _ _ h]; rfl
    · have e1 := lookup_mk q (v.map vh) (fun i => hashed vh (c i)) []
      have e2 := lookup_mk q v c []
      rw [List.append_nil] at e1 e2
      rw [e1, e2]
    · rw [lookup_mk, lookup_mk]
      exact ih i q'

/-- **C04.** Two tries reached over prefix-free key sets whose root hashes are equal hold the same keys with the same value
hashes, or the two hash computations contain two different digest inputs with the same digest.  The side condition
excludes headers of exactly 64 serialized bytes. -/
theorem C04_root_binding (H : Bytes → Bytes) (hH : ∀ b, (H b).length = 32) (R : Rtl) (hR : R.Lawful) (vh : V → Bytes)
    (hv : ∀ x, (vh x).length = 32) (K : Bytes → Prop) (hK : PrefixFree K) (ops1 ops2 : List (Op V))
    (h1 : ∀ op ∈ ops1, K op.key) (h2 : ∀ op ∈ ops2, K op.key)
    (n1 : No64 R ((newTrie (V := V)).run ops1).root) (n2 : No64 R ((newTrie (V := V)).run ops2).root)
    (h : ((newTrie (V := V)).run ops1).hash H R vh = ((newTrie (V := V)).run ops2).hash H R vh) :
    (∀ k, (spec ops1 k).map vh = (spec ops2 k).map vh) ∨
      Collision H (inputs H R vh ((newTrie (V := V)).run ops1).root) (inputs H R vh ((newTrie (V := V)).run ops2).root) := by
  have i1 := Inv.of_prefixFree hK ops1 h1
  have i2 := Inv.of_prefixFree hK ops2 h2
  rcases nodeHash_binding hH hv hR _ _ n1 n2 i1.wf.isSome i2.wf.isSome h with e | e
  · left
    intro k
    rw [← i1.look, ← i2.look, ← lookup_hashed, ← lookup_hashed, e]
  · exact Or.inr e

/-- The prefixes of all nodes of a tree are at most `b` nibbles long. -/
def Shallow (b : Nat) : Node V → Prop
  | .nil => True
  | .mk p _ c => p.length ≤ b ∧ ∀ i, Shallow b (c i)

theorem shallow_of_keys {n : Node V} (hwf : WF n) {b : Nat} (h : ∀ q, (lookup n q).isSome = true → q.length ≤ b) :
    Shallow b n := by
  induction n generalizing b with
  | nil => trivial
  | mk p v c ih =>
    constructor
    · obtain ⟨q, hq⟩ := hwf.nonempty rfl
      have hp : p <+: q := by
        by_contra hc
        rw [lookup_not_prefix _ _ hc] at hq
        simp at hq
      exact Nat.le_trans hp.length_le (h q hq)
    · intro i
      apply ih i (hwf.2 i)
      intro q hq
      have := h (p ++ i :: q) (by rw [lookup_mk]; exact hq)
      simp at this
      omega

theorem packNibbles_len (n : Nat) : ∀ p : Bytes, p.length ≤ n → 2 * (packNibbles p).length ≤ p.length := by
  induction n using Nat.strongRecOn with
  | _ n ih =>
    intro p hp
    match p with
    | [] => simp [packNibbles]
    | [a] => simp [packNibbles]
    | a :: b :: r =>
      simp only [List.length_cons] at hp
      have := ih (n - 2) (by omega) r (by omega)
      simp only [packNibbles, List.length_cons]
      omega

theorem prefixToKeystring_len (p : Bytes) : 2 * (prefixToKeystring p).length ≤ p.length := by
  rw [prefixToKeystring]
  split
  · simp
  · split
    · have := packNibbles_len _ (p.drop 1) (Nat.le_refl _)
      simp only [List.length_drop] at this
      omega
    · exact packNibbles_len _ p (Nat.le_refl _)

theorem no64_of_shallow {b : Nat} (hlen : ∀ k : Bytes, 2 * k.length ≤ b → (R.enc k).length ≤ 60) {n : Node V}
    (h : Shallow b n) : No64 R n := by
  induction n with
  | nil => trivial
  | mk p v c ih =>
    refine ⟨?_, fun i => ih i (h.2 i)⟩
    have hk : 2 * (headerOf p v c).keyString.length ≤ b := by
      simp only [headerOf, newHeader]
      split
      · have := prefixToKeystring_len (p.map nibByte)
        rw [List.length_map] at this
        have := h.1
        omega
      · simp
    have := hlen _ hk
    rw [Header.ser]
    simp only [List.length_append, List.length_singleton]
    have e1 : (if ntHasPrefix (headerOf p v c).nt = true then R.enc (headerOf p v c).keyString else []).length ≤ 60 := by
      split
      · exact this
      · simp
    have e2 : (if ntHasChildren (headerOf p v c).nt = true then [(headerOf p v c).flag0, (headerOf p v c).flag1] else []).length ≤ 2 := by
      split <;> simp
    omega

/-- **C04.** For keys of one fixed length `len` for which go-rtl encodes byte strings of up to `len` bytes in at most 60
bytes (32-byte keys take 33 or 34), no side condition on the tries is needed. -/
theorem C04_root_binding_fixed (H : Bytes → Bytes) (hH : ∀ b, (H b).length = 32) (R : Rtl) (hR : R.Lawful)
    (vh : V → Bytes) (hv : ∀ x, (vh x).length = 32) (len : Nat)
    (hlen : ∀ k : Bytes, k.length ≤ len → (R.enc k).length ≤ 60) (ops1 ops2 : List (Op V))
    (h1 : ∀ op ∈ ops1, op.key.length = len) (h2 : ∀ op ∈ ops2, op.key.length = len)
    (h : ((newTrie (V := V)).run ops1).hash H R vh = ((newTrie (V := V)).run ops2).hash H R vh) :
    (∀ k, (spec ops1 k).map vh = (spec ops2 k).map vh) ∨
      Collision H (inputs H R vh ((newTrie (V := V)).run ops1).root) (inputs H R vh ((newTrie (V := V)).run ops2).root) := by
  have key : ∀ ops : List (Op V), (∀ op ∈ ops, op.key.length = len) → No64 R ((newTrie (V := V)).run ops).root := by
    intro ops ho
    have i := Inv.of_prefixFree (prefixFree_fixed len) ops ho
    have hk : ∀ q, (lookup ((newTrie (V := V)).run ops).root q).isSome = true → q.length ≤ 2 * len := by
      intro q hq
      obtain ⟨k, rfl⟩ := i.keys q hq
      rw [i.look] at hq
      have := spec_keys (K := fun k => k.length = len) ops ho (fun _ => none) (by simp) k hq
      rw [keyToPrefix_length, this]
      omega
    have hsh : ∀ n : Node V, WFRoot n → (∀ q, (lookup n q).isSome = true → q.length ≤ 2 * len) → Shallow (2 * len) n := by
      intro n hw hq
      cases n with
      | nil => trivial
      | mk p v c =>
        rcases hw with hw | hw
        · obtain ⟨rfl, rfl, hc⟩ := (isEmpty_iff _ _ _).1 hw
          refine ⟨by simp, fun i => ?_⟩
          rw [hc i]; trivial
        · exact shallow_of_keys hw hq
    exact no64_of_shallow (b := 2 * len) (fun k hk => hlen k (by omega)) (hsh _ i.wf hk)
  exact C04_root_binding H hH R hR vh hv _ (prefixFree_fixed len) ops1 ops2 h1 h2 (key _ h1) (key _ h2) h

/-! The side conditions are satisfiable, and different contents do have different root hashes. -/

theorem toyRtl_short (k : Bytes) (h : k.length ≤ 2) : (toyRtl.enc k).length ≤ 60 := by
  simp [toyRtl]
  omega

example (ops : List (Op Bytes)) (h : ∀ op ∈ ops, op.key.length = 2)
    (e : proofDemo.hash toyH toyRtl demoVh = ((newTrie (V := Bytes)).run ops).hash toyH toyRtl demoVh) :
    (spec ops [0x12, 0x35]).map demoVh = some (demoVh [2]) ∨
      Collision toyH (inputs toyH toyRtl demoVh proofDemo.root)
        (inputs toyH toyRtl demoVh ((newTrie (V := Bytes)).run ops).root) := by
  rcases C04_root_binding_fixed toyH toyH_len toyRtl toyRtl_lawful demoVh (fun _ => toyH_len _) 2 toyRtl_short _ ops
    (by decide) h e with h | h
  · left
    rw [← h [0x12, 0x35]]
    rfl
  · exact Or.inr h

end Verif.Trie

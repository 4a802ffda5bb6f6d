import Verif.HTree.Claims

/-!
# C155: a node of a history tree written to bytes and read back

`TreeNode.Serialization` and `TreeNode.Deserialization` (`/repo/trie/historytree.go:1599-1692`) write the flag, the hashes
of the branches and the values or the hashes of the children; the children themselves stay in the storage.
-/

namespace Verif.HTree
open Verif Verif.Merkle Verif.Trie

/-- The external codec (`rtl.Encode`, `rtl.Decode`) for a map of branches and for an array of sixteen byte slices; reading
gives the rest of the stream. -/
structure NCodec where
  encBr : (List Bool → Option Bytes) → Bytes
  decBr : Bytes → Option ((List Bool → Option Bytes) × Bytes)
  encSl : (Nib → Option Bytes) → Bytes
  decSl : Bytes → Option ((Nib → Option Bytes) × Bytes)

/-- The assumption on the external codec: entries that are not empty survive, and exactly the bytes written are read. -/
structure NCodec.Lawful (N : NCodec) : Prop where
  br : ∀ br rest, (∀ p x, br p = some x → p.length < 4 ∧ x ≠ []) → N.decBr (N.encBr br ++ rest) = some (br, rest)
  sl : ∀ s rest, (∀ j x, s j = some x → x ≠ []) → N.decSl (N.encSl s ++ rest) = some (s, rest)

/-- `Serialization` (`/repo/trie/historytree.go:1617-1637`) with `encodeDescendants` (`/repo/trie/historytree.go:1599-1615`): the node afterwards,
whose children may have cached hashes, and the bytes; `none` if the hash of a child is an error. -/
def serializeNode (H : Bytes → Bytes) (N : NCodec) : TNode → Option (TNode × Bytes)
  | .nil => some (.nil, [0x80])
  | .mk i c => (slotHashes H i c).map fun s =>
      (.mk i (hashKids H i c), (if i.leaf then 1 else 0) :: (N.encBr i.br ++ N.encSl s))

/-- `Deserialization` (`/repo/trie/historytree.go:1662-1692`) with `decodeDescendants` (`/repo/trie/historytree.go:1639-1660`) into a node made by
`NewTreeNode`: `none` is an error, `some (.nil, …)` the answer "should be nil". -/
def deserializeNode (N : NCodec) : Bytes → Option (TNode × Bytes)
  | [] => none
  | flag :: b =>
    if flag = 0x80 then some (.nil, b)
    else if flag = 1 then
      match N.decBr b with
      | none => none
      | some (br, b1) => match N.decSl b1 with
        | none => none
        | some (s, b2) => some (ofParts true br s, b2)
    else if flag = 0 then
      match N.decBr b with
      | none => none
      | some (br, b1) => match N.decSl b1 with
        | none => none
        | some (s, b2) => some (ofParts false br s, b2)
    else none

variable {E : HEnv} {D : HDisk}

theorem deserialize_parts {N : NCodec} (hN : N.Lawful) (leaf : Bool) (br : List Bool → Option Bytes)
    (s : Nib → Option Bytes) (rest : Bytes) (hb : ∀ p x, br p = some x → p.length < 4 ∧ x ≠ [])
    (hs : ∀ j x, s j = some x → x ≠ []) :
    deserializeNode N (((if leaf then 1 else 0) :: (N.encBr br ++ N.encSl s)) ++ rest) = some (ofParts leaf br s, rest) := by
  cases leaf <;> simp [deserializeNode, hN.br br _ hb, hN.sl s _ hs]

theorem hspec_ne_empty {H : Bytes → Bytes} (hH : ∀ b, (H b).length = 32) {k : Nat} {l : List Bytes} {x : Bytes}
    (h : hspec H (k + 1) l = some x) : x ≠ [] := by
  intro e
  have := hspec_len hH h
  rw [e] at this
  cases this

theorem brOk_ne {H : Bytes → Bytes} (hH : ∀ b, (H b).length = 32) {h : Nat} {l : List Bytes} {br : List Bool → Option Bytes}
    (hb : BrOk H (4 * h) l br) : ∀ p x, br p = some x → p.length < 4 ∧ x ≠ [] := by
  intro p x hx
  obtain ⟨h1, h2⟩ := hb p x hx
  obtain ⟨m, hm⟩ : ∃ m, 4 * h + (4 - p.length) = m + 1 := ⟨4 * h + (4 - p.length) - 1, by omega⟩
  rw [hm] at h2
  exact ⟨h1, hspec_ne_empty hH h2⟩

/-- The blocks of a stored list are stored. -/
theorem stored_part {h : Nat} {l : List Bytes} (hs : Stored E D false (h + 1) l) (j : Nib) (hne : part (h + 1) j l ≠ []) :
    Stored E D false h (part (h + 1) j l) := by
  obtain ⟨i, c, _, _, ho⟩ := hs
  rcases ho.slot j with h1 | ⟨h1, _⟩
  · unfold Known at h1
    rw [if_neg (by omega)] at h1
    rcases h1 with ⟨h1, _⟩ | ⟨_, _, h2⟩
    · exact absurd h1 hne
    · exact h2
  · cases h1

/-- Written and read back, a node whose list is stored stands for the same list. -/
theorem node_roundtrip (hH : ∀ b, (E.H b).length = 32) {N : NCodec} (hN : N.Lawful) {h : Nat} {n : TNode} {l : List Bytes}
    (hv : ∀ v ∈ l, v ≠ []) (hr : Rep E D false h n l) (hst : Stored E D false h l) :
    ∃ n' b m, serializeNode E.H N n = some (n', b) ∧ Rep E D false h n' l ∧
      (∀ rest, deserializeNode N (b ++ rest) = some (m, rest)) ∧ Rep E D false h m l ∧ m.dirty = false := by
  rw [rep_eq] at hr
  obtain ⟨h0, hl, hr⟩ := hr
  rcases hr with ⟨⟨i, rfl, hd, hlf, x, hx, hb⟩, _⟩ | ⟨i, c, rfl, ho, hdst⟩
  · have hsl : slotHashes E.H i (fun _ => .nil) = some fun _ => none := by
      have e : ∀ j, slotsOf E.H i (fun _ => .nil) j = some none := by
        intro j
        unfold slotsOf
        split
        · rw [hlf j]
        · rfl
      unfold slotHashes
      rw [if_pos (by rw [List.all_eq_true]; intro j _; rw [e j]; rfl)]
      congr 1
      funext j
      rw [e j]; rfl
    have hk : hashKids E.H i (fun _ => .nil) = fun _ => .nil := by
      funext j
      unfold hashKids
      split <;> rfl
    have hbn : ∀ p y, i.br p = some y → p.length < 4 ∧ y ≠ [] := by
      intro p y hy
      rw [hb] at hy
      simp only at hy
      split at hy
      · rename_i hp
        cases hy
        exact ⟨by simp [hp], hspec_ne_empty hH (k := 4 * h + 3) hx⟩
      · cases hy
    have hkn : kidsOf (fun _ => none) = fun _ => .nil := by funext j; rfl
    have hof : ∀ i' : TInfo, i'.dirty = false → (∀ j, i'.leafs j = none) → i'.br = i.br →
        Rep E D false h (.mk i' fun _ => .nil) l := by
      intro i' a1 a2 a3
      rw [rep_eq]
      exact ⟨h0, hl, .inl ⟨⟨i', rfl, a1, a2, x, hx, by rw [a3, hb]⟩, hst⟩⟩
    refine ⟨.mk i fun _ => .nil, _, ofParts i.leaf i.br fun _ => none, by rw [serializeNode, hsl, hk]; rfl,
      hof i hd hlf rfl, fun rest => deserialize_parts hN _ _ _ rest hbn (by intro j x h; cases h), ?_, ?_⟩
    · unfold ofParts
      split
      · exact hof _ rfl (fun _ => rfl) rfl
      · rw [hkn]; exact hof _ rfl (fun _ => rfl) rfl
    · unfold ofParts
      split <;> rfl
  · obtain ⟨s, hs, hs1, hs2⟩ := slotHashes_spec ho fun h0 n a hn => (kid_hash h h0 n a hn).1
    have hKS : h ≠ 0 → ∀ j n, part h j l ≠ [] → Kid E D false h n (part h j l) → Stored E D false (h - 1) (part h j l) := by
      intro h1 j n hne _
      obtain ⟨m, rfl⟩ := Nat.exists_eq_succ_of_ne_zero h1
      exact stored_part hst j hne
    have hsn : ∀ j x, s j = some x → x ≠ [] := by
      intro j x hx
      by_cases hj : Known h (Kid E D false h) i c j (part h j l)
      · rw [hs1 j hj] at hx
        cases h with
        | zero =>
          intro e
          subst e
          exact hv _ (part_mem (List.mem_of_head? hx)) rfl
        | succ h => exact hspec_ne_empty hH (k := 4 * h + 3) hx
      · rw [hs2 j hj] at hx; cases hx
    obtain ⟨i2, c2, hp, hd2, ho3⟩ := ofParts_spec (D := D) (br := i.br) ho ho.br hs1 hs2 hKS (fun _ _ h => h)
    refine ⟨_, _, ofParts i.leaf i.br s, by rw [serializeNode, hs]; rfl, ?_,
      fun rest => deserialize_parts hN _ _ _ rest (brOk_ne hH ho.br) hsn, ?_, ?_⟩
    · rw [rep_eq]
      refine ⟨h0, hl, .inr ⟨_, _, rfl, ?_, hdst⟩⟩
      refine ho.congr rfl rfl ho.br (fun _ h => h) ?_ ?_
      · intro j hj
        simp only [hashKids, hj, hashNode_nil, ite_self]
      · intro h1 j hj
        simp only [hashKids]
        split
        · exact hj
        · exact (kid_hash h h1 _ _ hj).2
    · rw [hp, rep_eq]
      refine ⟨h0, hl, .inr ⟨_, _, rfl, ho3.mono ?_, fun _ => hst⟩⟩
      intro j n hne hk
      cases h with
      | zero => exact hk.elim
      | succ h =>
        change Rep E D false h n (part (h + 1) j l)
        rw [rep_eq]
        have hlen : (part (h + 1) j l).length ≤ 2 ^ (4 * h + 4) := by have := part_length_le (h + 1) j l; rwa [show 4 * (h + 1) = 4 * h + 4 by omega] at this
        exact ⟨hne, hlen, .inl hk⟩
    · rw [hp]; exact hd2

theorem Fair.of_prefix {H : Bytes → Bytes} {l vals : List Bytes} (hf : Fair H vals) (hp : l <+: vals) : Fair H l := by
  have ha : ∀ x, AllInputs H l x → AllInputs H vals x := by
    rintro x (h | ⟨n, h⟩)
    · exact .inl h
    · refine .inr ⟨min n l.length, ?_⟩
      rw [List.prefix_iff_eq_take.mp hp, List.take_take] at h
      exact h
  exact ⟨fun v hv => hf.len v (hp.subset hv), fun x y hx hy => hf.inj x y (ha x hx) (ha y hy),
    fun v hv x hx => hf.fresh v (hp.subset hv) x (ha x hx)⟩

/-- The tree with another root node: the same key expected, the same storage. -/
def Tree.withRoot (t : Tree) (n : TNode) : Tree := { t with root := n }

/-- C155: the root node of a history tree is written after any calls that end with a successful `Commit`, and read back,
also in front of other bytes.  A tree with the node read back over the same storage gives all the answers of the list of
values, for any further calls: appends, reads, proofs, root hashes, collapses, commits and reopening.  The same holds for the
tree whose node was written. -/
theorem C155_roundtrip (E : HEnv) (hH : ∀ b, (E.H b).length = 32) (hC : E.C.Lawful) (R : Rtl) {N : NCodec} (hN : N.Lawful)
    (D : HDisk) (ops more : List Op) (hfair : Fair E.H (specRun (specRun [] ops) more))
    (hn : (specRun (specRun [] ops) more).length < 2 ^ 64) (hc : ((run E (emptyTree D) ops).1.commit E).2 = true) :
    let t := ((run E (emptyTree D) ops).1.commit E).1
    ∃ n b m, serializeNode E.H N t.root = some (n, b) ∧
      (∀ rest, deserializeNode N (b ++ rest) = some (m, rest)) ∧
      Answers E R (specRun [] ops) more (run E (t.withRoot m) more).2 ∧
      Answers E R (specRun [] ops) more (run E (t.withRoot n) more).2 := by
  intro t
  have hp := specRun_prefix more (specRun [] ops)
  have hlen := hp.length_le
  have hf1 := hfair.of_prefix hp
  have h1 := (run_holds hH R _ ops (emptyTree D) [] rfl (by omega) (fun _ => ⟨hC, hf1⟩) (holds_empty E false D)).1
  obtain ⟨t', ok, g1, g2, _, g4⟩ := commit_holds hH hC (fair_universe hH hf1)
    (fun h0 => blocks_prefix h0 (by omega) (List.prefix_refl _)) h1
  have ht : t = t' := congrArg Prod.fst g1
  have hok : ok = true := (congrArg Prod.snd g1).symm.trans hc
  have hgo : ∀ m, Holds E false (t.withRoot m) (specRun [] ops) →
      Answers E R (specRun [] ops) more (run E (t.withRoot m) more).2 := fun m hm =>
    (run_holds hH R _ more _ _ rfl hn (fun _ => ⟨hC, hfair⟩) hm).2
  rw [← ht] at g2 g4
  obtain ⟨he, hr⟩ := g2
  rcases hr with ⟨e1, e2⟩ | hr
  · rw [e2]
    have hm : Holds E false (t.withRoot .nil) (specRun [] ops) := ⟨he, .inl ⟨e1, rfl⟩⟩
    exact ⟨_, _, .nil, rfl, fun _ => rfl, hgo _ hm, hgo _ hm⟩
  · have h0 : specRun [] ops ≠ [] := by have := hr; rw [rep_eq] at this; exact this.1
    have hv : ∀ v ∈ specRun [] ops, v ≠ [] := fun v hv e => by have := hf1.len v hv; rw [e] at this; cases this
    obtain ⟨n, b, m, f1, f2, f3, f4, _⟩ := node_roundtrip hH hN hv hr (g4 hok h0)
    exact ⟨n, b, m, f1, f3, hgo _ ⟨he, .inr f4⟩, hgo _ ⟨he, .inr f2⟩⟩

/-- C155: no node at all is written as the byte 0x80 and nothing else is; that byte is read as "should be nil". -/
theorem C155_nil (H : Bytes → Bytes) (N : NCodec) (n n' : TNode) (b rest : Bytes) (h : serializeNode H N n = some (n', b)) :
    (n = .nil ↔ b.head? = some 0x80) ∧ (n = .nil → b = [0x80]) ∧ deserializeNode N ([0x80] ++ rest) = some (.nil, rest) := by
  cases n with
  | nil => cases h; exact ⟨⟨fun _ => rfl, fun _ => rfl⟩, fun _ => rfl, rfl⟩
  | mk i c =>
    simp only [serializeNode, Option.map_eq_some_iff, Prod.mk.injEq] at h
    obtain ⟨s, _, _, rfl⟩ := h
    refine ⟨⟨fun e => (by cases e), fun e => ?_⟩, fun e => (by cases e), rfl⟩
    simp only [List.head?_cons] at e
    split at e <;> cases e

/-- C155: other first bytes and an empty stream are errors. -/
theorem C155_flags (N : NCodec) (f : UInt8) (b : Bytes) (h1 : f ≠ 0) (h2 : f ≠ 1) (h3 : f ≠ 0x80) :
    deserializeNode N (f :: b) = none ∧ deserializeNode N [] = none := by
  simp [deserializeNode, h1, h2, h3]

/-- A node that was read has nothing to be committed. -/
theorem C155_clean (N : NCodec) (b rest : Bytes) (n : TNode) (h : deserializeNode N b = some (n, rest)) (E : HEnv) (D : HDisk) :
    commitNode E n D = (n, D, true) := by
  have key : ∀ leaf br s, commitNode E (ofParts leaf br s) D = (ofParts leaf br s, D, true) := by
    intro leaf br s
    unfold ofParts
    split <;> rw [commitNode, if_pos rfl]
  cases b with
  | nil => cases h
  | cons f b =>
    simp only [deserializeNode] at h
    split at h
    · cases h; rw [commitNode]
    · split at h
      · split at h
        · cases h
        · split at h
          · cases h
          · cases h; exact key _ _ _
      · split at h
        · split at h
          · cases h
          · split at h
            · cases h
            · cases h; exact key _ _ _
        · cases h

/-! ### A codec for the examples -/

/-- Optional byte strings with the rest. -/
def decOptsR : Nat → Bytes → Option (List (Option Bytes) × Bytes)
  | 0, b => some ([], b)
  | n + 1, b =>
    match decOpt b with
    | none => none
    | some (x, r) => (decOptsR n r).map fun y => (x :: y.1, y.2)

theorem decOptsR_encOpts (l : List (Option Bytes)) (r : Bytes) : decOptsR l.length (encOpts l ++ r) = some (l, r) := by
  induction l with
  | nil => rfl
  | cons x l ih =>
    simp only [encOpts, List.map_cons, List.flatten_cons, List.append_assoc, List.length_cons, decOptsR] at ih ⊢
    rw [decOpt_encOpt]
    simp [ih]

/-- A codec that satisfies the assumption. -/
def toyN : NCodec where
  encBr br := encOpts (prefixes.map br)
  decBr b := (decOptsR 15 b).map fun y => (fun p => ((prefixes.zip y.1).lookup p).getD none, y.2)
  encSl s := encOpts (nibbles.map s)
  decSl b := (decOptsR 16 b).map fun y => (fun j => (y.1[j.val]?).getD none, y.2)

theorem toyN_lawful : toyN.Lawful where
  br := by
    intro br rest hb
    have h := decOptsR_encOpts (prefixes.map br) rest
    rw [List.length_map, show prefixes.length = 15 from rfl] at h
    have hbk := branches_back br [] hb
    rw [List.append_nil] at hbk
    simp only [toyN]
    rw [h, Option.map_some, hbk]
  sl := by
    intro s rest _
    have h := decOptsR_encOpts (nibbles.map s) rest
    rw [List.length_map, show nibbles.length = 16 from rfl] at h
    simp only [toyN]
    rw [h, Option.map_some, slots_back]

/-- The tree with its root node written and read back. -/
def throughBytes (t : Tree) : Option Tree :=
  ((serializeNode toyH toyN t.root).bind fun x => deserializeNode toyN (x.2 ++ [7])).map fun y => t.withRoot y.1

/-- The tree of two values, committed. -/
def demoCommitted : Tree := ((appended toyHE noDisk fairVals).commit toyHE).1

example : (throughBytes demoCommitted).map (fun t => ((t.get toyHE 0).2, (t.get toyHE 1).2, (t.get toyHE 2).2)) =
    some (some (toyLeaf 100), some (toyLeaf 101), none) := by decide +kernel
example : (throughBytes demoCommitted).map (fun t => decide ((t.hash toyHE).2 = (demoCommitted.hash toyHE).2)) = some true := by
  decide +kernel

/-- C155 fails without `Commit`: the bytes of the root of an uncommitted tree are read without error and give the same root
hash, but the values are not found, and a `Commit` of the tree read back succeeds without writing any of them. -/
theorem C155_uncommitted_refuted :
    (throughBytes (appended toyHE noDisk fairVals)).map (fun t =>
        (decide ((t.hash toyHE).2 = ((appended toyHE noDisk fairVals).hash toyHE).2), (t.get toyHE 0).2,
          (t.commit toyHE).2, ((t.commit toyHE).1.get toyHE 0).2)) = some (true, none, true, none) ∧
      ((appended toyHE noDisk fairVals).get toyHE 0).2 = some (toyLeaf 100) := by decide +kernel

end Verif.HTree

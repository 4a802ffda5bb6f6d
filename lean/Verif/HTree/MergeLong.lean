import Verif.HTree.Merge

/-!
# Merging chains of other lengths (C118)

`MergeProof` (`/repo/trie/historytree.go:473-563`) checks that a chain has at least 64 elements and that it leads to the root hash.
A shorter chain is refused, unless the value is there already.  A longer chain leads to the root from below a value of the tree:
its value and its first elements are hashed up to a value of the tree, at a key that is the asked one without its last bits.  The
elements that are merged are the first 64, not the last 64, so whoever knows two byte strings that are hashed to a value of the tree
can make a light client believe in a value that is not in the tree.
-/

namespace Verif.HTree
open Verif Verif.Merkle Verif.Trie

section Long
variable {E : HEnv} {D : HDisk}

/-- What `locateNode` finds without a storage was in the tree. -/
theorem loc_peek (hD : ∀ x, D x = none) : ∀ (q : List Nib) (n : TNode) (x : Bytes),
    (locAt E D q n).2 = some (some (some x)) → peek q n = some x := by
  intro q
  induction q with
  | nil => intro n x h; cases h
  | cons j q ih =>
    intro n x h
    cases n with
    | nil => simp [locAt, opened] at h
    | mk i c =>
      by_cases hc : isCollapsed i c = true
      · exfalso
        rw [locAt, opened, if_pos hc] at h
        cases hb : i.br [] with
        | none => simp [hb] at h
        | some root =>
          by_cases hr : root = []
          · simp [hb, hr] at h
          · have e : readFull E D i.leaf root = (newTNode i.leaf, true) ∨ ∃ m, readFull E D i.leaf root = (m, false) := by
              simp only [readFull, hD]
              split <;> exact .inl rfl
            rcases e with e | ⟨m, e⟩
            · simp only [hb, hr, if_false, e, newTNode, TNode.isSome] at h
              split at h
              · simp at *
              · split at h
                · split at h <;> simp at h
                · split at h <;> simp at h
            · simp [hb, hr, e] at h
      · rw [locAt, opened, if_neg hc] at h
        simp only [Bool.true_eq_false, if_false] at h
        rw [peek]
        cases hlf : i.leaf with
        | true =>
          simp only [hlf, if_true] at h ⊢
          split at h
          · rename_i hq
            rw [if_pos hq]
            cases hx : i.leafs j with
            | none => simp [hx] at h
            | some y => simpa [hx] using h
          · cases h
        | false =>
          simp only [hlf, Bool.false_eq_true, if_false] at h ⊢
          split at h
          · split at h <;> simp at h
          · split at h
            · exact ih _ _ h
            · simp at h

end Long

theorem high_bits (A B : List (Bytes × Bool)) :
    bitsNat (B.map Prod.snd) = bitsNat ((A ++ B).map Prod.snd) / 2 ^ A.length := by
  rw [List.map_append, bitsNat_append, List.length_map, Nat.add_mul_div_left _ _ (Nat.two_pow_pos _),
    Nat.div_eq_of_lt, Nat.zero_add]
  have := bitsNat_lt (A.map Prod.snd)
  rwa [List.length_map] at this

/-- A tree of a light client and a chain of any length that is accepted. -/
theorem merge_accepted (E : HEnv) (R : Rtl) (t : Tree) (vals : List Bytes) (hne : vals ≠ [])
    (hf : FHolds E t vals) (hD : ∀ x, t.D x = none) (L : List (Bytes × Bool)) (key : UInt64) (v : Bytes)
    (hacc : (t.mergeProof E R key v (chainOf L)).2 = true) :
    v.length = 32 ∧ bitsNat (L.map Prod.snd) = key.toNat ∧ hspec E.H 64 vals = some (evalItems E.H L v) ∧
      (L.length < 64 → vals[key.toNat]? = some v) := by
  by_cases hc : v.length ≠ 32 ∨ chainOf L = [] ∨ t.root.isSome = false ∨ chainBigKey (chainOf L) ≠ key.toNat
  · rw [Tree.mergeProof, if_pos hc] at hacc; cases hacc
  · have hc' := hc
    simp only [not_or, ne_eq, not_not] at hc'
    obtain ⟨hv, _, _, hkey⟩ := hc'
    rw [chainOf, chainBigKey_build] at hkey
    obtain ⟨x, hx⟩ := hspec_some (H := E.H) (k := 64) hne
    have hfh := front_hash 15 t.root vals hf.2
    have hh : (t.hash E).2 = some x := by
      simp only [Tree.hash, hfh.1, Option.map_some, hx, Option.getD_some]
    rw [Tree.mergeProof, if_neg hc] at hacc
    simp only [hh, chainOf, chain_build, toHash_of_len hv] at hacc
    split at hacc
    · cases hacc
    · rename_i he
      have he : evalItems E.H L v = x := by simpa using he
      refine ⟨hv, hkey, by rw [hx, he], fun h64 => ?_⟩
      split at hacc
      · cases hacc
      · rename_i y hy
        have hy' : y = some v := by simpa using hacc
        subst hy'
        rw [heightToPrefix_eq] at hy
        have hp := loc_peek hD _ _ _ hy
        exact front_peek (h := 15) hfh.2 (u64_lt key) hp
      · rw [if_pos h64] at hacc; cases hacc

/-- C118, for chains of fewer than 64 elements: one that is accepted says what is in the tree. -/
theorem C118_short (E : HEnv) (hH : ∀ b, (E.H b).length = 32) (R : Rtl) (D : HDisk) (vs : List Bytes) (h0 : vs ≠ [])
    (ops : List LOp) (hal : AllAllowed vs [vs.length - 1] ops) (hn : (lvals vs ops).length < 2 ^ 64)
    (hnil : ∀ l, vs <+: l → l <+: lvals vs ops → NoNil E.H 64 l)
    (L : List (Bytes × Bool)) (h64 : L.length < 64) (key : UInt64) (v : Bytes) :
    ∃ t, lightTree E R D noDisk vs = some t ∧
      (((lrun E R D vs t ops).1.mergeProof E R key v (chainOf L)).2 = true → (lvals vs ops)[key.toNat]? = some v) := by
  have hpre := lvals_prefix ops vs
  have hlt := Nat.lt_of_le_of_lt hpre.length_le hn
  obtain ⟨t, e1, e2, e3⟩ := restored E hH R D noDisk vs h0 (hnil vs (List.prefix_refl _) hpre) hlt
  obtain ⟨r1, r2, r3, r4⟩ := lrun_spec (R := R) (D := D) hH ops t vs _ (by rw [e2]; exact fun _ => rfl) hn hnil e3 (light_reach hlt h0 e1) hal
  refine ⟨t, e1, fun hacc => ?_⟩
  have hne : lvals vs ops ≠ [] := by
    intro e
    rw [e] at hpre
    exact h0 (List.prefix_nil.mp hpre)
  exact (merge_accepted E R _ _ hne r1 r2 L key v hacc).2.2.2 h64

/-- C118, for chains of 64 or more elements: one that is accepted shows a value of the tree, namely that made of the asked value and the
elements before the last 64, at the key without as many of its last bits; or it shows the digest of nothing at a key not yet used, or
a collision is exhibited.  Missing: that the asked value is in the tree, see `C118_long_refuted`. -/
theorem C118_long_partial (E : HEnv) (hH : ∀ b, (E.H b).length = 32) (R : Rtl) (D : HDisk) (vs : List Bytes) (h0 : vs ≠ [])
    (ops : List LOp) (hal : AllAllowed vs [vs.length - 1] ops) (hn : (lvals vs ops).length < 2 ^ 64)
    (hnil : ∀ l, vs <+: l → l <+: lvals vs ops → NoNil E.H 64 l)
    (A B : List (Bytes × Bool)) (h64 : B.length = 64) (hs : ∀ it ∈ B, it.1.length = 32) (key : UInt64) (v : Bytes) :
    ∃ t, lightTree E R D noDisk vs = some t ∧
      (((lrun E R D vs t ops).1.mergeProof E R key v (chainOf (A ++ B))).2 = true →
        (lvals vs ops)[key.toNat / 2 ^ A.length]? = some (evalItems E.H A v) ∨
        (evalItems E.H A v = nilHash E.H ∧ (lvals vs ops).length ≤ key.toNat / 2 ^ A.length) ∨
        Collision E.H ([] :: inputs E.H 64 (lvals vs ops)) (evalInputs E.H (A ++ B) v)) := by
  have hpre := lvals_prefix ops vs
  have hlt := Nat.lt_of_le_of_lt hpre.length_le hn
  obtain ⟨t, e1, e2, e3⟩ := restored E hH R D noDisk vs h0 (hnil vs (List.prefix_refl _) hpre) hlt
  obtain ⟨r1, r2, r3, r4⟩ := lrun_spec (R := R) (D := D) hH ops t vs _ (by rw [e2]; exact fun _ => rfl) hn hnil e3 (light_reach hlt h0 e1) hal
  refine ⟨t, e1, fun hacc => ?_⟩
  have hne : lvals vs ops ≠ [] := by
    intro e
    rw [e] at hpre
    exact h0 (List.prefix_nil.mp hpre)
  have h32 : ∀ v ∈ lvals vs ops, v.length = 32 := fun v hv => ((hnil _ hpre (List.prefix_refl _)).1 v hv).1
  obtain ⟨hv, hkey, hev, _⟩ := merge_accepted E R _ _ hne r1 r2 _ key v hacc
  rw [evalItems_append] at hev
  have hlen := evalItems_len E.H hH A v hv
  have hbits := high_bits A B
  rw [hkey] at hbits
  generalize lvals vs ops = vals at *
  have hle : vals.length ≤ 2 ^ 64 := Nat.le_of_lt hn
  rcases proof_sound E.H hH 64 B _ _ h64 hne hle h32 hs hlen hev with h | h | h
  · left; rwa [hbits] at h
  · right; left; rwa [hbits] at h
  · right; right
    rw [evalInputs_append]
    obtain ⟨x, h1, y, h2, h3⟩ := h
    exact ⟨x, h1, y, List.mem_append_right _ h2, h3⟩

/-- A value of the tree below whose digest two byte strings are known. -/
def knownVals : List Bytes := toyH (toyLeaf 7 ++ toyLeaf 8) :: (List.range 32).map fun i => toyLeaf (101 + i)

/-- The proof of key 0, made longer by one element at the bottom. -/
def longChain : List NodeProof := chainOf ((toyLeaf 8, false) :: pathItems toyH (digits 16 0) knownVals)

/-- C118 fails for chains of more than 64 elements: a value that is not in the tree is merged at key 0, and `Get` returns it. -/
theorem C118_long_refuted :
    (lightTree toyHE toyRtl noDisk noDisk knownVals).map (fun t =>
      let r := t.mergeProof toyHE toyRtl 0 (toyLeaf 7) longChain
      (r.2, (r.1.get toyHE 0).2)) = some (true, some (toyLeaf 7)) ∧ toyLeaf 7 ∉ knownVals ∧
    toyLeaf 7 ≠ nilHash toyH := by decide +kernel

/-- Four values, the second of which is the digest of the last two. -/
def nestedVals : List Bytes := [toyLeaf 5, toyH (toyLeaf 7 ++ toyLeaf 8), toyLeaf 7, toyLeaf 8]

/-- A chain of 63 elements that is accepted: it leads from the pair of the last two values, at position 1 of its level, to the root, and
the same bytes are the value of key 1. -/
example : (lightTree toyHE toyRtl noDisk noDisk nestedVals).map (fun t =>
    let t' := (lrun toyHE toyRtl noDisk nestedVals t [.merge 1]).1
    (((pathItems toyH (digits 16 2) nestedVals).drop 1).length,
      (t'.mergeProof toyHE toyRtl 1 (toyH (toyLeaf 7 ++ toyLeaf 8)) (chainOf ((pathItems toyH (digits 16 2) nestedVals).drop 1))).2)) =
    some (63, true) := by
  decide +kernel

end Verif.HTree

import Verif.Trie.CombinedStore
import Verif.Trie.StoreProof

/-!
# Property C141: proofs through the levels (/repo/trie/combinedtrie.go:318-356, /repo/trie/trie.go:821-860, /repo/trie/proof.go:699-724)

A value in a sub-trie is proved against the hash of the combined trie by the chain of the sub-trie followed by that of the combined
trie.
-/

namespace Verif.Combined
open Verif Verif.Merkle Verif.Trie Verif.Trie.Store Verif.Trie.StoreProof

variable {V : Type} {E : Env V}

theorem chainItems_cat (H : Bytes → Bytes) (R : Rtl) (a b : List NodeProof) :
    chainItems H R (a ++ b) = (chainItems H R a).bind fun la => (chainItems H R b).map (la ++ ·) := by
  induction a with
  | nil => simp [chainItems]
  | cons n a ih =>
    simp only [List.cons_append, chainItems, ih]
    cases n.items H R with
    | none => rfl
    | some l =>
      cases chainItems H R a with
      | none => rfl
      | some la => cases chainItems H R b <;> simp

/-- **C141** Chains can be put together: `ProofChain.Proof` of `a ++ b` is that of `b` after that of `a`. -/
theorem C141_append (H : Bytes → Bytes) (R : Rtl) (a b : List NodeProof) (h : Bytes) :
    chainProof H R (a ++ b) h = (chainProof H R a h).bind (chainProof H R b) := by
  rw [chainProof, chainItems_cat]
  cases ha : chainItems H R a with
  | none => simp [chainProof, ha]
  | some la => cases hb : chainItems H R b <;> simp [chainProof, ha, hb, evalItems]

theorem verify_iff {H : Bytes → Bytes} {R : Rtl} {h : Bytes} {c : List NodeProof} {r : Bytes} :
    verifyProofChain H R h c r = true ↔ chainProof H R c h = some r := by
  unfold verifyProofChain
  cases chainProof H R c h <;> simp

/-- The combined trie after some calls, and what is in it. -/
theorem world_get (K : Bytes → Prop) (ops : List (COp V))
    (hk : ∀ op ∈ ops, ∀ k, op.key = some k → K k) {w : World V} (hw : WInv E w.c w.D (ops.foldl cnext [])) (name : Bytes) :
    (mapOf ops name = none → w.c.get (some name) = none) ∧
    (∀ m, mapOf ops name = some m → ∃ t h, w.c.get (some name) = some t ∧ Rep E w.D t.root (newTrie.run h).root ∧
      (∀ o ∈ h, K o.key) ∧ m = spec h) := by
  have hm := mapOf_spec ops name
  have hks := hist_keys ops hk name
  have hr := hw.rel name
  simp only [Comb.get]
  generalize w.c.vm name = a at hr
  generalize find (ops.foldl cnext []) name = f at hm hks hr
  cases hr with
  | none => exact ⟨fun _ => rfl, fun m e => (by rw [← hm] at e; cases e)⟩
  | @some t h hr =>
    refine ⟨fun e => (by rw [← hm] at e; cases e), fun m e => ⟨t, h, rfl, hr.1, hks h rfl, ?_⟩⟩
    rw [← hm] at e
    exact (Option.some.inj e).symm

/-- **C141** After any calls, commits and reopenings: the proof of a value in a sub-trie followed by the proof of the sub-trie leads
from the hash of the value to the hash of the combined trie; there is no proof of a value that is not there. -/
theorem C141_verifies (hE : E.Lawful) (K : Bytes → Prop) (hK : PrefixFree K) (ops : List (COp V))
    (hk : ∀ op ∈ ops, ∀ k, op.key = some k → K k) (hA : Apart E (subTrees ops)) (D : Disk) (hD : D.ok) (top : Bytes → Option Bytes)
    (name key : Bytes) (hkey : K key) :
    ∃ w r root, crun E (fresh D top) ops = .ok (w, r) ∧ w.c.hash E.H (subHash E) = .ok root ∧
      (mapOf ops name = none → w.c.getProof E.H (subHash E) (some name) = .ok none) ∧
      (∀ m, mapOf ops name = some m → ∃ t c2, w.c.getProof E.H (subHash E) (some name) = .ok (some (some t, c2)) ∧
        (m key = none → (getProof E w.D t key).2 = none) ∧
        (∀ x, m key = some x → ∃ c1, (getProof E w.D t key).2 = some (x, c1) ∧
          verifyProofChain E.H E.R (E.vh x) (c1 ++ c2) root = true)) := by
  obtain ⟨w, hrun, hw⟩ := crun_spec hE hA ops (within_subTrees ops) (fresh_inv hD top)
  have hf : ∀ k t, w.c.get (some k) = some t → subHash E t = .ok (t.hash E).2 ∧ ((t.hash E).2).length = 32 := by
    intro k t ht
    refine ⟨rfl, ?_⟩
    have hr := hw.rel k
    rw [show w.c.vm k = some t from ht] at hr
    generalize find (ops.foldl cnext []) k = f at hr
    cases hr with
    | @some _ h hr =>
      rw [(hash_step hr.1 (wf_run h)).1]
      exact nodeHash_len hE.hH _
  obtain ⟨p1, p2⟩ := proof_inv E.H hE.hH E.R hw.comb (subHash E) (fun t : BTrie V => (t.hash E).2) hf name
  obtain ⟨g1, g2⟩ := world_get K ops hk hw name
  refine ⟨w, _, _, hrun, hw.hash, fun e => p2 (g1 e), fun m hm => ?_⟩
  obtain ⟨t, h, ht, hrep, hkeys, rfl⟩ := g2 m hm
  obtain ⟨c2, root, q1, q2, q3⟩ := p1 t ht
  rw [hw.hash, Res.ok.injEq] at q2
  subst q2
  have hg := (getProof_spec hE hrep (wf_run h) key).1
  have hget : ((newTrie (V := V)).run h).get key = spec h key := C01_get K hK _ hkeys key hkey
  refine ⟨t, c2, q1, fun hx => ?_, fun x hx => ?_⟩
  · rw [hx] at hget
    rw [hg, MTrie.getProof, hget]
    rfl
  · rw [hx] at hget
    obtain ⟨c1, h1, h2, -⟩ := C09_proof_verifies E.H hE.hH E.R E.vh hE.hv _ key x hget
    refine ⟨c1, by rw [← h1]; exact hg, ?_⟩
    rw [verify_iff, C141_append, h2, Option.bind_some]
    rw [verify_iff, (hash_step hrep (wf_run h)).1] at q3
    exact q3

/-- **C141** Whoever presents a chain that leads to the hash of a combined trie, the last element having the shape of one of its proofs:
the rest of the chain leads to the hash of the sub-trie at the position the last element spells, or to the nil hash at a
position behind the sub-tries, or a collision is exhibited. -/
theorem C141_sound (hE : E.Lawful) (ops : List (COp V)) (hA : Apart E (subTrees ops)) (D : Disk) (hD : D.ok) (top : Bytes → Option Bytes)
    (a : List NodeProof) (n : NodeProof) (p : Proofs) (L : List (Bytes × Bool)) (v r root : Bytes) (d : Nat)
    (hn : n.ptype = proofMerkleOnly) (hp : n.childProofs = some p) (hL : p.items = some L) (hL32 : ∀ it ∈ L, it.1.length = 32)
    (hr : chainProof E.H E.R a v = some r) (hr32 : r.length = 32) {w : World V} {outs} (hrun : crun E (fresh D top) ops = .ok (w, outs))
    (hkeys : w.c.keys ≠ []) (hd : IsDepth w.c.keys.length d) (hlen : L.length = d) (hroot : w.c.hash E.H (subHash E) = .ok root)
    (hv : verifyProofChain E.H E.R v (a ++ [n]) root = true) :
    (∃ name t, w.c.keys[bitsNat (L.map Prod.snd)]? = some name ∧ w.c.get (some name) = some t ∧ (t.hash E).2 = r) ∨
    (w.c.keys.length ≤ bitsNat (L.map Prod.snd) ∧ r = E.H []) ∨
    Collision E.H (evalInputs E.H L r) (minputs E.H d (leaves (E.H []) (w.c.keys.map fun k => ((w.c.vm k).map fun t : BTrie V => (t.hash E).2).getD []))) := by
  obtain ⟨w', hrun', hw⟩ := crun_spec hE hA ops (within_subTrees ops) (fresh_inv hD top)
  rw [hrun] at hrun'
  simp only [Res.ok.injEq, Prod.mk.injEq] at hrun'
  obtain ⟨rfl, -⟩ := hrun'
  have hall : ∀ k ∈ w.c.keys, ∃ t, w.c.vm k = some t ∧ subHash E t = .ok ((fun t : BTrie V => (t.hash E).2) t) := by
    intro k hk
    obtain ⟨t, ht⟩ := Option.isSome_iff_exists.1 ((hw.comb.dom k).1 hk)
    exact ⟨t, ht, rfl⟩
  have hhs := (hashes_spec (f := fun t : BTrie V => (t.hash E).2) w.c.keys hall).1
  rw [Comb.hash, if_neg hkeys, hhs] at hroot
  simp only [Res.ok.injEq] at hroot
  have h32 : ∀ x ∈ w.c.keys.map (fun k => ((w.c.vm k).map fun t : BTrie V => (t.hash E).2).getD []), x.length = 32 := by
    intro x hx
    obtain ⟨k, hk, rfl⟩ := List.mem_map.1 hx
    obtain ⟨t, ht, -⟩ := hall k hk
    have hr := hw.rel k
    rw [ht] at hr ⊢
    generalize find (ops.foldl cnext []) k = f at hr
    cases hr with
    | @some _ h hr =>
      simp only [Option.map_some, Option.getD_some]
      rw [(hash_step hr.1 (wf_run h)).1]
      exact nodeHash_len hE.hH _
  rw [verify_iff, C141_append, hr, Option.bind_some] at hv
  have hpv : p.proof E.H r = some (merkleHashComplete E.H (w.c.keys.map fun k => ((w.c.vm k).map fun t : BTrie V => (t.hash E).2).getD []) (-1) none).1 := by
    rw [C23_root_independent_of_proof E.H _ (-1) 0 none none, hroot, ← hv]
    simp [chainProof, chainItems, NodeProof.items, hn, hp, hL, Proofs.proof]
  rcases C83_complete_proof_sound E.H hE.hH _ (by simpa using hkeys) h32 d (by simpa using hd) p L hL hL32 hlen r hr32 hpv with h | h
  · rw [List.getElem?_map] at h
    cases hk : w.c.keys[bitsNat (L.map Prod.snd)]? with
    | none =>
      rw [hk] at h
      right; left
      exact ⟨List.getElem?_eq_none_iff.1 hk, h.symm⟩
    | some name =>
      rw [hk] at h
      left
      obtain ⟨t, ht, -⟩ := hall name (List.mem_of_getElem? hk)
      simp only [Option.map_some, Option.getD_some, ht] at h
      exact ⟨name, t, rfl, ht, h⟩
  · exact Or.inr (Or.inr h)

/-- In the session of C139 the two chains for a value in one of the two sub-tries have lengths 2 and 1. -/
example : (match crun toyE (fresh freshDisk fun _ => none) (demoComb.take 10) with
    | .ok (w, _) =>
      (match w.c.getProof toyE.H (subHash toyE) (some [1]), w.c.hash toyE.H (subHash toyE) with
        | .ok (some (some t, c2)), .ok root =>
          (match (getProof toyE w.D t [0x35]).2 with
            | some (x, c1) => decide (x = [3] ∧ c1.length = 2 ∧ c2.length = 1) && verifyProofChain toyE.H toyE.R (toyE.vh x) (c1 ++ c2) root
            | none => false)
        | _, _ => false)
    | _ => false) = true := by decide +kernel

end Verif.Combined

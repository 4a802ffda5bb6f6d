import Verif.HTree.Claims
import Verif.HTree.Merge
import Verif.Trie.Headers
import Verif.Trie.Existence
import Verif.Trie.ProofWorld

/-!
# Property C170: what a client that knows nothing but the root of the history can be shown

Nothing is modelled anew.  The functions composed here are `GetProof`, `GetExistenceProof`, `Exist`, `ExistenceHash` of tries (C09, C10,
C11), `NewHeaderPropertyProof` and `IsHeaderOf` of headers (C132), `GetProof` and `HistoryProof` of history trees (C20, C101) and
`VerifyProofChain` (`/repo/trie/proof.go:830-836`).
-/

namespace Verif.Light
open Verif Verif.Merkle Verif.Trie Verif.HTree

/-- The hashes of the headers of a chain, in which the header at height `k` has the properties `blocks[k]`. -/
def hobs (H : Bytes → Bytes) (id : UInt32) (blocks : List (List Bytes)) : List Bytes :=
  blocks.mapIdx fun k ps => headerHash H id (UInt64.ofNat k) ps

/-- What a client checks before it takes `x` for property `i` of the header of chain `id` at height `h`: the proof node is one for this
property of this header and leads from `x` to a hash, and `HistoryProof` leads from this hash to the root of the history.  `asked` is the
height given to `HistoryProof`, which may be the nil height; `d` is the depth of the tree of the properties. -/
def Accepts (H : Bytes → Bytes) (R : Rtl) (d : Nat) (root : Bytes) (id : UInt32) (h asked : UInt64) (i : UInt8) (x : Bytes) (n : NodeProof)
    (L : List (Bytes × Bool)) : Prop :=
  headerProperty n.ptype = some i ∧ isHeaderOf H n id h = true ∧ (propertyItems n).length = d + 1 ∧ L.length = 64 ∧
    (∀ it ∈ propertyItems n, it.1.length = 32) ∧ (∀ it ∈ L, it.1.length = 32) ∧
    ∃ hob, n.proof H R x = some hob ∧ historyProof H R (chainOf L) asked hob = some (some root)

/-- Where in the history the proof leads to. -/
def place (L : List (Bytes × Bool)) : Nat := bitsNat (L.map Prod.snd)

theorem hobs_length (H : Bytes → Bytes) (id : UInt32) (blocks : List (List Bytes)) : (hobs H id blocks).length = blocks.length :=
  List.length_mapIdx

theorem hobs_get (H : Bytes → Bytes) (id : UInt32) (blocks : List (List Bytes)) (k : Nat) :
    (hobs H id blocks)[k]? = blocks[k]?.map fun ps => headerHash H id (UInt64.ofNat k) ps := by
  unfold hobs; rw [List.getElem?_mapIdx]

theorem headerHash_32 (H : Bytes → Bytes) (hH : ∀ b, (H b).length = 32) (id : UInt32) (h : UInt64) (props : List Bytes) (hp : props ≠ []) :
    (headerHash H id h props).length = 32 := by
  obtain ⟨d, hd⟩ := exists_depth props.length
  have hne : headerLeaves H id h props ≠ [] := by
    intro e
    have := headerLeaves_length H id h props
    rw [e] at this
    exact hp (List.length_eq_zero_iff.1 this.symm)
  unfold headerHash
  rw [complete_spec H _ (-1) none d hne (by rw [headerLeaves_length]; exact hd)]
  refine mroot_len32 H hH d _ fun j => ?_
  unfold leaves
  cases hj : (headerLeaves H id h props)[j]? with
  | none => exact hH _
  | some y => exact headerLeaves_32 H hH _ _ _ y (List.mem_of_getElem? hj)

theorem hobs_32 (H : Bytes → Bytes) (hH : ∀ b, (H b).length = 32) (id : UInt32) (blocks : List (List Bytes)) (hp : ∀ ps ∈ blocks, ps ≠ []) :
    ∀ v ∈ hobs H id blocks, v.length = 32 := by
  intro v hv
  obtain ⟨k, hk⟩ := List.mem_iff_getElem?.1 hv
  rw [hobs_get, Option.map_eq_some_iff] at hk
  obtain ⟨ps, hps, rfl⟩ := hk
  exact headerHash_32 H hH id _ ps (hp ps (List.mem_of_getElem? hps))

/-- The last input of an evaluation. -/
theorem last_input (H : Bytes → Bytes) (L : List (Bytes × Bool)) (v : Bytes) (h0 : L ≠ []) (h32 : ∀ it ∈ L, it.1.length = 32) :
    ∃ y ∈ Merkle.evalInputs H L v, y ≠ [] ∧ H y = evalItems H L v := by
  induction L generalizing v with
  | nil => exact absurd rfl h0
  | cons it L ih =>
    have h1 := h32 it List.mem_cons_self
    by_cases hL : L = []
    · subst hL
      refine ⟨_, List.mem_cons_self, ?_, ?_⟩
      · intro e
        have := congrArg List.length e
        split at this <;> rw [List.length_append, h1] at this <;> simp at this
      · simp only [evalItems, List.foldl_cons, List.foldl_nil, hashPairOrder]
        split <;> rfl
    · obtain ⟨y, hy, hy0, hyH⟩ := ih (H (if it.2 then it.1 ++ v else v ++ it.1)) hL fun x hx => h32 x (List.mem_cons_of_mem _ hx)
      refine ⟨y, List.mem_cons_of_mem _ hy, hy0, ?_⟩
      rw [hyH]
      simp only [evalItems, List.foldl_cons, hashPairOrder]
      cases it.2 <;> rfl

/-- The steps of a proof node for a property. -/
theorem proof_property (H : Bytes → Bytes) (R : Rtl) (n : NodeProof) (i : UInt8) (hi : headerProperty n.ptype = some i) (x r : Bytes)
    (hv : n.proof H R x = some r) : r = evalItems H (propertyItems n) x ∧ propertyItems n ≠ [] := by
  obtain ⟨o1, o2, o3, o4⟩ := headerProperty_other hi
  simp only [NodeProof.proof, NodeProof.items, if_neg o1, o2, if_neg o3, if_neg o4, hi, Option.isSome_some, if_true, Bool.false_eq_true,
    if_false] at hv
  cases hvh : n.valueHash with
  | none => rw [hvh] at hv; simp at hv
  | some v =>
    cases hcp : n.childProofs with
    | none => rw [hvh, hcp] at hv; simp at hv
    | some p =>
      rw [hvh, hcp] at hv
      simp only at hv
      split at hv
      · simp at hv
      · cases hL : p.items with
        | none => rw [hL] at hv; simp at hv
        | some L =>
          rw [hL] at hv
          simp only [Option.map_some, Option.some.injEq] at hv
          simp [propertyItems, hvh, hcp, hL, ← hv]

/-- The root of the history is that of the binary tree over the hashes. -/
theorem root_hspec (E : HEnv) (hH : ∀ b, (E.H b).length = 32) (D : HDisk) (vs : List Bytes) (h0 : vs ≠ []) (h32 : ∀ v ∈ vs, v.length = 32)
    (hn : vs.length < 2 ^ 64) : ∃ r, ((appended E D vs).hash E).2 = some r ∧ hspec E.H 64 vs = some r := by
  have hvn : ∀ v ∈ vs, v ≠ [] := fun v hv e => by have := h32 v hv; rw [e] at this; cases this
  obtain ⟨t', f1, _⟩ := hash_holds (appended_holds E hH D vs hvn hn)
  obtain ⟨x, hx⟩ := hspec_some (H := E.H) (k := 64) h0
  exact ⟨x, by rw [f1, hx]; rfl, hx⟩

/-- **C170, completeness:** a client that knows the root of the history of a chain can be shown each property of each of its headers. -/
theorem C170_complete (E : HEnv) (hH : ∀ b, (E.H b).length = 32) (R : Rtl) (D : HDisk) (id : UInt32) (blocks : List (List Bytes))
    (hn : blocks.length < 2 ^ 64) (hp : ∀ ps ∈ blocks, ps ≠ []) (k : UInt64) (props : List Bytes) (hk : blocks[k.toNat]? = some props)
    (t i : UInt8) (ht : headerProperty t = some i) (hi : i.toNat < props.length) :
    ∃ root n c, ((appended E D (hobs E.H id blocks)).hash E).2 = some root ∧
      newHeaderPropertyProof t (some (headerIndexHash E.H (headerPosBuffer id k) i))
        (merkleHashComplete E.H (headerLeaves E.H id k props) i.toNat (some newProofs)).2 = .ok n ∧
      ((appended E D (hobs E.H id blocks)).getProof E k).2 = some (headerHash E.H id k props, c) ∧
      isHeaderOf E.H n id k = true ∧ n.proof E.H R props[i.toNat] = some (headerHash E.H id k props) ∧
      historyProof E.H R c k (headerHash E.H id k props) = some (some root) ∧
      verifyProofChain E.H R props[i.toNat] ([n] ++ c) root = true := by
  obtain ⟨n, h1, h2, h3⟩ := C132_complete E.H R hH id k props t i ht hi
  have hkl : k.toNat < blocks.length := by
    by_contra hc
    rw [List.getElem?_eq_none (by omega)] at hk
    cases hk
  have hkl' : k.toNat < (hobs E.H id blocks).length := by rw [hobs_length]; exact hkl
  have h32 := hobs_32 E.H hH id blocks hp
  have hg : (hobs E.H id blocks)[k.toNat] = headerHash E.H id k props := by
    have := hobs_get E.H id blocks k.toNat
    rw [hk, List.getElem?_eq_getElem hkl'] at this
    simpa using this
  obtain ⟨v, c, e1, e2, -⟩ := C20_historyProof E hH R D (hobs E.H id blocks) h32 (by rw [hobs_length]; exact hn) k hkl'
  obtain ⟨c', f1, -, f3, -⟩ := C20_proof E hH R D (hobs E.H id blocks) h32 (by rw [hobs_length]; exact hn) k hkl'
  rw [e1, Option.some.injEq, Prod.mk.injEq] at f1
  obtain ⟨rfl, rfl⟩ := f1
  obtain ⟨r, hr, -⟩ := root_hspec E hH D (hobs E.H id blocks) (by intro e; rw [e] at hkl'; simp at hkl') h32 (by rw [hobs_length]; exact hn)
  rw [hg] at e1 e2 f3
  rw [hr] at e2 f3
  have h4 : n.proof E.H R props[i.toNat] = some (headerHash E.H id k props) := by
    rw [chainProof] at h3
    unfold NodeProof.proof
    cases hit : n.items E.H R with
    | none => simp [chainItems, hit] at h3
    | some l => simpa [chainItems, hit] using h3
  refine ⟨r, n, c, hr, h1, e1, h2, h4, e2, ?_⟩
  rw [Combined.verify_iff, Combined.C141_append, h3, Option.bind_some, f3]

/-- **C170, completeness for this client:** what it is shown it accepts, at the height and with the nil height. -/
theorem C170_accepts (E : HEnv) (hH : ∀ b, (E.H b).length = 32) (R : Rtl) (D : HDisk) (id : UInt32) (blocks : List (List Bytes))
    (hn : blocks.length < 2 ^ 64) (hp : ∀ ps ∈ blocks, ps ≠ []) (k : UInt64) (props : List Bytes) (hk : blocks[k.toNat]? = some props)
    (d : Nat) (hd : IsDepth props.length d) (t i : UInt8) (ht : headerProperty t = some i) (hi : i.toNat < props.length) (asked : UInt64)
    (ha : asked = k ∨ asked = 0xffffffffffffffff) :
    ∃ root n L, ((appended E D (hobs E.H id blocks)).hash E).2 = some root ∧
      ((appended E D (hobs E.H id blocks)).getProof E k).2 = some (headerHash E.H id k props, chainOf L) ∧
      Accepts E.H R d root id k asked i props[i.toNat] n L := by
  obtain ⟨root, n, c, h1, h2, h3, h4, h5, h6, h7⟩ := C170_complete E hH R D id blocks hn hp k props hk t i ht hi
  have hkl : k.toNat < blocks.length := (List.getElem?_eq_some_iff.mp hk).1
  have h32 := hobs_32 E.H hH id blocks hp
  have hg : (hobs E.H id blocks)[k.toNat]? = some (headerHash E.H id k props) := by
    rw [hobs_get, hk]; simp
  obtain ⟨f1, f2, f3, f4⟩ := full_proof (E := E) (D := D) hH h32 (by rw [hobs_length]; exact hn) hg
  rw [f1, Option.some.injEq, Prod.mk.injEq] at h3
  obtain ⟨-, rfl⟩ := h3
  have hl := headerLeaves_32 E.H hH id k props
  have hlen := headerLeaves_length E.H id k props
  have hid : i.toNat < 2 ^ d := by have := hd.2.1; omega
  have hm32 := mproof_len32 E.H hH d _ i.toNat (leaves_len32 (nil32 hH) hl)
  rw [complete_spec E.H _ _ _ d (by intro e; rw [e] at hlen; simp at hlen; omega) (by rw [hlen]; exact hd),
    completeProof_nat _ _ _ _ _ hid] at h2
  have hr := rep_appendAll _ [] _ Rep.new hm32
  rw [List.nil_append] at hr
  unfold newHeaderPropertyProof at h2
  rw [ht] at h2
  simp only [Option.isSome_some, if_true, Option.map_some, Res.ok.injEq] at h2
  have o3 := (headerProperty_other ht).2.2.1
  have hitems : propertyItems n = (headerIndexHash E.H (headerPosBuffer id k) i, true) ::
      mproof E.H d (leaves (nilHash E.H) (headerLeaves E.H id k props)) i.toNat := by
    rw [← h2]
    simp only [propertyItems, newNodeProof, if_neg o3, hr.items, Option.getD_some]
  refine ⟨root, n, _, h1, f1, ?_, h4, ?_, f2, ?_, pathItems_len _ _, _, h5, ?_⟩
  · rw [← h2]
    simpa [newNodeProof] using ht
  · rw [hitems, List.length_cons, mproof_length]
  · rw [hitems]
    intro it hit
    rcases List.mem_cons.mp hit with rfl | hit
    · simp only [headerIndexHash_eq]; exact hH _
    · exact hm32 it hit
  · rcases ha with rfl | rfl
    · exact h6
    · have hob := headerHash_32 E.H hH id k props (hp props (List.mem_of_getElem? hk))
      have hob0 : headerHash E.H id k props ≠ [] := by intro e; rw [e] at hob; cases hob
      obtain ⟨r, hr1, hr2⟩ := root_hspec E hH D (hobs E.H id blocks) (by intro e; rw [e] at hg; cases hg) h32 (by rw [hobs_length]; exact hn)
      rw [hr1, Option.some.injEq] at h1
      subst h1
      unfold historyProof
      rw [if_neg (by simp [chainOf]), if_neg (by simp [hob0]), if_neg (by simp), if_pos hob0, toHash_of_len hob, chainProof, chainOf,
        chain_build]
      rw [hr2, Option.some.injEq] at f4
      simp [f4]

/-- **C170, soundness:** what a client accepts is what the header at this height has, or a collision is exhibited, between the inputs of
the accepted proofs and those of the history or of the header the proof leads to.  Giving the nil height to `HistoryProof` makes no
difference, since `IsHeaderOf` binds the height. -/
theorem C170_sound (E : HEnv) (hH : ∀ b, (E.H b).length = 32) (R : Rtl) (D : HDisk) (id id' : UInt32) (blocks : List (List Bytes))
    (hn : blocks.length < 2 ^ 64) (h0 : blocks ≠ []) (d : Nat) (hp : ∀ ps ∈ blocks, ps ≠ [] ∧ ps.length ≤ 256 ∧ IsDepth ps.length d)
    (root : Bytes) (hroot : ((appended E D (hobs E.H id blocks)).hash E).2 = some root) (h asked : UInt64) (i : UInt8) (x : Bytes)
    (n : NodeProof) (L : List (Bytes × Bool)) (hacc : Accepts E.H R d root id' h asked i x n L) :
    (id' = id ∧ place L = h.toNat ∧ ∃ props, blocks[h.toNat]? = some props ∧ props[i.toNat]? = some x) ∨
    Collision E.H ([] :: HTree.inputs E.H 64 (hobs E.H id blocks))
      (HTree.evalInputs E.H L (evalItems E.H (propertyItems n) x) ++ Merkle.evalInputs E.H (propertyItems n) x) ∨
    ∃ props, blocks[place L]? = some props ∧
      Collision E.H (headerPreimage id' h i :: Merkle.evalInputs E.H (propertyItems n) x)
        (headerInputs E.H d id (UInt64.ofNat (place L)) props) := by
  obtain ⟨a1, a2, a3, a4, a5, a6, hob, a7, a8⟩ := hacc
  obtain ⟨rfl, hne⟩ := proof_property E.H R n i a1 x hob a7
  obtain ⟨y, hy, hy0, hyH⟩ := last_input E.H (propertyItems n) x hne a5
  have hl : (evalItems E.H (propertyItems n) x).length = 32 := by rw [← hyH]; exact hH _
  have h32 := hobs_32 E.H hH id blocks fun ps h => (hp ps h).1
  have hv0 : hobs E.H id blocks ≠ [] := by
    intro e
    have := hobs_length E.H id blocks
    rw [e] at this
    exact h0 (List.length_eq_zero_iff.1 this.symm)
  obtain ⟨r, hr, hspec⟩ := root_hspec E hH D (hobs E.H id blocks) hv0 h32 (by rw [hobs_length]; exact hn)
  rw [hr, Option.some.injEq] at hroot
  subst hroot
  have hpr : evalItems E.H L (evalItems E.H (propertyItems n) x) = r := by
    unfold historyProof at a8
    split at a8
    · cases a8
    · split at a8
      · cases a8
      · split at a8
        · cases a8
        · split at a8
          · rw [toHash_of_len hl, chainProof, chainOf, chain_build] at a8
            simpa using a8
          · cases a8
  have hs := proof_sound E.H hH 64 L (hobs E.H id blocks) _ a4 hv0 (by rw [hobs_length]; omega) h32 a6 hl (by rw [hspec, hpr])
  rcases hs with hs | ⟨hs, -⟩ | ⟨a, ha, b, hb, hab⟩
  · rw [hobs_get, Option.map_eq_some_iff] at hs
    obtain ⟨props, hps, hs⟩ := hs
    have hmem := hp props (List.mem_of_getElem? hps)
    rw [hs.symm] at a7
    rcases C132_sound_partial E.H R hH id' id h _ props hmem.2.1 hmem.1 d hmem.2.2 n i a1 a2 a5 a3 x a7 with ⟨b1, b2, b3⟩ | hc
    · left
      have hk : place L < 2 ^ 64 := by
        have : place L < blocks.length := by
          by_contra hc
          unfold place at hc
          rw [List.getElem?_eq_none (by omega)] at hps
          cases hps
        omega
      have : h.toNat = place L := by
        rw [b2, UInt64.toNat_ofNat']
        exact Nat.mod_eq_of_lt hk
      refine ⟨b1, this.symm, props, ?_, b3⟩
      rw [this]
      exact hps
    · exact Or.inr (Or.inr ⟨props, hps, hc⟩)
  · refine Or.inr (Or.inl ⟨[], List.mem_cons_self, y, List.mem_append_right _ hy, fun e => hy0 e.symm, ?_⟩)
    rw [hyH, hs]; rfl
  · exact Or.inr (Or.inl ⟨a, ha, b, List.mem_append_left _ hb, hab⟩)

/-! ### The state of the chain at a height -/

theorem foldProofs_cat (H : Bytes → Bytes) (R : Rtl) (a b : List NodeProof) (h : Bytes) :
    foldProofs H R (a ++ b) h = (foldProofs H R a h).bind (foldProofs H R b) := by
  induction a generalizing h with
  | nil => rfl
  | cons n a ih =>
    simp only [List.cons_append, foldProofs]
    cases n.proof H R (toHash h) with
    | none => rfl
    | some h' => exact ih h'

theorem existenceHash_cat (H : Bytes → Bytes) (R : Rtl) (a b : List NodeProof) (ha : a ≠ []) :
    existenceHash H R (a ++ b) = (existenceHash H R a).bind (foldProofs H R b) := by
  cases a with
  | nil => exact absurd rfl ha
  | cons n a =>
    simp only [List.cons_append, existenceHash]
    cases n.existenceHash H R with
    | none => rfl
    | some h => exact foldProofs_cat H R a b h

theorem chainProof_one (H : Bytes → Bytes) (R : Rtl) (n : NodeProof) (h : Bytes) : chainProof H R [n] h = n.proof H R h := by
  unfold chainProof NodeProof.proof
  cases hit : n.items H R <;> simp [chainItems, hit]

variable {V : Type}

/-- **C170, the state:** if property `i` of a header is the root of a trie over prefix-free keys, the client can be shown what the trie
has under a key: by the joined chains for a value, and by the existence proof in front of them for any key. -/
theorem C170_state_complete (E : HEnv) (hH : ∀ b, (E.H b).length = 32) (R : Rtl) (vh : V → Bytes) (hv : ∀ x, (vh x).length = 32)
    (K : Bytes → Prop) (hK : PrefixFree K) (ops : List (Trie.Op V)) (ho : ∀ op ∈ ops, K op.key) (D : HDisk) (id : UInt32)
    (blocks : List (List Bytes)) (hn : blocks.length < 2 ^ 64) (hp : ∀ ps ∈ blocks, ps ≠ []) (k : UInt64) (props : List Bytes)
    (hk : blocks[k.toNat]? = some props) (t i : UInt8) (ht : headerProperty t = some i)
    (hi : props[i.toNat]? = some (((newTrie (V := V)).run ops).hash E.H R vh)) (key : Bytes) (hkey : K key) (hne : key ≠ []) :
    ∃ root b, ((appended E D (hobs E.H id blocks)).hash E).2 = some root ∧
      (∀ x, spec ops key = some x → ∃ a, ((newTrie (V := V)).run ops).getProof E.H R vh key = some (x, a) ∧
        verifyProofChain E.H R (vh x) (a ++ b) root = true) ∧
      let a := (((newTrie (V := V)).run ops).getExistence E.H R vh key).2
      existenceHash E.H R (a ++ b) = some root ∧ exist a (keyToPrefix key) = some ((spec ops key).map vh) := by
  have hil : i.toNat < props.length := by
    by_contra hc
    rw [List.getElem?_eq_none (by omega)] at hi
    cases hi
  rw [List.getElem?_eq_getElem hil, Option.some.injEq] at hi
  obtain ⟨root, n, c, h1, -, h3, -, h5, -, h7⟩ := C170_complete E hH R D id blocks hn hp k props hk t i ht hil
  rw [hi] at h5 h7
  rw [Combined.verify_iff] at h7
  obtain ⟨e1, e2, e3, -⟩ := C10_existence_complete E.H hH R vh hv K hK ops ho key hkey hne
  refine ⟨root, [n] ++ c, h1, fun x hx => ?_, ?_, e3⟩
  · obtain ⟨a, b1, b2⟩ := (C09_stored_keys E.H hH R vh hv K hK ops ho key hkey).1 x hx
    refine ⟨a, b1, ?_⟩
    rw [Combined.verify_iff] at b2 ⊢
    rw [Combined.C141_append, b2, Option.bind_some, h7]
  · have ha : (((newTrie (V := V)).run ops).getExistence E.H R vh key).2 ≠ [] := by
      intro e
      rw [e] at e2
      cases e2
    rw [existenceHash_cat _ _ _ _ ha, e2, Option.bind_some]
    have hr32 : ((((newTrie (V := V)).run ops).hash E.H R vh)).length = 32 := nodeHash_len hH _
    have hhob : (headerHash E.H id k props).length = 32 := headerHash_32 E.H hH id k props (by rintro rfl; simp at hil)
    obtain ⟨cn, hcn⟩ : ∃ m, c = [m] := by
      unfold Tree.getProof at h3
      simp only [Option.map_eq_some_iff] at h3
      obtain ⟨y, -, hy⟩ := h3
      exact ⟨_, (congrArg Prod.snd hy).symm⟩
    subst hcn
    rw [Combined.C141_append, chainProof_one, h5, Option.bind_some, chainProof_one] at h7
    simp only [List.cons_append, List.nil_append, foldProofs, toHash_of_len hr32, h5, toHash_of_len hhob, h7]

/-- **C170, soundness for the state:** an existence proof that leads to a property accepted by the client answers as the trie whose root
the header has, for chains as in C11, or a collision is exhibited. -/
theorem C170_state_sound (E : HEnv) (hH : ∀ b, (E.H b).length = 32) (R : Rtl) (hR : R.Lawful) (vh : V → Bytes)
    (hv : ∀ x, (vh x).length = 32) (K : Bytes → Prop) (hK : PrefixFree K) (ops : List (Trie.Op V)) (ho : ∀ op ∈ ops, K op.key)
    (n1 : No64 R ((newTrie (V := V)).run ops).root) (D : HDisk) (id : UInt32) (blocks : List (List Bytes))
    (hn : blocks.length < 2 ^ 64) (d : Nat) (hp : ∀ ps ∈ blocks, ps ≠ [] ∧ ps.length ≤ 256 ∧ IsDepth ps.length d)
    (root : Bytes) (hroot : ((appended E D (hobs E.H id blocks)).hash E).2 = some root) (h asked : UInt64) (i : UInt8) (x : Bytes)
    (n : NodeProof) (L : List (Bytes × Bool)) (hacc : Accepts E.H R d root id h asked i x n L) (props : List Bytes)
    (hprops : blocks[h.toNat]? = some props) (hstate : props[i.toNat]? = some (((newTrie (V := V)).run ops).hash E.H R vh))
    (chain : List NodeProof) (hpos : ∀ m ∈ chain, m.Typed ∧ m.Positioned R) (hchain : existenceHash E.H R chain = some x) (key : Bytes)
    (answer : Option Bytes) (hans : exist chain (keyToPrefix key) = some answer) :
    (spec ops key).map vh = answer ∨ (spec ops key = none ∧ answer = some (E.H [])) ∨
    Collision E.H (chainInputs E.H R chain.reverse) (Trie.inputs E.H R vh ((newTrie (V := V)).run ops).root) ∨
    Collision E.H ([] :: HTree.inputs E.H 64 (hobs E.H id blocks))
      (HTree.evalInputs E.H L (evalItems E.H (propertyItems n) x) ++ Merkle.evalInputs E.H (propertyItems n) x) ∨
    ∃ props', blocks[place L]? = some props' ∧
      Collision E.H (headerPreimage id h i :: Merkle.evalInputs E.H (propertyItems n) x)
        (headerInputs E.H d id (UInt64.ofNat (place L)) props') := by
  have h0 : blocks ≠ [] := by rintro rfl; simp at hprops
  rcases C170_sound E hH R D id id blocks hn h0 d hp root hroot h asked i x n L hacc with ⟨-, -, ps, hps, hx⟩ | hc | hc
  · rw [hprops, Option.some.injEq] at hps
    subst hps
    rw [hstate, Option.some.injEq] at hx
    subst hx
    obtain ⟨s1, s2⟩ := C11_existence_sound_partial E.H hH R hR vh hv K hK ops ho n1 chain hpos hchain key
    cases answer with
    | none =>
      rcases s2 hans with s | s
      · left; rw [s]; rfl
      · exact Or.inr (Or.inr (Or.inl s))
    | some y =>
      rcases s1 y hans with ⟨v, s, rfl⟩ | ⟨s, rfl⟩ | s
      · left; rw [s]; rfl
      · exact Or.inr (Or.inl ⟨s, rfl⟩)
      · exact Or.inr (Or.inr (Or.inl s))
  · exact Or.inr (Or.inr (Or.inr (Or.inl hc)))
  · exact Or.inr (Or.inr (Or.inr (Or.inr hc)))

/-- **C170, `Exist` on a joined chain** gives an error and never the answer that a key is absent: the client has to cut the chain. -/
theorem C170_joined_exist (a : List NodeProof) (m : NodeProof) (hm : m.ptype = proofMerkleOnly) (q : List Nib) : exist (a ++ [m]) q = none := by
  have h : m.existenceMatch q = .err := by
    unfold NodeProof.existenceMatch
    rw [hm]
    rfl
  simp only [exist, List.reverse_append, List.reverse_cons, List.reverse_nil, List.nil_append, List.singleton_append, existDown, h]

/-- **C170 fails for a client that only calls `VerifyProofChain`:** along with the joined chain all of its ends are accepted, for the
hashes met on the way, so that a hash accepted need not be one of a value, a property or a header. -/
theorem C170_verify_refuted (H : Bytes → Bytes) (R : Rtl) (x root : Bytes) (a b : List NodeProof)
    (hv : verifyProofChain H R x (a ++ b) root = true) :
    ∃ y, chainProof H R a x = some y ∧ verifyProofChain H R y b root = true := by
  rw [Combined.verify_iff, Combined.C141_append] at hv
  cases hy : chainProof H R a x with
  | none => rw [hy] at hv; cases hv
  | some y =>
    rw [hy] at hv
    exact ⟨y, rfl, Combined.verify_iff.2 hv⟩

/-! ### An example -/

/-- Two headers of chain 7 with four properties each; property 2 of header 1 is the root of a trie. -/
def demoState : MTrie Bytes := (newTrie (V := Bytes)).run [.put [0x12, 0x34] [1], .put [0x12, 0x54] [2]]
def demoVH : Bytes → Bytes := fun v => toyH (0 :: v)
def demoBlocks : List (List Bytes) :=
  [[toyLeaf 1, toyLeaf 2, toyLeaf 3, toyLeaf 4], [toyLeaf 5, toyLeaf 6, demoState.hash toyH toyRtl demoVH, toyLeaf 8]]
def demoHistory : Tree := appended toyHE noDisk (hobs toyH 7 demoBlocks)

/-- The proof that is shown: for property `i` of header `k`. -/
def shown (k : UInt64) (t i : UInt8) : Option (NodeProof × List NodeProof) :=
  match newHeaderPropertyProof t (some (headerIndexHash toyH (headerPosBuffer 7 k) i))
      (merkleHashComplete toyH (headerLeaves toyH 7 k ((demoBlocks[k.toNat]?).getD [])) i.toNat (some newProofs)).2,
    (demoHistory.getProof toyHE k).2 with
  | .ok n, some (_, c) => some (n, c)
  | _, _ => none

def demoRoot : Bytes := (demoHistory.hash toyHE).2.getD []

-- property 2 of header 1 and then a value below it
example : (shown 1 0x32 2).map (fun p => verifyProofChain toyH toyRtl (demoState.hash toyH toyRtl demoVH) (p.1 :: p.2) demoRoot) = some true := by
  decide +kernel

example : ((shown 1 0x32 2).bind fun p => (demoState.getProof toyH toyRtl demoVH [0x12, 0x54]).map fun q =>
    (q.1, verifyProofChain toyH toyRtl (demoVH [2]) (q.2 ++ p.1 :: p.2) demoRoot)) = some ([2], true) := by decide +kernel

-- a key that is absent
example : (shown 1 0x32 2).map (fun p => existenceHash toyH toyRtl ((demoState.getExistence toyH toyRtl demoVH [0x13]).2 ++ p.1 :: p.2)) =
    some (some demoRoot) ∧ exist (demoState.getExistence toyH toyRtl demoVH [0x13]).2 (keyToPrefix [0x13]) = some none := by decide +kernel

-- the same proof is not one for another height, nor for another value
example : (shown 1 0x32 2).map (fun p => (isHeaderOf toyH p.1 7 1, isHeaderOf toyH p.1 7 0, isHeaderOf toyH p.1 8 1,
    verifyProofChain toyH toyRtl (toyLeaf 3) (p.1 :: p.2) demoRoot)) = some (true, false, false, false) := by decide +kernel

-- what the client of `C170_sound` looks at
example : (shown 1 0x32 2).map (fun p => (headerProperty p.1.ptype, (propertyItems p.1).length, (p.2.map fun m => (m.childProofs.map
    fun q => (q.items.map List.length).getD 0).getD 0))) = some (some 2, 3, [64]) ∧ IsDepth 4 2 := by
  refine ⟨by decide +kernel, by decide, by decide, by decide⟩

end Verif.Light

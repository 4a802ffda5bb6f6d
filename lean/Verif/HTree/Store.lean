import Verif.HTree.Rep

/-!
# The history tree and its storage: commit, collapse, reading back
-/

namespace Verif.HTree
open Verif Verif.Merkle Verif.Trie

/-- The assumption on the external codec: entries that are not empty survive. -/
structure HCodec.Lawful (C : HCodec) : Prop where
  slots : ∀ s, (∀ j x, s j = some x → x ≠ []) → C.decSlots (C.encSlots s) = some s
  node : ∀ leaf br s, (∀ p x, br p = some x → p.length < 4 ∧ x ≠ []) → (∀ j x, s j = some x → x ≠ []) →
    C.decNode (C.encNode leaf br s) = some (leaf, br, s)

/-- A set of lists at heights, closed under taking the blocks of the children, whose hashes are all different. -/
structure Universe (E : HEnv) (U : Nat → List Bytes → Prop) : Prop where
  ne : ∀ {h l}, U h l → l ≠ []
  vals : ∀ {h l}, U h l → ∀ v ∈ l, v ≠ []
  kid : ∀ {h l} j, U (h + 1) l → part (h + 1) j l ≠ [] → U h (part (h + 1) j l)
  inj : ∀ {h l h' l'}, U h l → U h' l' → hspec E.H (4 * h + 4) l = hspec E.H (4 * h' + 4) l' → h = h' ∧ l = l'
  notNil : ∀ {h l}, U h l → hspec E.H (4 * h + 4) l ≠ some (nilHash E.H)

/-- Nothing stored is lost. -/
def Ext (E : HEnv) (M : Bool) (U : Nat → List Bytes → Prop) (D D' : HDisk) : Prop :=
  ∀ h l, U h l → Stored E D M h l → Stored E D' M h l

variable {E : HEnv} {D D' : HDisk} {M : Bool} {U : Nat → List Bytes → Prop}

theorem Ext.refl : Ext E M U D D := fun _ _ _ h => h

theorem Ext.trans {D1 D2 D3 : HDisk} (h1 : Ext E M U D1 D2) (h2 : Ext E M U D2 D3) : Ext E M U D1 D3 :=
  fun h l hu hs => h2 h l hu (h1 h l hu hs)

theorem rep_ext (hU : Universe E U) (he : Ext E M U D D') : ∀ (h : Nat) (n : TNode) (l : List Bytes), U h l →
    Rep E D M h n l → Rep E D' M h n l := by
  intro h
  induction h with
  | zero =>
    intro n l hu hr
    rw [rep_eq] at hr ⊢
    refine ⟨hr.1, hr.2.1, ?_⟩
    rcases hr.2.2 with ⟨hc, hs⟩ | ⟨i, c, rfl, ho, hs⟩
    · exact .inl ⟨hc, he _ _ hu hs⟩
    · exact .inr ⟨i, c, rfl, ho, fun hd => he _ _ hu (hs hd)⟩
  | succ h ih =>
    intro n l hu hr
    rw [rep_eq] at hr ⊢
    refine ⟨hr.1, hr.2.1, ?_⟩
    rcases hr.2.2 with ⟨hc, hs⟩ | ⟨i, c, rfl, ho, hs⟩
    · exact .inl ⟨hc, he _ _ hu hs⟩
    · refine .inr ⟨i, c, rfl, ho.mono ?_, fun hd => he _ _ hu (hs hd)⟩
      intro j n hne hk
      exact ih n _ (hU.kid j hu hne) hk

theorem kid_ext (hU : Universe E U) (he : Ext E M U D D') {h : Nat} {l : List Bytes} (hu : U h l) (j : Nib) (n : TNode)
    (hne : part h j l ≠ []) (hk : Kid E D M h n (part h j l)) : Kid E D' M h n (part h j l) := by
  cases h with
  | zero => exact hk.elim
  | succ h => exact rep_ext hU he h n _ (hU.kid j hu hne) hk

theorem rep_clean {h : Nat} {n : TNode} {l : List Bytes} (hr : Rep E D M h n l) (hd : n.dirty = false) :
    Stored E D M h l := by
  rw [rep_eq] at hr
  rcases hr.2.2 with ⟨_, hs⟩ | ⟨i, c, rfl, _, hs⟩
  · exact hs
  · exact hs hd

theorem skid_ext (hU : Universe E U) {h : Nat} {l : List Bytes} (hu : U h l)
    (he : ∀ h', h' < h → ∀ a, U h' a → Stored E D M h' a → Stored E D' M h' a) (j : Nib) (n : TNode)
    (hne : part h j l ≠ []) (hk : SKid E D M h n (part h j l)) : SKid E D' M h n (part h j l) := by
  cases h with
  | zero => exact hk.elim
  | succ h => exact ⟨hk.1, he h (by omega) _ (hU.kid j hu hne) hk.2⟩

/-- Saving content that reads as a node for the list keeps everything stored. -/
theorem save_ext (hU : Universe E U) {h : Nat} {l : List Bytes} {root : Bytes} {ct : Bytes} (hu : U h l)
    (hroot : hspec E.H (4 * h + 4) l = some root) {i : TInfo} {c : Nib → TNode} (hd : i.dirty = false)
    (hread : ∀ b, readFull E (fun k => if k = root then some ct else D k) b root = (.mk i c, true))
    (ho : OpenC E.H M h (SKid E D M h) i c l) :
    Ext E M U D (fun k => if k = root then some ct else D k) ∧
      Stored E (fun k => if k = root then some ct else D k) M h l := by
  have key : ∀ h' l', U h' l' → Stored E D M h' l' → Stored E (fun k => if k = root then some ct else D k) M h' l' := by
    intro h'
    induction h' using Nat.strong_induction_on with
    | _ h' ih =>
      intro l' hu' hs
      rw [stored_eq] at *
      by_cases hx : hspec E.H (4 * h' + 4) l' = some root
      · obtain ⟨rfl, rfl⟩ := hU.inj hu' hu (hx.trans hroot.symm)
        refine ⟨i, c, hd, ?_, ho.mono fun j n hne hk => skid_ext hU hu (fun h'' hh a => ih h'' hh a) j n hne hk⟩
        intro x b hx'
        rw [hroot] at hx'
        cases hx'
        exact hread b
      · obtain ⟨i', c', hd', hr', ho'⟩ := hs
        refine ⟨i', c', hd', ?_, ho'.mono fun j n hne hk => skid_ext hU hu' (fun h'' hh a => ih h'' hh a) j n hne hk⟩
        intro x b hx'
        have hne : x ≠ root := by intro e; rw [e] at hx'; exact hx hx'
        rw [← hr' x b hx']
        unfold readFull
        simp only [hne, if_false]
  refine ⟨key, ?_⟩
  rw [stored_eq]
  refine ⟨i, c, hd, ?_, ho.mono fun j n hne hk => skid_ext hU hu (fun h'' _ a => key h'' a) j n hne hk⟩
  intro x b hx'
  rw [hroot] at hx'
  cases hx'
  exact hread b

theorem hashNode_dirty (H : Bytes → Bytes) (n : TNode) : (hashNode H n).1.dirty = n.dirty := by
  cases n <;> rfl

theorem hashNode_nil (H : Bytes → Bytes) : hashNode H .nil = (.nil, some none) := rfl

/-- Children that are clean. -/
def CKid (E : HEnv) (D : HDisk) (M : Bool) (h : Nat) (n : TNode) (a : List Bytes) : Prop :=
  Kid E D M h n a ∧ n.dirty = false

theorem ckid_hash (h : Nat) (h0 : h ≠ 0) (n : TNode) (a : List Bytes) (hk : CKid E D M h n a) :
    (hashNode E.H n).2 = some (hspec E.H (4 * h) a) ∧ CKid E D M h (hashNode E.H n).1 a :=
  ⟨(kid_hash h h0 n a hk.1).1, (kid_hash h h0 n a hk.1).2, by rw [hashNode_dirty]; exact hk.2⟩

/-- The slots of a node as they are written. -/
theorem slotHashes_spec {h : Nat} {i : TInfo} {c : Nib → TNode} {l : List Bytes} {K : TNode → List Bytes → Prop}
    (ho : OpenC E.H M h K i c l) (hk : h ≠ 0 → ∀ n a, K n a → (hashNode E.H n).2 = some (hspec E.H (4 * h) a)) :
    ∃ s, slotHashes E.H i c = some s ∧
      (∀ j, Known h K i c j (part h j l) → s j = hspec E.H (4 * h) (part h j l)) ∧
      (∀ j, ¬ Known h K i c j (part h j l) → s j = none) := by
  have hm : ∀ j, ¬ Known h K i c j (part h j l) → slotsOf E.H i c j = some none := by
    intro j hj
    rcases ho.slot j with h1 | ⟨_, h1, _⟩
    · exact absurd h1 hj
    · unfold slotsOf
      rw [ho.leaf]
      by_cases h0 : h = 0
      · rw [if_pos h0] at h1; simp [h0, h1]
      · rw [if_neg h0] at h1; simp [h0, h1, hashNode_nil]
  have hall : (nibbles.all fun j => (slotsOf E.H i c j).isSome) = true := by
    rw [List.all_eq_true]
    intro j _
    by_cases hj : Known h K i c j (part h j l)
    · rw [slotsOf_spec ho hk j hj]; rfl
    · rw [hm j hj]; rfl
  refine ⟨_, by rw [slotHashes, if_pos hall], ?_, ?_⟩
  · intro j hj
    rw [slotsOf_spec ho hk j hj]; rfl
  · intro j hj
    rw [hm j hj]; rfl

theorem kidsOf_none {s : Nib → Option Bytes} {j : Nib} (h : s j = none) : kidsOf s j = .nil := by rw [kidsOf, h]
theorem kidsOf_some {s : Nib → Option Bytes} {j : Nib} {x : Bytes} (h : s j = some x) : kidsOf s j = closed x := by
  rw [kidsOf, h]

/-- What is read back from the written slots. -/
theorem ofParts_spec {h : Nat} {i : TInfo} {c : Nib → TNode} {l : List Bytes} {s : Nib → Option Bytes}
    {br : List Bool → Option Bytes} {K : TNode → List Bytes → Prop} (ho : OpenC E.H M h K i c l) (hbr : BrOk E.H (4 * h) l br)
    (hs1 : ∀ j, Known h K i c j (part h j l) → s j = hspec E.H (4 * h) (part h j l))
    (hs2 : ∀ j, ¬ Known h K i c j (part h j l) → s j = none)
    (hK : h ≠ 0 → ∀ j n, part h j l ≠ [] → K n (part h j l) → Stored E D M (h - 1) (part h j l))
    (hbm : (∃ j, s j = none) → ∀ q, (i.br q).isSome → (br q).isSome) :
    ∃ i' c', ofParts i.leaf br s = .mk i' c' ∧ i'.dirty = false ∧ OpenC E.H M h (SKid E D M h) i' c' l := by
  have hk : ∀ (i' : TInfo) (c' : Nib → TNode), (h = 0 → i'.leafs = s) → (h ≠ 0 → c' = kidsOf s) → ∀ j,
      Known h K i c j (part h j l) → Known h (SKid E D M h) i' c' j (part h j l) := by
    intro i' c' e1 e2 j hj
    have hsj := hs1 j hj
    unfold Known at hj ⊢
    by_cases h0 : h = 0
    · rw [if_pos h0] at hj ⊢
      rw [e1 h0, hsj]
      subst h0
      rfl
    · rw [if_neg h0] at hj ⊢
      rw [e2 h0]
      rcases hj with ⟨h1, _⟩ | ⟨h1, h2⟩
      · left
        rw [h1, hspec_nil] at hsj
        exact ⟨h1, kidsOf_none hsj⟩
      · right
        refine ⟨h1, ?_⟩
        obtain ⟨m, rfl⟩ := Nat.exists_eq_succ_of_ne_zero h0
        obtain ⟨x, hx⟩ := hspec_some (H := E.H) (k := 4 * (m + 1)) h1
        rw [kidsOf_some (hsj.trans hx)]
        exact ⟨⟨_, rfl, rfl, fun _ => rfl, x, hx, rfl⟩, hK h0 j _ h1 h2⟩
  have hopen : ∀ (i' : TInfo) (c' : Nib → TNode), (h = 0 → i'.leafs = s) → (h ≠ 0 → c' = kidsOf s) → i'.br = br →
      i'.leaf = i.leaf → OpenC E.H M h (SKid E D M h) i' c' l := by
    intro i' c' e1 e2 e3 e4
    refine ⟨by rw [e4, ho.leaf], by rw [e3]; exact hbr, ?_,
      fun h0 => let ⟨j, h1, h2⟩ := ho.held h0; ⟨j, h1, hk i' c' e1 e2 j h2⟩⟩
    intro j
    by_cases hj : Known h K i c j (part h j l)
    · exact .inl (hk i' c' e1 e2 j hj)
    · right
      rcases ho.slot j with h1 | ⟨hM, _, q, hq1, hq2, hq3, hq4⟩
      · exact absurd h1 hj
      · have hn := hs2 j hj
        refine ⟨hM, ?_, q, hq1, hq2, by rw [e3]; exact hbm ⟨j, hn⟩ q hq3, hq4⟩
        split
        · rename_i h0; rw [e1 h0]; exact hn
        · rename_i h0; rw [e2 h0]; exact kidsOf_none hn
  unfold ofParts
  by_cases h0 : h = 0
  · have hlf : i.leaf = true := by rw [ho.leaf]; simpa using h0
    rw [if_pos hlf]
    exact ⟨_, _, rfl, rfl, hopen _ _ (fun _ => rfl) (fun h => absurd h0 h) rfl hlf.symm⟩
  · have hlf : i.leaf = false := by rw [ho.leaf]; simpa using h0
    rw [if_neg (by rw [hlf]; simp)]
    exact ⟨_, _, rfl, rfl, hopen _ _ (fun h => absurd h h0) (fun _ => rfl) rfl hlf.symm⟩

theorem brOk_none {H : Bytes → Bytes} {k : Nat} {l : List Bytes} : BrOk H k l fun _ => none := by
  intro p x h; cases h

/-- Saving a node whose children are saved. -/
theorem saveFull_spec (hH : ∀ b, (E.H b).length = 32) (hC : E.C.Lawful) (hU : Universe E U) {h : Nat} {i : TInfo}
    {c : Nib → TNode} {l : List Bytes} (hu : U h l) (hl : l.length ≤ 2 ^ (4 * h + 4)) (hdirty : i.dirty = true)
    (ho : OpenC E.H M h (CKid E D M h) i c l) :
    ∃ n' D' ok, saveFull E D (.mk i c) = (n', D', ok) ∧ Ext E M U D D' ∧ Rep E D' M h n' l ∧
      (ok = true → n'.dirty = false) ∧ ((∀ x, E.F x = false) → ok = true) := by
  have hne := hU.ne hu
  obtain ⟨root, hroot⟩ := hspec_some (H := E.H) (k := 4 * h + 4) hne
  obtain ⟨br, c1, he, ho1⟩ := ho.hashed hl fun h0 n a hn => ckid_hash h h0 n a hn
  generalize hi1 : ({ i with br := br } : TInfo) = i1 at he ho1
  have hd1 : i1.dirty = true := by rw [← hi1]; exact hdirty
  have hkh : h ≠ 0 → ∀ n a, CKid E D M h n a → (hashNode E.H n).2 = some (hspec E.H (4 * h) a) :=
    fun h0 n a hn => (ckid_hash h h0 n a hn).1
  obtain ⟨s, hs, hs1, hs2⟩ := slotHashes_spec ho1 hkh
  have ho2 : OpenC E.H M h (CKid E D M h) i1 (hashKids E.H i1 c1) l := by
    refine ho1.congr rfl rfl ho1.br (fun _ h => h) ?_ ?_
    · intro j hj
      simp only [hashKids, hj, hashNode_nil, ite_self]
    · intro h0 j hj
      simp only [hashKids]
      split
      · exact hj
      · exact (ckid_hash h h0 _ _ hj).2
  have hfail : ∀ (cc : Nib → TNode), OpenC E.H M h (CKid E D M h) i1 cc l → Rep E D M h (.mk i1 cc) l := by
    intro cc hcc
    rw [rep_eq]
    refine ⟨hne, hl, .inr ⟨_, _, rfl, hcc.mono fun _ _ _ hk => hk.1, ?_⟩⟩
    intro hf; rw [hd1] at hf; cases hf
  rw [saveFull, he, hroot]
  simp only [hs]
  by_cases hF : E.F root = true
  · rw [if_pos hF]
    refine ⟨_, _, _, rfl, Ext.refl, hfail _ ho2, by simp, ?_⟩
    intro hF'; rw [hF' root] at hF; cases hF
  · rw [if_neg hF]
    refine ⟨_, _, _, rfl, ?_⟩
    have hsne : ∀ j x, s j = some x → x ≠ [] := by
      intro j x hx
      by_cases hj : Known h (CKid E D M h) i1 c1 j (part h j l)
      · rw [hs1 j hj] at hx
        cases h with
        | zero =>
          intro e
          subst e
          have : [] ∈ part 0 j l := List.mem_of_head? hx
          exact hU.vals hu _ (part_mem this) rfl
        | succ h =>
          intro e
          have := hspec_len (k := 4 * h + 3) hH hx
          rw [e] at this
          simp at this
      · rw [hs2 j hj] at hx; cases hx
    have hbrne : ∀ p x, i1.br p = some x → p.length < 4 ∧ x ≠ [] := by
      intro p x hx
      obtain ⟨h1, h2⟩ := ho1.br p x hx
      refine ⟨h1, ?_⟩
      intro e
      obtain ⟨m, hm⟩ : ∃ m, 4 * h + (4 - p.length) = m + 1 := ⟨4 * h + (4 - p.length) - 1, by omega⟩
      rw [hm] at h2
      have := hspec_len hH h2
      rw [e] at this
      simp at this
    have hrl := hspec_len (k := 4 * h + 3) hH hroot
    have hr0 : ¬ (root = [] ∨ root = nilHash E.H) := by
      rintro (e | e)
      · rw [e] at hrl; simp at hrl
      · rw [e] at hroot; exact hU.notNil hu hroot
    have hKS : h ≠ 0 → ∀ j n, part h j l ≠ [] → CKid E D M h n (part h j l) → Stored E D M (h - 1) (part h j l) := by
      intro h0 j n _ hk
      obtain ⟨m, rfl⟩ := Nat.exists_eq_succ_of_ne_zero h0
      exact rep_clean hk.1 hk.2
    have hget : ∃ i2 c2, i2.dirty = false ∧ OpenC E.H M h (SKid E D M h) i2 c2 l ∧ ∀ b,
        readFull E (fun k => if k = root then some (content E.C i1 c1 s) else D k) b root = (.mk i2 c2, true) := by
      by_cases hfull : fullNode i1 c1 = true
      · have hall : ∀ j, s j ≠ none := by
          intro j hn
          unfold fullNode at hfull
          rw [List.all_eq_true] at hfull
          have h1 := hfull j (mem_nibbles j)
          by_cases hj : Known h (CKid E D M h) i1 c1 j (part h j l)
          · have h2 := hs1 j hj
            rw [hn] at h2
            have h3 := hspec_eq_none.mp h2.symm
            unfold Known at hj
            rw [ho1.leaf] at h1
            by_cases h0 : h = 0
            · rw [if_pos h0, h3] at hj
              simp [h0, hj] at h1
            · rw [if_neg h0] at hj
              rcases hj with ⟨_, h4⟩ | ⟨h4, _⟩
              · simp [h0, h4, TNode.isSome] at h1
              · exact h4 h3
          · rcases ho1.slot j with h2 | ⟨_, h2, _⟩
            · exact hj h2
            · rw [ho1.leaf] at h1
              by_cases h0 : h = 0
              · rw [if_pos h0] at h2; simp [h0, h2] at h1
              · rw [if_neg h0] at h2; simp [h0, h2, TNode.isSome] at h1
        obtain ⟨i2, c2, hp, hd2, ho3⟩ := ofParts_spec (D := D) (br := fun _ => none) ho1 brOk_none hs1 hs2 hKS
          (fun ⟨j, hj⟩ => absurd hj (hall j))
        refine ⟨i2, c2, hd2, ho3, ?_⟩
        intro b
        rw [readFull, if_neg hr0]
        simp only [if_true, content, if_pos hfull]
        cases hlf : i1.leaf with
        | true =>
          simp only [if_true]
          rw [hC.slots s hsne]
          rw [hlf] at hp
          simp [hp]
        | false =>
          simp only [Bool.false_eq_true, if_false, if_true]
          rw [hC.slots s hsne]
          rw [hlf] at hp
          simp [hp]
      · obtain ⟨i2, c2, hp, hd2, ho3⟩ := ofParts_spec (D := D) (br := i1.br) ho1 ho1.br hs1 hs2 hKS
          (fun _ _ h => h)
        refine ⟨i2, c2, hd2, ho3, ?_⟩
        intro b
        rw [readFull, if_neg hr0]
        simp only [if_true, content, if_neg hfull]
        rw [if_neg (by decide), if_neg (by decide), hC.node _ _ _ hbrne hsne]
        simp [hp]
    obtain ⟨i2, c2, hd2, ho3, hread⟩ := hget
    obtain ⟨hext, hst⟩ := save_ext hU hu hroot hd2 hread ho3
    refine ⟨hext, ?_, fun _ => rfl, fun _ => rfl⟩
    rw [rep_eq]
    refine ⟨hne, hl, .inr ⟨_, _, rfl, ?_, fun _ => hst⟩⟩
    have ho4 := ho2.mono (K' := Kid E (fun k => if k = root then some (content E.C i1 c1 s) else D k) M h)
      fun j n hne' hk => kid_ext hU hext hu j n hne' hk.1
    exact ho4.congr rfl rfl ho4.br (fun _ h => h) (fun _ h => h) (fun _ _ h => h)

/-- The loop over the children in `commitNode`. -/
def commitLoop (E : HEnv) (c : Nib → TNode) (js : List Nib) (s : CLoop) : CLoop :=
  js.foldl (fun (s : CLoop) j =>
    if s.ok && (c j).dirty then
      let r := commitNode E (c j) s.D
      ⟨setKid s.c j r.1, r.2.1, r.2.2⟩
    else s) s

/-- What `commitNode` guarantees. -/
def CommitOk (E : HEnv) (D : HDisk) (M : Bool) (U : Nat → List Bytes → Prop) (h : Nat) (n : TNode) (l : List Bytes) : Prop :=
  ∃ n' D' ok, commitNode E n D = (n', D', ok) ∧ Ext E M U D D' ∧ Rep E D' M h n' l ∧ (ok = true → n'.dirty = false) ∧
    ((∀ x, E.F x = false) → ok = true)

theorem commitLoop_spec (hU : Universe E U) {h : Nat} {i : TInfo} {c : Nib → TNode} {l : List Bytes} (hu : U (h + 1) l)
    (ih : ∀ (D : HDisk) n a, U h a → Rep E D M h n a → CommitOk E D M U h n a) : ∀ (js : List Nib) (s : CLoop), js.Nodup →
    (∀ j ∈ js, s.c j = c j) → OpenC E.H M (h + 1) (Kid E s.D M (h + 1)) i s.c l → Ext E M U D s.D →
    (s.ok = true → ∀ j, j ∉ js → (s.c j).dirty = false) → ((∀ x, E.F x = false) → s.ok = true) →
    let r := commitLoop E c js s
    OpenC E.H M (h + 1) (Kid E r.D M (h + 1)) i r.c l ∧ Ext E M U D r.D ∧ (r.ok = true → ∀ j, (r.c j).dirty = false) ∧
      ((∀ x, E.F x = false) → r.ok = true) := by
  intro js
  induction js with
  | nil =>
    intro s _ _ ho he hc hf
    exact ⟨ho, he, fun hok j => hc hok j (by simp), hf⟩
  | cons j js ih' =>
    intro s hnd hsame ho he hc hf
    rw [List.nodup_cons] at hnd
    simp only [commitLoop, List.foldl_cons]
    by_cases hcond : (s.ok && (c j).dirty) = true
    · rw [if_pos hcond]
      rw [Bool.and_eq_true] at hcond
      have hcj : s.c j = c j := hsame j (by simp)
      have hkn : part (h + 1) j l ≠ [] ∧ Rep E s.D M h (c j) (part (h + 1) j l) := by
        have hnn : c j ≠ .nil := by intro e; rw [e] at hcond; simp [TNode.dirty] at hcond
        rcases ho.slot j with h1 | ⟨_, h1, _⟩
        · unfold Known at h1
          rw [if_neg (by omega), hcj] at h1
          rcases h1 with ⟨_, h1⟩ | h1
          · exact absurd h1 hnn
          · exact h1
        · rw [if_neg (by omega), hcj] at h1
          exact absurd h1 hnn
      obtain ⟨n', D', ok, hcom, hext, hrep, hcl, hok⟩ := ih s.D (c j) _ (hU.kid j hu hkn.1) hkn.2
      rw [hcom]
      refine ih' ⟨setKid s.c j n', D', ok⟩ hnd.2 ?_ ?_ (he.trans hext) ?_ hok
      · intro k hk
        have hkj : k ≠ j := by intro e; subst e; exact hnd.1 hk
        simp only [setKid, hkj, if_false]
        exact hsame k (by simp [hk])
      · have ho' := ho.mono (K' := Kid E D' M (h + 1)) fun k n hne hk => kid_ext hU hext hu k n hne hk
        refine ho'.congr rfl rfl ho'.br (fun _ h => h) ?_ ?_
        · intro k hk
          by_cases hkj : k = j
          · subst hkj
            rw [hcj] at hk
            rw [hk] at hcond; simp [TNode.dirty] at hcond
          · simp [setKid, hkj, hk]
        · intro _ k hk
          by_cases hkj : k = j
          · subst hkj; simp only [setKid, if_true]; exact hrep
          · simp only [setKid, hkj, if_false]; exact hk
      · intro hok' k hk
        by_cases hkj : k = j
        · subst hkj
          simp only [setKid, if_true]
          exact hcl hok'
        · simp only [setKid, hkj, if_false]
          exact hc hcond.1 k (by simp [hkj, hk])
    · rw [if_neg hcond]
      refine ih' s hnd.2 (fun k hk => hsame k (by simp [hk])) ho he ?_ hf
      intro hok k hk
      by_cases hkj : k = j
      · subst hkj
        rw [hsame k (by simp)]
        rw [hok] at hcond
        simpa using hcond
      · exact hc hok k (by simp [hkj, hk])

/-- Committing a node stores it and everything below, and keeps what it stands for. -/
theorem commit_spec (hH : ∀ b, (E.H b).length = 32) (hC : E.C.Lawful) (hU : Universe E U) : ∀ (h : Nat) (D : HDisk)
    (n : TNode) (l : List Bytes), U h l → Rep E D M h n l → CommitOk E D M U h n l := by
  intro h
  induction h with
  | zero =>
    intro D n l hu hr
    have hr0 := hr
    rw [rep_eq] at hr
    obtain ⟨h0, h1, hr⟩ := hr
    rcases hr with ⟨⟨i, rfl, hd, _⟩, hs⟩ | ⟨i, c, rfl, ho, hs⟩
    · exact ⟨_, _, _, by rw [commitNode, if_pos hd], Ext.refl, hr0, fun _ => hd, fun _ => rfl⟩
    · by_cases hd : i.dirty = false
      · exact ⟨_, _, _, by rw [commitNode, if_pos hd], Ext.refl, hr0, fun _ => hd, fun _ => rfl⟩
      · have hlf : i.leaf = true := by rw [ho.leaf]; rfl
        have := saveFull_spec (D := D) hH hC hU hu h1 (by simpa using hd) (ho.mono fun _ _ _ h => h.elim)
        unfold CommitOk
        rw [commitNode, if_neg hd, if_pos hlf]
        exact this
  | succ h ih =>
    intro D n l hu hr
    have hr0 := hr
    rw [rep_eq] at hr
    obtain ⟨h0, h1, hr⟩ := hr
    rcases hr with ⟨⟨i, rfl, hd, _⟩, hs⟩ | ⟨i, c, rfl, ho, hs⟩
    · exact ⟨_, _, _, by rw [commitNode, if_pos hd], Ext.refl, hr0, fun _ => hd, fun _ => rfl⟩
    · by_cases hd : i.dirty = false
      · exact ⟨_, _, _, by rw [commitNode, if_pos hd], Ext.refl, hr0, fun _ => hd, fun _ => rfl⟩
      · have hlf : i.leaf = false := by rw [ho.leaf]; rfl
        obtain ⟨g1, g2, g3, g4⟩ := commitLoop_spec (D := D) hU hu ih nibbles ⟨c, D, true⟩ (by decide) (fun _ _ => rfl) ho
          Ext.refl (fun _ j hj => absurd (mem_nibbles j) hj) (fun _ => rfl)
        unfold CommitOk
        rw [commitNode, if_neg hd, if_neg (by rw [hlf]; simp)]
        change ∃ n' D' ok, (if (commitLoop E c nibbles ⟨c, D, true⟩).ok = true then
          saveFull E (commitLoop E c nibbles ⟨c, D, true⟩).D (.mk i (commitLoop E c nibbles ⟨c, D, true⟩).c) else
          (.mk i (commitLoop E c nibbles ⟨c, D, true⟩).c, (commitLoop E c nibbles ⟨c, D, true⟩).D, false)) = (n', D', ok) ∧ _
        generalize commitLoop E c nibbles ⟨c, D, true⟩ = s at g1 g2 g3 g4
        by_cases hok : s.ok = true
        · rw [if_pos hok]
          have g3' := g3 hok
          have g5 : OpenC E.H M (h + 1) (CKid E s.D M (h + 1)) i s.c l := by
            refine ⟨g1.leaf, g1.br, ?_, ?_⟩
            · intro j
              refine (g1.slot j).imp_left fun hk => ?_
              unfold Known at hk ⊢
              rw [if_neg (by omega)] at hk ⊢
              exact hk.imp_right fun ⟨a, b⟩ => ⟨a, b, g3' j⟩
            · intro hl0
              obtain ⟨j, hj, hk⟩ := g1.held hl0
              refine ⟨j, hj, ?_⟩
              unfold Known at hk ⊢
              rw [if_neg (by omega)] at hk ⊢
              exact hk.imp_right fun ⟨a, b⟩ => ⟨a, b, g3' j⟩
          obtain ⟨n', D', ok, e1, e2, e3, e4, e5⟩ := saveFull_spec (D := s.D) hH hC hU hu h1 (by simpa using hd) g5
          exact ⟨n', D', ok, e1, g2.trans e2, e3, e4, e5⟩
        · rw [if_neg hok]
          refine ⟨_, _, _, rfl, g2, ?_, by simp, ?_⟩
          · rw [rep_eq]
            exact ⟨h0, h1, .inr ⟨_, _, rfl, g1, fun hf => absurd hf hd⟩⟩
          · intro hf; exact absurd (g4 hf) hok

end Verif.HTree

import Verif.Merkle.Lemmas

/-!
# The in-place loops compute the tree specification
-/

namespace Verif.Merkle
open Verif

/-- Appending a list of siblings to a proof. -/
def appendAll (p : Proofs) (L : List (Bytes × Bool)) : Proofs :=
  L.foldl (fun p it => p.append (toHash it.1) it.2) p

/-- One level up. -/
def up (H : Bytes → Bytes) (f : Nat → Bytes) (i : Nat) : Bytes := H (f (2 * i) ++ f (2 * i + 1))

theorem mroot_succ (H : Bytes → Bytes) (d : Nat) (f : Nat → Bytes) : mroot H (d + 1) f = mroot H d (up H f) := rfl

theorem foldl_congr {α β : Type} (f g : β → α → β) (l : List α) (b : β)
    (h : ∀ b, ∀ a ∈ l, f b a = g b a) : l.foldl f b = l.foldl g b := by
  induction l generalizing b with
  | nil => rfl
  | cons a l ih =>
    simp only [List.foldl_cons]
    rw [h b a (by simp), ih]
    intro b x hx
    exact h b x (by simp [hx])

/-- The element appended on one level. -/
def sib (f g : Nat → Bytes) (t : Nat) : Bytes × Bool := if t % 2 = 1 then (f (t / 2), true) else (g (t / 2), false)

theorem addSibling_none (t : Int) (a b : Nat) (x y : Bytes) : addSibling t a b x y none = none := rfl

theorem foldSib (m : Nat) (t : Int) (f g : Nat → Bytes) (pf : Option Proofs) :
    (List.range m).foldl (fun pf i => addSibling t (2 * i) (2 * i + 1) (f i) (g i) pf) pf =
      if 0 ≤ t ∧ t.toNat / 2 < m then
        pf.map (fun p => p.append (toHash (sib f g t.toNat).1) (sib f g t.toNat).2)
      else pf := by
  induction m with
  | zero => simp
  | succ m ih =>
    rw [List.range_succ, List.foldl_append, ih]
    simp only [List.foldl_cons, List.foldl_nil]
    cases pf with
    | none => simp [addSibling]
    | some p =>
      by_cases ht : 0 ≤ t
      · by_cases h1 : t.toNat / 2 < m
        · have h2 : t.toNat / 2 < m + 1 := by omega
          have e1 : ¬ t = ((2 * m : Nat) : Int) := by omega
          have e2 : ¬ t = ((2 * m + 1 : Nat) : Int) := by omega
          simp only [ht, h1, h2, and_self, if_true, Option.map_some, addSibling, e1, e2, if_false]
        · by_cases h2 : t.toNat / 2 < m + 1
          · have hm : t.toNat / 2 = m := by omega
            rw [if_neg (by simp [h1]), if_pos ⟨ht, h2⟩]
            simp only [ht, if_true, Option.map_some, addSibling, sib, hm]
            by_cases h3 : t.toNat % 2 = 1
            · have e1 : ¬ t = ((2 * m : Nat) : Int) := by omega
              have e2 : t = ((2 * m + 1 : Nat) : Int) := by omega
              simp only [h3, e1, if_false, if_true]
              rw [if_pos e2]
            · have e1 : t = ((2 * m : Nat) : Int) := by omega
              simp only [h3, if_false]
              rw [if_pos e1]
          · have e1 : ¬ t = ((2 * m : Nat) : Int) := by omega
            have e2 : ¬ t = ((2 * m + 1 : Nat) : Int) := by omega
            simp only [ht, h1, h2, and_false, if_false, addSibling, e1, e2, ite_self]
      · simp [ht, addSibling]

/-! ### `MerkleHashComplete` -/

/-- The list that `hashVal` reads. -/
def CState.src (s : CState) : List Bytes := if s.aliased then s.b else s.hashList

theorem cFold (H : Bytes → Bytes) (t : Int) (s : CState) (f : Nat → Bytes) (m : Nat)
    (hf : ∀ p, p < 2 * m → s.hashVal H p = f p) (hb : m ≤ s.b.length)
    (hal : s.aliased = true → 2 * m ≤ s.b.length) :
    ∀ k, k ≤ m →
      (List.range k).foldl (cBody H t) s =
        { s with
          b := (List.range s.b.length).map (fun j => if j < k then up H f j else s.b[j]?.getD []),
          proofs := (List.range k).foldl
            (fun pf i => addSibling t (2 * i) (2 * i + 1) (f (2 * i)) (f (2 * i + 1)) pf) s.proofs } := by
  intro k
  induction k with
  | zero =>
    intro _
    simp only [List.range_zero, List.foldl_nil, Nat.not_lt_zero, if_false]
    have : (List.range s.b.length).map (fun j => s.b[j]?.getD []) = s.b := by
      apply List.ext_getElem?
      intro i
      simp only [List.getElem?_map]
      by_cases hi : i < s.b.length
      · simp [hi]
      · simp [hi]
    rw [this]
  | succ k ih =>
    intro hk
    rw [List.range_succ, List.foldl_append, ih (by omega), List.foldl_append]
    simp only [List.foldl_cons, List.foldl_nil]
    have hread : ∀ p, k ≤ p → p < 2 * m → ({ s with
        b := (List.range s.b.length).map (fun j => if j < k then up H f j else s.b[j]?.getD []),
        proofs := (List.range k).foldl
          (fun pf i => addSibling t (2 * i) (2 * i + 1) (f (2 * i)) (f (2 * i + 1)) pf) s.proofs } : CState).hashVal H p = f p := by
      intro p hp1 hp2
      rw [← hf p hp2]
      unfold CState.hashVal
      cases ha : s.aliased with
      | false => simp
      | true =>
        have := hal ha
        have hpl : ¬ s.b.length ≤ p := by omega
        have hpl' : p < s.b.length := by omega
        have hpk : ¬ p < k := by omega
        simp [hpl, hpl', hpk]
    unfold cBody
    rw [hread (2 * k) (by omega) (by omega), hread (2 * k + 1) (by omega) (by omega)]
    simp only [CState.mk.injEq, true_and, and_true]
    apply List.ext_getElem?
    intro i
    rw [List.getElem?_set]
    simp only [List.getElem?_map, List.length_map, List.length_range]
    by_cases hik : k = i
    · subst hik
      have : k < s.b.length := by omega
      simp [this, hashPair, up]
    · simp only [hik, if_false]
      by_cases hil : i < s.b.length
      · simp only [List.getElem?_range hil, Option.map_some]
        congr 1
        by_cases h1 : i < k
        · have h2 : i < k + 1 := by omega
          simp [h1, h2]
        · have h2 : ¬ i < k + 1 := by omega
          simp [h1, h2]
      · simp [hil]

/-- What the loop over the levels does to the proof. -/
def proofAfter (t : Int) (bound : Nat) (pf : Option Proofs) (L : List (Bytes × Bool)) : Option Proofs :=
  if 0 ≤ t ∧ t.toNat < bound then pf.map (fun p => appendAll p L) else pf

theorem mproof_succ (H : Bytes → Bytes) (d : Nat) (f : Nat → Bytes) (i : Nat) :
    mproof H (d + 1) f i = sib (fun i => f (2 * i)) (fun i => f (2 * i + 1)) i :: mproof H d (up H f) (i / 2) := by
  simp only [mproof, sib]
  congr 1
  split
  · rename_i h
    have : i - 1 = 2 * (i / 2) := by omega
    rw [this]
  · rename_i h
    have : i + 1 = 2 * (i / 2) + 1 := by omega
    rw [this]

theorem shiftT_nonneg {t : Int} (h : 0 ≤ t) : shiftT t = ((t.toNat / 2 : Nat) : Int) := by
  unfold shiftT
  rw [if_pos h]; omega

theorem shiftT_neg {t : Int} (h : ¬ 0 ≤ t) : shiftT t = t := by
  unfold shiftT
  rw [if_neg h]

theorem proofAfter_step (H : Bytes → Bytes) (t : Int) (d : Nat) (f : Nat → Bytes) (pf : Option Proofs) :
    proofAfter (shiftT t) (2 ^ d)
      ((List.range (2 ^ d)).foldl (fun pf i => addSibling t (2 * i) (2 * i + 1) (f (2 * i)) (f (2 * i + 1)) pf) pf)
      (mproof H d (up H f) (shiftT t).toNat) =
    proofAfter t (2 ^ (d + 1)) pf (mproof H (d + 1) f t.toNat) := by
  rw [foldSib (2 ^ d) t (fun i => f (2 * i)) (fun i => f (2 * i + 1)) pf]
  unfold proofAfter
  have hp : 2 ^ (d + 1) = 2 * 2 ^ d := by rw [Nat.pow_succ]; omega
  by_cases ht : 0 ≤ t
  · rw [shiftT_nonneg ht]
    have h0 : (0 : Int) ≤ ((t.toNat / 2 : Nat) : Int) := by omega
    simp only [Int.toNat_natCast, h0, ht, true_and]
    by_cases h1 : t.toNat / 2 < 2 ^ d
    · have h2 : t.toNat < 2 ^ (d + 1) := by omega
      simp only [h1, h2, if_true, Option.map_map]
      rw [mproof_succ]
      rfl
    · have h2 : ¬ t.toNat < 2 ^ (d + 1) := by omega
      simp only [h1, h2, if_false]
  · rw [shiftT_neg ht]
    simp [ht]

theorem cLevels_spec (H : Bytes → Bytes) (d : Nat) :
    ∀ (t : Int) (s : CState) (f : Nat → Bytes),
      (∀ p, p < 2 ^ d → s.hashVal H p = f p) → (1 ≤ d → 2 ^ d / 2 ≤ s.b.length) →
      (s.aliased = true → 2 ^ d ≤ s.b.length) → (s.aliased = true ∨ 1 ≤ d) →
      ∃ s' t', cLevels H (2 ^ d) t s = (s', t') ∧ s'.aliased = true ∧ s'.b[0]?.getD [] = mroot H d f ∧
        (t' < 0 ↔ t < 0) ∧ s'.proofs = proofAfter t (2 ^ d) s.proofs (mproof H d f t.toNat) := by
  induction d with
  | zero =>
    intro t s f hf _ hal hor
    have ha : s.aliased = true := by rcases hor with h | h; exact h; omega
    unfold cLevels
    refine ⟨s, t, by simp, ha, ?_, Iff.rfl, ?_⟩
    · have h := hf 0 (by simp)
      have hl := hal ha
      unfold CState.hashVal at h
      have : ¬ (0 ≥ s.b.length) := by simp at hl; omega
      simp only [ha, if_true, this, if_false] at h
      rw [h]; rfl
    · unfold proofAfter
      split
      · cases s.proofs <;> rfl
      · rfl
  | succ d ih =>
    intro t s f hf hb hal _
    have hp : 2 ^ (d + 1) = 2 * 2 ^ d := by rw [Nat.pow_succ]; omega
    have hpos : 0 < 2 ^ d := Nat.pow_pos (by omega)
    have hgt : 2 ^ (d + 1) > 1 := by omega
    have hhalf : 2 ^ (d + 1) / 2 = 2 ^ d := by omega
    have hb' : 2 ^ d ≤ s.b.length := by have := hb (by omega); omega
    rw [cLevels]
    simp only [hgt, dif_pos, hhalf]
    rw [cFold H t s f (2 ^ d) (by rw [← hp]; exact hf) hb' (by intro h; have := hal h; omega) (2 ^ d) (Nat.le_refl _)]
    obtain ⟨s', t', h1, h2, h3, h4, h5⟩ := ih (shiftT t)
      ({ s with
        b := (List.range s.b.length).map (fun j => if j < 2 ^ d then up H f j else s.b[j]?.getD []),
        proofs := (List.range (2 ^ d)).foldl
          (fun pf i => addSibling t (2 * i) (2 * i + 1) (f (2 * i)) (f (2 * i + 1)) pf) s.proofs,
        aliased := true }) (up H f)
      (by
        intro p hp
        have h1 : ¬ s.b.length ≤ p := by omega
        have h2 : p < s.b.length := by omega
        simp [CState.hashVal, h1, h2, hp])
      (by intro _; simp; omega) (by intro _; simp; omega) (Or.inl rfl)
    refine ⟨s', t', h1, h2, by rw [h3, mroot_succ], ?_, ?_⟩
    · rw [h4]
      by_cases ht : 0 ≤ t
      · rw [shiftT_nonneg ht]; omega
      · rw [shiftT_neg ht]
    · rw [h5]
      exact proofAfter_step H t d f s.proofs

theorem growMax_spec (d n : Nat) (hd : IsDepth n d) : ∀ e, 1 ≤ e → e ≤ d → growMax (2 ^ e) n = 2 ^ d := by
  obtain ⟨h1, h2, h3⟩ := hd
  intro e he hed
  obtain ⟨k, rfl⟩ : ∃ k, d = e + k := ⟨d - e, by omega⟩
  induction k generalizing e with
  | zero =>
    rw [growMax]
    have : ¬ (2 ^ e < n) := by simp at h2; omega
    simp [this]
  | succ k ih =>
    rw [growMax]
    have hlt : 2 ^ e < n := by
      have := h3 (by omega)
      have hle : 2 ^ e ≤ 2 ^ (e + (k + 1) - 1) := Nat.pow_le_pow_right (by omega) (by omega)
      omega
    have hpos : 0 < 2 ^ e := Nat.pow_pos (by omega)
    simp only [hpos, hlt, and_self, dif_pos]
    have : 2 * 2 ^ e = 2 ^ (e + 1) := by rw [Nat.pow_succ]; omega
    rw [this]
    have he' : e + (k + 1) = e + 1 + k := by omega
    rw [he'] at h1 h2 h3 ⊢
    exact ih (e + 1) (by omega) (by omega) h2 h3 (by omega)

theorem growDepth_spec (d n : Nat) (hd : IsDepth n d) : ∀ e, 1 ≤ e → e ≤ d → growDepth (2 ^ e) e n = d := by
  obtain ⟨h1, h2, h3⟩ := hd
  intro e he hed
  obtain ⟨k, rfl⟩ : ∃ k, d = e + k := ⟨d - e, by omega⟩
  induction k generalizing e with
  | zero =>
    rw [growDepth]
    have : ¬ (2 ^ e < n) := by simp at h2; omega
    simp [this]
  | succ k ih =>
    rw [growDepth]
    have hlt : 2 ^ e < n := by
      have := h3 (by omega)
      have hle : 2 ^ e ≤ 2 ^ (e + (k + 1) - 1) := Nat.pow_le_pow_right (by omega) (by omega)
      omega
    have hpos : 0 < 2 ^ e := Nat.pow_pos (by omega)
    simp only [hpos, hlt, and_self, dif_pos]
    have : 2 * 2 ^ e = 2 ^ (e + 1) := by rw [Nat.pow_succ]; omega
    rw [this]
    have he' : e + (k + 1) = e + 1 + k := by omega
    rw [he'] at h1 h2 h3 ⊢
    exact ih (e + 1) (by omega) (by omega) h2 h3 (by omega)

/-- Every length has exactly one depth. -/
theorem exists_depth (n : Nat) : ∃ d, IsDepth n d := by
  induction n with
  | zero => exact ⟨1, by omega, by omega, by omega⟩
  | succ n ih =>
    obtain ⟨d, h1, h2, h3⟩ := ih
    by_cases h : n + 1 ≤ 2 ^ d
    · exact ⟨d, h1, h, fun hd => by have := h3 hd; omega⟩
    · have hpos : 0 < 2 ^ d := Nat.pow_pos (by omega)
      refine ⟨d + 1, by omega, by rw [Nat.pow_succ]; omega, fun _ => ?_⟩
      simp only [Nat.add_sub_cancel]; omega

/-- The proof left by the complete tree. -/
def completeProof (H : Bytes → Bytes) (d : Nat) (f : Nat → Bytes) (t : Int) (pf : Option Proofs) : Option Proofs :=
  if t < 0 then pf.map (fun p => p.append (toHash (mroot H d f)) false)
  else proofAfter t (2 ^ d) pf (mproof H d f t.toNat)

theorem complete_spec (H : Bytes → Bytes) (l : List Bytes) (t : Int) (pf : Option Proofs) (d : Nat)
    (hl : l ≠ []) (hd : IsDepth l.length d) :
    merkleHashComplete H l t pf =
      (mroot H d (leaves (nilHash H) l), completeProof H d (leaves (nilHash H) l) t pf) := by
  have hn : ¬ l.length = 0 := by simpa using hl
  unfold merkleHashComplete
  rw [if_neg hn]
  have hg : growMax 2 l.length = 2 ^ d := by
    have := growMax_spec d l.length hd 1 (by omega) hd.1
    simpa using this
  simp only [hg]
  obtain ⟨s', t', h1, h2, h3, h4, h5⟩ := cLevels_spec H d t ⟨l, List.replicate (2 ^ d / 2) [], false, pf⟩
    (leaves (nilHash H) l)
    (by
      intro p _
      simp only [CState.hashVal, Bool.false_eq_true, if_false, leaves]
      by_cases hp : p < l.length
      · have : ¬ p ≥ l.length := by omega
        simp [this, hp]
      · have : p ≥ l.length := by omega
        simp [this])
    (by intro _; simp) (by intro h; cases h) (Or.inr hd.1)
  rw [h1]
  simp only [h2, if_true, h3]
  rw [h5]
  simp only [completeProof]
  by_cases ht : t < 0
  · have ht' : t' < 0 := h4.mpr ht
    have h0 : ¬ 0 ≤ t := by omega
    simp only [ht, ht', if_true, proofAfter, h0, false_and, if_false]
    cases pf <;> rfl
  · have ht' : ¬ t' < 0 := fun h => ht (h4.mp h)
    simp only [ht, ht', if_false]
    cases (proofAfter t (2 ^ d) pf (mproof H d (leaves (nilHash H) l) t.toNat)) <;> rfl

/-! ### `MerkleHashCompleteOld` -/

theorem oldLevel_spec (H : Bytes → Bytes) (m : Nat) (t : Int) (list : List Bytes) (pf : Option Proofs) :
    oldLevel H m t list pf =
      ((List.range m).map (up H (fun p => list[p]?.getD [])),
        (List.range m).foldl (fun pf i => addSibling t (2 * i) (2 * i + 1) (list[2 * i]?.getD [])
          (list[2 * i + 1]?.getD []) pf) pf) := by
  have gen : ∀ k, k ≤ m →
      (List.range k).foldl (fun (acc : List Bytes × Option Proofs) i =>
        let a := list[2 * i]?.getD []
        let b := list[2 * i + 1]?.getD []
        (acc.1.set i (hashPair H a b), addSibling t (2 * i) (2 * i + 1) a b acc.2)) (List.replicate m [], pf) =
      ((List.range m).map (fun j => if j < k then up H (fun p => list[p]?.getD []) j else []),
        (List.range k).foldl (fun pf i => addSibling t (2 * i) (2 * i + 1) (list[2 * i]?.getD [])
          (list[2 * i + 1]?.getD []) pf) pf) := by
    intro k
    induction k with
    | zero =>
      intro _
      simp only [List.range_zero, List.foldl_nil, Nat.not_lt_zero, if_false, List.map_const', List.length_range]
    | succ k ih =>
      intro hk
      rw [List.range_succ, List.foldl_append, ih (by omega), List.foldl_append]
      simp only [List.foldl_cons, List.foldl_nil, Prod.mk.injEq, and_true]
      apply List.ext_getElem?
      intro i
      rw [List.getElem?_set]
      simp only [List.getElem?_map, List.length_map, List.length_range]
      by_cases hik : k = i
      · subst hik
        have : k < m := by omega
        simp [this, hashPair, up]
      · simp only [hik, if_false]
        by_cases hil : i < m
        · simp only [List.getElem?_range hil, Option.map_some]
          congr 1
          by_cases h1 : i < k
          · have h2 : i < k + 1 := by omega
            simp [h1, h2]
          · have h2 : ¬ i < k + 1 := by omega
            simp [h1, h2]
        · simp [hil]
  unfold oldLevel
  rw [gen m (Nat.le_refl _)]
  congr 1
  apply List.map_congr_left
  intro j hj
  simp only [List.mem_range] at hj
  simp [hj]

theorem mroot_congr (H : Bytes → Bytes) (d : Nat) :
    ∀ f g : Nat → Bytes, (∀ i, i < 2 ^ d → f i = g i) → mroot H d f = mroot H d g := by
  induction d with
  | zero => intro f g h; exact h 0 (by simp)
  | succ d ih =>
    intro f g h
    rw [mroot_succ, mroot_succ]
    apply ih
    intro i hi
    have hp : 2 ^ (d + 1) = 2 * 2 ^ d := by rw [Nat.pow_succ]; omega
    simp only [up]
    rw [h (2 * i) (by omega), h (2 * i + 1) (by omega)]

theorem mproof_congr (H : Bytes → Bytes) (d : Nat) :
    ∀ (f g : Nat → Bytes) (t : Nat), (∀ i, i < 2 ^ d → f i = g i) → t < 2 ^ d → mproof H d f t = mproof H d g t := by
  induction d with
  | zero => intro f g t _ _; rfl
  | succ d ih =>
    intro f g t h ht
    have hp : 2 ^ (d + 1) = 2 * 2 ^ d := by rw [Nat.pow_succ]; omega
    rw [mproof_succ, mproof_succ, ih (up H f) (up H g) (t / 2)]
    · simp only [sib]
      rw [h (2 * (t / 2)) (by omega), h (2 * (t / 2) + 1) (by omega)]
    · intro i hi
      simp only [up]
      rw [h (2 * i) (by omega), h (2 * i + 1) (by omega)]
    · omega

theorem oldLevels_spec (H : Bytes → Bytes) (d : Nat) :
    ∀ (t : Int) (list : List Bytes) (pf : Option Proofs) (f : Nat → Bytes),
      (∀ p, p < 2 ^ d → list[p]?.getD [] = f p) →
      ∃ l' t', oldLevels H (2 ^ d) t list pf = (l', proofAfter t (2 ^ d) pf (mproof H d f t.toNat), t') ∧
        l'[0]?.getD [] = mroot H d f ∧ (t' < 0 ↔ t < 0) := by
  induction d with
  | zero =>
    intro t list pf f hf
    refine ⟨list, t, ?_, hf 0 (by simp), Iff.rfl⟩
    have hpa : proofAfter t (2 ^ 0) pf (mproof H 0 f t.toNat) = pf := by
      unfold proofAfter
      split
      · cases pf <;> rfl
      · rfl
    rw [hpa]
    unfold oldLevels
    simp
  | succ d ih =>
    intro t list pf f hf
    have hp : 2 ^ (d + 1) = 2 * 2 ^ d := by rw [Nat.pow_succ]; omega
    have hpos : 0 < 2 ^ d := Nat.pow_pos (by omega)
    have hgt : 2 ^ (d + 1) > 1 := by omega
    have hhalf : 2 ^ (d + 1) / 2 = 2 ^ d := by omega
    rw [oldLevels]
    simp only [hgt, dif_pos, hhalf]
    rw [oldLevel_spec]
    obtain ⟨l', t', h1, h2, h3⟩ := ih (shiftT t) ((List.range (2 ^ d)).map (up H (fun p => list[p]?.getD [])))
      ((List.range (2 ^ d)).foldl (fun pf i => addSibling t (2 * i) (2 * i + 1) (list[2 * i]?.getD [])
          (list[2 * i + 1]?.getD []) pf) pf) (up H f)
      (by
        intro p hpp
        simp only [List.getElem?_map, List.getElem?_range hpp, Option.map_some, Option.getD_some, up]
        rw [hf (2 * p) (by omega), hf (2 * p + 1) (by omega)])
    refine ⟨l', t', ?_, by rw [h2, mroot_succ], ?_⟩
    · simp only
      rw [h1]
      congr 2
      rw [← proofAfter_step]
      congr 1
      apply foldl_congr
      intro a b hb
      simp only [List.mem_range] at hb
      rw [hf (2 * b) (by omega), hf (2 * b + 1) (by omega)]
    · rw [h3]
      by_cases ht : 0 ≤ t
      · rw [shiftT_nonneg ht]; omega
      · rw [shiftT_neg ht]

theorem completeOld_spec (H : Bytes → Bytes) (l : List Bytes) (t : Int) (pf : Option Proofs) (d : Nat)
    (hl : l ≠ []) (hd : IsDepth l.length d) :
    merkleHashCompleteOld H l t pf =
      (mroot H d (leaves (nilHash H) l), completeProof H d (leaves (nilHash H) l) t pf) := by
  have hn : ¬ l.length = 0 := by simpa using hl
  unfold merkleHashCompleteOld
  rw [if_neg hn]
  have hg : growMax 2 l.length = 2 ^ d := by
    have := growMax_spec d l.length hd 1 (by omega) hd.1
    simpa using this
  simp only [hg]
  obtain ⟨l', t', h1, h2, h3⟩ := oldLevels_spec H d t (l ++ List.replicate (2 ^ d - l.length) (nilHash H)) pf
    (leaves (nilHash H) l)
    (by
      intro p hp
      unfold leaves
      by_cases h : p < l.length
      · rw [List.getElem?_append_left h]; simp [h]
      · rw [List.getElem?_append_right (by omega), List.getElem?_replicate]
        have : p - l.length < 2 ^ d - l.length := by omega
        have h' : l[p]? = none := List.getElem?_eq_none (by omega)
        simp [this, h'])
  rw [h1]
  simp only [h2, completeProof]
  by_cases ht : t < 0
  · have ht' : t' < 0 := h3.mpr ht
    have h0 : ¬ 0 ≤ t := by omega
    simp only [ht, ht', if_true, proofAfter, h0, false_and, if_false]
    cases pf <;> rfl
  · have ht' : ¬ t' < 0 := fun h => ht (h3.mp h)
    simp only [ht, ht', if_false]
    cases (proofAfter t (2 ^ d) pf (mproof H d (leaves (nilHash H) l) t.toNat)) <;> rfl

/-! ### `MerkleHash` -/

/-- The right partner on a level with `n` nodes. -/
def rightOf (pad : Bytes) (n : Nat) (f : Nat → Bytes) (i : Nat) : Bytes :=
  if 2 * i + 1 < n then f (2 * i + 1) else pad

/-- One level up in `MerkleHash`. -/
def lup (H : Bytes → Bytes) (pad : Bytes) (n : Nat) (f : Nat → Bytes) (i : Nat) : Bytes :=
  H (f (2 * i) ++ rightOf pad n f i)

theorem lroot_succ (H : Bytes → Bytes) (pad : Bytes) (d n : Nat) (f : Nat → Bytes) :
    lroot H pad (d + 1) n f = lroot H pad d ((n + 1) / 2) (lup H pad n f) := rfl

theorem lproof_succ (H : Bytes → Bytes) (pad : Bytes) (d n : Nat) (f : Nat → Bytes) (i : Nat) :
    lproof H pad (d + 1) n f i =
      sib (fun i => f (2 * i)) (rightOf pad n f) i :: lproof H pad d ((n + 1) / 2) (lup H pad n f) (i / 2) := by
  show _ :: _ = _
  congr 1
  simp only [sib, rightOf]
  split
  · rename_i h
    have : i - 1 = 2 * (i / 2) := by omega
    rw [this]
  · rename_i h
    have : i + 1 = 2 * (i / 2) + 1 := by omega
    rw [this]

theorem lroot_congr (H : Bytes → Bytes) (pad : Bytes) (d : Nat) :
    ∀ (n : Nat) (f g : Nat → Bytes), 0 < n → (∀ i, i < n → f i = g i) → lroot H pad d n f = lroot H pad d n g := by
  induction d with
  | zero => intro n f g hn h; exact h 0 hn
  | succ d ih =>
    intro n f g hn h
    rw [lroot_succ, lroot_succ]
    apply ih
    · omega
    · intro i hi
      simp only [lup, rightOf]
      rw [h (2 * i) (by omega)]
      by_cases hc : 2 * i + 1 < n
      · simp only [hc, if_true]; rw [h _ hc]
      · simp [hc]

theorem lproof_congr (H : Bytes → Bytes) (pad : Bytes) (d : Nat) :
    ∀ (n : Nat) (f g : Nat → Bytes) (t : Nat), t < n → (∀ i, i < n → f i = g i) →
      lproof H pad d n f t = lproof H pad d n g t := by
  induction d with
  | zero => intro n f g t _ _; rfl
  | succ d ih =>
    intro n f g t ht h
    rw [lproof_succ, lproof_succ, ih ((n + 1) / 2) (lup H pad n f) (lup H pad n g) (t / 2) (by omega)]
    · simp only [sib, rightOf]
      rw [h (2 * (t / 2)) (by omega)]
      by_cases hc : 2 * (t / 2) + 1 < n
      · simp only [hc, if_true]; rw [h _ hc]
      · simp [hc]
    · intro i hi
      simp only [lup, rightOf]
      rw [h (2 * i) (by omega)]
      by_cases hc : 2 * i + 1 < n
      · simp only [hc, if_true]; rw [h _ hc]
      · simp [hc]

theorem mFold (H : Bytes → Bytes) (t : Int) (l : List Bytes) (pf : Option Proofs) :
    ∀ k, k ≤ (l.length + 1) / 2 →
      (List.range k).foldl (mBody H t l.length) (l, pf) =
        ((List.range l.length).map (fun j => if j < k then lup H (nilHash H) l.length (fun p => l[p]?.getD []) j
            else l[j]?.getD []),
          (List.range k).foldl (fun pf i => addSibling t (2 * i) (2 * i + 1) (l[2 * i]?.getD [])
            (rightOf (nilHash H) l.length (fun p => l[p]?.getD []) i) pf) pf) := by
  intro k
  induction k with
  | zero =>
    intro _
    simp only [List.range_zero, List.foldl_nil, Nat.not_lt_zero, if_false]
    congr 1
    apply List.ext_getElem?
    intro i
    simp only [List.getElem?_map]
    by_cases hi : i < l.length
    · simp [hi]
    · simp [hi]
  | succ k ih =>
    intro hk
    rw [List.range_succ, List.foldl_append, ih (by omega), List.foldl_append]
    simp only [List.foldl_cons, List.foldl_nil]
    have hread : ∀ p, k ≤ p → p < l.length →
        ((List.range l.length).map (fun j => if j < k then lup H (nilHash H) l.length (fun p => l[p]?.getD []) j
            else l[j]?.getD []))[p]?.getD [] = l[p]?.getD [] := by
      intro p h1 h2
      have h3 : ¬ p < k := by omega
      simp [h2, h3]
    have hright : (if 2 * k + 1 < l.length then ((List.range l.length).map (fun j => if j < k then
          lup H (nilHash H) l.length (fun p => l[p]?.getD []) j else l[j]?.getD []))[2 * k + 1]?.getD [] else nilHash H) =
        rightOf (nilHash H) l.length (fun p => l[p]?.getD []) k := by
      unfold rightOf
      by_cases hc : 2 * k + 1 < l.length
      · simp only [hc, if_true]; exact hread _ (by omega) hc
      · simp [hc]
    unfold mBody
    simp only
    rw [hright, hread (2 * k) (by omega) (by omega)]
    simp only [Prod.mk.injEq, and_true]
    apply List.ext_getElem?
    intro i
    rw [List.getElem?_set]
    simp only [List.getElem?_map, List.length_map, List.length_range]
    by_cases hik : k = i
    · subst hik
      have : k < l.length := by omega
      simp [this, hashPair, lup]
    · simp only [hik, if_false]
      by_cases hil : i < l.length
      · simp only [List.getElem?_range hil, Option.map_some]
        congr 1
        by_cases h1 : i < k
        · have h2 : i < k + 1 := by omega
          simp [h1, h2]
        · have h2 : ¬ i < k + 1 := by omega
          simp [h1, h2]
      · simp [hil]

theorem mLevels_spec (H : Bytes → Bytes) (d : Nat) :
    ∀ (t : Int) (l : List Bytes) (pf : Option Proofs), l ≠ [] → t < l.length →
      (mLevels H d t l pf).1[0]?.getD [] = lroot H (nilHash H) d l.length (fun p => l[p]?.getD []) ∧
      (mLevels H d t l pf).2 =
        proofAfter t l.length pf (lproof H (nilHash H) d l.length (fun p => l[p]?.getD []) t.toNat) := by
  induction d with
  | zero =>
    intro t l pf hl _
    refine ⟨rfl, ?_⟩
    simp only [mLevels, proofAfter, lproof]
    split
    · cases pf <;> rfl
    · rfl
  | succ d ih =>
    intro t l pf hl ht
    have hn : 0 < l.length := List.length_pos_iff.mpr hl
    simp only [mLevels]
    rw [mFold H t l pf _ (Nat.le_refl _)]
    simp only
    generalize hl' : ((List.range l.length).map (fun j => if j < (l.length + 1) / 2 then
      lup H (nilHash H) l.length (fun p => l[p]?.getD []) j else l[j]?.getD [])).take ((l.length + 1) / 2) = l'
    have hlen : l'.length = (l.length + 1) / 2 := by
      rw [← hl']; simp; omega
    have hget : ∀ p, p < (l.length + 1) / 2 → l'[p]?.getD [] = lup H (nilHash H) l.length (fun p => l[p]?.getD []) p := by
      intro p hp
      rw [← hl', List.getElem?_take_of_lt hp]
      have : p < l.length := by omega
      simp [this, hp]
    have hne : l' ≠ [] := by
      intro h; rw [h] at hlen; simp at hlen; omega
    obtain ⟨g1, g2⟩ := ih (shiftT t) l' ((List.range ((l.length + 1) / 2)).foldl (fun pf i => addSibling t (2 * i)
      (2 * i + 1) (l[2 * i]?.getD []) (rightOf (nilHash H) l.length (fun p => l[p]?.getD []) i) pf) pf) hne
      (by
        by_cases h0 : 0 ≤ t
        · rw [shiftT_nonneg h0]; omega
        · rw [shiftT_neg h0]; omega)
    constructor
    · rw [g1, lroot_succ, hlen]
      exact lroot_congr H _ d _ _ _ (by omega) hget
    · rw [g2, foldSib _ t (fun i => l[2 * i]?.getD []) (rightOf (nilHash H) l.length (fun p => l[p]?.getD [])) pf,
        hlen, lproof_succ]
      unfold proofAfter
      by_cases h0 : 0 ≤ t
      · rw [shiftT_nonneg h0]
        have h1 : t.toNat / 2 < (l.length + 1) / 2 := by omega
        have h2 : t.toNat < l.length := by omega
        have h3 : (0 : Int) ≤ ((t.toNat / 2 : Nat) : Int) := by omega
        simp only [h0, h1, h2, h3, Int.toNat_natCast, and_self, if_true, Option.map_map]
        rw [lproof_congr H _ d _ _ _ _ h1 hget]
        rfl
      · rw [shiftT_neg h0]
        simp [h0]

theorem merkle_spec (H : Bytes → Bytes) (l : List Bytes) (t : Int) (pf : Option Proofs) (d : Nat)
    (hl : l ≠ []) (hd : IsDepth l.length d) (ht : t < l.length) :
    merkleHash H l t pf =
      (lroot H (nilHash H) d l.length (leaves (nilHash H) l),
        proofAfter t l.length pf (lproof H (nilHash H) d l.length (leaves (nilHash H) l) t.toNat)) := by
  have hn : ¬ l.length = 0 := by simpa using hl
  unfold merkleHash
  rw [if_neg hn]
  have hg : growDepth 2 1 l.length = d := by
    have := growDepth_spec d l.length hd 1 (by omega) hd.1
    simpa using this
  simp only [hg]
  obtain ⟨h1, h2⟩ := mLevels_spec H d t l pf hl ht
  have hcong : ∀ i, i < l.length → l[i]?.getD [] = leaves (nilHash H) l i := by
    intro i hi; simp [leaves, hi]
  rw [h1, h2]
  congr 1
  · exact lroot_congr H _ d _ _ _ (by omega) hcong
  · unfold proofAfter
    split
    · rename_i h
      rw [lproof_congr H _ d _ _ _ _ h.2 hcong]
    · rfl

end Verif.Merkle

import Verif.Merkle.Roots

/-!
# Evaluation, position bits, binding and soundness over the tree specification
-/

namespace Verif.Merkle
open Verif

theorem toHash_of_len {b : Bytes} (h : b.length = 32) : toHash b = b := by
  unfold toHash
  simp [h]

/-! ### Proofs built by appends -/

/-- The proof built by a sequence of `Append` calls on a new proof. -/
def build (L : List (Bytes × Bool)) : Proofs := L.foldl (fun p it => p.append it.1 it.2) newProofs

theorem rep_foldl (L : List (Bytes × Bool)) : ∀ (p : Proofs) (L0 : List (Bytes × Bool)), Rep p L0 →
    Rep (L.foldl (fun p it => p.append it.1 it.2) p) (L0 ++ L) := by
  induction L with
  | nil => intro p L0 h; simpa using h
  | cons it L ih =>
    intro p L0 h
    have := ih _ _ (h.append it.1 it.2)
    simpa using this

theorem rep_build (L : List (Bytes × Bool)) : Rep (build L) L := by
  have := rep_foldl L newProofs [] Rep.new
  simpa [build] using this

theorem appendAll_eq (p : Proofs) (L : List (Bytes × Bool)) (h : ∀ it ∈ L, it.1.length = 32) :
    appendAll p L = L.foldl (fun p it => p.append it.1 it.2) p := by
  unfold appendAll
  apply foldl_congr
  intro b a ha
  rw [toHash_of_len (h a ha)]

theorem rep_appendAll (p : Proofs) (L0 L : List (Bytes × Bool)) (hr : Rep p L0)
    (h : ∀ it ∈ L, it.1.length = 32) : Rep (appendAll p L) (L0 ++ L) := by
  rw [appendAll_eq p L h]; exact rep_foldl L p L0 hr

theorem evalItems_append (H : Bytes → Bytes) (L M : List (Bytes × Bool)) (h : Bytes) :
    evalItems H (L ++ M) h = evalItems H M (evalItems H L h) := by
  simp [evalItems]

theorem Rep.proof {p : Proofs} {L : List (Bytes × Bool)} (hr : Rep p L) (H : Bytes → Bytes) (h : Bytes) :
    p.proof H h = some (evalItems H L h) := by
  unfold Proofs.proof
  rw [hr.items]; rfl

/-! ### The complete tree -/

theorem mproof_eval (H : Bytes → Bytes) (d : Nat) : ∀ (f : Nat → Bytes) (i : Nat), i < 2 ^ d →
    evalItems H (mproof H d f i) (f i) = mroot H d f := by
  induction d with
  | zero => intro f i hi; simp at hi; subst hi; rfl
  | succ d ih =>
    intro f i hi
    have hp : 2 ^ (d + 1) = 2 * 2 ^ d := by rw [Nat.pow_succ]; omega
    rw [mproof_succ, mroot_succ, ← ih (up H f) (i / 2) (by omega)]
    simp only [evalItems, List.foldl_cons]
    congr 1
    simp only [sib, up]
    by_cases h : i % 2 = 1
    · have : i = 2 * (i / 2) + 1 := by omega
      simp only [h, if_true, hashPairOrder]
      congr 2
      congr 1
    · have : i = 2 * (i / 2) := by omega
      simp only [h, if_false, hashPairOrder, Bool.false_eq_true]
      congr 2
      congr 1

theorem mproof_length (H : Bytes → Bytes) (d : Nat) : ∀ (f : Nat → Bytes) (i : Nat), (mproof H d f i).length = d := by
  induction d with
  | zero => intro f i; rfl
  | succ d ih => intro f i; rw [mproof_succ]; simp [ih]

theorem mproof_bits (H : Bytes → Bytes) (d : Nat) : ∀ (f : Nat → Bytes) (i : Nat), i < 2 ^ d →
    bitsNat ((mproof H d f i).map Prod.snd) = i := by
  induction d with
  | zero => intro f i hi; simp at hi; subst hi; rfl
  | succ d ih =>
    intro f i hi
    have hp : 2 ^ (d + 1) = 2 * 2 ^ d := by rw [Nat.pow_succ]; omega
    rw [mproof_succ, List.map_cons, bitsNat, ih (up H f) (i / 2) (by omega)]
    simp only [sib]
    by_cases h : i % 2 = 1
    · simp [h]; omega
    · simp [h]; omega

theorem mproof_len32 (H : Bytes → Bytes) (hH : ∀ b, (H b).length = 32) (d : Nat) : ∀ (f : Nat → Bytes) (i : Nat),
    (∀ j, (f j).length = 32) → ∀ it ∈ mproof H d f i, it.1.length = 32 := by
  induction d with
  | zero => intro f i _ it hit; simp [mproof] at hit
  | succ d ih =>
    intro f i hf it hit
    rw [mproof_succ, List.mem_cons] at hit
    rcases hit with rfl | hit
    · simp only [sib]; split <;> exact hf _
    · exact ih (up H f) (i / 2) (fun j => hH _) it hit

theorem mroot_len32 (H : Bytes → Bytes) (hH : ∀ b, (H b).length = 32) (d : Nat) : ∀ (f : Nat → Bytes),
    (∀ j, (f j).length = 32) → (mroot H d f).length = 32 := by
  induction d with
  | zero => intro f hf; exact hf 0
  | succ d ih => intro f _; exact ih (up H f) (fun j => hH _)

theorem leaves_len32 {l : List Bytes} {pad : Bytes} (hp : pad.length = 32) (h : ∀ x ∈ l, x.length = 32) (j : Nat) :
    (leaves pad l j).length = 32 := by
  unfold leaves
  cases hj : l[j]? with
  | none => exact hp
  | some x => exact h x (List.mem_of_getElem? hj)

theorem minputs_succ (H : Bytes → Bytes) (d : Nat) (f : Nat → Bytes) :
    minputs H (d + 1) f =
      (List.range (2 ^ d)).map (fun i => f (2 * i) ++ f (2 * i + 1)) ++ minputs H d (up H f) := rfl

theorem mroot_binding (H : Bytes → Bytes) (hH : ∀ b, (H b).length = 32) (d : Nat) : ∀ (f g : Nat → Bytes),
    (∀ j, (f j).length = 32) → (∀ j, (g j).length = 32) → mroot H d f = mroot H d g →
    (∀ i, i < 2 ^ d → f i = g i) ∨ Collision H (minputs H d f) (minputs H d g) := by
  induction d with
  | zero => intro f g _ _ h; left; intro i hi; simp at hi; subst hi; exact h
  | succ d ih =>
    intro f g hf hg h
    have hp : 2 ^ (d + 1) = 2 * 2 ^ d := by rw [Nat.pow_succ]; omega
    rw [mroot_succ, mroot_succ] at h
    rcases ih _ _ (fun j => hH _) (fun j => hH _) h with heq | ⟨x, hx, y, hy, hne, hc⟩
    · by_cases hall : ∀ i, i < 2 ^ d → f (2 * i) ++ f (2 * i + 1) = g (2 * i) ++ g (2 * i + 1)
      · left
        intro i hi
        have := hall (i / 2) (by omega)
        have hlen : (f (2 * (i / 2))).length = (g (2 * (i / 2))).length := by rw [hf, hg]
        obtain ⟨h1, h2⟩ := List.append_inj this hlen
        by_cases hm : i % 2 = 1
        · have : i = 2 * (i / 2) + 1 := by omega
          rw [this]; exact h2
        · have : i = 2 * (i / 2) := by omega
          rw [this]; exact h1
      · right
        simp only [not_forall] at hall
        obtain ⟨i, hi, hne⟩ := hall
        refine ⟨f (2 * i) ++ f (2 * i + 1), ?_, g (2 * i) ++ g (2 * i + 1), ?_, hne, heq i hi⟩
        · rw [minputs_succ]; simp only [List.mem_append, List.mem_map, List.mem_range]
          exact Or.inl ⟨i, hi, rfl⟩
        · rw [minputs_succ]; simp only [List.mem_append, List.mem_map, List.mem_range]
          exact Or.inl ⟨i, hi, rfl⟩
    · right
      refine ⟨x, ?_, y, ?_, hne, hc⟩
      · rw [minputs_succ]; exact List.mem_append_right _ hx
      · rw [minputs_succ]; exact List.mem_append_right _ hy

theorem bitsNat_lt (bs : List Bool) : bitsNat bs < 2 ^ bs.length := by
  induction bs with
  | nil => simp [bitsNat]
  | cons b bs ih =>
    simp only [bitsNat, List.length_cons, Nat.pow_succ]
    split <;> omega

theorem mroot_sound (H : Bytes → Bytes) (hH : ∀ b, (H b).length = 32) (d : Nat) :
    ∀ (f : Nat → Bytes) (L : List (Bytes × Bool)) (v : Bytes),
    (∀ j, (f j).length = 32) → (∀ it ∈ L, it.1.length = 32) → v.length = 32 → L.length = d →
    evalItems H L v = mroot H d f →
    v = f (bitsNat (L.map Prod.snd)) ∨ Collision H (evalInputs H L v) (minputs H d f) := by
  induction d with
  | zero =>
    intro f L v _ _ _ hl h
    have : L = [] := List.length_eq_zero_iff.mp hl
    subst this
    left; exact h
  | succ d ih =>
    intro f L v hf hL hv hl h
    cases L with
    | nil => simp at hl
    | cons it L =>
      obtain ⟨s, o⟩ := it
      simp only [List.length_cons, Nat.add_right_cancel_iff] at hl
      have hs : s.length = 32 := hL (s, o) (by simp)
      rw [mroot_succ] at h
      have hlt := bitsNat_lt (L.map Prod.snd)
      simp only [List.length_map, hl] at hlt
      generalize hi : bitsNat (L.map Prod.snd) = i at hlt
      have heval : evalItems H ((s, o) :: L) v = evalItems H L (H (if o then s ++ v else v ++ s)) := by
        simp only [evalItems, List.foldl_cons, hashPairOrder]
        cases o <;> rfl
      rw [heval] at h
      rcases ih (up H f) L _ (fun j => hH _) (fun x hx => hL x (by simp [hx])) (hH _) hl h with h1 | ⟨x, hx, y, hy, hne, hc⟩
      · rw [hi] at h1
        by_cases heq : (if o then s ++ v else v ++ s) = f (2 * i) ++ f (2 * i + 1)
        · left
          cases o with
          | true =>
            simp only [if_true] at heq
            have := (List.append_inj heq (by rw [hs, hf])).2
            simp only [List.map_cons, bitsNat, hi, if_true, Nat.add_comm 1]
            exact this
          | false =>
            simp only [Bool.false_eq_true, if_false] at heq
            have := (List.append_inj heq (by rw [hv, hf])).1
            simp only [List.map_cons, bitsNat, hi, Bool.false_eq_true, if_false, Nat.zero_add]
            exact this
        · right
          refine ⟨_, ?_, f (2 * i) ++ f (2 * i + 1), ?_, heq, h1⟩
          · simp [evalInputs]
          · rw [minputs_succ]; simp only [List.mem_append, List.mem_map, List.mem_range]
            exact Or.inl ⟨i, hlt, rfl⟩
      · right
        refine ⟨x, ?_, y, ?_, hne, hc⟩
        · simp only [evalInputs, List.mem_cons]; exact Or.inr hx
        · rw [minputs_succ]; exact List.mem_append_right _ hy

/-! ### The tree of `MerkleHash` -/

theorem rightOf_len32 {pad : Bytes} {f : Nat → Bytes} (hp : pad.length = 32) (hf : ∀ j, (f j).length = 32) (n i : Nat) :
    (rightOf pad n f i).length = 32 := by
  unfold rightOf; split
  · exact hf _
  · exact hp

theorem lproof_eval (H : Bytes → Bytes) (pad : Bytes) (d : Nat) : ∀ (n : Nat) (f : Nat → Bytes) (i : Nat), i < n →
    n ≤ 2 ^ d → evalItems H (lproof H pad d n f i) (f i) = lroot H pad d n f := by
  induction d with
  | zero => intro n f i hi hn; have : i = 0 := by simp at hn; omega
            subst this; rfl
  | succ d ih =>
    intro n f i hi hn
    have hp : 2 ^ (d + 1) = 2 * 2 ^ d := by rw [Nat.pow_succ]; omega
    rw [lproof_succ, lroot_succ, ← ih ((n + 1) / 2) (lup H pad n f) (i / 2) (by omega) (by omega)]
    simp only [evalItems, List.foldl_cons]
    congr 1
    simp only [sib, lup]
    by_cases h : i % 2 = 1
    · have h1 : 2 * (i / 2) + 1 = i := by omega
      simp only [h, if_true, hashPairOrder, rightOf, h1, hi]
    · have h1 : 2 * (i / 2) = i := by omega
      simp only [h, if_false, hashPairOrder, Bool.false_eq_true, h1]

theorem lproof_length (H : Bytes → Bytes) (pad : Bytes) (d : Nat) : ∀ (n : Nat) (f : Nat → Bytes) (i : Nat),
    (lproof H pad d n f i).length = d := by
  induction d with
  | zero => intro n f i; rfl
  | succ d ih => intro n f i; rw [lproof_succ]; simp [ih]

theorem lproof_bits (H : Bytes → Bytes) (pad : Bytes) (d : Nat) : ∀ (n : Nat) (f : Nat → Bytes) (i : Nat), i < 2 ^ d →
    bitsNat ((lproof H pad d n f i).map Prod.snd) = i := by
  induction d with
  | zero => intro n f i hi; simp at hi; subst hi; rfl
  | succ d ih =>
    intro n f i hi
    have hp : 2 ^ (d + 1) = 2 * 2 ^ d := by rw [Nat.pow_succ]; omega
    rw [lproof_succ, List.map_cons, bitsNat, ih _ _ (i / 2) (by omega)]
    simp only [sib]
    by_cases h : i % 2 = 1
    · simp [h]; omega
    · simp [h]; omega

theorem lproof_len32 (H : Bytes → Bytes) (hH : ∀ b, (H b).length = 32) (pad : Bytes) (hp : pad.length = 32) (d : Nat) :
    ∀ (n : Nat) (f : Nat → Bytes) (i : Nat), (∀ j, (f j).length = 32) → ∀ it ∈ lproof H pad d n f i, it.1.length = 32 := by
  induction d with
  | zero => intro n f i _ it hit; simp [lproof] at hit
  | succ d ih =>
    intro n f i hf it hit
    rw [lproof_succ, List.mem_cons] at hit
    rcases hit with rfl | hit
    · simp only [sib]; split
      · exact hf _
      · exact rightOf_len32 hp hf _ _
    · exact ih _ _ (i / 2) (fun j => hH _) it hit

theorem linputs_succ (H : Bytes → Bytes) (pad : Bytes) (d n : Nat) (f : Nat → Bytes) :
    linputs H pad (d + 1) n f =
      (List.range ((n + 1) / 2)).map (fun i => f (2 * i) ++ rightOf pad n f i) ++
        linputs H pad d ((n + 1) / 2) (lup H pad n f) := rfl

theorem lroot_binding (H : Bytes → Bytes) (hH : ∀ b, (H b).length = 32) (pad : Bytes) (d : Nat) :
    ∀ (n : Nat) (f g : Nat → Bytes), n ≤ 2 ^ d →
    (∀ j, (f j).length = 32) → (∀ j, (g j).length = 32) → lroot H pad d n f = lroot H pad d n g →
    (∀ i, i < n → f i = g i) ∨ Collision H (linputs H pad d n f) (linputs H pad d n g) := by
  induction d with
  | zero =>
    intro n f g hn _ _ h; left; intro i hi
    have : i = 0 := by simp at hn; omega
    subst this; exact h
  | succ d ih =>
    intro n f g hn hf hg h
    have hp : 2 ^ (d + 1) = 2 * 2 ^ d := by rw [Nat.pow_succ]; omega
    rw [lroot_succ, lroot_succ] at h
    rcases ih _ _ _ (by omega) (fun j => hH _) (fun j => hH _) h with heq | ⟨x, hx, y, hy, hne, hc⟩
    · by_cases hall : ∀ i, i < (n + 1) / 2 → f (2 * i) ++ rightOf pad n f i = g (2 * i) ++ rightOf pad n g i
      · left
        intro i hi
        have := hall (i / 2) (by omega)
        have hlen : (f (2 * (i / 2))).length = (g (2 * (i / 2))).length := by rw [hf, hg]
        obtain ⟨h1, h2⟩ := List.append_inj this hlen
        by_cases hm : i % 2 = 1
        · have h3 : 2 * (i / 2) + 1 = i := by omega
          simp only [rightOf, h3, hi, if_true] at h2
          exact h2
        · have : i = 2 * (i / 2) := by omega
          rw [this]; exact h1
      · right
        simp only [not_forall] at hall
        obtain ⟨i, hi, hne⟩ := hall
        refine ⟨_, ?_, _, ?_, hne, heq i hi⟩
        · rw [linputs_succ]; simp only [List.mem_append, List.mem_map, List.mem_range]
          exact Or.inl ⟨i, hi, rfl⟩
        · rw [linputs_succ]; simp only [List.mem_append, List.mem_map, List.mem_range]
          exact Or.inl ⟨i, hi, rfl⟩
    · right
      refine ⟨x, ?_, y, ?_, hne, hc⟩
      · rw [linputs_succ]; exact List.mem_append_right _ hx
      · rw [linputs_succ]; exact List.mem_append_right _ hy

theorem lroot_sound (H : Bytes → Bytes) (hH : ∀ b, (H b).length = 32) (pad : Bytes) (d : Nat) :
    ∀ (n : Nat) (f : Nat → Bytes) (L : List (Bytes × Bool)) (v : Bytes), n ≤ 2 ^ d →
    (∀ j, (f j).length = 32) → (∀ it ∈ L, it.1.length = 32) → v.length = 32 → L.length = d →
    bitsNat (L.map Prod.snd) < n →
    evalItems H L v = lroot H pad d n f →
    v = f (bitsNat (L.map Prod.snd)) ∨ Collision H (evalInputs H L v) (linputs H pad d n f) := by
  induction d with
  | zero =>
    intro n f L v _ _ _ _ hl _ h
    have : L = [] := List.length_eq_zero_iff.mp hl
    subst this
    left; exact h
  | succ d ih =>
    intro n f L v hn hf hL hv hl hlt h
    cases L with
    | nil => simp at hl
    | cons it L =>
      obtain ⟨s, o⟩ := it
      simp only [List.length_cons, Nat.add_right_cancel_iff] at hl
      have hs : s.length = 32 := hL (s, o) (by simp)
      have hp : 2 ^ (d + 1) = 2 * 2 ^ d := by rw [Nat.pow_succ]; omega
      rw [lroot_succ] at h
      simp only [List.map_cons, bitsNat] at hlt ⊢
      generalize hi : bitsNat (L.map Prod.snd) = i at hlt ⊢
      have hi2 : i < (n + 1) / 2 := by split at hlt <;> omega
      have heval : evalItems H ((s, o) :: L) v = evalItems H L (H (if o then s ++ v else v ++ s)) := by
        simp only [evalItems, List.foldl_cons, hashPairOrder]
        cases o <;> rfl
      rw [heval] at h
      rcases ih _ (lup H pad n f) L _ (by omega) (fun j => hH _) (fun x hx => hL x (by simp [hx])) (hH _) hl
        (by rw [hi]; exact hi2) h with h1 | ⟨x, hx, y, hy, hne, hc⟩
      · rw [hi] at h1
        by_cases heq : (if o then s ++ v else v ++ s) = f (2 * i) ++ rightOf pad n f i
        · left
          cases o with
          | true =>
            simp only [if_true] at heq hlt ⊢
            have := (List.append_inj heq (by rw [hs, hf])).2
            have hlt' : 2 * i + 1 < n := by omega
            simp only [rightOf, hlt', if_true] at this
            rw [Nat.add_comm 1]
            exact this
          | false =>
            simp only [Bool.false_eq_true, if_false] at heq ⊢
            have := (List.append_inj heq (by rw [hv, hf])).1
            rw [Nat.zero_add]
            exact this
        · right
          refine ⟨_, ?_, f (2 * i) ++ rightOf pad n f i, ?_, heq, h1⟩
          · simp [evalInputs]
          · rw [linputs_succ]; simp only [List.mem_append, List.mem_map, List.mem_range]
            exact Or.inl ⟨i, hi2, rfl⟩
      · right
        refine ⟨x, ?_, y, ?_, hne, hc⟩
        · simp only [evalInputs, List.mem_cons]; exact Or.inr hx
        · rw [linputs_succ]; exact List.mem_append_right _ hy

/-! ### `BigKey` -/

theorem testBit_setBit (n i j : Nat) (b : Bool) : (setBit n i b).testBit j = if j = i then b else n.testBit j := by
  unfold setBit
  by_cases h : n.testBit i = b
  · rw [if_pos h]
    by_cases hj : j = i
    · subst hj; simp [h]
    · simp [hj]
  · rw [if_neg h, Nat.testBit_xor, Nat.testBit_two_pow]
    by_cases hj : j = i
    · subst hj
      simp
      cases hb : n.testBit j <;> cases b <;> simp_all
    · have : ¬ i = j := fun e => hj e.symm
      simp [hj, this]

theorem bigKey_testBit (paths key start : Nat) (m j : Nat) :
    ((List.range m).foldl (fun k i => setBit k (i + start) (paths.testBit i)) key).testBit j =
      if start ≤ j ∧ j < start + m then paths.testBit (j - start) else key.testBit j := by
  induction m with
  | zero =>
    have : ¬ (start ≤ j ∧ j < start + 0) := by omega
    rw [if_neg this]; rfl
  | succ m ih =>
    rw [List.range_succ, List.foldl_append]
    simp only [List.foldl_cons, List.foldl_nil]
    rw [testBit_setBit, ih]
    by_cases h1 : j = m + start
    · have h2 : start ≤ j ∧ j < start + (m + 1) := by omega
      have h3 : j - start = m := by omega
      rw [if_pos h1, if_pos h2, h3]
    · by_cases h2 : start ≤ j ∧ j < start + m
      · have h3 : start ≤ j ∧ j < start + (m + 1) := by omega
        rw [if_neg h1, if_pos h2, if_pos h3]
      · have h3 : ¬ (start ≤ j ∧ j < start + (m + 1)) := by omega
        rw [if_neg h1, if_neg h2, if_neg h3]

theorem bitsNat_testBit (bs : List Bool) (j : Nat) : (bitsNat bs).testBit j = bs[j]?.getD false := by
  induction bs generalizing j with
  | nil => simp [bitsNat]
  | cons b bs ih =>
    cases j with
    | zero =>
      simp only [bitsNat, List.getElem?_cons_zero, Option.getD_some]
      rw [Nat.testBit_zero]
      cases b <;> simp
    | succ j =>
      simp only [bitsNat, List.getElem?_cons_succ]
      rw [Nat.testBit_succ, ← ih]
      congr 1
      split <;> omega

theorem Rep.paths_eq {p : Proofs} {L : List (Bytes × Bool)} (h : Rep p L) : p.paths = bitsNat (L.map Prod.snd) := by
  apply Nat.eq_of_testBit_eq
  intro i
  rw [h.paths i, bitsNat_testBit, List.getElem?_map]

theorem Rep.bigKey {p : Proofs} {L : List (Bytes × Bool)} (h : Rep p L) (key start : Nat) :
    (p.bigKey key start).2 = start + L.length ∧
    ∀ j, (p.bigKey key start).1.testBit j =
      if start ≤ j ∧ j < start + L.length then ((L.map Prod.snd)[j - start]?.getD false) else key.testBit j := by
  unfold Proofs.bigKey
  by_cases h0 : p.hashs.length = 0
  · rw [if_pos h0]
    have : L.length = 0 := by
      obtain ⟨R, h1, _, _, h4⟩ := h.runs
      have : R = [] := by
        rw [h1] at h0; simpa using h0
      subst this
      simp [spell] at h4
      simp [h4]
    simp only [this, Nat.add_zero, true_and]
    intro j
    have : ¬ (start ≤ j ∧ j < start) := by omega
    rw [if_neg this]
  · rw [if_neg h0]
    have hl : p.len.toNat = L.length := by rw [h.len]; simp
    simp only [hl]
    refine ⟨by omega, ?_⟩
    intro j
    rw [bigKey_testBit, h.paths_eq, bitsNat_testBit]

/-! ### Repeat table validity -/

theorem validFrom_repsOf (R : Runs) (i : Nat) (last : Int) (h : last < i) : validFrom last (repsOf i R) = true := by
  induction R generalizing i last with
  | nil => rfl
  | cons r R ih =>
    obtain ⟨a, e⟩ := r
    cases e with
    | zero => simp only [repsOf]; exact ih (i + 1) last (by omega)
    | succ e =>
      simp only [repsOf, validFrom, MoreTime.valid, Bool.and_eq_true, decide_eq_true_eq, Bool.not_eq_true',
        decide_eq_false_iff_not]
      refine ⟨⟨⟨by omega, by omega⟩, by omega⟩, ?_⟩
      exact ih (i + 1) i (by omega)

end Verif.Merkle

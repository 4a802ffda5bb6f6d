import Verif.Merkle.Lemmas2

/-!
# Merkle properties (C23-C31, C83)
-/

namespace Verif.Merkle
open Verif

/-- A toy digest for the examples: 32 bytes, not constant. -/
def toyH (b : Bytes) : Bytes := natBE 32 (beNat (1 :: b) % 1000003)

theorem toyH_len (b : Bytes) : (toyH b).length = 32 := natBE_length _ _

/-- 32-byte leaves for the examples. -/
def toyLeaf (n : Nat) : Bytes := natBE 32 n

theorem nil32 {H : Bytes → Bytes} (hH : ∀ b, (H b).length = 32) : (nilHash H).length = 32 := hH []

theorem proofAfter_nat (i bound : Nat) (pf : Option Proofs) (L : List (Bytes × Bool)) (h : i < bound) :
    proofAfter i bound pf L = pf.map (fun p => appendAll p L) := by
  unfold proofAfter
  rw [if_pos ⟨by omega, by simpa using h⟩]

theorem completeProof_nat (H : Bytes → Bytes) (d : Nat) (f : Nat → Bytes) (i : Nat) (pf : Option Proofs) (h : i < 2 ^ d) :
    completeProof H d f i pf = pf.map (fun p => appendAll p (mproof H d f i)) := by
  unfold completeProof
  rw [if_neg (by omega), proofAfter_nat _ _ _ _ h]
  rfl

/-! ### C27: run-length compression -/

/-- C27: after any sequence of `Append` calls on a new proof, iterating it yields exactly that sequence, `Len` is its
length and `Get` its elements; other indexes are refused. -/
theorem C27_runlength_lossless (L : List (Bytes × Bool)) :
    (build L).items = some L ∧ (build L).len = L.length ∧
    (∀ i : Nat, (build L).get i = L[i]?) ∧ (∀ i : Int, i < 0 → (build L).get i = none) := by
  have h := rep_build L
  refine ⟨h.items, h.len, h.get, ?_⟩
  intro i hi
  unfold Proofs.get
  rw [if_pos hi]

/-- C27: and so evaluating the proof folds exactly the appended pairs. -/
theorem C27_proof_folds (H : Bytes → Bytes) (L : List (Bytes × Bool)) (h : Bytes) :
    (build L).proof H h = some (L.foldl (fun acc it => if it.2 then H (it.1 ++ acc) else H (acc ++ it.1)) h) := by
  rw [(rep_build L).proof]
  rfl

example : (build [([1], true), ([1], false), ([2], true), ([2], true), ([1], true)]).hashs = [[1], [2], [1]] := by decide

/-! ### C23, C24, C25: roots and proofs -/

/-- C23: the proof collected for an index evaluates from the hash at that index to the returned root. -/
theorem C23_complete_proof_verifies (H : Bytes → Bytes) (hH : ∀ b, (H b).length = 32) (l : List Bytes)
    (h32 : ∀ x ∈ l, x.length = 32) (i : Nat) (hi : i < l.length) :
    ∃ p, (merkleHashComplete H l i (some newProofs)).2 = some p ∧
      p.proof H l[i] = some (merkleHashComplete H l i (some newProofs)).1 := by
  obtain ⟨d, hd⟩ := exists_depth l.length
  have hl : l ≠ [] := by intro h; subst h; simp at hi
  rw [complete_spec H l i _ d hl hd]
  rw [completeProof_nat _ _ _ _ _ (by have := hd.2.1; omega)]
  simp only [Option.map_some]
  refine ⟨_, rfl, ?_⟩
  rw [(rep_appendAll _ [] _ Rep.new (mproof_len32 H hH d _ i (leaves_len32 (nil32 hH) h32))).proof]
  have hleaf : l[i] = leaves (nilHash H) l i := by simp [leaves, hi]
  rw [hleaf, List.nil_append, mproof_eval H d _ i (by have := hd.2.1; omega)]

/-- C23: appended to a proof that already leads from `x` to the hash at the index, the extended proof leads from `x` to
the root. -/
theorem C23_complete_proof_extends (H : Bytes → Bytes) (hH : ∀ b, (H b).length = 32) (l : List Bytes)
    (h32 : ∀ x ∈ l, x.length = 32) (i : Nat) (hi : i < l.length) (L : List (Bytes × Bool)) (x : Bytes)
    (hx : (build L).proof H x = some l[i]) :
    ∃ p, (merkleHashComplete H l i (some (build L))).2 = some p ∧
      p.proof H x = some (merkleHashComplete H l i (some (build L))).1 := by
  obtain ⟨d, hd⟩ := exists_depth l.length
  have hl : l ≠ [] := by intro h; subst h; simp at hi
  rw [complete_spec H l i _ d hl hd]
  rw [completeProof_nat _ _ _ _ _ (by have := hd.2.1; omega)]
  simp only [Option.map_some]
  refine ⟨_, rfl, ?_⟩
  rw [(rep_appendAll _ L _ (rep_build L) (mproof_len32 H hH d _ i (leaves_len32 (nil32 hH) h32))).proof, evalItems_append]
  rw [(rep_build L).proof] at hx
  simp only [Option.some.injEq] at hx
  have hleaf : l[i] = leaves (nilHash H) l i := by simp [leaves, hi]
  rw [hx, hleaf, mproof_eval H d _ i (by have := hd.2.1; omega)]

/-- C23: with a negative index the proof is the root itself, to be put on the right. -/
theorem C23_negative_index_appends_root (H : Bytes → Bytes) (hH : ∀ b, (H b).length = 32) (l : List Bytes)
    (h32 : ∀ x ∈ l, x.length = 32) (hl : l ≠ []) (t : Int) (ht : t < 0) (x : Bytes) :
    ∃ p, (merkleHashComplete H l t (some newProofs)).2 = some p ∧
      p.proof H x = some (H (x ++ (merkleHashComplete H l t (some newProofs)).1)) := by
  obtain ⟨d, hd⟩ := exists_depth l.length
  rw [complete_spec H l t _ d hl hd]
  simp only [completeProof, ht, if_true, Option.map_some]
  refine ⟨_, rfl, ?_⟩
  rw [toHash_of_len (mroot_len32 H hH d _ (leaves_len32 (nil32 hH) h32))]
  rw [(Rep.new.append _ _).proof]
  rfl

/-- C23: the root does not depend on whether, or for which index, a proof is collected. -/
theorem C23_root_independent_of_proof (H : Bytes → Bytes) (l : List Bytes) (t t' : Int) (pf pf' : Option Proofs) :
    (merkleHashComplete H l t pf).1 = (merkleHashComplete H l t' pf').1 := by
  by_cases hl : l = []
  · subst hl; rfl
  · obtain ⟨d, hd⟩ := exists_depth l.length
    rw [complete_spec H l t _ d hl hd, complete_spec H l t' _ d hl hd]

example : ∀ x ∈ [toyLeaf 5, toyLeaf 6, toyLeaf 7], x.length = 32 := by
  intro x hx; simp at hx; rcases hx with rfl | rfl | rfl <;> exact natBE_length _ _

/-- C24: the in-place algorithm and the padded one return the same root and leave the same proof. -/
theorem C24_inplace_agrees_with_padded (H : Bytes → Bytes) (l : List Bytes) (t : Int) (pf : Option Proofs) :
    merkleHashComplete H l t pf = merkleHashCompleteOld H l t pf := by
  by_cases hl : l = []
  · subst hl; rfl
  · obtain ⟨d, hd⟩ := exists_depth l.length
    rw [complete_spec H l t _ d hl hd, completeOld_spec H l t _ d hl hd]

/-- C24: both compute the root of the complete binary tree over the list padded with the nil hash. -/
theorem C24_is_complete_tree_root (H : Bytes → Bytes) (l : List Bytes) (hl : l ≠ []) (d : Nat) (hd : IsDepth l.length d)
    (t : Int) (pf : Option Proofs) :
    (merkleHashComplete H l t pf).1 = mroot H d (fun i => if h : i < l.length then l[i] else H []) := by
  rw [complete_spec H l t _ d hl hd]
  apply mroot_congr
  intro i _
  unfold leaves nilHash
  by_cases h : i < l.length
  · simp [h]
  · simp [h]

example : IsDepth 5 3 := ⟨by omega, by omega, fun _ => by omega⟩

/-- C25: the same for `MerkleHash`, which overwrites its working list in place. -/
theorem C25_merkle_proof_verifies (H : Bytes → Bytes) (hH : ∀ b, (H b).length = 32) (l : List Bytes)
    (h32 : ∀ x ∈ l, x.length = 32) (i : Nat) (hi : i < l.length) (L : List (Bytes × Bool)) (x : Bytes)
    (hx : (build L).proof H x = some l[i]) :
    ∃ p, (merkleHash H l i (some (build L))).2 = some p ∧
      p.proof H x = some (merkleHash H l i (some (build L))).1 := by
  obtain ⟨d, hd⟩ := exists_depth l.length
  have hl : l ≠ [] := by intro h; subst h; simp at hi
  rw [merkle_spec H l i _ d hl hd (by omega)]
  rw [proofAfter_nat _ _ _ _ hi]
  simp only [Option.map_some, Int.toNat_natCast]
  refine ⟨_, rfl, ?_⟩
  rw [(rep_appendAll _ L _ (rep_build L)
    (lproof_len32 H hH _ (nil32 hH) d _ _ i (leaves_len32 (nil32 hH) h32))).proof, evalItems_append]
  rw [(rep_build L).proof] at hx
  simp only [Option.some.injEq] at hx
  have hleaf : l[i] = leaves (nilHash H) l i := by simp [leaves, hi]
  rw [hx, hleaf, lproof_eval H _ d _ _ i hi hd.2.1]

/-- C25: started on a new proof, it evaluates from the hash at the index. -/
theorem C25_new_proof_verifies (H : Bytes → Bytes) (hH : ∀ b, (H b).length = 32) (l : List Bytes)
    (h32 : ∀ x ∈ l, x.length = 32) (i : Nat) (hi : i < l.length) :
    ∃ p, (merkleHash H l i (some newProofs)).2 = some p ∧
      p.proof H l[i] = some (merkleHash H l i (some newProofs)).1 :=
  C25_merkle_proof_verifies H hH l h32 i hi [] l[i] rfl

/-- C25: a negative index collects nothing (unlike `MerkleHashComplete`), and the root is the same for all indexes of
the list. -/
theorem C25_negative_index (H : Bytes → Bytes) (l : List Bytes) (t : Int) (ht : t < 0) (pf : Option Proofs) :
    (merkleHash H l t pf).2 = pf ∧
    ∀ (i : Nat), i < l.length → ∀ pf', (merkleHash H l i pf').1 = (merkleHash H l t pf).1 := by
  by_cases hl : l = []
  · subst hl; exact ⟨rfl, fun i hi => by simp at hi⟩
  · obtain ⟨d, hd⟩ := exists_depth l.length
    rw [merkle_spec H l t _ d hl hd (by omega)]
    have h0 : ¬ (0 ≤ t) := by omega
    refine ⟨by simp [proofAfter, h0], ?_⟩
    intro i hi pf'
    rw [merkle_spec H l i _ d hl hd (by omega)]

/-! ### C26: position bits -/

/-- C26: the order flags of the proof collected by `MerkleHashComplete` are the binary digits of the index and there is
one per level; `BigKey` returns the index and the depth. -/
theorem C26_complete_bits (H : Bytes → Bytes) (hH : ∀ b, (H b).length = 32) (l : List Bytes)
    (h32 : ∀ x ∈ l, x.length = 32) (i : Nat) (hi : i < l.length) (d : Nat) (hd : IsDepth l.length d) :
    ∃ p L, (merkleHashComplete H l i (some newProofs)).2 = some p ∧ p.items = some L ∧ p.len = d ∧ L.length = d ∧
      bitsNat (L.map Prod.snd) = i ∧ p.paths = i ∧ p.bigKey 0 0 = (i, d) := by
  have hl : l ≠ [] := by intro h; subst h; simp at hi
  rw [complete_spec H l i _ d hl hd]
  have hid : i < 2 ^ d := by have := hd.2.1; omega
  rw [completeProof_nat _ _ _ _ _ hid]
  simp only [Option.map_some]
  have hr := rep_appendAll _ [] _ Rep.new (mproof_len32 H hH d _ i (leaves_len32 (nil32 hH) h32))
  rw [List.nil_append] at hr
  have hb := mproof_bits H d (leaves (nilHash H) l) i hid
  have hlen := mproof_length H d (leaves (nilHash H) l) i
  refine ⟨_, _, rfl, hr.items, by rw [hr.len, hlen], hlen, hb, by rw [hr.paths_eq, hb], ?_⟩
  obtain ⟨h1, h2⟩ := hr.bigKey 0 0
  ext1
  · apply Nat.eq_of_testBit_eq
    intro j
    rw [h2 j]
    simp only [Nat.zero_le, true_and, Nat.zero_add, Nat.sub_zero, Nat.zero_testBit, ← bitsNat_testBit, hb, hlen]
    by_cases hj : j < d
    · rw [if_pos hj]
    · rw [if_neg hj]
      have : i < 2 ^ j := Nat.lt_of_lt_of_le hid (Nat.pow_le_pow_right (by omega) (by omega))
      rw [Nat.testBit_lt_two_pow this]
  · rw [h1, hlen]; simp

/-- C26: the same for `MerkleHash`. -/
theorem C26_merkle_bits (H : Bytes → Bytes) (hH : ∀ b, (H b).length = 32) (l : List Bytes)
    (h32 : ∀ x ∈ l, x.length = 32) (i : Nat) (hi : i < l.length) (d : Nat) (hd : IsDepth l.length d) :
    ∃ p L, (merkleHash H l i (some newProofs)).2 = some p ∧ p.items = some L ∧ p.len = d ∧ L.length = d ∧
      bitsNat (L.map Prod.snd) = i ∧ p.paths = i := by
  have hl : l ≠ [] := by intro h; subst h; simp at hi
  rw [merkle_spec H l i _ d hl hd (by omega)]
  have hid : i < 2 ^ d := by have := hd.2.1; omega
  rw [proofAfter_nat _ _ _ _ hi]
  simp only [Option.map_some, Int.toNat_natCast]
  have hr := rep_appendAll _ [] _ Rep.new (lproof_len32 H hH _ (nil32 hH) d l.length _ i (leaves_len32 (nil32 hH) h32))
  rw [List.nil_append] at hr
  have hb := lproof_bits H (nilHash H) d l.length (leaves (nilHash H) l) i hid
  have hlen := lproof_length H (nilHash H) d l.length (leaves (nilHash H) l) i
  exact ⟨_, _, rfl, hr.items, by rw [hr.len, hlen], hlen, hb, by rw [hr.paths_eq, hb]⟩

/-- C26: `BigKey` writes the order flags of any proof into the key, from the given position on, and leaves the other
bits alone. -/
theorem C26_bigKey_writes_flags (L : List (Bytes × Bool)) (key start : Nat) :
    ((build L).bigKey key start).2 = start + L.length ∧
    ∀ j, ((build L).bigKey key start).1.testBit j =
      if start ≤ j ∧ j < start + L.length then ((L.map Prod.snd)[j - start]?.getD false) else key.testBit j :=
  (rep_build L).bigKey key start

example : ∃ d, IsDepth 3 d ∧ d = 2 := ⟨2, ⟨by omega, by omega, fun _ => by omega⟩, rfl⟩

/-! ### C28: serialisation -/

theorem readFull_append (n : Nat) (a r : Bytes) (h : a.length = n) : readFull n (a ++ r) = some (a, r) := by
  unfold readFull
  have : ¬ (a ++ r).length < n := by simp; omega
  rw [if_neg this]
  simp [← h]

theorem readSome_append (n : Nat) (a r : Bytes) (h : a.length = n) (hn : 0 < n) : readSome n (a ++ r) = some (a, r) := by
  unfold readSome
  have h0 : ¬ n = 0 := by omega
  have h1 : ¬ (a ++ r).length = 0 := by rw [List.length_append]; omega
  have h2 : n - (a ++ r).length = 0 := by simp; omega
  rw [if_neg h0, if_neg h1, h2]
  simp [← h]

theorem readArray_write (a r : Bytes) (h : a.length < 2 ^ 16) : readArray (writeArray a ++ r) = some (a, r) := by
  unfold readArray writeArray
  rw [List.append_assoc, readSome_append 2 _ _ (natBE_length _ _) (by omega)]
  have hb : beNat (natBE 2 (a.length % 2 ^ 16)) = a.length := by
    rw [Nat.mod_eq_of_lt h]
    exact beNat_natBE_of_lt (by simpa using h)
  simp only [hb]
  by_cases h0 : a.length > 0
  · rw [if_pos h0, readSome_append _ _ _ rfl h0]
  · rw [if_neg h0]
    have : a = [] := List.length_eq_zero_iff.mp (by omega)
    subst this; rfl

theorem readHashs_flatten (hs : List Bytes) (r : Bytes) (h : ∀ x ∈ hs, x.length = 32) :
    readHashs hs.length (hs.flatten ++ r) = some (hs, r) := by
  induction hs with
  | nil => rfl
  | cons x hs ih =>
    simp only [List.length_cons, readHashs, List.flatten_cons, List.append_assoc]
    rw [readFull_append 32 x _ (h x (by simp))]
    simp only
    rw [ih (fun y hy => h y (by simp [hy]))]

/-- The bytes of one repeat entry. -/
def moreBytes (m : MoreTime) : Bytes := natBE 2 (m.index % 2 ^ 16).toNat ++ natBE 2 (m.times % 2 ^ 16).toNat

theorem readRepeats_flatten (ms : List MoreTime) (r : Bytes)
    (h : ∀ m ∈ ms, 0 ≤ m.index ∧ m.index < 2 ^ 16 ∧ 0 ≤ m.times ∧ m.times < 2 ^ 16) :
    readRepeats ms.length ((ms.map moreBytes).flatten ++ r) = some (ms, r) := by
  induction ms with
  | nil => rfl
  | cons m ms ih =>
    obtain ⟨h1, h2, h3, h4⟩ := h m (by simp)
    simp only [List.length_cons, readRepeats, List.map_cons, List.flatten_cons, List.append_assoc]
    rw [readFull_append 4 (moreBytes m) _ (by simp [moreBytes, natBE_length])]
    simp only
    rw [ih (fun y hy => h y (by simp [hy]))]
    simp only [Option.some.injEq, Prod.mk.injEq, List.cons.injEq, and_true]
    have e1 : (moreBytes m).take 2 = natBE 2 (m.index % 2 ^ 16).toNat := by
      unfold moreBytes; rw [List.take_append_of_le_length (by simp [natBE_length])]
      exact List.take_of_length_le (by simp [natBE_length])
    have e2 : (moreBytes m).drop 2 = natBE 2 (m.times % 2 ^ 16).toNat := by
      unfold moreBytes; rw [List.drop_append_of_le_length (by simp [natBE_length])]
      rw [List.drop_of_length_le (by simp [natBE_length])]; rfl
    rw [e1, e2, beNat_natBE_of_lt (by omega), beNat_natBE_of_lt (by omega)]
    obtain ⟨a, b⟩ := m
    simp only at h1 h2 h3 h4 ⊢
    congr 1 <;> omega

/-- What the 16-bit fields of the encoding can hold. -/
structure Fits (p : Proofs) : Prop where
  count : p.hashs.length < 2 ^ 16
  h32 : ∀ x ∈ p.hashs, x.length = 32
  path : (natBytes p.paths).length < 2 ^ 16
  nonempty : p.repeats ≠ some []
  reps : p.repeats.list.length < 2 ^ 16
  entries : ∀ m ∈ p.repeats.list, 0 ≤ m.index ∧ m.index < 2 ^ 16 ∧ 0 ≤ m.times ∧ m.times < 2 ^ 16

/-- C28: reading back a written proof yields the proof and leaves whatever follows unread. -/
theorem C28_serialization_roundtrip (fl : Flags) (p : Proofs) (hp : Fits p) (rest : Bytes) :
    deserialize fl (serialize fl (some p) ++ rest) = some (some p, rest) := by
  obtain ⟨hs, pa, rep⟩ := p
  have hcount := hp.count
  have h32 := hp.h32
  have hpath := hp.path
  have hreps := hp.reps
  have hent := hp.entries
  have hne := hp.nonempty
  simp only at hcount h32 hpath hreps hent hne
  have hsz : beNat (natBE 2 (hs.length % 2 ^ 16)) = hs.length := by
    rw [Nat.mod_eq_of_lt hcount]; exact beNat_natBE_of_lt (by simpa using hcount)
  unfold serialize deserialize
  simp only [List.append_assoc, List.cons_append, List.nil_append]
  generalize hflag : (if List.length (MoreTimes.list rep) = 0 then fl.notNil else fl.version0) = flag
  have hf0 : ¬ flag = fl.nilOrFalse := by
    rw [← hflag]; split
    · exact fun e => fl.d1 e.symm
    · exact fun e => fl.d2 e.symm
  rw [if_neg hf0, readFull_append 2 _ _ (natBE_length _ _)]
  simp only [hsz]
  rw [readHashs_flatten hs _ h32]
  simp only
  rw [readArray_write _ _ hpath]
  simp only
  have htab : ∀ r, readTable fl flag ((if rep.list.length > 0 then
          natBE 2 (rep.list.length % 2 ^ 16) ++ (rep.list.map moreBytes).flatten else []) ++ r) = some (rep, r) := by
    intro r
    unfold readTable
    by_cases h0 : (MoreTimes.list rep).length = 0
    · rw [if_pos h0] at hflag
      have hv : ¬ flag = fl.version0 := by rw [← hflag]; exact fl.d3
      have hg : ¬ (MoreTimes.list rep).length > 0 := by omega
      rw [if_neg hv, if_neg hg]
      cases rep with
      | none => rfl
      | some ms =>
        exfalso
        have : ms = [] := List.length_eq_zero_iff.mp h0
        exact hne (by rw [this])
    · rw [if_neg h0] at hflag
      have hg : (MoreTimes.list rep).length > 0 := by omega
      rw [if_pos hflag.symm, if_pos hg, List.append_assoc, readFull_append 2 _ _ (natBE_length _ _)]
      have hsz2 : beNat (natBE 2 (rep.list.length % 2 ^ 16)) = rep.list.length := by
        rw [Nat.mod_eq_of_lt hreps]; exact beNat_natBE_of_lt (by simpa using hreps)
      simp only [hsz2]
      rw [readRepeats_flatten _ _ hent]
      cases rep with
      | none => exact absurd rfl h0
      | some ms => rfl
  have := htab rest
  unfold moreBytes at this
  rw [this]
  simp [beNat_natBytes]

/-- C28: the nil proof too. -/
theorem C28_nil_roundtrip (fl : Flags) (rest : Bytes) :
    deserialize fl (serialize fl none ++ rest) = some (none, rest) := by
  simp [serialize, deserialize]

/-- C28: the conditions hold for every proof of fewer than 2^16 appended 32-byte hashes. -/
theorem C28_appended_fits (L : List (Bytes × Bool)) (h32 : ∀ it ∈ L, it.1.length = 32) (hl : L.length < 2 ^ 16) :
    Fits (build L) := by
  have hr := rep_build L
  obtain ⟨R, h1, h2, h3, h4⟩ := hr.runs
  have hspell : ∀ R : Runs, R.length ≤ (spell R).length := by
    intro R
    induction R with
    | nil => simp
    | cons r R ih => obtain ⟨a, e⟩ := r; simp only [spell, List.length_cons, List.length_append, List.length_replicate]; omega
  have htimes : ∀ (R : Runs) (i : Nat), ∀ m ∈ repsOf i R, m.times < (spell R).length := by
    intro R
    induction R with
    | nil => intro i m hm; simp [repsOf] at hm
    | cons r R ih =>
      obtain ⟨a, e⟩ := r
      intro i m hm
      simp only [spell, List.length_append, List.length_replicate]
      cases e with
      | zero => simp only [repsOf] at hm; have := ih _ m hm; omega
      | succ e =>
        simp only [repsOf, List.mem_cons] at hm
        rcases hm with rfl | hm
        · simp only; omega
        · have := ih _ m hm; omega
  have hreps : ∀ (R : Runs) (i : Nat), (repsOf i R).length ≤ R.length := by
    intro R
    induction R with
    | nil => intro i; simp [repsOf]
    | cons r R ih =>
      obtain ⟨a, e⟩ := r
      intro i
      cases e with
      | zero => simp only [repsOf, List.length_cons]; have := ih (i + 1); omega
      | succ e => simp only [repsOf, List.length_cons]; have := ih (i + 1); omega
  have hfst : ∀ (R : Runs), ∀ x ∈ R.map Prod.fst, x ∈ spell R := by
    intro R
    induction R with
    | nil => intro x hx; simp at hx
    | cons r R ih =>
      obtain ⟨a, e⟩ := r
      intro x hx
      simp only [List.map_cons, List.mem_cons] at hx
      simp only [spell, List.mem_append]
      rcases hx with rfl | hx
      · left; simp
      · right; exact ih x hx
  have hLs : (spell R).length = L.length := by rw [h4]; simp
  have hRl := hspell R
  refine ⟨?_, ?_, ?_, h3, ?_, ?_⟩
  · rw [h1, List.length_map]; omega
  · intro x hx
    rw [h1] at hx
    have := hfst R x hx
    rw [h4, List.mem_map] at this
    obtain ⟨it, hit, rfl⟩ := this
    exact h32 it hit
  · rw [hr.paths_eq]
    have hb := bitsNat_lt (L.map Prod.snd)
    rw [List.length_map] at hb
    by_cases h0 : natBytes (bitsNat (L.map Prod.snd)) = []
    · rw [h0]; simp
    · -- a number below 2^n has at most n digits
      have hlow : ∀ bs : Bytes, bs ≠ [] → bs.head? ≠ some 0 → 2 ^ (bs.length - 1) ≤ beNat bs := by
        intro bs hne hh
        cases bs with
        | nil => exact absurd rfl hne
        | cons b bs =>
          rw [beNat_cons]
          have hb0 : b ≠ 0 := by intro h; apply hh; simp [h]
          have hb1 : 1 ≤ b.toNat := by
            rcases Nat.eq_zero_or_pos b.toNat with h | h
            · exact absurd (UInt8.toNat_inj.mp (by simpa using h)) hb0
            · exact h
          have hpow : 2 ^ bs.length ≤ 256 ^ bs.length := Nat.pow_le_pow_left (by omega) _
          have : 1 * 256 ^ bs.length ≤ b.toNat * 256 ^ bs.length := Nat.mul_le_mul_right _ hb1
          simp only [List.length_cons, Nat.add_sub_cancel]
          omega
      have := hlow _ h0 (by
        intro h
        cases hc : natBytes (bitsNat (L.map Prod.snd)) with
        | nil => exact h0 hc
        | cons b bs =>
          rw [hc] at h
          simp only [List.head?_cons, Option.some.injEq] at h
          exact natBytes_head_ne_zero _ (by rw [hc, h]; rfl))
      rw [beNat_natBytes] at this
      have hlt : 2 ^ ((natBytes (bitsNat (L.map Prod.snd))).length - 1) < 2 ^ L.length := by omega
      have := (Nat.pow_lt_pow_iff_right (by omega : 1 < 2)).mp hlt
      omega
  · rw [h2]; have := hreps R 0; omega
  · intro m hm
    rw [h2] at hm
    have a1 := repsOf_mem R 0 m hm
    have a2 := htimes R 0 m hm
    omega

example (fl : Flags) (rest : Bytes) :
    deserialize fl (serialize fl (some (build [(toyLeaf 1, true), (toyLeaf 1, false), (toyLeaf 9, true)])) ++ rest) =
      some (some (build [(toyLeaf 1, true), (toyLeaf 1, false), (toyLeaf 9, true)]), rest) :=
  C28_serialization_roundtrip fl _ (C28_appended_fits _ (by
    intro it hit; simp at hit; rcases hit with rfl | rfl | rfl <;> exact natBE_length _ _) (by simp)) rest

example : Flags := ⟨0x80, 0x81, 0x82, by decide, by decide, by decide⟩

/-! ### C29, C83: binding and soundness -/

/-- C29: two lists of one length with the same complete root are equal, or two different inputs hashed for the two
roots have one digest. -/
theorem C29_complete_binding (H : Bytes → Bytes) (hH : ∀ b, (H b).length = 32) (l m : List Bytes)
    (hl : ∀ x ∈ l, x.length = 32) (hm : ∀ x ∈ m, x.length = 32) (hlen : l.length = m.length)
    (d : Nat) (hd : IsDepth l.length d)
    (h : (merkleHashComplete H l (-1) none).1 = (merkleHashComplete H m (-1) none).1) :
    l = m ∨ Collision H (minputs H d (leaves (H []) l)) (minputs H d (leaves (H []) m)) := by
  by_cases h0 : l = []
  · left; subst h0; exact (List.length_eq_zero_iff.mp hlen.symm).symm
  · have h0' : m ≠ [] := by intro hc; apply h0; subst hc; exact List.length_eq_zero_iff.mp hlen
    rw [complete_spec H l _ _ d h0 hd, complete_spec H m _ _ d h0' (hlen ▸ hd)] at h
    rcases mroot_binding H hH d _ _ (leaves_len32 (nil32 hH) hl) (leaves_len32 (nil32 hH) hm) h with h1 | h1
    · left
      apply List.ext_getElem hlen
      intro i hi1 hi2
      have := h1 i (by have := hd.2.1; omega)
      simpa [leaves, hi1, hi2] using this
    · right; exact h1

/-- C29: the same for `MerkleHash`. -/
theorem C29_merkle_binding (H : Bytes → Bytes) (hH : ∀ b, (H b).length = 32) (l m : List Bytes)
    (hl : ∀ x ∈ l, x.length = 32) (hm : ∀ x ∈ m, x.length = 32) (hlen : l.length = m.length)
    (d : Nat) (hd : IsDepth l.length d)
    (h : (merkleHash H l (-1) none).1 = (merkleHash H m (-1) none).1) :
    l = m ∨ Collision H (linputs H (H []) d l.length (leaves (H []) l)) (linputs H (H []) d m.length (leaves (H []) m)) := by
  by_cases h0 : l = []
  · left; subst h0; exact (List.length_eq_zero_iff.mp hlen.symm).symm
  · have h0' : m ≠ [] := by intro hc; apply h0; subst hc; exact List.length_eq_zero_iff.mp hlen
    rw [merkle_spec H l _ _ d h0 hd (by omega), merkle_spec H m _ _ d h0' (hlen ▸ hd) (by omega)] at h
    simp only [← hlen] at h ⊢
    rcases lroot_binding H hH _ d _ _ _ hd.2.1 (leaves_len32 (nil32 hH) hl) (leaves_len32 (nil32 hH) hm) h with h1 | h1
    · left
      apply List.ext_getElem hlen
      intro i hi1 hi2
      have := h1 i hi1
      simpa [leaves, hi1, hi2] using this
    · right; exact h1

/-- C29: the common length is needed: a list and the same list followed by the nil hash have one root. -/
theorem C29_length_not_bound (H : Bytes → Bytes) (a : Bytes) :
    (merkleHashComplete H [a] (-1) none).1 = (merkleHashComplete H [a, H []] (-1) none).1 ∧
    (merkleHash H [a] (-1) none).1 = (merkleHash H [a, H []] (-1) none).1 := by
  constructor
  · rw [complete_spec H [a] _ _ 1 (by simp) ⟨by omega, by simp, by omega⟩,
      complete_spec H [a, H []] _ _ 1 (by simp) ⟨by omega, by simp, by omega⟩]
    rfl
  · rw [merkle_spec H [a] _ _ 1 (by simp) ⟨by omega, by simp, by omega⟩ (by simp),
      merkle_spec H [a, H []] _ _ 1 (by simp) ⟨by omega, by simp, by omega⟩ (by simp)]
    rfl

/-- The statement of C29 is not empty: the toy digest separates these two lists. -/
example : (merkleHashComplete toyH [toyLeaf 1, toyLeaf 2, toyLeaf 3] (-1) none).1 ≠
    (merkleHashComplete toyH [toyLeaf 1, toyLeaf 2, toyLeaf 4] (-1) none).1 := by
  rw [complete_spec toyH _ _ _ 2 (by simp) ⟨by omega, by simp, by intro _; simp⟩,
    complete_spec toyH _ _ _ 2 (by simp) ⟨by omega, by simp, by intro _; simp⟩]
  decide +kernel

/-- C83: a proof of the right length that evaluates to the complete root of a list proves the hash at the position
spelled by its order flags (the nil hash for a padding position), or exhibits a collision. -/
theorem C83_complete_proof_sound (H : Bytes → Bytes) (hH : ∀ b, (H b).length = 32) (l : List Bytes) (hne : l ≠ [])
    (hl : ∀ x ∈ l, x.length = 32) (d : Nat) (hd : IsDepth l.length d) (p : Proofs) (L : List (Bytes × Bool))
    (hp : p.items = some L) (hL : ∀ it ∈ L, it.1.length = 32) (hlen : L.length = d) (v : Bytes) (hv : v.length = 32)
    (h : p.proof H v = some (merkleHashComplete H l (-1) none).1) :
    l[bitsNat (L.map Prod.snd)]?.getD (H []) = v ∨ Collision H (evalInputs H L v) (minputs H d (leaves (H []) l)) := by
  rw [complete_spec H l _ _ d hne hd] at h
  simp only [Proofs.proof, hp, Option.map_some, Option.some.injEq] at h
  rcases mroot_sound H hH d _ L v (leaves_len32 (nil32 hH) hl) hL hv hlen h with h1 | h1
  · left; exact h1.symm
  · right; exact h1

/-- C83: the same for `MerkleHash`, for positions inside the list. -/
theorem C83_merkle_proof_sound (H : Bytes → Bytes) (hH : ∀ b, (H b).length = 32) (l : List Bytes)
    (hl : ∀ x ∈ l, x.length = 32) (d : Nat) (hd : IsDepth l.length d) (p : Proofs) (L : List (Bytes × Bool))
    (hp : p.items = some L) (hL : ∀ it ∈ L, it.1.length = 32) (hlen : L.length = d) (v : Bytes) (hv : v.length = 32)
    (hi : bitsNat (L.map Prod.snd) < l.length)
    (h : p.proof H v = some (merkleHash H l (-1) none).1) :
    l[bitsNat (L.map Prod.snd)] = v ∨
      Collision H (evalInputs H L v) (linputs H (H []) d l.length (leaves (H []) l)) := by
  have hne : l ≠ [] := by intro hc; subst hc; simp at hi
  rw [merkle_spec H l _ _ d hne hd (by omega)] at h
  simp only [Proofs.proof, hp, Option.map_some, Option.some.injEq] at h
  rcases lroot_sound H hH _ d _ _ L v hd.2.1 (leaves_len32 (nil32 hH) hl) hL hv hlen hi h with h1 | h1
  · left
    simp only [leaves, List.getElem?_eq_getElem hi, Option.getD_some] at h1
    exact h1.symm
  · right; exact h1

/-- The hypotheses of C83 are met by an honest proof. -/
example : ∃ (p : Proofs) (L : List (Bytes × Bool)), p.items = some L ∧ L.length = 2 ∧ (∀ it ∈ L, it.1.length = 32) ∧
    p.proof toyH (toyLeaf 2) = some (merkleHashComplete toyH [toyLeaf 1, toyLeaf 2, toyLeaf 3] (-1) none).1 := by
  refine ⟨build (mproof toyH 2 (leaves (toyH []) [toyLeaf 1, toyLeaf 2, toyLeaf 3]) 1), _, (rep_build _).items,
    mproof_length _ _ _ _, mproof_len32 toyH toyH_len 2 _ 1 (leaves_len32 (toyH_len _) (by
      intro x hx; simp at hx; rcases hx with rfl | rfl | rfl <;> exact natBE_length _ _)), ?_⟩
  rw [complete_spec toyH _ _ _ 2 (by simp) ⟨by omega, by simp, by intro _; simp⟩, (rep_build _).proof]
  have := mproof_eval toyH 2 (leaves (toyH []) [toyLeaf 1, toyLeaf 2, toyLeaf 3]) 1 (by simp)
  have hl : leaves (toyH []) [toyLeaf 1, toyLeaf 2, toyLeaf 3] 1 = toyLeaf 2 := by simp [leaves]
  rw [hl] at this
  rw [this, nilHash]

/-! ### C30: validity of the repeat table -/

/-- C30 fails as stated: if the first hash is appended twice, the table starts with index 0, which `IsValid` rejects. -/
theorem C30_valid_refuted : ¬ ∀ L : List (Bytes × Bool), (build L).repeats.isValid = true := by
  intro h
  have := h [([1], false), ([1], false)]
  revert this
  decide

/-- C30, what remains: the table is accepted whenever the first two appended hashes differ (or there are fewer than
two).  Missing: sequences that start with a repeated hash, for which the claim is false. -/
theorem C30_valid_partial (L : List (Bytes × Bool))
    (h : ∀ a b r, L = a :: b :: r → a.1 ≠ b.1) : (build L).repeats.isValid = true := by
  have hr := rep_build L
  obtain ⟨R, h1, h2, h3, h4⟩ := hr.runs
  have hz : ∃ R', repsOf 0 R = repsOf 1 R' := by
    cases R with
    | nil => exact ⟨[], rfl⟩
    | cons r R =>
      obtain ⟨a, e⟩ := r
      cases e with
      | zero => exact ⟨R, rfl⟩
      | succ e =>
        exfalso
        simp only [spell, List.replicate_succ, List.cons_append] at h4
        match L, h4 with
        | x :: y :: L, h4 =>
          simp only [List.map_cons, List.cons.injEq] at h4
          exact h x y L rfl (by rw [← h4.1, ← h4.2.1])
  obtain ⟨R', hR'⟩ := hz
  have hv := validFrom_repsOf R' 1 0 (by omega)
  rw [← hR', ← h2] at hv
  cases hm : (build L).repeats with
  | none => rfl
  | some ms =>
    rw [hm] at hv h3
    cases ms with
    | nil => exact absurd rfl h3
    | cons m ms => exact hv

example : (build [([1], false), ([2], true), ([2], true)]).repeats = some [⟨1, 1⟩] := by decide

theorem validFrom_iff (l : List MoreTime) : ∀ last : Int, 0 ≤ last →
    (validFrom last l = true ↔ (∀ m ∈ l, 0 < m.times ∧ last < m.index) ∧ l.Pairwise fun a b => a.index < b.index) := by
  induction l with
  | nil => intro last _; simp [validFrom]
  | cons m l ih =>
    intro last h0
    simp only [validFrom, MoreTime.valid, Bool.and_eq_true, decide_eq_true_eq, Bool.not_eq_true', decide_eq_false_iff_not,
      List.pairwise_cons, List.mem_cons]
    constructor
    · rintro ⟨⟨⟨h1, h2⟩, h3⟩, h4⟩
      obtain ⟨h5, h6⟩ := (ih m.index h1).1 h4
      refine ⟨?_, fun b hb => (h5 b hb).2, h6⟩
      rintro x (rfl | hx)
      · exact ⟨h2, by omega⟩
      · have := h5 x hx; exact ⟨this.1, by omega⟩
    · rintro ⟨h1, h2, h3⟩
      have := h1 m (Or.inl rfl)
      exact ⟨⟨⟨by omega, this.1⟩, by omega⟩, (ih m.index (by omega)).2 ⟨fun x hx => ⟨(h1 x (Or.inr hx)).1, h2 x hx⟩, h3⟩⟩

/-- C30, what a table must be like to be accepted: nil, or non-empty with positive counts and strictly increasing
indices above 0. -/
theorem C30_valid_accepts (ms : MoreTimes) : ms.isValid = true ↔
    ∀ l, ms = some l → l ≠ [] ∧ (∀ m ∈ l, 0 < m.times ∧ 0 < m.index) ∧ l.Pairwise fun a b => a.index < b.index := by
  match ms with
  | none => simp [MoreTimes.isValid]
  | some [] => simp [MoreTimes.isValid]
  | some (m :: l) =>
    rw [MoreTimes.isValid, validFrom_iff _ 0 (Int.le_refl _)]
    · constructor
      · rintro h l' hl
        cases hl
        exact ⟨by simp, h⟩
      · intro h; exact (h _ rfl).2
    · simp

example : MoreTimes.isValid (some [⟨1, 2⟩, ⟨4, 1⟩]) = true ∧ MoreTimes.isValid (some [⟨1, 2⟩, ⟨1, 1⟩]) = false := by decide

/-! ### C31: header index hashes -/

/-- The 13 bytes that are hashed for a header property. -/
def headerPreimage (id : UInt32) (height : UInt64) (index : UInt8) : Bytes :=
  natBE 4 id.toNat ++ natBE 8 height.toNat ++ [index]

theorem headerIndexHash_eq (H : Bytes → Bytes) (id : UInt32) (height : UInt64) (index : UInt8) :
    headerIndexHash H (headerPosBuffer id height) index = H (headerPreimage id height index) := by
  unfold headerIndexHash headerPosBuffer headerPreimage
  have h4 : (natBE 4 id.toNat).length = 4 := natBE_length _ _
  have h8 : (natBE 8 height.toNat).length = 8 := natBE_length _ _
  generalize natBE 4 id.toNat = a at h4
  generalize natBE 8 height.toNat = b at h8
  match a, h4 with
  | [a0, a1, a2, a3], _ =>
    match b, h8 with
    | [b0, b1, b2, b3, b4, b5, b6, b7], _ => rfl

/-- C31: equal header index hashes mean equal chain id, height and index, or the two 13-byte inputs collide. -/
theorem C31_header_index_separates (H : Bytes → Bytes) (id id' : UInt32) (h h' : UInt64) (i i' : UInt8)
    (heq : headerIndexHash H (headerPosBuffer id h) i = headerIndexHash H (headerPosBuffer id' h') i') :
    (id = id' ∧ h = h' ∧ i = i') ∨
      Collision H [natBE 4 id.toNat ++ natBE 8 h.toNat ++ [i]] [natBE 4 id'.toNat ++ natBE 8 h'.toNat ++ [i']] := by
  rw [headerIndexHash_eq, headerIndexHash_eq] at heq
  by_cases hx : headerPreimage id h i = headerPreimage id' h' i'
  · left
    unfold headerPreimage at hx
    obtain ⟨h1, h2⟩ := List.append_inj hx (by simp [natBE_length])
    obtain ⟨h3, h4⟩ := List.append_inj h1 (by simp [natBE_length])
    have e1 := congrArg beNat h3
    have e2 := congrArg beNat h4
    rw [beNat_natBE_of_lt (by have := id.toNat_lt; omega), beNat_natBE_of_lt (by have := id'.toNat_lt; omega)] at e1
    rw [beNat_natBE_of_lt (by have := h.toNat_lt; omega), beNat_natBE_of_lt (by have := h'.toNat_lt; omega)] at e2
    exact ⟨UInt32.toNat_inj.mp e1, UInt64.toNat_inj.mp e2, by simpa using h2⟩
  · right
    exact ⟨_, List.mem_singleton.mpr rfl, _, List.mem_singleton.mpr rfl, hx, heq⟩

example : headerPreimage 1 2 3 ≠ headerPreimage 1 2 4 := by decide

end Verif.Merkle

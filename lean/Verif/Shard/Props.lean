import Verif.Shard.Model
import Mathlib.Data.Nat.Bitwise
import Mathlib.Tactic.IntervalCases
import Mathlib.Tactic.Positivity

/-!
# Properties C55, C56, C57, C58, C88: sharding and bit strings
-/

namespace Verif.Shard
open Verif Verif.Num

/-! ## Specification -/

/-- Bit `i` of a bit string, bit 0 being the highest bit of the first byte. -/
def bitAt (bs : Bytes) (i : Nat) : Option Bool := bs[i / 8]?.map fun b => b.toNat.testBit (7 - i % 8)

/-- The number formed by the `m` leading bits of a bit string. -/
def leading (m : Nat) (bs : Bytes) : Nat := beNat bs / 2 ^ (8 * bs.length - m)

/-- A list of distinct ids whose members are the given shards and, unless it is the parent, the current chain. -/
def Group (parent current : UInt32) (shards ids : List UInt32) : Prop :=
  ids.Nodup ∧ ∀ x, x ∈ ids ↔ x ∈ shards ∨ (x = current ∧ current ≠ parent)

/-! ## The comparison of chain ids -/

theorem chainCompare_lawful : LawfulCmp chainCompare := by
  have key : ∀ a b : UInt32, chainCompare a b =
      if a.toNat = b.toNat then 0 else if a.toNat = 2 ^ 20 then -1 else if b.toNat = 2 ^ 20 then 1
        else if a.toNat < b.toNat then -1 else 1 := by
    intro a b
    have e : ∀ x y : UInt32, (x == y) = true ↔ x.toNat = y.toNat := by
      intro x y; rw [beq_iff_eq, UInt32.toNat_inj]
    have en : nilChainID.toNat = 2 ^ 20 := rfl
    unfold chainCompare
    simp only [e, en, UInt32.lt_iff_toNat_lt]
  refine ⟨?_, ?_, ?_⟩
  · intro a b
    rw [key, ← UInt32.toNat_inj]
    split
    · simp [*]
    · rename_i hne
      simp only [hne, iff_false]
      repeat' split
      all_goals decide
  · intro a b
    rw [key, key]
    generalize a.toNat = x
    generalize b.toNat = y
    generalize 2 ^ 20 = z
    repeat' split
    all_goals omega
  · intro a b c
    rw [key, key, key]
    generalize a.toNat = x
    generalize b.toNat = y
    generalize c.toNat = w
    generalize 2 ^ 20 = z
    repeat' split
    all_goals omega

/-! ## Construction -/

theorem bitsLoop_spec (n : Nat) : ∀ (d k : Nat), n - 2 ^ k ≤ d →
    k ≤ bitsLoop n (2 ^ k) k ∧ n ≤ 2 ^ bitsLoop n (2 ^ k) k ∧
      (k < bitsLoop n (2 ^ k) k → 2 ^ (bitsLoop n (2 ^ k) k - 1) < n) := by
  intro d
  induction d with
  | zero =>
    intro k hk
    have h1 : 0 < 2 ^ k := Nat.two_pow_pos k
    rw [bitsLoop, if_neg (by omega)]
    exact ⟨Nat.le_refl _, by omega, by omega⟩
  | succ d ih =>
    intro k hk
    have h1 : 0 < 2 ^ k := Nat.two_pow_pos k
    rw [bitsLoop]
    by_cases hlt : 2 ^ k < n
    · rw [if_pos ⟨h1, hlt⟩, show 2 * 2 ^ k = 2 ^ (k + 1) by rw [Nat.pow_succ]; omega]
      have e : 2 ^ (k + 1) = 2 * 2 ^ k := by rw [Nat.pow_succ]; omega
      obtain ⟨a, b, c⟩ := ih (k + 1) (by omega)
      refine ⟨by omega, b, fun _ => ?_⟩
      by_cases h : k + 1 < bitsLoop n (2 ^ (k + 1)) (k + 1)
      · exact c h
      · have : bitsLoop n (2 ^ (k + 1)) (k + 1) = k + 1 := by omega
        rw [this]; exact hlt
    · rw [if_neg (by omega)]
      exact ⟨Nat.le_refl _, by omega, by omega⟩

/-- The number of mask bits is the least `m` with `n ≤ 2^m`. -/
theorem bitsLoop_le_iff (n m : Nat) : bitsLoop n 1 0 ≤ m ↔ n ≤ 2 ^ m := by
  obtain ⟨-, b, c⟩ := bitsLoop_spec n n 0 (by omega)
  simp only [Nat.pow_zero] at b c
  generalize bitsLoop n 1 0 = r at b c
  constructor
  · intro h
    exact Nat.le_trans b (Nat.pow_le_pow_right (by omega) h)
  · intro h
    by_contra hc
    have h1 := c (by omega)
    have h2 : 2 ^ m ≤ 2 ^ (r - 1) := Nat.pow_le_pow_right (by omega) (by omega)
    omega

theorem dedupLoop_spec (l : List UInt32) : ∀ acc : List UInt32, acc.Nodup →
    (dedupLoop acc l).Nodup ∧ ∀ x, x ∈ dedupLoop acc l ↔ x ∈ acc ∨ x ∈ l := by
  induction l with
  | nil => intro acc h; simp [dedupLoop, h]
  | cons y l ih =>
    intro acc h
    rw [dedupLoop]
    split
    · rename_i hy
      obtain ⟨a, b⟩ := ih acc h
      refine ⟨a, fun x => ?_⟩
      rw [b]
      constructor
      · rintro (h | h)
        · exact Or.inl h
        · exact Or.inr (List.mem_cons_of_mem _ h)
      · rintro (h | h)
        · exact Or.inl h
        · rcases List.mem_cons.1 h with rfl | h
          · exact Or.inl hy
          · exact Or.inr h
    · rename_i hy
      obtain ⟨a, b⟩ := ih (acc ++ [y]) (by
        rw [List.nodup_append]
        refine ⟨h, by simp, ?_⟩
        rintro a ha b hb rfl
        simp only [List.mem_singleton] at hb
        subst hb
        exact hy ha)
      refine ⟨a, fun x => ?_⟩
      rw [b]
      simp [or_assoc]

theorem group_addCurrent (parent current : UInt32) (l : List UInt32) :
    Group parent current l (addCurrent parent current (dedupLoop [] l)) := by
  obtain ⟨a, b⟩ := dedupLoop_spec l [] List.nodup_nil
  unfold addCurrent
  split
  · rename_i hne
    split
    · rename_i hm
      refine ⟨a, fun x => ?_⟩
      rw [b]
      simp only [List.not_mem_nil, false_or]
      constructor
      · exact Or.inl
      · rintro (h | ⟨rfl, -⟩)
        · exact h
        · rw [b] at hm; simpa using hm
    · rename_i hm
      refine ⟨?_, fun x => ?_⟩
      · rw [List.nodup_append]
        refine ⟨a, by simp, ?_⟩
        rintro x hx y hy rfl
        simp only [List.mem_singleton] at hy
        subst hy
        exact hm hx
      · simp only [List.mem_append, b, List.not_mem_nil, false_or, List.mem_singleton]
        simp [hne]
  · rename_i hne
    refine ⟨a, fun x => ?_⟩
    rw [b]
    simp [not_not.1 hne]

theorem Group.perm {p c : UInt32} {l1 l2 g1 g2 : List UInt32} (h1 : Group p c l1 g1) (h2 : Group p c l2 g2)
    (h : ∀ x, x ∈ l1 ↔ x ∈ l2) : g1.Perm g2 := by
  rw [List.perm_ext_iff_of_nodup h1.1 h2.1]
  intro x
  rw [h1.2, h2.2, h]

theorem sort_of_perm {l r : List UInt32} (h : l.Perm r) : sortCmp chainCompare l = sortCmp chainCompare r :=
  sortCmp_unique chainCompare_lawful ((sortCmp_perm l).trans h) (sortCmp_sorted chainCompare_lawful l)

theorem newAccountShards_perm (p : UInt32) {l r : List UInt32} (h : l.Perm r) :
    newAccountShards p l = newAccountShards p r := by
  unfold newAccountShards
  rw [sort_of_perm h, h.length_eq]

/-- What a successful construction contains. -/
theorem newShardInfo_ok {p c : UInt32} {l : List UInt32} {a : AccountSharding} (h : newShardInfo p c (some l) = .ok a) :
    c ≠ nilChainID ∧ a.id = c ∧ a.shards.parent = p ∧ Group p c l a.allIDs ∧ StrictSorted chainCompare a.allIDs ∧
      a.shards.maskBits = bitsLoop a.number 1 0 ∧ a.number ≤ 2 ^ 8 := by
  unfold newShardInfo at h
  rw [if_neg (by simp)] at h
  split at h
  · cases h
  · rename_i hc
    have hg := group_addCurrent p c l
    simp only [Option.getD_some] at h
    revert h hg
    generalize addCurrent p c (dedupLoop [] l) = g
    intro hg h
    unfold newAccountShards at hg
    split at hg
    · rename_i hl
      have : g = [] := List.length_eq_zero_iff.1 (by omega)
      subst this
      simp only [withShards, Res.ok.injEq] at hg
      subst hg
      refine ⟨hc, rfl, rfl, h, List.Pairwise.nil, ?_, by simp [AccountSharding.number]⟩
      simp [AccountSharding.number, bitsLoop]
    · split at hg
      · cases hg
      · rename_i h8
        simp only [withShards, Res.ok.injEq] at hg
        subst hg
        refine ⟨hc, rfl, rfl, ⟨?_, ?_⟩, strictSorted_sortCmp chainCompare_lawful h.1, rfl, ?_⟩
        · exact (sortCmp_perm g).nodup_iff.2 h.1
        · intro x
          rw [← h.2]
          exact mem_sortCmp
        · rw [← bitsLoop_le_iff]
          simpa [AccountSharding.number, maxExponent] using h8

/-! ## C55 sharding is total, deterministic, order independent -/

/-- C55: the group consists of the listed shards and the current chain (unless it is the parent), without repetition,
in ascending order; every address goes to a member of the group, or to the parent if the group is empty. -/
theorem C55_total (p c : UInt32) (l : List UInt32) (a : AccountSharding) (h : newShardInfo p c (some l) = .ok a) :
    Group p c l a.allIDs ∧ a.allIDs.Pairwise (fun x y => chainCompare x y < 0) ∧
      ∀ addr, if a.allIDs = [] then a.shardTo addr = p else a.shardTo addr ∈ a.allIDs := by
  obtain ⟨-, -, hp, hg, hs, -, -⟩ := newShardInfo_ok h
  refine ⟨hg, hs, fun addr => ?_⟩
  split
  · rename_i he
    have he : a.shards.chains = [] := he
    simp only [AccountSharding.shardTo, AccountShards.shardTo, he, List.length_nil, Nat.le_refl, if_true, hp]
  · rename_i he
    have he : a.shards.chains ≠ [] := he
    have hl : 0 < a.shards.chains.length := List.length_pos_iff.2 he
    have hm : a.shards.index addr % a.shards.chains.length < a.shards.chains.length := Nat.mod_lt _ hl
    simp only [AccountSharding.shardTo, AccountShards.shardTo, AccountSharding.allIDs]
    rw [if_neg (by omega), List.getD_eq_getElem?_getD, List.getElem?_eq_getElem hm]
    exact List.getElem_mem hm

/-- C55: neither the order nor the multiplicity of the listed shards matters. -/
theorem C55_order_independent (p c : UInt32) (l1 l2 : List UInt32) (h : ∀ x, x ∈ l1 ↔ x ∈ l2) :
    newShardInfo p c (some l1) = newShardInfo p c (some l2) := by
  have := newAccountShards_perm p ((group_addCurrent p c l1).perm (group_addCurrent p c l2) h)
  unfold newShardInfo
  simp only [Option.getD_some, this, reduceCtorEq]

/-- C55: listing the current chain or not makes no difference either. -/
theorem C55_current_optional (p c : UInt32) (l : List UInt32) (hne : c ≠ p) :
    newShardInfo p c (some (c :: l)) = newShardInfo p c (some l) := by
  have hp : (addCurrent p c (dedupLoop [] (c :: l))).Perm (addCurrent p c (dedupLoop [] l)) := by
    have h1 := group_addCurrent p c (c :: l)
    have h2 := group_addCurrent p c l
    rw [List.perm_ext_iff_of_nodup h1.1 h2.1]
    intro x
    rw [h1.2, h2.2]
    simp only [List.mem_cons]
    constructor
    · rintro ((rfl | h) | h)
      · exact Or.inr ⟨rfl, hne⟩
      · exact Or.inl h
      · exact Or.inr h
    · rintro (h | h)
      · exact Or.inl (Or.inr h)
      · exact Or.inr h
  have := newAccountShards_perm p hp
  unfold newShardInfo
  simp only [Option.getD_some, this, reduceCtorEq]

/-- C55: construction fails exactly for a nil current chain and for groups of more than 256 chains. -/
theorem C55_panics (p c : UInt32) (l g : List UInt32) (hg : Group p c l g) :
    newShardInfo p c (some l) = .panic ↔ c = nilChainID ∨ 256 < g.length := by
  have hgl := (group_addCurrent p c l).perm hg (fun _ => Iff.rfl)
  unfold newShardInfo
  rw [if_neg (by simp)]
  by_cases hc : c = nilChainID
  · simp [hc]
  · rw [if_neg hc]
    simp only [hc, false_or, Option.getD_some]
    rw [newAccountShards_perm p hgl]
    unfold newAccountShards
    split
    · simp only [withShards]
      constructor
      · intro h; cases h
      · intro h; omega
    · have hlen : (sortCmp chainCompare g).length = g.length := (sortCmp_perm g).length_eq
      have hb := bitsLoop_le_iff g.length 8
      rw [hlen]
      split
      · rename_i h
        have : 8 < bitsLoop g.length 1 0 := h
        have : ¬ g.length ≤ 2 ^ 8 := fun h => by have := hb.2 h; omega
        simp only [withShards, true_iff]
        omega
      · rename_i h
        have h : ¬ 8 < bitsLoop g.length 1 0 := h
        have : g.length ≤ 2 ^ 8 := hb.1 (by omega)
        simp only [withShards]
        constructor
        · intro h; cases h
        · intro h; omega

/-- C55: with neither a current chain nor a shard list every address belongs to the parent. -/
theorem C55_single (p : UInt32) : ∃ a, newShardInfo p nilChainID none = .ok a ∧ a.allIDs = [] ∧
    ∀ addr, a.shardTo addr = p := by
  refine ⟨⟨p, ⟨0, p, []⟩⟩, ?_, rfl, fun _ => rfl⟩
  simp [newShardInfo, newAccountShards, withShards]

example : newShardInfo 1 5 (some [9, 7, 9, 5]) = newShardInfo 1 5 (some [5, 7, 9]) ∧
    (∃ a, newShardInfo 1 5 (some [9, 7, 9]) = .ok a ∧ a.allIDs = [5, 7, 9] ∧
      a.shardTo (64 :: List.replicate 19 0) = 7) := by
  refine ⟨C55_order_independent _ _ _ _ (by simp; tauto), ⟨⟨5, ⟨2, 1, [5, 7, 9]⟩⟩, by decide +kernel, rfl, by decide +kernel⟩⟩

/-! ## C56 leading bits select the shard -/

/-- The leading bits within the first `k` bytes. -/
theorem leading_take (bs : Bytes) (k j : Nat) (hk : k ≤ bs.length) (hj : j ≤ 8 * k) :
    leading (8 * k - j) bs = beNat (bs.take k) / 2 ^ j := by
  unfold leading
  have h1 : beNat bs = beNat (bs.take k) * 256 ^ (bs.length - k) + beNat (bs.drop k) := by
    conv_lhs => rw [← List.take_append_drop k bs]
    rw [beNat_append, List.length_drop]
  have h2 : beNat (bs.drop k) < 256 ^ (bs.length - k) := by
    have := beNat_lt (bs.drop k)
    rwa [List.length_drop] at this
  have h3 : 2 ^ (8 * bs.length - (8 * k - j)) = 256 ^ (bs.length - k) * 2 ^ j := by
    rw [show (256 : Nat) = 2 ^ 8 from rfl, ← Nat.pow_mul, ← Nat.pow_add]
    congr 1
    omega
  rw [h1, h3, ← Nat.div_div_eq_div_mul, Nat.mul_comm, Nat.mul_add_div (by positivity), Nat.div_eq_of_lt h2, Nat.add_zero]

theorem shardTo_index {a : AccountSharding} (hn : 0 < a.number) (addr : Bytes) :
    a.allIDs[a.shards.index addr % a.number]? = some (a.shardTo addr) := by
  have hl : 0 < a.shards.chains.length := hn
  have hm : a.shards.index addr % a.shards.chains.length < a.shards.chains.length := Nat.mod_lt _ hl
  simp only [AccountSharding.shardTo, AccountShards.shardTo, AccountSharding.allIDs, AccountSharding.number]
  rw [if_neg (by omega), List.getD_eq_getElem?_getD, List.getElem?_eq_getElem hm]
  rfl

/-- C56 (partial: up to 128 shards; see `C56_refuted` for 256): in a group of `n` shards, `2^(m-1) < n ≤ 2^m`, the
shard of an address is the one at the position given by the `m` leading bits, modulo `n`. -/
theorem C56_leading_mod_partial (p c : UInt32) (l : List UInt32) (a : AccountSharding)
    (h : newShardInfo p c (some l) = .ok a) (m : Nat) (hm : m ≤ 7) (hlo : 2 ^ m < 2 * a.number) (hhi : a.number ≤ 2 ^ m)
    (addr : Bytes) (haddr : addr.length = 20) :
    a.allIDs[leading m addr % a.number]? = some (a.shardTo addr) := by
  obtain ⟨-, -, -, -, -, hb, -⟩ := newShardInfo_ok h
  have hm1 : a.shards.maskBits = m := by
    rw [hb]
    apply Nat.le_antisymm ((bitsLoop_le_iff _ _).2 hhi)
    by_contra hc
    have h1 := (bitsLoop_le_iff a.number (m - 1)).1 (by omega)
    have h2 : 2 ^ m = 2 * 2 ^ (m - 1) := by
      conv_lhs => rw [show m = (m - 1) + 1 by omega]
      rw [Nat.pow_succ]; omega
    omega
  have hn : 0 < a.number := by
    have := Nat.two_pow_pos m
    omega
  rw [← shardTo_index hn addr]
  by_cases h0 : m = 0
  · subst h0
    simp only [Nat.pow_zero] at hhi
    have : a.number = 1 := by omega
    rw [this, Nat.mod_one, Nat.mod_one]
  · have : a.shards.index addr = leading m addr := by
      unfold AccountShards.index
      rw [hm1, if_neg (by omega), show m / 8 + 1 = 1 by omega, show m % 8 = m by omega, Nat.shiftRight_eq_div_pow,
        ← leading_take addr 1 (8 - m) (by omega) (by omega)]
      congr 1
      omega
    rw [this]

/-- C56 (partial: `m ≤ 7`): with `2^m` shards the shard is the one at the position given by the `m` leading bits. -/
theorem C56_leading_partial (p c : UInt32) (l : List UInt32) (a : AccountSharding)
    (h : newShardInfo p c (some l) = .ok a) (m : Nat) (hm : m ≤ 7) (hn : a.number = 2 ^ m)
    (addr : Bytes) (haddr : addr.length = 20) : a.allIDs[leading m addr]? = some (a.shardTo addr) := by
  have hpos := Nat.two_pow_pos m
  have := C56_leading_mod_partial p c l a h m hm (by omega) (by omega) addr haddr
  rwa [Nat.mod_eq_of_lt] at this
  rw [hn]
  unfold leading
  rw [Nat.div_lt_iff_lt_mul (by positivity), ← Nat.pow_add, haddr]
  have := beNat_lt addr
  rw [haddr, show (256 : Nat) = 2 ^ 8 from rfl, ← Nat.pow_mul] at this
  rwa [show m + (8 * 20 - m) = 8 * 20 by omega]

/-- C56, the other groups: with more than 128 shards the position is given by the sixteen leading bits modulo the number
of shards, so with 256 shards by the second byte of the address. -/
theorem C56_large (p c : UInt32) (l : List UInt32) (a : AccountSharding) (h : newShardInfo p c (some l) = .ok a)
    (hn : 128 < a.number) (addr : Bytes) (haddr : addr.length = 20) :
    a.allIDs[leading 16 addr % a.number]? = some (a.shardTo addr) := by
  obtain ⟨-, -, -, -, -, hb, h256⟩ := newShardInfo_ok h
  have hm1 : a.shards.maskBits = 8 := by
    rw [hb]
    apply Nat.le_antisymm ((bitsLoop_le_iff _ _).2 h256)
    by_contra hc
    have h1 := (bitsLoop_le_iff a.number 7).1 (by omega)
    omega
  rw [← shardTo_index (by omega) addr]
  have : a.shards.index addr = leading 16 addr := by
    unfold AccountShards.index
    rw [hm1, if_pos rfl]
    have := leading_take addr 2 0 (by omega) (by omega)
    simpa using this.symm
  rw [this]

/-- C56 refuted for 256 shards: an address with first byte 1 goes to the first shard, not to the second. -/
theorem C56_refuted : ∃ (l : List UInt32) (a : AccountSharding) (addr : Bytes), newShardInfo 1 2 (some l) = .ok a ∧
    a.number = 2 ^ 8 ∧ addr.length = 20 ∧ leading 8 addr = 1 ∧ a.allIDs[0]? = some (a.shardTo addr) ∧
    a.allIDs[leading 8 addr]? ≠ some (a.shardTo addr) := by
  have hl : ∀ x, x ∈ (List.range 256).map (fun i => UInt32.ofNat (i + 2)) ↔
      x ∈ (List.range 256).map (fun i => UInt32.ofNat (i + 2)) ∨ (x = 2 ∧ (2 : UInt32) ≠ 1) := by
    intro x
    constructor
    · exact Or.inl
    · rintro (h | ⟨rfl, -⟩)
      · exact h
      · decide +kernel
  have hg : Group 1 2 ((List.range 256).map fun i => UInt32.ofNat (i + 2))
      ((List.range 256).map fun i => UInt32.ofNat (i + 2)) := ⟨by decide +kernel, hl⟩
  have hnp := (C55_panics 1 2 _ _ hg).not.2 (by
    rw [not_or]
    refine ⟨by decide, ?_⟩
    simp)
  cases ha : newShardInfo 1 2 (some ((List.range 256).map fun i => UInt32.ofNat (i + 2))) with
  | panic => exact absurd ha hnp
  | err =>
    exfalso
    unfold newShardInfo newAccountShards at ha
    rw [if_neg (by simp), if_neg (by decide)] at ha
    split at ha
    · cases ha
    · split at ha <;> cases ha
  | ok a =>
    obtain ⟨-, -, -, hga, hs, -, -⟩ := newShardInfo_ok ha
    have hnum : a.number = 256 := by
      have := (hga.perm hg fun _ => Iff.rfl).length_eq
      simpa [AccountSharding.number, AccountSharding.allIDs] using this
    have haddr : (1 :: List.replicate 19 0 : Bytes).length = 20 := rfl
    have h16 := C56_large 1 2 _ a ha (by omega) _ haddr
    have e16 : leading 16 (1 :: List.replicate 19 0 : Bytes) = 256 := by decide +kernel
    have e8 : leading 8 (1 :: List.replicate 19 0 : Bytes) = 1 := by decide +kernel
    rw [e16, hnum, Nat.mod_self] at h16
    refine ⟨_, a, 1 :: List.replicate 19 0, ha, hnum, rfl, e8, h16, ?_⟩
    rw [e8, ← h16]
    have hlen : a.allIDs.length = 256 := hnum
    have h0 : a.allIDs[0]? = some a.allIDs[0] := List.getElem?_eq_getElem (by omega)
    have h1 : a.allIDs[1]? = some a.allIDs[1] := List.getElem?_eq_getElem (by omega)
    rw [h0, h1]
    intro heq
    have := (List.Nodup.getElem_inj_iff hga.1).1 (Option.some.inj heq)
    omega

/-! ## C57 Pos -/

/-- C57: ids that are not listed have position -1, and a reported position is right. -/
theorem C57_pos_sound (a : AccountSharding) (id : UInt32) :
    (id ∉ a.allIDs → a.pos id = -1) ∧ (a.pos id = -1 ∨ ∃ k : Nat, a.pos id = k ∧ a.allIDs[k]? = some id) := by
  unfold AccountSharding.pos AccountShards.pos
  constructor
  · intro h
    rw [if_neg]
    intro he
    exact h (List.mem_of_getElem? he)
  · split
    · rename_i he
      exact Or.inr ⟨_, rfl, he⟩
    · exact Or.inl rfl

/-- C57 (partial: the nil id is not among the shards; see `C57_refuted`): `Pos` is the inverse of the listing. -/
theorem C57_pos_inverse_partial (p c : UInt32) (l : List UInt32) (a : AccountSharding)
    (h : newShardInfo p c (some l) = .ok a) (hl : nilChainID ∉ l) (id : UInt32) (k : Nat) :
    a.pos id = k ↔ a.allIDs[k]? = some id := by
  obtain ⟨hc, -, -, hg, hs, -, -⟩ := newShardInfo_ok h
  have hnil : nilChainID ∉ a.allIDs := by
    rw [hg.2]
    rintro (h | ⟨h, -⟩)
    · exact hl h
    · exact hc h.symm
  have hlt : a.allIDs.Pairwise fun x y => x < y := by
    refine List.Pairwise.imp_of_mem ?_ hs
    intro x y hx hy hxy
    have hx : x ≠ nilChainID := fun h => hnil (h ▸ hx)
    have hy : y ≠ nilChainID := fun h => hnil (h ▸ hy)
    unfold chainCompare at hxy
    rw [if_neg (c := (x == nilChainID) = true) (by simpa using hx),
      if_neg (c := (y == nilChainID) = true) (by simpa using hy)] at hxy
    split at hxy
    · omega
    · split at hxy
      · assumption
      · omega
  have hk : ∀ k : Nat, a.allIDs[k]? = some id → a.pos id = k := by
    intro k hk
    have hlen : k < a.shards.chains.length := by
      by_contra hc
      have : a.allIDs[k]? = none := List.getElem?_eq_none (by simpa [AccountSharding.allIDs] using hc)
      rw [this] at hk; cases hk
    have hmono := search_monotone a.shards.chains.length (fun j => decide (a.shards.chains.getD j 0 ≥ id)) ?_
    · have hki : a.shards.chains.getD k 0 = id := by
        rw [List.getD_eq_getElem?_getD, show a.shards.chains[k]? = some id from hk]; rfl
      have h1 := (hmono k hlen).1 (by rw [hki]; simp)
      have h2 : search a.shards.chains.length (fun j => decide (a.shards.chains.getD j 0 ≥ id)) = k := by
        by_contra hne
        have h3 := (hmono (search a.shards.chains.length (fun j => decide (a.shards.chains.getD j 0 ≥ id)))
          (by omega)).2 (Nat.le_refl _)
        simp only [decide_eq_true_eq] at h3
        generalize search a.shards.chains.length (fun j => decide (a.shards.chains.getD j 0 ≥ id)) = s at *
        have h4 := List.pairwise_iff_getElem.1 hlt s k (by simp [AccountSharding.allIDs]; omega) hlen (by omega)
        rw [List.getD_eq_getElem?_getD, List.getElem?_eq_getElem (by omega)] at h3
        have h5 : a.allIDs[k] = id := by
          have := List.getElem?_eq_getElem (l := a.allIDs) hlen
          rw [hk] at this
          exact (Option.some.inj this).symm
        rw [h5] at h4
        simp only [Option.getD_some, ge_iff_le, UInt32.le_iff_toNat_le, AccountSharding.allIDs, UInt32.lt_iff_toNat_lt] at h3 h4
        omega
      unfold AccountSharding.pos AccountShards.pos
      rw [h2, if_pos (show a.shards.chains[k]? = some id from hk)]
    · intro i j hij hj hf
      simp only [decide_eq_true_eq] at hf ⊢
      rw [List.getD_eq_getElem?_getD, List.getElem?_eq_getElem (by omega)] at hf ⊢
      by_cases heq : i = j
      · subst heq; exact hf
      · have := List.pairwise_iff_getElem.1 hlt i j (by simp [AccountSharding.allIDs]; omega) hj (by omega)
        simp only [Option.getD_some, ge_iff_le, UInt32.le_iff_toNat_le, AccountSharding.allIDs,
          UInt32.lt_iff_toNat_lt] at hf this ⊢
        omega
  constructor
  · intro hp
    rcases (C57_pos_sound a id).2 with h | ⟨j, h1, h2⟩
    · rw [h] at hp; omega
    · have : j = k := by omega
      rwa [← this]
  · exact hk k

/-- C57 refuted: the nil id is listed first but searched as a large number. -/
theorem C57_refuted : ∃ a, newShardInfo 0 1 (some [nilChainID, 1, 2]) = .ok a ∧ nilChainID ∈ a.allIDs ∧
    a.pos nilChainID = -1 := by
  refine ⟨⟨1, ⟨2, 0, [nilChainID, 1, 2]⟩⟩, by decide +kernel, by decide, by decide +kernel⟩

example : ∃ a, newShardInfo 0 1 (some [30, 20, 10]) = .ok a ∧ a.allIDs = [1, 10, 20, 30] ∧ a.pos 20 = 2 ∧ a.pos 21 = -1 :=
  ⟨⟨1, ⟨2, 0, [1, 10, 20, 30]⟩⟩, by decide +kernel, rfl, by decide +kernel, by decide +kernel⟩

/-! ## C58 address shards -/

theorem byteBit_eq (b : UInt8) (j : Nat) : byteBit b j = b.toNat.testBit (7 - j) := by
  unfold byteBit Nat.testBit
  rw [Nat.and_comm, Nat.one_and_eq_mod_two]
  generalize b.toNat >>> (7 - j) = x
  by_cases h : x % 2 = 1
  · simp [h]
  · have : x % 2 = 0 := by omega
    simp [this]

theorem uint8_eq_iff_bits (x y : UInt8) : x = y ↔ ∀ j, j < 8 → x.toNat.testBit (7 - j) = y.toNat.testBit (7 - j) := by
  constructor
  · rintro rfl _ _; rfl
  · intro h
    apply UInt8.toNat_inj.1
    apply Nat.eq_of_testBit_eq
    intro i
    by_cases hi : i < 8
    · have := h (7 - i) (by omega)
      rwa [show 7 - (7 - i) = i by omega] at this
    · have hx : x.toNat < 2 ^ 8 := x.toNat_lt
      have hy : y.toNat < 2 ^ 8 := y.toNat_lt
      have h2 : 2 ^ 8 ≤ 2 ^ i := Nat.pow_le_pow_right (by omega) (by omega)
      rw [Nat.testBit_lt_two_pow (by omega), Nat.testBit_lt_two_pow (by omega)]

/-- The mask keeps the bits up to the bit position, but none at all for bit position 0. -/
theorem mask_eq_iff (p : Int) (x y : UInt8) : mask p x = mask p y ↔
    ∀ j, (j < bitPos p ∨ (j = bitPos p ∧ bitPos p ≠ 0)) → x.toNat.testBit (7 - j) = y.toNat.testBit (7 - j) := by
  have hlt : bitPos p < 8 := by unfold bitPos; omega
  unfold mask
  generalize bitPos p = n at *
  by_cases h7 : n = 7
  · subst h7
    rw [if_pos rfl, if_pos rfl, uint8_eq_iff_bits]
    constructor
    · intro h j hj; exact h j (by omega)
    · intro h j hj; exact h j (by omega)
  · rw [if_neg h7, if_neg h7]
    by_cases h0 : n = 0
    · subst h0
      simp
    · rw [if_neg h0, if_neg h0]
      have hsmall : ∀ b : UInt8, (b.toNat >>> (7 - n)) <<< (7 - n) < 256 := by
        intro b
        rw [Nat.shiftRight_eq_div_pow, Nat.shiftLeft_eq]
        have := Nat.div_mul_le_self b.toNat (2 ^ (7 - n))
        have := b.toNat_lt
        omega
      rw [← UInt8.toNat_inj, UInt8.toNat_ofNat', UInt8.toNat_ofNat', Nat.mod_eq_of_lt (hsmall x),
        Nat.mod_eq_of_lt (hsmall y)]
      constructor
      · intro h j hj
        have := congrArg (fun z => z.testBit (7 - j)) h
        simp only [Nat.testBit_shiftLeft, Nat.testBit_shiftRight] at this
        rw [show 7 - n + (7 - j - (7 - n)) = 7 - j by omega] at this
        simpa [show 7 - n ≤ 7 - j by omega] using this
      · intro h
        apply Nat.eq_of_testBit_eq
        intro i
        simp only [Nat.testBit_shiftLeft, Nat.testBit_shiftRight]
        by_cases hi : 7 - n ≤ i
        · rw [show 7 - n + (i - (7 - n)) = i by omega]
          by_cases hi7 : i ≤ 7
          · have := h (7 - i) (by omega)
            rw [show 7 - (7 - i) = i by omega] at this
            rw [this]
          · have hx : x.toNat < 2 ^ 8 := x.toNat_lt
            have hy : y.toNat < 2 ^ 8 := y.toNat_lt
            have h2 : 2 ^ 8 ≤ 2 ^ i := Nat.pow_le_pow_right (by omega) (by omega)
            rw [Nat.testBit_lt_two_pow (by omega), Nat.testBit_lt_two_pow (by omega)]
        · simp [hi]

/-- The condition tested at one byte position. -/
def ByteOk (s : AddressShard) (addr : Bytes) (pos i : Nat) : Prop :=
  ∃ b, s.value[i]? = some b ∧ if i = pos then mask s.index b = mask s.index (addr.getD i 0) else b = addr.getD i 0

theorem isInLoop_iff (s : AddressShard) (addr : Bytes) (pos : Nat) : ∀ (d i : Nat), pos + 1 - i ≤ d →
    (isInLoop s addr pos i = true ↔ ∀ k, i ≤ k → k ≤ pos → ByteOk s addr pos k) := by
  intro d
  induction d with
  | zero =>
    intro i hi
    rw [isInLoop, if_neg (by omega)]
    simp only [true_iff]
    intro k h1 h2
    omega
  | succ d ih =>
    intro i hi
    rw [isInLoop]
    by_cases hle : i ≤ pos
    · rw [if_pos hle]
      have split : (∀ k, i ≤ k → k ≤ pos → ByteOk s addr pos k) ↔
          ByteOk s addr pos i ∧ ∀ k, i + 1 ≤ k → k ≤ pos → ByteOk s addr pos k := by
        constructor
        · intro h; exact ⟨h i (Nat.le_refl _) hle, fun k h1 h2 => h k (by omega) h2⟩
        · rintro ⟨h0, h⟩ k h1 h2
          by_cases hk : k = i
          · exact hk ▸ h0
          · exact h k (by omega) h2
      rw [split, ← ih (i + 1) (by omega)]
      cases hv : s.value[i]? with
      | none =>
        simp only [Bool.false_eq_true, false_iff]
        rintro ⟨⟨b, hb, -⟩, -⟩
        rw [hv] at hb; cases hb
      | some b =>
        have hok : ByteOk s addr pos i ↔
            if i = pos then mask s.index b = mask s.index (addr.getD i 0) else b = addr.getD i 0 := by
          unfold ByteOk
          simp [hv]
        rw [hok]
        by_cases hp : i = pos
        · simp only [hp, if_true, bne_iff_ne, ne_eq]
          split <;> rename_i hm <;> simp_all
        · simp only [hp, if_false, bne_iff_ne, ne_eq]
          split <;> rename_i hm <;> simp_all
    · rw [if_neg hle]
      simp only [true_iff]
      intro k h1 h2
      omega

/-- What `IsIn` tests for an index inside the address: the value has the byte of the index, and all bits below the
index agree; bit `index` itself is compared unless it is the first bit of a byte. -/
theorem isIn_iff (s : AddressShard) (addr : Bytes) (n : Nat) (hs : s.index = n) (hn : n < 8 * addr.length) :
    s.isIn addr = true ↔ n / 8 < s.value.length ∧
      (∀ i, i < n → bitAt addr i = bitAt s.value i) ∧ (n % 8 ≠ 0 → bitAt addr n = bitAt s.value n) := by
  have hb : bytePos s.index = ((n / 8 : Nat) : Int) := by unfold bytePos; rw [hs]; omega
  have hp : bitPos s.index = n % 8 := by unfold bitPos; rw [hs]; omega
  unfold AddressShard.isIn
  rw [hb, if_neg (by omega), if_neg (by omega), Int.toNat_natCast, isInLoop_iff s addr (n / 8) _ 0 (Nat.le_refl _)]
  have haddr : ∀ k, k ≤ n / 8 → addr[k]? = some (addr.getD k 0) := by
    intro k hk
    rw [List.getD_eq_getElem?_getD, List.getElem?_eq_getElem (by omega)]; rfl
  constructor
  · intro h
    have hlen : n / 8 < s.value.length := by
      obtain ⟨b, hb, -⟩ := h (n / 8) (by omega) (Nat.le_refl _)
      by_contra hc
      rw [List.getElem?_eq_none (by omega)] at hb; cases hb
    have key : ∀ i, i ≤ n → (i < n ∨ n % 8 ≠ 0) → bitAt addr i = bitAt s.value i := by
      intro i hi hor
      obtain ⟨b, hv, hc⟩ := h (i / 8) (by omega) (by omega)
      unfold bitAt
      rw [haddr _ (by omega), hv]
      simp only [Option.map_some, Option.some.injEq]
      split at hc
      · rename_i hpos
        rw [mask_eq_iff, hp] at hc
        exact (hc (i % 8) (by omega)).symm
      · rw [hc]
    exact ⟨hlen, fun i hi => key i (by omega) (Or.inl hi), fun h => key n (Nat.le_refl _) (Or.inr h)⟩
  · rintro ⟨hlen, h1, h2⟩ k - hk
    refine ⟨s.value[k], List.getElem?_eq_getElem (by omega), ?_⟩
    have bits : ∀ j, j < 8 → (8 * k + j < n ∨ (8 * k + j = n ∧ n % 8 ≠ 0)) →
        (s.value[k]).toNat.testBit (7 - j) = (addr.getD k 0).toNat.testBit (7 - j) := by
      intro j hj hor
      have : bitAt addr (8 * k + j) = bitAt s.value (8 * k + j) := by
        rcases hor with h | ⟨h, h'⟩
        · exact h1 _ h
        · rw [h]; exact h2 h'
      unfold bitAt at this
      rw [show (8 * k + j) / 8 = k by omega, show (8 * k + j) % 8 = j by omega, haddr k (by omega),
        List.getElem?_eq_getElem (by omega)] at this
      simpa using this.symm
    split
    · rename_i hkn
      rw [mask_eq_iff, hp]
      intro j hj
      exact bits j (by omega) (by omega)
    · rw [uint8_eq_iff_bits]
      intro j hj
      exact bits j hj (by omega)

/-- C58 (partial: the index is not a multiple of 8; see `C58_refuted`): membership is equality of the bits `0..Index`. -/
theorem C58_isIn_partial (s : AddressShard) (addr : Bytes) (haddr : addr.length = 20) (n : Nat) (hs : s.index = n)
    (hn : n < 160) (h8 : n % 8 ≠ 0) :
    s.isIn addr = true ↔ n / 8 < s.value.length ∧ ∀ i, i ≤ n → bitAt addr i = bitAt s.value i := by
  rw [isIn_iff s addr n hs (by omega)]
  constructor
  · rintro ⟨h0, h1, h2⟩
    refine ⟨h0, fun i hi => ?_⟩
    by_cases h : i = n
    · exact h ▸ h2 h8
    · exact h1 i (by omega)
  · rintro ⟨h0, h⟩
    exact ⟨h0, fun i hi => h i (by omega), fun _ => h n (Nat.le_refl _)⟩

/-- C58, the other indexes inside the address: bit `Index` itself is not compared. -/
theorem C58_isIn_multiple_of_8 (s : AddressShard) (addr : Bytes) (haddr : addr.length = 20) (n : Nat) (hs : s.index = n)
    (hn : n < 160) (h8 : n % 8 = 0) :
    s.isIn addr = true ↔ n / 8 < s.value.length ∧ ∀ i, i < n → bitAt addr i = bitAt s.value i := by
  rw [isIn_iff s addr n hs (by omega)]
  simp [h8]

/-- C58, indexes outside: nothing is in a shard whose index is past the address, everything is in one with a negative
index. -/
theorem C58_isIn_outside (s : AddressShard) (addr : Bytes) (haddr : addr.length = 20) :
    (160 ≤ s.index → s.isIn addr = false) ∧ (s.index < 0 → s.isIn addr = true) := by
  unfold AddressShard.isIn bytePos
  rw [haddr]
  constructor
  · intro h
    rw [if_pos (by omega)]
  · intro h
    rw [if_neg (by omega), if_pos (by omega)]

/-- C58: the valid shards are those whose index is a position from 1 to the number of bits of an address and of the value. -/
theorem C58_isValid (s : AddressShard) : s.isValid = true ↔ s.index ∈ Set.Icc 1 160 ∧ s.index ≤ 8 * s.value.length := by
  unfold AddressShard.isValid
  rw [Set.mem_Icc]
  split
  · simp; omega
  · split
    · simp; omega
    · split
      · simp; omega
      · simp; omega

/-- C58: a valid shard whose index is not a multiple of 8 divides the addresses: one of them is in it and one is not. -/
theorem C58_divides (s : AddressShard) (hv : s.isValid = true) (h8 : s.index % 8 ≠ 0) :
    (∃ a : Bytes, a.length = 20 ∧ s.isIn a = true) ∧ ∃ a : Bytes, a.length = 20 ∧ s.isIn a = false := by
  obtain ⟨hi, hl⟩ := (C58_isValid s).1 hv
  rw [Set.mem_Icc] at hi
  obtain ⟨n, hn⟩ : ∃ n : Nat, s.index = n := ⟨s.index.toNat, by omega⟩
  have hin := fun a ha => C58_isIn_partial s a ha n hn (by omega) (by omega)
  have hpad : ∀ v : Bytes, ((v ++ List.replicate 20 (0 : UInt8)).take 20).length = 20 := fun v => by simp
  have hget : ∀ (v : Bytes) (i : Nat), i / 8 < v.length → i / 8 < 20 →
      bitAt ((v ++ List.replicate 20 (0 : UInt8)).take 20) i = bitAt v i := by
    intro v i h1 h2
    unfold bitAt
    rw [List.getElem?_take_of_lt h2, List.getElem?_append_left h1]
  refine ⟨⟨_, hpad s.value, (hin _ (hpad _)).2 ⟨by omega, fun i hi' => hget _ _ (by omega) (by omega)⟩⟩, ?_⟩
  cases hv' : s.value with
  | nil => rw [hv'] at hl; simp at hl; omega
  | cons b bs =>
    refine ⟨_, hpad ((b ^^^ 0x80) :: bs), ?_⟩
    rw [← Bool.not_eq_true, hin _ (hpad _)]
    rintro ⟨-, h⟩
    have h0 := h 0 (by omega)
    rw [hget _ 0 (by simp) (by omega), hv'] at h0
    simp only [bitAt, Nat.zero_div, List.getElem?_cons_zero, Option.map_some, Option.some.injEq] at h0
    simp [Nat.testBit_xor] at h0
    cases hb : b.toNat.testBit 7 <;> simp [hb] at h0 <;> exact absurd h0 (by decide)

/-- C58: a valid shard decides membership of every address by the bits of its value; the length test of `IsValid` leaves
out the byte holding bit `Index` when `Index` is a multiple of 8, and then no address is in the shard. -/
theorem C58_valid_but_short (s : AddressShard) (addr : Bytes) (haddr : addr.length = 20) (n : Nat) (hs : s.index = n)
    (_hv : s.isValid = true) (hl : s.value.length * 8 = n) : s.isIn addr = false := by
  by_cases hn : n < 160
  · rw [← Bool.not_eq_true, isIn_iff s addr n hs (by omega)]
    rintro ⟨h, -⟩
    omega
  · exact (C58_isIn_outside s addr haddr).1 (by omega)

/-- C58 refuted: for `Index = 8` the address differs from the value at bit 8 and is accepted all the same. -/
theorem C58_refuted : ∃ (s : AddressShard) (addr : Bytes), addr.length = 20 ∧ s.isValid = true ∧ s.index = 8 ∧
    bitAt addr 8 ≠ bitAt s.value 8 ∧ s.isIn addr = true :=
  ⟨⟨8, [1, 0x80]⟩, 1 :: List.replicate 19 0, by decide, by decide, rfl, by decide +kernel, by decide +kernel⟩

example : (⟨10, [0xAB, 0xC0]⟩ : AddressShard).isIn (0xAB :: 0xDF :: List.replicate 18 0) = true ∧
    (⟨10, [0xAB, 0xC0]⟩ : AddressShard).isIn (0xAB :: 0xE0 :: List.replicate 18 0) = false := by decide +kernel

/-! ## C88 single bits and bit lists -/

/-- C88: `Bit` reads bit `index`; bits past the end are zero. -/
theorem C88_bit (bs : Bytes) (n : Nat) : bit bs n = .ok ((bitAt bs n).getD false) := by
  have hb : bytePos (n : Int) = ((n / 8 : Nat) : Int) := by unfold bytePos; omega
  have hp : bitPos (n : Int) = n % 8 := by unfold bitPos; omega
  unfold bit bitAt
  rw [hb, hp]
  by_cases h : n / 8 < bs.length
  · rw [if_neg (by omega), if_neg (by omega), Int.toNat_natCast, byteBit_eq, List.getD_eq_getElem?_getD,
      List.getElem?_eq_getElem h]
    rfl
  · rw [if_pos (by omega), List.getElem?_eq_none (by omega)]
    rfl

theorem bitsInner_whole (b : UInt8) (i x y : Nat) (h : i < x) (r : List Bool) :
    bitsInner b i x y 0 r = r ++ (List.range 8).map (byteBit b) := by
  have h' : ¬ i ≥ x := by omega
  iterate 9 rw [bitsInner]
  simp [h', show List.range 8 = [0, 1, 2, 3, 4, 5, 6, 7] by decide]

theorem bitsInner_part (b : UInt8) (i x y : Nat) (h : x ≤ i) (hy : y < 8) (r : List Bool) :
    bitsInner b i x y 0 r = r ++ (List.range (y + 1)).map (byteBit b) := by
  interval_cases y <;> (iterate 9 rw [bitsInner]) <;> simp [h, List.range_succ]

/-- All bits of a byte string. -/
theorem bitsOuter_get (x y : Nat) (hy : y < 8) : ∀ (bs : Bytes) (i : Nat) (r : List Bool), r.length = 8 * i →
    (i ≤ x) → ∀ k, (bitsOuter x y i bs r)[k]? = if k < 8 * i then r[k]? else
      if k ≤ 8 * x + y then bitAt bs (k - 8 * i) else none := by
  intro bs
  induction bs with
  | nil =>
    intro i r hr hi k
    rw [bitsOuter]
    split
    · rfl
    · rw [List.getElem?_eq_none (by omega)]
      simp [bitAt]
  | cons b bs ih =>
    intro i r hr hi k
    have hget : ∀ n k, 8 * i ≤ k → k < 8 * i + n → n ≤ 8 →
        (r ++ (List.range n).map (byteBit b))[k]? = bitAt (b :: bs) (k - 8 * i) := by
      intro n k h1 h2 h3
      rw [List.getElem?_append_right (by omega), hr, List.getElem?_map, List.getElem?_range (by omega)]
      unfold bitAt
      rw [show (k - 8 * i) / 8 = 0 by omega, show (k - 8 * i) % 8 = k - 8 * i by omega]
      simp [byteBit_eq]
    rw [bitsOuter, if_pos hi]
    by_cases hx : i = x
    · subst hx
      rw [bitsInner_part b i i y (Nat.le_refl _) hy]
      have hstop : ∀ r', bitsOuter i y (i + 1) bs r' = r' := by
        intro r'
        cases bs with
        | nil => rfl
        | cons c cs => rw [bitsOuter, if_neg (by omega)]
      rw [hstop]
      by_cases h1 : k < 8 * i
      · rw [if_pos h1, List.getElem?_append_left (by omega)]
      · rw [if_neg h1]
        by_cases h2 : k ≤ 8 * i + y
        · rw [if_pos h2, hget (y + 1) k (by omega) (by omega) (by omega)]
        · rw [if_neg h2, List.getElem?_eq_none]
          simp; omega
    · rw [bitsInner_whole b i x y (by omega), ih (i + 1) _ (by simp; omega) (by omega)]
      by_cases h1 : k < 8 * i
      · rw [if_pos (by omega), if_pos h1, List.getElem?_append_left (by omega)]
      · rw [if_neg h1]
        by_cases h2 : k < 8 * (i + 1)
        · rw [if_pos h2, if_pos (by omega), hget 8 k (by omega) (by omega) (by omega)]
        · rw [if_neg h2]
          split
          · unfold bitAt
            rw [show (k - 8 * i) / 8 = (k - 8 * (i + 1)) / 8 + 1 by omega,
              show (k - 8 * i) % 8 = (k - 8 * (i + 1)) % 8 by omega]
            rfl
          · rfl

/-- C88 (partial, see `C88_bits_refuted`: one bit more than asked for): `Bits(length)` lists the leading `length + 1`
bits in order, as far as there are that many. -/
theorem C88_bits_partial (bs : Bytes) (n k : Nat) (hn : 0 < n) :
    (bits bs n)[k]? = if k ≤ n then bitAt bs k else none := by
  have hb : bytePos (n : Int) = ((n / 8 : Nat) : Int) := by unfold bytePos; omega
  have hp : bitPos (n : Int) = n % 8 := by unfold bitPos; omega
  unfold bits
  rw [if_neg (by omega), hb, hp, Int.toNat_natCast, bitsOuter_get _ _ (by omega) bs 0 [] rfl (by omega)]
  rw [if_neg (by omega), show 8 * (n / 8) + n % 8 = n by omega]
  rfl

/-- C88: no bits for a length that is not positive. -/
theorem C88_bits_nonpositive (bs : Bytes) (n : Int) (hn : n ≤ 0) : bits bs n = [] := by
  unfold bits; rw [if_pos hn]

/-- C88 refuted: asked for four bits, five are returned. -/
theorem C88_bits_refuted : ∃ bs : Bytes, (bits bs 4).length = 5 := ⟨[0xA8], by decide +kernel⟩

example : bits [0xA8, 0x0F] 4 = [true, false, true, false, true] ∧ bit [0xA8, 0x0F] 12 = .ok true ∧
    bit [0xA8, 0x0F] 99 = .ok false ∧ (bits [0xA8] 30).length = 8 := by decide +kernel

end Verif.Shard

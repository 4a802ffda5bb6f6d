import Verif.HTree.Model
import Mathlib.Tactic.Ring
import Mathlib.Tactic.Linarith

/-!
# The binary Merkle tree over a list, its blocks, and the correctness of `HashAtPrefix`
-/

namespace Verif.HTree
open Verif Verif.Merkle Verif.Trie

variable {H : Bytes → Bytes}

/-- The root of the binary tree of height `k` over the list `l`: a missing right half counts as the digest of nothing, an
empty tree has no root. -/
def hspec (H : Bytes → Bytes) : Nat → List Bytes → Option Bytes
  | 0, l => l.head?
  | k + 1, l =>
    (hspec H k (l.take (2 ^ k))).map fun x => hashPair H x ((hspec H k (l.drop (2 ^ k))).getD (nilHash H))

theorem hspec_nil (k : Nat) : hspec H k [] = none := by
  induction k with
  | zero => rfl
  | succ k ih => simp [hspec, ih]

theorem hspec_isSome (k : Nat) (l : List Bytes) : (hspec H k l).isSome = !l.isEmpty := by
  induction k generalizing l with
  | zero => cases l <;> rfl
  | succ k ih =>
    rw [hspec, Option.isSome_map, ih]
    cases l with
    | nil => simp
    | cons a l =>
      have : (2 ^ k) ≠ 0 := by positivity
      obtain ⟨m, hm⟩ := Nat.exists_eq_succ_of_ne_zero this
      simp [hm]

theorem hspec_eq_none {k : Nat} {l : List Bytes} : hspec H k l = none ↔ l = [] := by
  have := hspec_isSome (H := H) k l
  cases h : hspec H k l <;> cases l <;> simp_all

theorem hspec_some {k : Nat} {l : List Bytes} (h : l ≠ []) : ∃ x, hspec H k l = some x := by
  cases h' : hspec H k l with
  | none => exact absurd (hspec_eq_none.mp h') h
  | some x => exact ⟨x, rfl⟩

theorem hspec_len (hH : ∀ b, (H b).length = 32) {k : Nat} {l : List Bytes} {x : Bytes} (h : hspec H (k + 1) l = some x) :
    x.length = 32 := by
  rw [hspec, Option.map_eq_some_iff] at h
  obtain ⟨y, _, rfl⟩ := h
  exact hH _

theorem hspec_len' (hH : ∀ b, (H b).length = 32) {k : Nat} {l : List Bytes} (h32 : ∀ v ∈ l, v.length = 32) {x : Bytes}
    (h : hspec H k l = some x) : x.length = 32 := by
  cases k with
  | zero =>
    cases l with
    | nil => simp [hspec] at h
    | cons a l =>
      simp only [hspec, List.head?_cons, Option.some.injEq] at h
      subst h
      exact h32 _ (by simp)
  | succ k => exact hspec_len hH h

/-! ### Blocks -/

/-- The block of `l` at the binary prefix `p` of a tree of height `K`. -/
def sub (K : Nat) (p : List Bool) (l : List Bytes) : List Bytes :=
  (l.drop (ofBits p * 2 ^ (K - p.length))).take (2 ^ (K - p.length))

theorem ofBits_snoc (p : List Bool) (b : Bool) : ofBits (p ++ [b]) = 2 * ofBits p + b.toNat := by
  simp [ofBits, List.foldl_append]

theorem sub_nil_prefix {K : Nat} {l : List Bytes} (h : l.length ≤ 2 ^ K) : sub K [] l = l := by
  simp [sub, ofBits, List.take_of_length_le h]

theorem sub_nil (K : Nat) (p : List Bool) : sub K p [] = [] := by simp [sub]

theorem pow_step {K n : Nat} (h : n < K) : 2 ^ (K - n) = 2 * 2 ^ (K - (n + 1)) := by
  rw [show K - n = K - (n + 1) + 1 by omega, Nat.pow_succ, Nat.mul_comm]

theorem sub_false {K : Nat} {p : List Bool} (l : List Bytes) (h : p.length < K) :
    sub K (p ++ [false]) l = (sub K p l).take (2 ^ (K - (p.length + 1))) := by
  unfold sub
  rw [ofBits_snoc, List.length_append, List.length_singleton, List.take_take, pow_step h]
  generalize 2 ^ (K - (p.length + 1)) = B
  have h1 : (2 * ofBits p + false.toNat) * B = ofBits p * (2 * B) := by simp only [Bool.toNat_false]; ring
  rw [h1, Nat.min_eq_left (by omega)]

theorem sub_true {K : Nat} {p : List Bool} (l : List Bytes) (h : p.length < K) :
    sub K (p ++ [true]) l = (sub K p l).drop (2 ^ (K - (p.length + 1))) := by
  unfold sub
  rw [ofBits_snoc, List.length_append, List.length_singleton, List.drop_take, List.drop_drop, pow_step h]
  generalize 2 ^ (K - (p.length + 1)) = B
  have h1 : (2 * ofBits p + true.toNat) * B = ofBits p * (2 * B) + B := by simp only [Bool.toNat_true]; ring
  rw [h1, show 2 * B - B = B by omega]

theorem sub_length_le (K : Nat) (p : List Bool) (l : List Bytes) : (sub K p l).length ≤ 2 ^ (K - p.length) := by
  simp only [sub, List.length_take]
  omega

theorem sub_length (K : Nat) (p : List Bool) (l : List Bytes) :
    (sub K p l).length = min (2 ^ (K - p.length)) (l.length - ofBits p * 2 ^ (K - p.length)) := by
  simp [sub]

theorem sub_getElem? (K : Nat) (p : List Bool) (l : List Bytes) (r : Nat) (hr : r < 2 ^ (K - p.length)) :
    (sub K p l)[r]? = l[ofBits p * 2 ^ (K - p.length) + r]? := by
  simp [sub, hr, List.getElem?_drop]

theorem sub_mem {K : Nat} {p : List Bool} {l : List Bytes} {x : Bytes} (h : x ∈ sub K p l) : x ∈ l :=
  List.mem_of_mem_drop (List.mem_of_mem_take h)

/-- The block of a slot. -/
def part (h : Nat) (j : Nib) (l : List Bytes) : List Bytes := sub (4 * h + 4) (bits4 j) l

theorem bits4_length (j : Nib) : (bits4 j).length = 4 := rfl

theorem ofBits_bits4 : ∀ j : Nib, ofBits (bits4 j) = j.val := by decide

theorem nibOf_bits4 : ∀ j : Nib, nibOf (bits4 j) = j := by decide

theorem list4 {p : List Bool} (h : p.length = 4) : ∃ a b c d, p = [a, b, c, d] := by
  match p, h with
  | [a, b, c, d], _ => exact ⟨a, b, c, d, rfl⟩

theorem bits4_nibOf {p : List Bool} (h : p.length = 4) : bits4 (nibOf p) = p := by
  obtain ⟨a, b, c, d, rfl⟩ := list4 h
  revert a b c d
  decide

theorem mem_prefixes {p : List Bool} : p ∈ prefixes ↔ p.length < 4 := by
  constructor
  · revert p; decide
  · intro h
    match p, h with
    | [], _ => decide
    | [a], _ => revert a; decide
    | [a, b], _ => revert a b; decide
    | [a, b, c], _ => revert a b c; decide

/-- Which prefixes lead to a slot. -/
theorem prefix_bits4 {p : List Bool} (hp : p.length ≤ 4) (j : Nib) :
    p <+: bits4 j ↔ ofBits p = j.val / 2 ^ (4 - p.length) := by
  rcases Nat.lt_or_eq_of_le hp with h | h
  · have hm := mem_prefixes.mpr h
    have key : ∀ p ∈ prefixes, ∀ j : Nib, p <+: bits4 j ↔ ofBits p = j.val / 2 ^ (4 - p.length) := by decide +kernel
    exact key p hm j
  · obtain ⟨a, b, c, d, rfl⟩ := list4 h
    revert a b c d j
    decide +kernel

theorem ofBits_lt (p : List Bool) : ofBits p < 2 ^ p.length := by
  induction p using List.reverseRecOn with
  | nil => simp [ofBits]
  | append_singleton p b ih =>
    rw [ofBits_snoc, List.length_append, List.length_singleton, Nat.pow_succ]
    have := Bool.toNat_le b
    omega

theorem part_length_le (h : Nat) (j : Nib) (l : List Bytes) : (part h j l).length ≤ 2 ^ (4 * h) :=
  sub_length_le (4 * h + 4) (bits4 j) l

theorem part_eq (h : Nat) (j : Nib) (l : List Bytes) :
    part h j l = (l.drop (j.val * 2 ^ (4 * h))).take (2 ^ (4 * h)) := by
  rw [part, sub, bits4_length, ofBits_bits4, show 4 * h + 4 - 4 = 4 * h by omega]

theorem part_getElem? (h : Nat) (j : Nib) (l : List Bytes) (r : Nat) (hr : r < 2 ^ (4 * h)) :
    (part h j l)[r]? = l[j.val * 2 ^ (4 * h) + r]? := by
  rw [part_eq, List.getElem?_take, if_pos hr, List.getElem?_drop]

theorem part_nil (h : Nat) (j : Nib) : part h j [] = [] := sub_nil _ _

theorem part_eq_nil {h : Nat} {j : Nib} {l : List Bytes} : part h j l = [] ↔ l.length ≤ j.val * 2 ^ (4 * h) := by
  rw [part_eq, List.take_eq_nil_iff, List.drop_eq_nil_iff]
  have : (2 ^ (4 * h)) ≠ 0 := by positivity
  simp [this]

theorem part_mem {h : Nat} {j : Nib} {l : List Bytes} {x : Bytes} (hx : x ∈ part h j l) : x ∈ l := sub_mem hx

theorem block_append_out {a B : Nat} {l : List Bytes} {v : Bytes} (h : l.length < a ∨ a + B ≤ l.length) :
    ((l ++ [v]).drop a).take B = (l.drop a).take B := by
  rcases h with h | h
  · rw [List.drop_eq_nil_of_le (by simp; omega), List.drop_eq_nil_of_le (by omega)]
  · rw [List.drop_append_of_le_length (by omega), List.take_append_of_le_length (by simp; omega)]

theorem block_append_in {a B : Nat} {l : List Bytes} {v : Bytes} (h1 : a ≤ l.length) (h2 : l.length < a + B) :
    ((l ++ [v]).drop a).take B = (l.drop a).take B ++ [v] := by
  rw [List.drop_append_of_le_length h1, List.take_of_length_le (by simp; omega), List.take_of_length_le (by simp; omega)]

/-- Appending changes only the blocks on the path of the new position. -/
theorem sub_append_out {h : Nat} {p : List Bool} {l : List Bytes} {v : Bytes} {j : Nib} (hp : p.length ≤ 4)
    (hj : l.length / 2 ^ (4 * h) = j.val) (hn : ¬ p <+: bits4 j) : sub (4 * h + 4) p (l ++ [v]) = sub (4 * h + 4) p l := by
  rw [prefix_bits4 hp] at hn
  unfold sub
  apply block_append_out
  have e : 2 ^ (4 * h + 4 - p.length) = 2 ^ (4 * h) * 2 ^ (4 - p.length) := by
    rw [← Nat.pow_add]; congr 1; omega
  rw [← hj, Nat.div_div_eq_div_mul, ← e] at hn
  generalize hB : 2 ^ (4 * h + 4 - p.length) = B at hn ⊢
  have hB0 : 0 < B := by rw [← hB]; positivity
  have h1 := Nat.div_add_mod l.length B
  have h2 := Nat.mod_lt l.length hB0
  rcases Nat.lt_or_gt_of_ne hn with h3 | h3
  · right
    have : (ofBits p + 1) * B ≤ (l.length / B) * B := Nat.mul_le_mul_right _ h3
    rw [Nat.add_mul, Nat.one_mul] at this
    rw [Nat.mul_comm] at h1
    omega
  · left
    have : (l.length / B + 1) * B ≤ ofBits p * B := Nat.mul_le_mul_right _ h3
    rw [Nat.add_mul, Nat.one_mul] at this
    rw [Nat.mul_comm] at h1
    omega

theorem part_append_ne {h : Nat} {l : List Bytes} {v : Bytes} {j k : Nib} (hj : l.length / 2 ^ (4 * h) = j.val)
    (hk : k ≠ j) : part h k (l ++ [v]) = part h k l := by
  apply sub_append_out (by simp [bits4_length]) hj
  intro hp
  have := hp.eq_of_length (by simp [bits4_length])
  apply hk
  rw [← nibOf_bits4 k, ← nibOf_bits4 j, this]

theorem part_append_eq {h : Nat} {l : List Bytes} {v : Bytes} {j : Nib} (hj : l.length / 2 ^ (4 * h) = j.val) :
    part h j (l ++ [v]) = part h j l ++ [v] := by
  rw [part_eq, part_eq]
  have h1 := Nat.div_add_mod l.length (2 ^ (4 * h))
  have h2 := Nat.mod_lt l.length (show 0 < 2 ^ (4 * h) by positivity)
  rw [hj, Nat.mul_comm] at h1
  exact block_append_in (by omega) (by omega)

theorem part_length_path {h : Nat} {l : List Bytes} {j : Nib} (hj : l.length / 2 ^ (4 * h) = j.val) :
    (part h j l).length = l.length % 2 ^ (4 * h) := by
  have h1 := Nat.div_add_mod l.length (2 ^ (4 * h))
  have h2 := Nat.mod_lt l.length (show 0 < 2 ^ (4 * h) by positivity)
  rw [hj, Nat.mul_comm] at h1
  rw [part_eq, List.length_take, List.length_drop]
  omega

/-! ### Hashes of prefixes -/

/-- Every cached hash is the hash of its block. -/
def BrOk (H : Bytes → Bytes) (k : Nat) (l : List Bytes) (br : List Bool → Option Bytes) : Prop :=
  ∀ p x, br p = some x → p.length < 4 ∧ hspec H (k + (4 - p.length)) (sub (k + 4) p l) = some x

/-- Below `p`, every slot has the hash of its block or is covered by a cached hash. -/
def Cov (H : Bytes → Bytes) (k : Nat) (l : List Bytes) (slot : Nib → Option (Option Bytes)) (br : List Bool → Option Bytes)
    (p : List Bool) : Prop :=
  ∀ j, p <+: bits4 j → slot j = some (hspec H k (sub (k + 4) (bits4 j) l)) ∨
    ∃ q, p <+: q ∧ q <+: bits4 j ∧ q.length < 4 ∧ (br q).isSome

theorem Cov.down {k : Nat} {l : List Bytes} {slot : Nib → Option (Option Bytes)} {br br' : List Bool → Option Bytes}
    {p : List Bool} {b : Bool} (hc : Cov H k l slot br p) (hp : br p = none)
    (hbr : ∀ q, (br q).isSome → (br' q).isSome) : Cov H k l slot br' (p ++ [b]) := by
  intro j hj
  have hpj : p <+: bits4 j := (List.prefix_append p [b]).trans hj
  rcases hc j hpj with h | ⟨q, h1, h2, h3, h4⟩
  · exact .inl h
  · right
    refine ⟨q, ?_, h2, h3, hbr _ h4⟩
    have hne : q ≠ p := by intro e; rw [e, hp] at h4; simp at h4
    have hlt : p.length < q.length := by
      rcases Nat.lt_or_eq_of_le h1.length_le with h | h
      · exact h
      · exact absurd (h1.eq_of_length h).symm hne
    exact List.prefix_of_prefix_length_le hj h2 (by simp; omega)

/-- `HashAtPrefix` returns the hash of the block, and keeps the caches right. -/
theorem hashPfx_spec (k : Nat) (l : List Bytes) (slot : Nib → Option (Option Bytes)) :
    ∀ (d : Nat) (p : List Bool) (st : HState), p.length + d = 4 → BrOk H k l st.br → Cov H k l slot st.br p →
      BrOk H k l (hashPfx H slot d p st).1.br ∧
      (∀ q, (st.br q).isSome → ((hashPfx H slot d p st).1.br q).isSome) ∧
      ∃ f1 f2, (hashPfx H slot d p st).2 = some (hspec H (k + d) (sub (k + 4) p l), f1, f2) ∧
        (f1 = true → f2 = true) ∧ (f1 = true → sub (k + 4) p l = []) ∧
        (f2 = true → 0 < d ∧ (sub (k + 4) p l).length ≤ 2 ^ (k + d - 1)) := by
  intro d
  induction d with
  | zero =>
    intro p st hp hb hc
    rw [hashPfx]
    have h4 : bits4 (nibOf p) = p := bits4_nibOf (by omega)
    refine ⟨hb, fun _ h => h, false, false, ?_, by simp, by simp, by simp⟩
    have := hc (nibOf p) (by rw [h4]; exact List.prefix_rfl)
    rcases this with h | ⟨q, h1, _, h3, _⟩
    · rw [h4] at h
      simp [h]
    · have := h1.length_le; omega
  | succ d ih =>
    intro p st hp hb hc
    rw [hashPfx]
    cases hst : st.br p with
    | some r =>
      simp only
      refine ⟨hb, fun _ h => h, false, false, ?_, by simp, by simp, by simp⟩
      have := (hb p r hst).2
      rw [show 4 - p.length = d + 1 by omega] at this
      rw [this]
    | none =>
      simp only
      have hlK : p.length < k + 4 := by omega
      have hdl : k + 4 - (p.length + 1) = k + d := by omega
      have hleft := sub_false l hlK
      have hright := sub_true l hlK
      rw [hdl] at hleft hright
      obtain ⟨hb1, hm1, f1, f2, he1, hf12, hf1, hf2⟩ := ih (p ++ [false]) st (by simp; omega) hb
        (hc.down hst fun _ h => h)
      generalize hL : hashPfx H slot d (p ++ [false]) st = L at hb1 hm1 he1 ⊢
      obtain ⟨hb2, hm2, g1, g2, he2, hg12, hg1, hg2⟩ := ih (p ++ [true]) L.1 (by simp; omega) hb1
        (hc.down hst hm1)
      generalize hR : hashPfx H slot d (p ++ [true]) L.1 = R at hb2 hm2 he2 ⊢
      rw [he1]
      have c1 : (f1 && !f2) = false := by cases f1 <;> cases f2 <;> simp_all
      have c2 : (g1 && !g2) = false := by cases g1 <;> cases g2 <;> simp_all
      simp only [c1, Bool.false_eq_true, if_false]
      rw [he2]
      simp only [c2, Bool.false_eq_true, if_false]
      have hblen := sub_length_le (k + 4) p l
      rw [show k + 4 - p.length = k + (d + 1) by omega, ← Nat.add_assoc, Nat.pow_succ] at hblen
      have c3 : (f2 && (hspec H (k + d) (sub (k + 4) (p ++ [true]) l)).isSome) = false := by
        cases hf : f2 with
        | false => rfl
        | true =>
          obtain ⟨h0, h1⟩ := hf2 hf
          rw [hleft, List.length_take] at h1
          have : sub (k + 4) (p ++ [true]) l = [] := by
            rw [hright, List.drop_eq_nil_iff]
            have e : 2 ^ (k + d) = 2 * 2 ^ (k + d - 1) := by
              rw [show k + d = k + d - 1 + 1 by omega, Nat.pow_succ, Nat.mul_comm]; simp
            have : 0 < 2 ^ (k + d - 1) := by positivity
            omega
          rw [this, hspec_nil]; rfl
      simp only [c3, Bool.false_eq_true, if_false]
      have hs : hspec H (k + (d + 1)) (sub (k + 4) p l) = (hspec H (k + d) (sub (k + 4) (p ++ [false]) l)).map
          fun x => hashPair H x ((hspec H (k + d) (sub (k + 4) (p ++ [true]) l)).getD (nilHash H)) := by
        rw [← Nat.add_assoc, hspec, ← hleft, ← hright]
      have hpos : 0 < 2 ^ (k + d) := by positivity
      cases hl : hspec H (k + d) (sub (k + 4) (p ++ [false]) l) with
      | none =>
        have hln := hspec_eq_none.mp hl
        have hpn : sub (k + 4) p l = [] := by
          rw [hleft, List.take_eq_nil_iff] at hln
          rcases hln with h | h
          · omega
          · exact h
        have hrn : hspec H (k + d) (sub (k + 4) (p ++ [true]) l) = none := by rw [hright, hpn]; simp [hspec_nil]
        rw [hrn]
        simp only
        refine ⟨hb2, fun q h => hm2 q (hm1 q h), true, true, ?_, by simp, fun _ => hpn, fun _ => ⟨by omega, by simp [hpn]⟩⟩
        rw [hs, hl]; rfl
      | some x =>
        simp only
        refine ⟨?_, ?_, false, (hspec H (k + d) (sub (k + 4) (p ++ [true]) l)).isNone, ?_, by simp, by simp, ?_⟩
        · intro q y hq
          by_cases hqp : q = p
          · subst hqp
            simp only [if_true, Option.some.injEq] at hq
            refine ⟨by omega, ?_⟩
            rw [show 4 - q.length = d + 1 by omega, hs, hl, ← hq]; rfl
          · simp only [hqp, if_false] at hq
            exact hb2 q y hq
        · intro q h
          by_cases hqp : q = p
          · simp [hqp]
          · simp only [hqp, if_false]
            exact hm2 q (hm1 q h)
        · rw [hs, hl]; rfl
        · intro h
          refine ⟨by omega, ?_⟩
          have := hspec_eq_none.mp (Option.isNone_iff_eq_none.mp h)
          rw [hright, List.drop_eq_nil_iff] at this
          rw [show k + (d + 1) - 1 = k + d by omega]
          exact this

/-! ### The nibbles of a height -/

/-- The `n` hexadecimal digits of a number below `16^n`, most significant first. -/
def digits : Nat → Nat → List Nib
  | 0, _ => []
  | n + 1, k => ⟨k / 16 ^ n % 16, by omega⟩ :: digits n (k % 16 ^ n)

/-- A number from its hexadecimal digits. -/
def undigits : List Nib → Nat
  | [] => 0
  | d :: ds => d.val * 16 ^ ds.length + undigits ds

theorem digits_length (n k : Nat) : (digits n k).length = n := by
  induction n generalizing k with
  | zero => rfl
  | succ n ih => simp [digits, ih]

theorem undigits_digits (n k : Nat) (h : k < 16 ^ n) : undigits (digits n k) = k := by
  induction n generalizing k with
  | zero => simp [digits, undigits] at *; omega
  | succ n ih =>
    have hp : 0 < 16 ^ n := by positivity
    rw [digits, undigits, digits_length, ih _ (Nat.mod_lt _ hp)]
    have h1 : k / 16 ^ n < 16 := by
      rw [Nat.div_lt_iff_lt_mul hp]; rw [Nat.pow_succ] at h; omega
    simp only [Nat.mod_eq_of_lt h1]
    have := Nat.div_add_mod k (16 ^ n)
    rw [Nat.mul_comm] at this
    exact this

theorem pow16 (h : Nat) : 16 ^ h = 2 ^ (4 * h) := by rw [Nat.pow_mul]

end Verif.HTree

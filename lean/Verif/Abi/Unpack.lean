import Verif.Abi.Pack

/-!
# Unpacking inverts packing
-/

namespace Verif.Abi
open Verif

attribute [local irreducible] word

/-! ### Words -/

theorem signed_spec (bits : Nat) (hb : 0 < bits) (i : Int) (h1 : -2 ^ (bits - 1) ≤ i) (h2 : i < 2 ^ (bits - 1)) :
    signed bits (i % 2 ^ bits).toNat = i := by
  obtain ⟨k, rfl⟩ : ∃ k, bits = k + 1 := ⟨bits - 1, by omega⟩
  unfold signed
  simp only [Nat.add_sub_cancel] at *
  have e : (2 : Int) ^ (k + 1) = 2 * 2 ^ k := by rw [Int.pow_succ]; omega
  have e2 : (2 : Int) ^ k = ((2 ^ k : Nat) : Int) := by norm_cast
  have hp : 0 < 2 ^ k := Nat.pos_of_ne_zero (by simp)
  rw [e]
  rw [e2] at h1 h2 ⊢
  clear e e2
  generalize 2 ^ k = M at *
  by_cases hi : 0 ≤ i
  · have : i % (2 * (M : Int)) = i := Int.emod_eq_of_lt hi (by omega)
    rw [this, if_pos (by omega)]
    omega
  · have : i % (2 * (M : Int)) = i + 2 * M := by
      rw [← Int.add_mul_emod_self_left i (2 * M) 1, Int.mul_one]
      exact Int.emod_eq_of_lt (by omega) (by omega)
    rw [this, if_neg (by omega)]
    omega

theorem two_pow_dvd (a b : Nat) (h : a ≤ b) : ((2 ^ a : Nat) : Int) ∣ (2 : Int) ^ b := by
  obtain ⟨c, rfl⟩ := Nat.exists_eq_add_of_le h
  exact ⟨2 ^ c, by rw [Int.pow_add]; norm_cast⟩

theorem two_pow_pos (b : Nat) : (0 : Int) < 2 ^ b := by positivity

theorem emod_low (i : Int) (P : Int) (M : Nat) (hP : 0 < P) (hd : (M : Int) ∣ P) :
    (i % P).toNat % M = (i % (M : Int)).toNat := by
  have h0 : 0 ≤ i % P := Int.emod_nonneg _ (by omega)
  have e3 : i % (M : Int) = (i % P) % M := (Int.emod_emod_of_dvd i hd).symm
  rw [e3]
  obtain ⟨n, hn⟩ := Int.eq_ofNat_of_zero_le h0
  rw [hn, ← Int.natCast_emod]
  rfl

theorem natBE_low (n k m : Nat) : beNat ((natBE (m + k) n).drop m) = n % 2 ^ (8 * k) := by
  rw [BigMath.natBE_add, List.drop_left' (natBE_length _ _), beNat_natBE, Nat.pow_mul]

/-- The low bytes of a word. -/
theorem word_low (i : Int) (k : Nat) (hk : k ≤ 32) : beNat ((word i).drop (32 - k)) = (i % 2 ^ (8 * k)).toNat := by
  unfold word
  have e4 : ((2 : Int) ^ (8 * k)) = ((2 ^ (8 * k) : Nat) : Int) := by norm_cast
  have e := emod_low i _ (2 ^ (8 * k)) (two_pow_pos 256) (two_pow_dvd _ 256 (by omega))
  rw [e4, ← e, ← natBE_low _ k (32 - k), Nat.sub_add_cancel hk]

theorem word_all (i : Int) : beNat (word i) = (i % 2 ^ 256).toNat := by
  have := word_low i 32 (Nat.le_refl _)
  simpa using this

theorem readUint_word (bits : Nat) (i : Int) (h0 : 0 ≤ i) (h1 : i < 2 ^ width bits) : readUint bits (word i) = i := by
  unfold width at h1
  unfold readUint
  have low : ∀ k, k ≤ 32 → i < 2 ^ (8 * k) → ((beNat ((word i).drop (32 - k)) : Nat) : Int) = i := by
    intro k hk hi
    rw [word_low i k hk, Int.emod_eq_of_lt h0 hi]
    omega
  split
  · next h => exact low 1 (by omega) (by simpa [h] using h1)
  · split
    · next h => exact low 2 (by omega) (by simpa [h] using h1)
    · split
      · next h => exact low 4 (by omega) (by simpa [h] using h1)
      · split
        · next h => exact low 8 (by omega) (by simpa [h] using h1)
        · next a b c d =>
          rw [if_neg (by omega)] at h1
          rw [word_all, Int.emod_eq_of_lt h0 h1]
          omega

theorem readInt_word (bits : Nat) (i : Int) (h0 : -2 ^ (width bits - 1) ≤ i) (h1 : i < 2 ^ (width bits - 1)) :
    readInt bits (word i) = i := by
  unfold width at h0 h1
  unfold readInt
  have low : ∀ k, 0 < k → k ≤ 32 → -2 ^ (8 * k - 1) ≤ i → i < 2 ^ (8 * k - 1) → signed (8 * k) (beNat ((word i).drop (32 - k))) = i := by
    intro k h hk hi hj
    rw [word_low i k hk, signed_spec _ (by omega) i hi hj]
  split
  · next h => exact low 1 (by omega) (by omega) (by simpa [h] using h0) (by simpa [h] using h1)
  · split
    · next h => exact low 2 (by omega) (by omega) (by simpa [h] using h0) (by simpa [h] using h1)
    · split
      · next h => exact low 4 (by omega) (by omega) (by simpa [h] using h0) (by simpa [h] using h1)
      · split
        · next h => exact low 8 (by omega) (by omega) (by simpa [h] using h0) (by simpa [h] using h1)
        · next a b c d =>
          rw [if_neg (by omega)] at h0 h1
          have hs := signed_spec 256 (by omega) i h0 h1
          rw [← word_all] at hs
          have hlt : beNat (word i) < 2 ^ 256 := by
            have := beNat_lt (word i)
            rw [word_length] at this
            exact Nat.lt_of_lt_of_eq this (by decide +kernel)
          unfold signed at hs
          have hbit : (beNat (word i)).testBit 255 = decide (¬ beNat (word i) < 2 ^ (256 - 1)) := by
            rw [Nat.testBit_eq_decide_div_mod_eq]
            congr 1
            simp only [eq_iff_iff]
            constructor
            · intro h1 h2
              rw [Nat.div_eq_of_lt h2] at h1
              omega
            · intro h
              omega
          simp only [hbit, decide_eq_true_eq]
          split at hs
          · next h => rw [if_neg (by simpa using h)]; exact hs
          · next h => rw [if_pos h]; omega

theorem readBool_word (b : Bool) : readBool (word (if b then 1 else 0)) = .ok b := by
  cases b <;> decide +kernel

/-! ### Places -/

/-- The encoding of a component is at position `i` of `out`: in place, or where the word there points to. -/
def Holds (c : Comp) (out : Bytes) (i : Nat) : Prop :=
  if c.1 then ∃ o : Nat, o ≤ out.length ∧ i + 32 ≤ out.length ∧ (out.drop i).take 32 = word (o : Nat) ∧ c.2 <+: out.drop o
  else i ≤ out.length ∧ c.2 <+: out.drop i

theorem runHeads_at (off : Nat) (cs : List Comp) (j : Nat) (c : Comp) (h : cs[j]? = some c) :
    ∃ A B, runHeads off cs = A ++ (if c.1 then word (off + ((cs.take j).flatMap tail).length : Nat) else c.2) ++ B ∧
      A.length = ((cs.take j).map headLen).sum := by
  induction cs generalizing off j with
  | nil => simp at h
  | cons a cs ih =>
    cases j with
    | zero =>
      simp only [List.getElem?_cons_zero, Option.some.injEq] at h
      subst h
      rw [runHeads]
      cases hd : a.1
      · exact ⟨[], runHeads off cs, by simp, by simp⟩
      · exact ⟨[], runHeads (off + a.2.length) cs, by simp, by simp⟩
    | succ j =>
      simp only [List.getElem?_cons_succ] at h
      rw [runHeads]
      cases hd : a.1
      · obtain ⟨A, B, e, hl⟩ := ih off j h
        refine ⟨a.2 ++ A, B, ?_, ?_⟩
        · simp [e, tail, hd]
        · simp [hl, headLen, hd]
      · obtain ⟨A, B, e, hl⟩ := ih (off + a.2.length) j h
        refine ⟨word off ++ A, B, ?_, ?_⟩
        · simp [e, tail, hd, Nat.add_assoc]
        · simp [hl, headLen, hd, word_length]

theorem drop_prefix {A x B out : Bytes} {n : Nat} (h : A ++ x ++ B <+: out) (hn : A.length = n) : x <+: out.drop n ∧ n + x.length ≤ out.length := by
  obtain ⟨r, rfl⟩ := h
  refine ⟨⟨B ++ r, ?_⟩, ?_⟩
  · rw [List.append_assoc, List.append_assoc, List.drop_left' hn]
  · simp; omega

/-- Every component of a sequence is found at its place. -/
theorem holds_seq {cs : List Comp} {out : Bytes} (h : encSeq cs <+: out) {j : Nat} {c : Comp} (hj : cs[j]? = some c) :
    Holds c out ((cs.take j).map headLen).sum := by
  rw [encSeq_eq] at h
  obtain ⟨A, B, e, hl⟩ := runHeads_at (cs.map headLen).sum cs j c hj
  have h1 : A ++ (if c.1 then word ((cs.map headLen).sum + ((cs.take j).flatMap tail).length : Nat) else c.2) ++ (B ++ cs.flatMap tail) <+: out := by
    rw [e] at h
    simpa using h
  unfold Holds
  cases hd : c.1
  · rw [hd] at h1
    obtain ⟨g1, g2⟩ := drop_prefix h1 hl
    simp only [Bool.false_eq_true, if_false] at *
    exact ⟨by omega, g1⟩
  · rw [hd] at h1
    obtain ⟨g1, g2⟩ := drop_prefix h1 hl
    simp only [if_true] at *
    rw [word_length] at g2
    have hcs : cs.flatMap tail = (cs.take j).flatMap tail ++ c.2 ++ (cs.drop (j + 1)).flatMap tail := by
      have hlt : j < cs.length := (List.getElem?_eq_some_iff.mp hj).1
      have e2 : cs = cs.take j ++ c :: cs.drop (j + 1) := by
        have := (List.getElem?_eq_some_iff.mp hj).2
        rw [← this, List.getElem_cons_drop, List.take_append_drop]
      conv_lhs => rw [e2]
      simp [tail, hd]
    have h2 : (runHeads (cs.map headLen).sum cs ++ (cs.take j).flatMap tail) ++ c.2 ++ (cs.drop (j + 1)).flatMap tail <+: out := by
      rw [hcs] at h
      simpa using h
    obtain ⟨k1, k2⟩ := drop_prefix h2 (n := (cs.map headLen).sum + ((cs.take j).flatMap tail).length)
      (by rw [List.length_append, runHeads_length])
    refine ⟨_, by omega, g2, ?_, k1⟩
    obtain ⟨r, hr⟩ := g1
    rw [← hr, List.take_left' (word_length _)]

mutual
theorem size_pos : ∀ t : Ty, t.Full → 32 ≤ getTypeSize t
  | .array n e, h => by
    rw [Ty.Full] at h
    cases hd : e.dyn
    · rw [getTypeSize_array n e hd]
      have := size_pos e h.1
      have hn := h.2 hd
      calc 32 ≤ getTypeSize e := this
        _ = 1 * getTypeSize e := by omega
        _ ≤ n * getTypeSize e := Nat.mul_le_mul_right _ hn
    · rw [getTypeSize_dyn _ (by rw [Ty.dyn]; exact hd)]
  | .tuple l, h => by
    cases hd : (Ty.tuple l).dyn
    · rw [Ty.Full] at h
      rw [getTypeSize, isDynamicType_eq, hd]
      simp only [Bool.not_false, if_true]
      cases l with
      | nil => exact absurd rfl h.1
      | cons t l =>
        rw [sizeSum]
        have h2 := h.2
        rw [FullL] at h2
        have := size_pos t h2.1
        omega
    · rw [getTypeSize_dyn _ hd]
  | .slice _, _ => by simp [getTypeSize]
  | .string, _ => by simp [getTypeSize]
  | .bytes, _ => by simp [getTypeSize]
  | .uint _, _ => by simp [getTypeSize]
  | .int _, _ => by simp [getTypeSize]
  | .bool, _ => by simp [getTypeSize]
  | .address, _ => by simp [getTypeSize]
  | .fixed _, _ => by simp [getTypeSize]
  | .function, _ => by simp [getTypeSize]
end

mutual
theorem size_mod : ∀ t : Ty, getTypeSize t % 32 = 0
  | .array n e => by
    cases hd : e.dyn
    · rw [getTypeSize_array n e hd, Nat.mul_mod, size_mod e]
      simp
    · rw [getTypeSize_dyn _ (by rw [Ty.dyn]; exact hd)]
  | .tuple l => by
    cases hd : (Ty.tuple l).dyn
    · rw [getTypeSize, isDynamicType_eq, hd]
      simp only [Bool.not_false, if_true]
      exact sum_mod l
    · rw [getTypeSize_dyn _ hd]
  | .slice _ => by simp [getTypeSize]
  | .string => by simp [getTypeSize]
  | .bytes => by simp [getTypeSize]
  | .uint _ => by simp [getTypeSize]
  | .int _ => by simp [getTypeSize]
  | .bool => by simp [getTypeSize]
  | .address => by simp [getTypeSize]
  | .fixed _ => by simp [getTypeSize]
  | .function => by simp [getTypeSize]
theorem sum_mod : ∀ l : List Ty, sizeSum l % 32 = 0
  | [] => rfl
  | t :: l => by
    rw [sizeSum]
    have := size_mod t
    have := sum_mod l
    omega
end

theorem virtual_eq (t : Ty) : virtual t = ((getTypeSize t / 32 : Nat) : Int) - 1 := by
  unfold virtual
  rw [isDynamicType_eq]
  cases hn : t.nested
  · rw [getTypeSize_flat t hn]; simp
  · cases hd : t.dyn
    · simp
    · rw [getTypeSize_dyn t hd]; simp

/-! ### Reading -/

theorem sliceOf_ok {out x : Bytes} {i : Nat} (h : x <+: out.drop i) (hi : i ≤ out.length) : sliceOf out i (i + x.length) = .ok x := by
  have := h.length_le
  rw [List.length_drop] at this
  unfold sliceOf
  rw [if_pos ⟨by omega, by omega⟩, Nat.add_sub_cancel_left]
  obtain ⟨r, hr⟩ := h
  rw [← hr, List.take_left]

theorem sliceFrom_ok {out : Bytes} {i : Nat} (hi : i ≤ out.length) : sliceFrom out i = .ok (out.drop i) := by
  unfold sliceFrom; rw [if_pos hi]

theorem sliceOf_word {out : Bytes} {i : Nat} {w : Bytes} (h : (out.drop i).take 32 = w) (hi : i + 32 ≤ out.length) :
    sliceOf out i (i + 32) = .ok w := by
  unfold sliceOf
  rw [if_pos ⟨by omega, hi⟩, Nat.add_sub_cancel_left, h]

theorem lengthPrefix_ok {out x : Bytes} {i o n : Nat} (hlen : out.length < 2 ^ 63) (hi : i + 32 ≤ out.length)
    (hw : (out.drop i).take 32 = word (o : Nat)) (ho : o ≤ out.length) (hx : word (n : Nat) ++ x <+: out.drop o) (hn : n ≤ x.length) :
    lengthPrefixPointsTo i out = .ok (o + 32, n) ∧ o + 32 ≤ out.length ∧ x <+: out.drop (o + 32) ∧ o + 32 + x.length ≤ out.length := by
  have hl := hx.length_le
  rw [List.length_append, word_length, List.length_drop] at hl
  have h1 : word (n : Nat) <+: out.drop o := List.IsPrefix.trans (List.prefix_append _ _) hx
  have h2 := sliceOf_ok h1 ho
  rw [word_length] at h2
  unfold lengthPrefixPointsTo
  rw [sliceOf_word hw hi, Res.bind, beNat_word o (by omega)]
  rw [if_neg (by omega), if_neg (by omega), Nat.add_sub_cancel, h2, Res.bind, beNat_word n (by omega)]
  simp only
  rw [if_neg (by omega), if_neg (by omega)]
  refine ⟨rfl, by omega, ?_, by omega⟩
  obtain ⟨r, hr⟩ := hx
  refine ⟨r, ?_⟩
  rw [← List.drop_drop, ← hr, List.append_assoc, List.drop_left' (word_length _)]

theorem tuplePoints_ok {out : Bytes} {i o : Nat} (hlen : out.length < 2 ^ 63) (hi : i + 32 ≤ out.length)
    (hw : (out.drop i).take 32 = word (o : Nat)) (ho : o ≤ out.length) : tuplePointsTo i out = .ok o := by
  unfold tuplePointsTo
  rw [sliceOf_word hw hi, Res.bind, beNat_word o (by omega)]
  rw [if_neg (by omega), if_neg (by omega)]

theorem forEachLoop_ok (dec : Nat → Res Val) (sz : Nat) (vs : List Val) (i : Nat)
    (h : ∀ j v, vs[j]? = some v → dec (i + j * sz) = .ok v) : forEachLoop dec sz vs.length i = .ok vs := by
  induction vs generalizing i with
  | nil => rfl
  | cons v vs ih =>
    rw [List.length_cons, forEachLoop]
    have h0 := h 0 v rfl
    rw [Nat.zero_mul, Nat.add_zero] at h0
    rw [h0, Res.bind, ih (i + sz), Res.bind]
    intro j w hj
    have := h (j + 1) w (by simpa using hj)
    rw [← this]
    congr 1
    rw [Nat.succ_mul]
    omega

theorem take_headLen {α : Type} (f : α → Comp) (l : List α) (k : Nat) (h : ∀ x ∈ l, headLen (f x) = k) (j : Nat) (hj : j ≤ l.length) :
    (((l.map f).take j).map headLen).sum = j * k := by
  rw [← List.map_take, List.map_map, sum_const (l.take j) (headLen ∘ f) k (fun x hx => h x (List.mem_of_mem_take hx)), List.length_take,
    Nat.min_eq_left hj]

theorem forEachUnpack_ok (e : Ty) (vs : List Val) (o : Bytes) (hw : ∀ x ∈ vs, Wt e x) (hs : e.Sane) (hfull : e.Full)
    (hp : encSeq (vs.map fun x => (e.dyn, enc e x)) <+: o)
    (hdec : ∀ x ∈ vs, ∀ i, Holds (e.dyn, enc e x) o i → toGoType e i o = .ok x) :
    forEachUnpack (fun j => toGoType e j o) (getTypeSize e) o vs.length = .ok (.list vs) ∧ 32 * vs.length ≤ o.length := by
  have hsz : ∀ x ∈ vs, headLen ((fun x => (e.dyn, enc e x)) x) = getTypeSize e := fun x hx => headLen_size e x (hw x hx) hs
  have hl := hp.length_le
  rw [encSeq_length, List.map_map, sum_const vs (headLen ∘ fun x => (e.dyn, enc e x)) _ hsz] at hl
  have h32 : 32 * vs.length ≤ o.length := by
    have := Nat.mul_le_mul_left vs.length (size_pos e hfull)
    omega
  refine ⟨?_, h32⟩
  unfold forEachUnpack
  rw [if_neg (by omega), forEachLoop_ok (fun j => toGoType e j o) (getTypeSize e) vs 0, Res.bind]
  intro j v hj
  have hlt : j < vs.length := (List.getElem?_eq_some_iff.mp hj).1
  have hm : v ∈ vs := List.mem_of_getElem? hj
  have := holds_seq hp (j := j) (c := (e.dyn, enc e v)) (by rw [List.getElem?_map, hj]; rfl)
  rw [take_headLen _ vs _ hsz j (by omega)] at this
  rw [Nat.zero_add]
  exact hdec v hm _ this

theorem bytes_ok {out b : Bytes} {i : Nat} (hlen : out.length < 2 ^ 63) (h : Holds (true, word b.length ++ pad32 b) out i) :
    Res.bind (lengthPrefixPointsTo i out) (fun p => Res.bind (sliceOf out p.1 (p.1 + p.2)) fun b => .ok (Val.bytes b)) = .ok (.bytes b) ∧
      i + 32 ≤ out.length := by
  simp only [Holds, if_true] at h
  obtain ⟨o, h1, h2, h3, h4⟩ := h
  obtain ⟨g1, g2, g3, g4⟩ := lengthPrefix_ok hlen h2 h3 h1 h4 (by unfold pad32; simp)
  refine ⟨?_, h2⟩
  rw [g1, Res.bind]
  simp only
  rw [sliceOf_ok (x := b) (List.IsPrefix.trans (by unfold pad32; exact List.prefix_append _ _) g3) g2, Res.bind]

mutual
/-- Unpacking at a place that holds the encoding of a value gives the value. -/
theorem toGoType_ok : ∀ (t : Ty) (v : Val) (out : Bytes) (i : Nat), Wt t v → t.Sane → t.Full → out.length < 2 ^ 63 →
    Holds (t.dyn, enc t v) out i → toGoType t i out = .ok v
  | .uint bits, v, out, i, hw, hs, hf, hlen, h => by
    rw [Wt] at hw
    obtain ⟨x, rfl, h0, h1⟩ := hw
    obtain ⟨g0, g⟩ : i ≤ out.length ∧ word x <+: out.drop i := h
    have hl := g.length_le
    rw [word_length, List.length_drop] at hl
    have := sliceOf_ok g g0
    rw [word_length] at this
    rw [toGoType, if_neg (by omega), this, Res.bind, readUint_word bits x h0 h1]
  | .int bits, v, out, i, hw, hs, hf, hlen, h => by
    rw [Wt] at hw
    obtain ⟨x, rfl, h0, h1⟩ := hw
    obtain ⟨g0, g⟩ : i ≤ out.length ∧ word x <+: out.drop i := h
    have hl := g.length_le
    rw [word_length, List.length_drop] at hl
    have := sliceOf_ok g g0
    rw [word_length] at this
    rw [toGoType, if_neg (by omega), this, Res.bind, readInt_word bits x h0 h1]
  | .bool, v, out, i, hw, hs, hf, hlen, h => by
    rw [Wt] at hw
    obtain ⟨x, rfl⟩ := hw
    obtain ⟨g0, g⟩ : i ≤ out.length ∧ word (if x then 1 else 0) <+: out.drop i := h
    have hl := g.length_le
    rw [word_length, List.length_drop] at hl
    have := sliceOf_ok g g0
    rw [word_length] at this
    rw [toGoType, if_neg (by omega), this, Res.bind, readBool_word, Res.bind]
  | .string, v, out, i, hw, hs, hf, hlen, h => by
    rw [Wt] at hw
    obtain ⟨x, rfl⟩ := hw
    obtain ⟨g1, g2⟩ := bytes_ok hlen h
    rw [toGoType, if_neg (by omega), g1]
    rfl
  | .bytes, v, out, i, hw, hs, hf, hlen, h => by
    rw [Wt] at hw
    obtain ⟨x, rfl⟩ := hw
    obtain ⟨g1, g2⟩ := bytes_ok hlen h
    rw [toGoType, if_neg (by omega), g1]
    rfl
  | .address, v, out, i, hw, hs, hf, hlen, h => by
    rw [Wt] at hw
    obtain ⟨x, rfl, hx⟩ := hw
    obtain ⟨g0, g⟩ : i ≤ out.length ∧ List.replicate (32 - x.length) 0 ++ x <+: out.drop i := h
    have hl := g.length_le
    rw [List.length_append, List.length_replicate, List.length_drop] at hl
    have := sliceOf_ok g g0
    rw [List.length_append, List.length_replicate, hx] at this
    rw [toGoType, if_neg (by omega), this, Res.bind, readAddress, ByteOps.bytesTo, ByteOps.C52_setBytes _ _ _ (by simp)]
    simp [hx]
  | .fixed n, v, out, i, hw, hs, hf, hlen, h => by
    rw [Wt] at hw
    rw [Ty.Sane] at hs
    obtain ⟨x, rfl, hx⟩ := hw
    obtain ⟨g0, g⟩ : i ≤ out.length ∧ x ++ List.replicate (32 - x.length) 0 <+: out.drop i := h
    have hl := g.length_le
    rw [List.length_append, List.length_replicate, List.length_drop] at hl
    have := sliceOf_ok (List.IsPrefix.trans (List.prefix_append _ _) g) g0
    rw [hx] at this
    rw [toGoType, if_neg (by omega), this, Res.bind]
  | .function, v, out, i, hw, hs, hf, hlen, h => by
    rw [Wt] at hw
    obtain ⟨x, rfl, hx⟩ := hw
    obtain ⟨g0, g⟩ : i ≤ out.length ∧ x ++ List.replicate (32 - x.length) 0 <+: out.drop i := h
    have hl := g.length_le
    rw [List.length_append, List.length_replicate, List.length_drop] at hl
    have := sliceOf_ok g g0
    rw [List.length_append, List.length_replicate, hx] at this
    rw [toGoType, if_neg (by omega), this, Res.bind, readFunction, List.drop_left' hx, List.take_left' hx,
      if_neg (by simp only [ne_eq, not_not]; decide +kernel), Res.bind]
  | .slice e, v, out, i, hw, hs, hf, hlen, h => by
    rw [Wt] at hw
    rw [Ty.Sane] at hs
    rw [Ty.Full] at hf
    obtain ⟨l, rfl, hwl⟩ := hw
    have h' : Holds (true, word l.length ++ encSeq (l.map fun x => (e.dyn, enc e x))) out i := h
    simp only [Holds, if_true] at h'
    obtain ⟨o, h1, h2, h3, h4⟩ := h'
    have hsz : ∀ x ∈ l, headLen ((fun x => (e.dyn, enc e x)) x) = getTypeSize e := fun x hx => headLen_size e x (hwl x hx) hs
    have hn : l.length ≤ (encSeq (l.map fun x => (e.dyn, enc e x))).length := by
      rw [encSeq_length, List.map_map, sum_const l (headLen ∘ fun x => (e.dyn, enc e x)) _ hsz]
      have := Nat.mul_le_mul_left l.length (size_pos e hf)
      omega
    obtain ⟨g1, g2, g3, g4⟩ := lengthPrefix_ok hlen h2 h3 h1 h4 hn
    rw [toGoType, if_neg (by omega), g1, Res.bind]
    simp only
    rw [sliceFrom_ok g2, Res.bind]
    exact (forEachUnpack_ok e l _ hwl hs hf g3 (fun x hx j hj =>
      toGoType_ok e x _ j (hwl x hx) hs hf (by rw [List.length_drop]; omega) hj)).1
  | .array n e, v, out, i, hw, hs, hf, hlen, h => by
    have hpos := size_pos _ hf
    have hsz := headLen_size _ v hw hs
    rw [Wt] at hw
    rw [Ty.Sane] at hs
    rw [Ty.Full] at hf
    obtain ⟨l, rfl, hl, hwl⟩ := hw
    rw [toGoType, isDynamicType_eq]
    have hd' : (Ty.array n e).dyn = e.dyn := by rw [Ty.dyn]
    have he : enc (.array n e) (.list l) = encSeq (l.map fun x => (e.dyn, enc e x)) := by rw [enc]; rfl
    rw [hd', he] at h
    cases hd : e.dyn
    · rw [hd] at h
      simp only [Holds, Bool.false_eq_true, if_false] at h
      obtain ⟨g0, g⟩ := h
      have hlen' := g.length_le
      rw [hd', he, headLen, hd] at hsz
      simp only [Bool.false_eq_true, if_false] at hsz
      rw [hsz, List.length_drop] at hlen'
      rw [if_neg (by omega)]
      unfold sliceOf
      rw [if_pos ⟨by omega, by omega⟩, Res.bind]
      simp only [Bool.false_eq_true, if_false]
      rw [sliceFrom_ok g0, Res.bind, ← hl]
      rw [← hd] at g
      exact (forEachUnpack_ok e l _ hwl hs hf.1 g (fun x hx j hj =>
        toGoType_ok e x _ j (hwl x hx) hs hf.1 (by rw [List.length_drop]; omega) hj)).1
    · rw [hd] at h
      simp only [Holds, if_true] at h
      obtain ⟨o, h1, h2, h3, h4⟩ := h
      rw [if_neg (by omega), sliceOf_word h3 h2, Res.bind]
      simp only [if_true]
      have hw8 : beNat ((word (o : Nat)).drop 24) = o := by
        have := word_low (o : Nat) 8 (by omega)
        rw [show 32 - 8 = 24 from rfl] at this
        rw [this]
        omega
      rw [hw8, if_neg (by omega), sliceFrom_ok h1, Res.bind, ← hl]
      rw [← hd] at h4
      exact (forEachUnpack_ok e l _ hwl hs hf.1 h4 (fun x hx j hj =>
        toGoType_ok e x _ j (hwl x hx) hs hf.1 (by rw [List.length_drop]; omega) hj)).1
  | .tuple ts, v, out, i, hw, hs, hf, hlen, h => by
    have hpos := size_pos _ hf
    have hsz := headLen_size _ v hw hs
    rw [Wt] at hw
    rw [Ty.Sane] at hs
    rw [Ty.Full] at hf
    obtain ⟨l, rfl, hwl⟩ := hw
    have he : enc (.tuple ts) (.list l) = encSeq (encFields ts l) := by rw [enc]; rfl
    rw [he] at h hsz
    rw [toGoType, isDynamicType_eq]
    cases hd : (Ty.tuple ts).dyn
    · rw [hd] at h hsz
      simp only [Holds, headLen, Bool.false_eq_true, if_false] at h hsz
      obtain ⟨g0, g⟩ := h
      have hlen' := g.length_le
      rw [hsz, List.length_drop] at hlen'
      rw [if_neg (by omega)]
      simp only [Bool.false_eq_true, if_false]
      rw [sliceFrom_ok g0, Res.bind, unpackFields_ok ts l (out.drop i) 0 0 0 hwl hs hf.2 (by rw [List.length_drop]; omega) (by rfl)
        (fun j c hj => by rw [Nat.zero_add]; exact holds_seq g hj), Res.bind]
    · rw [hd] at h
      simp only [Holds, if_true] at h
      obtain ⟨o, h1, h2, h3, h4⟩ := h
      rw [if_neg (by omega)]
      simp only [if_true]
      rw [tuplePoints_ok hlen h2 h3 h1, Res.bind, sliceFrom_ok h1, Res.bind, unpackFields_ok ts l (out.drop o) 0 0 0 hwl hs hf.2
        (by rw [List.length_drop]; omega) (by rfl) (fun j c hj => by rw [Nat.zero_add]; exact holds_seq h4 hj), Res.bind]
theorem unpackFields_ok : ∀ (ts : List Ty) (vs : List Val) (out : Bytes) (index : Nat) (virt : Int) (p : Nat), WtL ts vs → SaneL ts →
    FullL ts → out.length < 2 ^ 63 → ((index : Int) + virt) * 32 = p →
    (∀ j c, (encFields ts vs)[j]? = some c → Holds c out (p + (((encFields ts vs).take j).map headLen).sum)) →
    unpackFields ts index virt out = .ok vs
  | [], vs, out, index, virt, p, hw, _, _, _, _, _ => by
    rw [WtL] at hw
    subst hw
    rfl
  | t :: ts, vs, out, index, virt, p, hw, hs, hf, hlen, hp, h => by
    rw [WtL] at hw
    rw [SaneL] at hs
    rw [FullL] at hf
    obtain ⟨v, l, rfl, h1, h2⟩ := hw
    rw [encFields] at h
    rw [unpackFields, if_neg (by omega)]
    have h0 := h 0 _ rfl
    simp only [List.take_zero, List.map_nil, List.sum_nil, Nat.add_zero] at h0
    have e : (((index : Int) + virt) * 32).toNat = p := by omega
    rw [e, toGoType_ok t v out p h1 hs.1 hf.1 hlen h0, Res.bind,
      unpackFields_ok ts l out (index + 1) (virt + virtual t) (p + getTypeSize t) h2 hs.2 hf.2 hlen ?_ ?_, Res.bind]
    · rw [virtual_eq]
      have := size_mod t
      omega
    · intro j c hj
      have := h (j + 1) c (by simpa using hj)
      rw [List.take_succ_cons, List.map_cons, List.sum_cons, headLen_size t v h1 hs.1, ← Nat.add_assoc] at this
      exact this
end

/-- **C74.**  Unpacking packed values gives the values. -/
theorem C74_roundtrip (ts : List Ty) (vs : List Val) (hw : WtL ts vs) (hs : SaneL ts) (hf : FullL ts) :
    ∃ b, packArgs ts vs = .ok b ∧ (b.length < 2 ^ 63 → unpackArgs ts b = .ok vs ∧ unpackValues ts b = .ok vs) := by
  refine ⟨encSeq (encFields ts vs), ?_, ?_⟩
  · unfold packArgs
    rw [if_neg (by simp [WtL_length ts vs hw]), packFields_eq ts vs hw hs, encSeq_eq, encFields_size ts vs hw hs]
    simp
  · intro hlen
    have h := unpackFields_ok ts vs (encSeq (encFields ts vs)) 0 0 0 hw hs hf hlen (by rfl)
      (fun j c hj => by rw [Nat.zero_add]; exact holds_seq (List.prefix_refl _) hj)
    refine ⟨?_, h⟩
    unfold unpackArgs
    split
    · next h0 =>
      cases ts with
      | nil =>
        rw [WtL] at hw
        subst hw
        rfl
      | cons t ts =>
        rw [encSeq_length, encFields_size _ _ hw hs, sizeSum] at h0
        rw [FullL] at hf
        have := size_pos t hf.1
        omega
    · exact h

/-- **C74.**  Different values have different packed forms. -/
theorem C74_injective (ts : List Ty) (vs ws : List Val) (b : Bytes) (hv : WtL ts vs) (hw : WtL ts ws) (hs : SaneL ts) (hf : FullL ts)
    (h1 : packArgs ts vs = .ok b) (h2 : packArgs ts ws = .ok b) (hl : b.length < 2 ^ 63) : vs = ws := by
  obtain ⟨b1, e1, d1⟩ := C74_roundtrip ts vs hv hs hf
  obtain ⟨b2, e2, d2⟩ := C74_roundtrip ts ws hw hs hf
  rw [h1] at e1
  rw [h2] at e2
  injection e1 with e1
  injection e2 with e2
  subst e1 e2
  have := (d1 hl).1
  rw [(d2 hl).1] at this
  injection this with this
  exact this.symm

/-- A nested example: `(uint8, string, (int16, bytes)[], bool[2])`. -/
def sampleTys : List Ty := [.uint 8, .string, .slice (.tuple [.int 16, .bytes]), .array 2 .bool]

def sampleVals : List Val :=
  [.num 7, .bytes [104, 105], .list [.list [.num (-3), .bytes []], .list [.num 300, .bytes [1, 2, 3]]], .list [.bool true, .bool false]]

theorem sample_wt : WtL sampleTys sampleVals ∧ SaneL sampleTys ∧ FullL sampleTys := by
  simp [sampleTys, sampleVals, WtL, Wt, SaneL, Ty.Sane, FullL, Ty.Full, width]

example : ∃ b, packArgs sampleTys sampleVals = .ok b ∧ b.length = 544 ∧ unpackArgs sampleTys b = .ok sampleVals := by
  obtain ⟨b, h1, h2⟩ := C74_roundtrip sampleTys sampleVals sample_wt.1 sample_wt.2.1 sample_wt.2.2
  have hl : b.length = 544 := by
    have h : (match packArgs sampleTys sampleVals with | .ok b => b.length | _ => 0) = 544 := by decide +kernel
    rw [h1] at h
    exact h
  exact ⟨b, h1, hl, (h2 (by omega)).1⟩

/-- Which of the three outcomes. -/
def outcome {α : Type} : Res α → Nat
  | .ok _ => 0
  | .err => 1
  | .panic => 2

theorem err_of {α : Type} {r : Res α} (h : outcome r = 1) : r = .err := by cases r <;> simp [outcome] at h ⊢

theorem panic_of {α : Type} {r : Res α} (h : outcome r = 2) : r = .panic := by cases r <;> simp [outcome] at h ⊢

/-- **C74.**  The restriction to types that take room is needed: an array without elements followed by nothing cannot be read
back, and an array of empty arrays does not either. -/
theorem C74_zeroSize_refuted :
    (WtL [.uint 256, .array 0 (.uint 256)] [.num 5, .list []] ∧
      ∃ b, packArgs [.uint 256, .array 0 (.uint 256)] [.num 5, .list []] = .ok b ∧
        unpackArgs [.uint 256, .array 0 (.uint 256)] b = .err) ∧
    (WtL [.slice (.array 0 .bool)] [.list [.list []]] ∧
      ∃ b, packArgs [.slice (.array 0 .bool)] [.list [.list []]] = .ok b ∧ unpackArgs [.slice (.array 0 .bool)] b = .err) := by
  refine ⟨⟨?_, word 5, ?_, ?_⟩, ⟨?_, word 32 ++ word 1, ?_, ?_⟩⟩
  · simp [WtL, Wt, width]
  · decide +kernel
  · exact err_of (by decide +kernel)
  · simp [WtL, Wt]
  · decide +kernel
  · exact err_of (by decide +kernel)

/-! ### Arbitrary input -/

theorem bind_noPanic {α β : Type} {r : Res α} {f : α → Res β} (hr : r ≠ .panic) (hf : ∀ a, r = .ok a → f a ≠ .panic) :
    Res.bind r f ≠ .panic := by
  cases r with
  | ok a => exact hf a rfl
  | err => simp [Res.bind]
  | panic => exact absurd rfl hr

theorem sliceOf_noPanic {out : Bytes} {i j : Nat} (h : i ≤ j) (h2 : j ≤ out.length) : sliceOf out i j ≠ .panic := by
  unfold sliceOf; rw [if_pos ⟨h, h2⟩]; simp

theorem sliceFrom_noPanic {out : Bytes} {i : Nat} (h : i ≤ out.length) : sliceFrom out i ≠ .panic := by
  unfold sliceFrom; rw [if_pos h]; simp

theorem lengthPrefix_noPanic {out : Bytes} {i : Nat} (h : i + 32 ≤ out.length) :
    lengthPrefixPointsTo i out ≠ .panic ∧ ∀ p, lengthPrefixPointsTo i out = .ok p → p.1 + p.2 ≤ out.length := by
  unfold lengthPrefixPointsTo
  rw [sliceOf, if_pos ⟨by omega, h⟩, Res.bind]
  generalize beNat (List.take (i + 32 - i) (List.drop i out)) + 32 = q
  by_cases h1 : q > out.length
  · simp [h1]
  by_cases h2 : q ≥ 2 ^ 63
  · simp only [if_neg h1, if_pos h2]
    simp
  simp only [if_neg h1, if_neg h2]
  rw [sliceOf, if_pos ⟨by omega, by omega⟩, Res.bind]
  generalize beNat (List.take (q - (q - 32)) (List.drop (q - 32) out)) = m
  by_cases h3 : q + m ≥ 2 ^ 63
  · simp only [if_pos h3]
    simp
  by_cases h4 : q + m > out.length
  · simp only [if_neg h3, if_pos h4]
    simp
  simp only [if_neg h3, if_neg h4]
  refine ⟨by simp, ?_⟩
  intro p hp
  injection hp with hp
  subst hp
  simp only
  omega

theorem tuplePoints_noPanic {out : Bytes} {i : Nat} (h : i + 32 ≤ out.length) :
    tuplePointsTo i out ≠ .panic ∧ ∀ p, tuplePointsTo i out = .ok p → p ≤ out.length := by
  unfold tuplePointsTo sliceOf
  rw [if_pos ⟨by omega, h⟩, Res.bind]
  split
  · simp
  · split
    · simp
    · refine ⟨by simp, ?_⟩
      intro p hp
      injection hp with hp
      omega

theorem forEachLoop_noPanic (dec : Nat → Res Val) (sz n i : Nat) (h : ∀ j, dec j ≠ .panic) : forEachLoop dec sz n i ≠ .panic := by
  induction n generalizing i with
  | zero => simp [forEachLoop]
  | succ n ih =>
    rw [forEachLoop]
    exact bind_noPanic (h i) fun a _ => bind_noPanic (ih _) fun _ _ => by simp

theorem forEachUnpack_noPanic (dec : Nat → Res Val) (sz n : Nat) (out : Bytes) (h : ∀ j, dec j ≠ .panic) :
    forEachUnpack dec sz out n ≠ .panic := by
  unfold forEachUnpack
  split
  · simp
  · exact bind_noPanic (forEachLoop_noPanic _ _ _ _ h) fun _ _ => by simp

mutual
theorem toGoType_noPanic : ∀ (t : Ty) (out : Bytes) (i : Nat), t.Sane → toGoType t i out ≠ .panic
  | .uint bits, out, i, hs => by
    rw [toGoType]
    split
    · simp
    · exact bind_noPanic (sliceOf_noPanic (by omega) (by omega)) fun _ _ => by simp
  | .int bits, out, i, hs => by
    rw [toGoType]
    split
    · simp
    · exact bind_noPanic (sliceOf_noPanic (by omega) (by omega)) fun _ _ => by simp
  | .bool, out, i, hs => by
    rw [toGoType]
    split
    · simp
    · exact bind_noPanic (sliceOf_noPanic (by omega) (by omega)) fun _ _ =>
        bind_noPanic (by unfold readBool; split; · simp
                         split; · simp
                         split <;> simp) fun _ _ => by simp
  | .address, out, i, hs => by
    rw [toGoType]
    split
    · simp
    · exact bind_noPanic (sliceOf_noPanic (by omega) (by omega)) fun _ _ => by simp
  | .fixed n, out, i, hs => by
    rw [Ty.Sane] at hs
    rw [toGoType]
    split
    · simp
    · exact bind_noPanic (sliceOf_noPanic (by omega) (by omega)) fun _ _ => by simp
  | .function, out, i, hs => by
    rw [toGoType]
    split
    · simp
    · exact bind_noPanic (sliceOf_noPanic (by omega) (by omega)) fun _ _ =>
        bind_noPanic (by unfold readFunction; split <;> simp) fun _ _ => by simp
  | .string, out, i, hs => by
    rw [toGoType]
    split
    · simp
    · next h =>
      obtain ⟨h1, h2⟩ := lengthPrefix_noPanic (out := out) (i := i) (by omega)
      exact bind_noPanic h1 fun p hp => bind_noPanic (sliceOf_noPanic (by omega) (h2 p hp)) fun _ _ => by simp
  | .bytes, out, i, hs => by
    rw [toGoType]
    split
    · simp
    · next h =>
      obtain ⟨h1, h2⟩ := lengthPrefix_noPanic (out := out) (i := i) (by omega)
      exact bind_noPanic h1 fun p hp => bind_noPanic (sliceOf_noPanic (by omega) (h2 p hp)) fun _ _ => by simp
  | .slice e, out, i, hs => by
    rw [Ty.Sane] at hs
    rw [toGoType]
    split
    · simp
    · next h =>
      obtain ⟨h1, h2⟩ := lengthPrefix_noPanic (out := out) (i := i) (by omega)
      exact bind_noPanic h1 fun p hp => bind_noPanic (sliceFrom_noPanic (by have := h2 p hp; omega)) fun o _ =>
        forEachUnpack_noPanic _ _ _ _ fun j => toGoType_noPanic e o j hs
  | .array n e, out, i, hs => by
    rw [Ty.Sane] at hs
    rw [toGoType]
    split
    · simp
    · next h =>
      refine bind_noPanic (sliceOf_noPanic (by omega) (by omega)) fun w _ => ?_
      split
      · split
        · simp
        · exact bind_noPanic (sliceFrom_noPanic (by omega)) fun o _ =>
            forEachUnpack_noPanic _ _ _ _ fun j => toGoType_noPanic e o j hs
      · exact bind_noPanic (sliceFrom_noPanic (by omega)) fun o _ =>
          forEachUnpack_noPanic _ _ _ _ fun j => toGoType_noPanic e o j hs
  | .tuple ts, out, i, hs => by
    rw [Ty.Sane] at hs
    rw [toGoType]
    split
    · simp
    · next h =>
      split
      · obtain ⟨h1, h2⟩ := tuplePoints_noPanic (out := out) (i := i) (by omega)
        exact bind_noPanic h1 fun b hb => bind_noPanic (sliceFrom_noPanic (h2 b hb)) fun o _ =>
          bind_noPanic (unpackFields_noPanic ts o 0 0 0 hs (by rfl)) fun _ _ => by simp
      · exact bind_noPanic (sliceFrom_noPanic (by omega)) fun o _ =>
          bind_noPanic (unpackFields_noPanic ts o 0 0 0 hs (by rfl)) fun _ _ => by simp
theorem unpackFields_noPanic : ∀ (ts : List Ty) (out : Bytes) (index : Nat) (virt : Int) (p : Nat), SaneL ts →
    ((index : Int) + virt) * 32 = p → unpackFields ts index virt out ≠ .panic
  | [], out, index, virt, p, _, _ => by simp [unpackFields]
  | t :: ts, out, index, virt, p, hs, hp => by
    rw [SaneL] at hs
    rw [unpackFields, if_neg (by omega)]
    refine bind_noPanic (toGoType_noPanic t out _ hs.1) fun v _ => bind_noPanic ?_ fun _ _ => by simp
    refine unpackFields_noPanic ts out (index + 1) (virt + virtual t) (p + getTypeSize t) hs.2 ?_
    rw [virtual_eq]
    have := size_mod t
    omega
end

/-- **C76.**  Whatever the input, unpacking returns values or an error; no access is outside the input. -/
theorem C76_noPanic_partial (ts : List Ty) (data : Bytes) (hs : SaneL ts) : unpackArgs ts data ≠ .panic ∧ unpackValues ts data ≠ .panic := by
  have h := unpackFields_noPanic ts data 0 0 0 hs (by rfl)
  refine ⟨?_, h⟩
  unfold unpackArgs
  split
  · split <;> simp
  · exact h

/-- **C76.**  `bytes33` is accepted as a type; reading it looks beyond the input. -/
theorem C76_bytes33_refuted : unpackArgs [.fixed 33] (List.replicate 32 0) = .panic :=
  panic_of (by decide +kernel)

example : unpackArgs [.slice .bool] (word 32 ++ word (2 ^ 255)) = .err := err_of (by decide +kernel)
example : unpackArgs [.slice .bool] (word (2 ^ 63 - 1)) = .err := err_of (by decide +kernel)
example : outcome (unpackArgs [.array 0 .bool, .bool] (word 1)) = 0 := by decide +kernel

/-- **C74.**  A boolean is read only from the two words that are encodings of booleans. -/
theorem C74_bool (w : Bytes) (hw : w.length = 32) (b : Bool) (h : readBool w = .ok b) :
    w = List.replicate 31 0 ++ [if b then 1 else 0] := by
  unfold readBool at h
  split at h
  · cases h
  · rename_i h0
    have h1 : w.take 31 = List.replicate 31 0 := by
      rw [List.eq_replicate_iff]
      refine ⟨by simp [hw], ?_⟩
      intro x hx
      by_contra hne
      exact h0 (List.any_eq_true.2 ⟨x, hx, by simpa using hne⟩)
    have h2 : w = w.take 31 ++ [w.getD 31 0] := by
      conv_lhs => rw [← List.take_append_drop 31 w]
      congr 1
      have hl : (w.drop 31).length = 1 := by simp [hw]
      obtain ⟨x, hx⟩ := List.length_eq_one_iff.1 hl
      rw [hx]
      have : w[31]? = some x := by
        have := congrArg (·[0]?) hx
        simpa using this
      simp [this]
    rw [h2, h1]
    split at h
    · rename_i h3
      cases h
      rw [h3]; rfl
    · split at h
      · rename_i h3
        cases h
        rw [h3]; rfl
      · cases h

example : readBool (List.replicate 31 0 ++ [1]) = .ok true ∧ readBool (List.replicate 31 0 ++ [2]) = .err ∧
    readBool (1 :: List.replicate 31 0) = .err := ⟨rfl, rfl, rfl⟩

end Verif.Abi

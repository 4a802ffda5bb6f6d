import Verif.Rlp.Num

/-!
# RLP: the encoder buffer
-/

namespace Verif.Rlp
open Verif

/-- A well-nested sequence of writes to a buffer. -/
inductive Wr where
  | raw (b : Bytes)
  | bytes (b : Bytes)
  | bool (b : Bool)
  | uint64 (i : UInt64)
  | bigInt (n : Nat)
  | uint256 (z0 z1 z2 z3 : UInt64)
  | list (ws : List Wr)

mutual
/-- What the writes mean. -/
def Wr.enc : Wr → Bytes
  | .raw b => b
  | .bytes b => encStr b
  | .bool b => encNat (if b then 1 else 0)
  | .uint64 i => encNat i.toNat
  | .bigInt n => encNat n
  | .uint256 z0 z1 z2 z3 => encNat (((z3.toNat * 2 ^ 64 + z2.toNat) * 2 ^ 64 + z1.toNat) * 2 ^ 64 + z0.toNat)
  | .list ws => encList (Wr.encs ws)
/-- In sequence. -/
def Wr.encs : List Wr → Bytes
  | [] => []
  | w :: ws => w.enc ++ Wr.encs ws
end

mutual
/-- Performing the writes. -/
def Buf.run (b : Buf) : Wr → Buf
  | .raw x => b.write x
  | .bytes x => b.writeBytes x
  | .bool x => b.writeBool x
  | .uint64 i => b.writeUint64 i
  | .bigInt n => b.writeBigInt n
  | .uint256 z0 z1 z2 z3 => b.writeUint256 z0 z1 z2 z3
  | .list ws => ((b.list.1).runs ws).listEnd b.list.2
/-- In sequence. -/
def Buf.runs (b : Buf) : List Wr → Buf
  | [] => b
  | w :: ws => (b.run w).runs ws
end

/-! ### What single writes append -/

theorem u64of {n : Nat} (h : n < 2 ^ 64) : (UInt64.ofNat n).toNat = n := UInt64.toNat_ofNat_of_lt' h

theorem le7f (y : UInt8) : y ≤ 0x7F ↔ y < 0x80 := by
  rw [UInt8.le_iff_toNat_le, UInt8.lt_iff_toNat_lt]; simp; omega

theorem lt80 (y : UInt8) : y < 0x80 ↔ y.toNat < 128 := by
  rw [UInt8.lt_iff_toNat_lt]; simp

theorem stringHeader_eq (b : Buf) (n : Nat) (h : n < 2 ^ 64) : b.encodeStringHeader n = b.write (head 0x80 n) := by
  have hn : (UInt64.ofNat n).toNat = n := u64of h
  unfold Buf.encodeStringHeader head
  split
  · rw [show (0x80 : UInt8) = UInt8.ofNat 0x80 from rfl, ofNat_add]
  · rw [putint_eq _ (u64_ne_zero (n := 55) (by omega)), hn, show (0xB7 : UInt8) = UInt8.ofNat (0x80 + 55) from rfl, ofNat_add]

theorem writeBytes_eq (b : Buf) (x : Bytes) (h : x.length < 2 ^ 64) : b.writeBytes x = b.write (encStr x) := by
  unfold Buf.writeBytes encStr
  split
  · next y =>
    simp only [le7f]
    split
    · rfl
    · rw [stringHeader_eq _ _ (by decide)]; simp [Buf.write]
  · next h1 =>
    split
    · next y => exact (h1 y rfl).elim
    · rw [stringHeader_eq _ _ h]; simp [Buf.write]

theorem natBytes_one {n : Nat} (h0 : n ≠ 0) (h : n < 256) : natBytes n = [UInt8.ofNat n] := by
  rw [natBytes_pos h0, Nat.div_eq_of_lt h, natBytes_zero, Nat.mod_eq_of_lt h]; rfl

/-- Numbers of at least 128 have a header. -/
theorem encNat_big {n : Nat} (h : 128 ≤ n) : encNat n = head 0x80 (natBytes n).length ++ natBytes n := by
  unfold encNat encStr
  split
  · next x hx =>
    have hx' : n = x.toNat := by
      have := beNat_natBytes n
      rw [hx] at this; simpa [beNat] using this.symm
    rw [if_neg (by rw [lt80]; omega), hx]; rfl
  · rfl

theorem encNat_zero : encNat 0 = [0x80] := by rw [encNat, natBytes_zero]; rfl

theorem encNat_small {n : Nat} (h0 : n ≠ 0) (h : n < 128) : encNat n = [UInt8.ofNat n] := by
  rw [encNat, natBytes_one h0 (by omega)]
  simp only [encStr]
  rw [if_pos]
  rw [lt80]; simp; omega

theorem head_small {off n : Nat} (h : n < 56) : head off n = [UInt8.ofNat (off + n)] := by rw [head, if_pos h]

theorem natBytes_len_u64 (i : UInt64) : (natBytes i.toNat).length ≤ 8 :=
  BigMath.natBytes_len_le _ _ (by have := i.toNat_lt; omega)

theorem writeUint64_eq (b : Buf) (i : UInt64) : b.writeUint64 i = b.write (encNat i.toNat) := by
  unfold Buf.writeUint64
  split
  · next h => subst h; rw [UInt64.toNat_zero, encNat_zero]
  · next h0 =>
    have h0' : i.toNat ≠ 0 := fun h => h0 (UInt64.toNat_inj.mp (by simpa using h))
    split
    · next h =>
      rw [UInt64.lt_iff_toNat_lt] at h
      rw [encNat_small h0' (by simpa using h)]
      congr 1
    · next h =>
      rw [UInt64.lt_iff_toNat_lt] at h
      have h : 128 ≤ i.toNat := by simp at h; omega
      have := natBytes_len_u64 i
      rw [encNat_big h, putint_eq i h0, head_small (by omega), show (0x80 : UInt8) = UInt8.ofNat 0x80 from rfl, ofNat_add]
      simp

theorem writeBool_eq (b : Buf) (x : Bool) : b.writeBool x = b.write (encNat (if x then 1 else 0)) := by
  cases x
  · simp [Buf.writeBool, encNat_zero]
  · simp [Buf.writeBool, encNat_small (n := 1) (by decide) (by decide)]

/-! #### Big integers -/

/-- The number of bytes from the number of bits. -/
theorem bitlen_len (n : Nat) (h0 : n ≠ 0) : (natBytes n).length = (n.log2 + 1 + 7) / 8 := by
  have hl := Nat.log2_self_le h0
  have hu := @Nat.lt_log2_self n
  generalize n.log2 = L at hl hu
  obtain ⟨k, r, hr, rfl⟩ : ∃ k r, r < 8 ∧ L = 8 * k + r := ⟨L / 8, L % 8, by omega, by omega⟩
  have h1 : 256 ^ k ≤ n := by
    calc 256 ^ k = 2 ^ (8 * k) := by rw [Nat.pow_mul]
      _ ≤ 2 ^ (8 * k + r) := Nat.pow_le_pow_right (by omega) (by omega)
      _ ≤ n := hl
  have h2 : n < 256 ^ (k + 1) := by
    calc n < 2 ^ (8 * k + r + 1) := hu
      _ ≤ 2 ^ (8 * (k + 1)) := Nat.pow_le_pow_right (by omega) (by omega)
      _ = 256 ^ (k + 1) := by rw [Nat.pow_mul]
  rw [natBytes_eq_natBE k n h1 h2, natBE_length]; omega

theorem leBytes_eq (d : UInt64) : leBytes d = (natBE 8 d.toNat).reverse := by
  rw [natBE_byteAt d 8 (by omega), ← List.map_reverse, List.reverse_reverse]; rfl

theorem words_bytes (n : Nat) : beNat ((words n).flatMap leBytes).reverse = n := by
  induction n using Nat.strongRecOn with
  | _ n ih =>
    rw [words]
    split
    · next h => subst h; rfl
    · next h =>
      rw [List.flatMap_cons, List.reverse_append, beNat_append, ih _ (by omega), leBytes_eq, List.reverse_reverse,
        natBE_length, u64of (by omega), beNat_natBE_of_lt (by omega)]
      omega

/-- Leading zeros do not change the number; the bytes of a number are the last bytes of any of its representations. -/
theorem natBytes_suffix (bs : Bytes) : ∃ k, bs = List.replicate k 0 ++ natBytes (beNat bs) := by
  induction bs with
  | nil => exact ⟨0, by simp [natBytes_zero, beNat]⟩
  | cons x bs ih =>
    by_cases hx : x = 0
    · subst hx
      obtain ⟨k, hk⟩ := ih
      refine ⟨k + 1, ?_⟩
      rw [beNat_cons_zero, List.replicate_succ, List.cons_append, ← hk]
    · exact ⟨0, by rw [natBytes_beNat (by simpa using hx)]; rfl⟩

theorem log2_lt_imp {n : Nat} (h0 : n ≠ 0) (h : ¬ n.log2 + 1 ≤ 64) : 2 ^ 64 ≤ n := by
  have hl := Nat.log2_self_le h0
  have : 2 ^ 64 ≤ 2 ^ n.log2 := Nat.pow_le_pow_right (by omega) (by omega)
  omega

theorem log2_le_imp {n : Nat} (h : n.log2 + 1 ≤ 64) : n < 2 ^ 64 := by
  have hu := @Nat.lt_log2_self n
  have : 2 ^ (n.log2 + 1) ≤ 2 ^ 64 := Nat.pow_le_pow_right (by omega) h
  omega

theorem natBytes_length_pos {n : Nat} (h : n ≠ 0) : 0 < (natBytes n).length := by
  rw [natBytes_pos h]; simp

theorem writeBigInt_eq (b : Buf) (n : Nat) (hn : (natBytes n).length < 2 ^ 64) : b.writeBigInt n = b.write (encNat n) := by
  unfold Buf.writeBigInt
  by_cases h0 : n = 0
  · subst h0; simp [writeUint64_eq]
  · simp only [h0, if_false]
    split
    · next h => rw [writeUint64_eq, u64of (log2_le_imp h)]
    · next h =>
      have hbig := log2_lt_imp h0 h
      have hl := bitlen_len n h0
      rw [Nat.mul_div_cancel _ (by decide), ← hl, stringHeader_eq _ _ hn, encNat_big (by omega)]
      have hw := words_bytes n
      obtain ⟨k, hk⟩ := natBytes_suffix ((words n).flatMap leBytes).reverse
      rw [hw] at hk
      have hk' : (words n).flatMap leBytes = (natBytes n).reverse ++ List.replicate k 0 := by
        rw [← List.reverse_reverse (List.flatMap _ _), hk]; simp
      rw [hk', List.take_append_of_le_length (by simp), List.take_of_length_le (by simp)]
      simp [Buf.write]

private theorem beNat4 (a b c d : Nat) (ha : a < 2 ^ 64) (hb : b < 2 ^ 64) (hc : c < 2 ^ 64) (hd : d < 2 ^ 64) :
    beNat (natBE 8 a ++ natBE 8 b ++ natBE 8 c ++ natBE 8 d) = ((a * 2 ^ 64 + b) * 2 ^ 64 + c) * 2 ^ 64 + d := by
  have e : (256 : Nat) ^ 8 = 2 ^ 64 := by decide
  simp only [beNat_append, natBE_length]
  rw [beNat_natBE_of_lt (by rw [e]; exact ha), beNat_natBE_of_lt (by rw [e]; exact hb),
    beNat_natBE_of_lt (by rw [e]; exact hc), beNat_natBE_of_lt (by rw [e]; exact hd), e]

private theorem u256_tail (n : Nat) (bs : Bytes) (hv : beNat bs = n) (hlen : bs.length = 32) (h0 : 128 ≤ n) :
    (([0] ++ bs).set (32 - (natBytes n).length) (0x80 + UInt8.ofNat (natBytes n).length)).drop (32 - (natBytes n).length) =
      encNat n := by
  obtain ⟨k, hk⟩ := natBytes_suffix bs
  rw [hv] at hk
  have hk2 : k + (natBytes n).length = 32 := by rw [hk] at hlen; simpa using hlen
  have hpos := natBytes_length_pos (n := n) (by omega)
  rw [encNat_big h0, head_small (by omega)]
  have e : 32 - (natBytes n).length = k := by omega
  rw [e, hk]
  have e2 : [0] ++ (List.replicate k 0 ++ natBytes n) = List.replicate k 0 ++ ((0 : UInt8) :: natBytes n) := by
    rw [List.append_cons (List.replicate k 0), ← List.replicate_succ', List.replicate_succ]; simp
  rw [e2, List.set_append_right _ _ (by simp), List.drop_append_of_le_length (by simp)]
  simp only [List.length_replicate, Nat.sub_self, List.set_cons_zero]
  rw [List.drop_of_length_le (by simp), show (0x80 : UInt8) = UInt8.ofNat 0x80 from rfl, ofNat_add]
  rfl

theorem writeUint256_eq (b : Buf) (z0 z1 z2 z3 : UInt64) : b.writeUint256 z0 z1 z2 z3 =
    b.write (encNat (((z3.toNat * 2 ^ 64 + z2.toNat) * 2 ^ 64 + z1.toNat) * 2 ^ 64 + z0.toNat)) := by
  have hv := beNat4 _ _ _ _ z3.toNat_lt z2.toNat_lt z1.toNat_lt z0.toNat_lt
  have hlen : (natBE 8 z3.toNat ++ natBE 8 z2.toNat ++ natBE 8 z1.toNat ++ natBE 8 z0.toNat).length = 32 := by
    simp [natBE_length]
  have hz : ∀ q z P n : Nat, q * P + z = n → n < P → z = n := by
    intro q z P n h1 h2
    have : q = 0 := by
      rcases Nat.eq_zero_or_pos q with h | h
      · exact h
      · have := Nat.le_mul_of_pos_left P h; omega
    subst this; simpa using h1
  have hz := hz ((z3.toNat * 2 ^ 64 + z2.toNat) * 2 ^ 64 + z1.toNat) z0.toNat (2 ^ 64)
  unfold Buf.writeUint256
  rw [show [0] ++ natBE 8 z3.toNat ++ natBE 8 z2.toNat ++ natBE 8 z1.toNat ++ natBE 8 z0.toNat =
    [0] ++ (natBE 8 z3.toNat ++ natBE 8 z2.toNat ++ natBE 8 z1.toNat ++ natBE 8 z0.toNat) from by
      simp only [List.append_assoc]]
  generalize natBE 8 z3.toNat ++ natBE 8 z2.toNat ++ natBE 8 z1.toNat ++ natBE 8 z0.toNat = bs at hv hlen ⊢
  generalize hN : ((z3.toNat * 2 ^ 64 + z2.toNat) * 2 ^ 64 + z1.toNat) * 2 ^ 64 + z0.toNat = n at hv ⊢
  have hz := hz n hN
  by_cases h0 : n = 0
  · have hz := hz (by rw [h0]; decide)
    rw [h0] at hz
    simp only [h0, if_true]
    rw [if_pos (by decide), writeUint64_eq, hz]
  · simp only [h0, if_false]
    split
    · next h => rw [writeUint64_eq, hz (log2_le_imp h)]
    · next h =>
      have hbig := log2_lt_imp h0 h
      rw [← bitlen_len n h0, u256_tail n bs hv hlen (by omega)]

/-! ### Emission -/

theorem emit_skip (S : Bytes) (hs : List Head) (p q : Nat) (hpq : p ≤ q) (h : ∀ x ∈ hs, q ≤ x.offset) :
    emit S hs p = (S.drop p).take (q - p) ++ emit S hs q := by
  cases hs with
  | nil =>
    have e : S.drop q = (S.drop p).drop (q - p) := by rw [List.drop_drop, show p + (q - p) = q from by omega]
    rw [emit, emit, e, List.take_append_drop]
  | cons x hs =>
    have hx := h x (by simp)
    rw [emit, emit]
    simp only [← List.append_assoc]
    congr 2
    rw [show x.offset - p = (q - p) + (x.offset - q) from by omega, List.take_add, List.drop_drop,
      show p + (q - p) = q from by omega]

/-- What a write adds to a buffer. -/
structure Adds (b b' : Buf) (e : Bytes) : Prop where
  ex : ∃ σ hs n, b' = ⟨b.str ++ σ, b.lheads ++ hs, b.lhsize + n⟩ ∧ σ.length + n = e.length ∧
    (∀ h ∈ hs, b.str.length ≤ h.offset) ∧ (∀ h ∈ hs, h.offset ≤ b.str.length + σ.length) ∧
    hs.Pairwise (fun x y => x.offset ≤ y.offset) ∧
    ∀ S tail rest, S = b.str ++ σ ++ tail → (∀ h ∈ rest, b.str.length + σ.length ≤ h.offset) →
      emit S (hs ++ rest) b.str.length = e ++ emit S rest (b.str.length + σ.length)

theorem adds_write (b : Buf) (x : Bytes) : Adds b (b.write x) x := by
  refine ⟨x, [], 0, by simp [Buf.write], rfl, by simp, by simp, by simp, ?_⟩
  intro S tail rest hS hr
  rw [List.nil_append, emit_skip S rest _ _ (Nat.le_add_right _ x.length) hr, hS]
  simp

theorem adds_trans {a b c : Buf} {x y : Bytes} (h1 : Adds a b x) (h2 : Adds b c y) : Adds a c (x ++ y) := by
  obtain ⟨σ, hs, n, rfl, hl, ho, hu, hp, he⟩ := h1
  obtain ⟨σ', hs', n', rfl, hl', ho', hu', hp', he'⟩ := h2
  simp only [List.length_append] at ho' hu' he'
  refine ⟨σ ++ σ', hs ++ hs', n + n', by simp [Nat.add_assoc], by simp; omega, ?_, ?_, ?_, ?_⟩
  · intro h hh
    rcases List.mem_append.mp hh with hh | hh
    · exact ho h hh
    · have := ho' h hh; omega
  · intro h hh
    rw [List.length_append]
    rcases List.mem_append.mp hh with hh | hh
    · have := hu h hh; omega
    · have := hu' h hh; omega
  · refine List.pairwise_append.mpr ⟨hp, hp', ?_⟩
    intro x hx y hy
    exact Nat.le_trans (hu x hx) (ho' y hy)
  · intro S tail rest hS hr
    simp only [List.length_append] at hr ⊢
    rw [List.append_assoc hs, he S (σ' ++ tail) (hs' ++ rest) (by rw [hS]; simp)]
    · rw [he' S tail rest (by rw [hS]; simp) (by intro h hh; have := hr h hh; omega), List.append_assoc, Nat.add_assoc]
    · intro h hh
      rcases List.mem_append.mp hh with hh | hh
      · exact ho' h hh
      · have := hr h hh; omega

theorem adds_list {b c : Buf} {x : Bytes} (hx : x.length < 2 ^ 64) (h : Adds b.list.1 c x) :
    Adds b (c.listEnd b.list.2) (encList x) := by
  obtain ⟨σ, hs, n, rfl, hl, ho, hub, hp, he⟩ := h
  have hget : (b.lheads ++ [(⟨b.str.length, b.lhsize⟩ : Head)] ++ hs)[b.lheads.length]? = some ⟨b.str.length, b.lhsize⟩ := by
    simp
  have hu : (UInt64.ofNat x.length).toNat = x.length := u64of hx
  have hsz : (b.str ++ σ).length + (b.lhsize + n) - b.str.length - b.lhsize = x.length := by
    simp only [List.length_append]; omega
  have hset : (b.lheads ++ [(⟨b.str.length, b.lhsize⟩ : Head)] ++ hs).set b.lheads.length ⟨b.str.length, x.length⟩ =
      b.lheads ++ (⟨b.str.length, x.length⟩ :: hs) := by
    simp
  have hhs := headsize_eq 0xC0 (UInt64.ofNat x.length)
  rw [hu] at hhs
  unfold headsize at hhs
  simp only [lt56, hu] at hhs
  refine ⟨σ, ⟨b.str.length, x.length⟩ :: hs, n + (head 0xC0 x.length).length, ?_, ?_, ?_, ?_, ?_, ?_⟩
  · simp only [Buf.list, Buf.listEnd, hget, Buf.size, hsz, hset]
    rw [← hhs]
    split <;> simp [Nat.add_assoc]
  · rw [encList, List.length_append]; omega
  · intro h hh
    rcases List.mem_cons.mp hh with rfl | hh
    · exact Nat.le_refl _
    · exact ho h hh
  · intro h hh
    rcases List.mem_cons.mp hh with rfl | hh
    · exact Nat.le_add_right _ _
    · exact hub h hh
  · exact List.pairwise_cons.mpr ⟨fun y hy => ho y hy, hp⟩
  · intro S tail rest hS hr
    have := he S tail rest (by simpa [Buf.list] using hS) (by simpa [Buf.list] using hr)
    simp only [Buf.list] at this
    rw [List.cons_append, emit, Nat.sub_self, List.take_zero, List.nil_append, this, Head.encode, puthead_list, hu, encList,
      List.append_assoc]

theorem encStr_length (x : Bytes) : x.length ≤ (encStr x).length := by
  unfold encStr
  split
  · split <;> simp
  · simp

theorem encList_length (x : Bytes) : x.length < (encList x).length := by
  have := List.length_pos_iff.mpr (head_ne_nil 0xC0 x.length)
  rw [encList, List.length_append]; omega

mutual
theorem adds_run (b : Buf) (w : Wr) (h : w.enc.length < 2 ^ 64) : Adds b (b.run w) w.enc := by
  cases w with
  | raw x => exact adds_write b x
  | bytes x =>
    rw [Wr.enc] at h ⊢
    rw [Buf.run, writeBytes_eq b x (by have := encStr_length x; omega)]; exact adds_write b _
  | bool x => rw [Buf.run, writeBool_eq, Wr.enc]; exact adds_write b _
  | uint64 i => rw [Buf.run, writeUint64_eq, Wr.enc]; exact adds_write b _
  | bigInt n =>
    rw [Wr.enc] at h ⊢
    rw [Buf.run, writeBigInt_eq b n (by have := encStr_length (natBytes n); unfold encNat at h; omega)]; exact adds_write b _
  | uint256 z0 z1 z2 z3 => rw [Buf.run, writeUint256_eq, Wr.enc]; exact adds_write b _
  | list ws =>
    rw [Wr.enc] at h ⊢
    rw [Buf.run]
    have := encList_length (Wr.encs ws)
    exact adds_list (by omega) (adds_runs _ ws (by omega))
theorem adds_runs (b : Buf) (ws : List Wr) (h : (Wr.encs ws).length < 2 ^ 64) : Adds b (b.runs ws) (Wr.encs ws) := by
  cases ws with
  | nil => simpa [Buf.write, Buf.runs, Wr.encs] using adds_write b []
  | cons w ws =>
    rw [Wr.encs] at h ⊢
    rw [Buf.runs]
    rw [List.length_append] at h
    exact adds_trans (adds_run b w (by omega)) (adds_runs _ ws (by omega))
end

theorem adds_empty {b : Buf} {e : Bytes} (h : Adds Buf.empty b e) : b.writeTo = e ∧ b.size = e.length ∧ b.makeBytes = .ok e := by
  obtain ⟨σ, hs, n, rfl, hl, ho, hu, hp, he⟩ := h
  have hw : emit σ hs 0 = e := by
    have := he σ [] [] (by simp [Buf.empty]) (by simp)
    simpa [Buf.empty, emit] using this
  refine ⟨?_, ?_, ?_⟩
  · simpa [Buf.writeTo, Buf.empty] using hw
  · simpa [Buf.size, Buf.empty] using hl
  · simp only [Buf.makeBytes, Buf.empty, Buf.size, List.nil_append, Nat.zero_add, hw, hl]
    simp

/-- **C70.**  For every well-nested sequence of writes and lists: what the buffer gives is the RLP encoding of the nested
value, both through `makeBytes` and through `writeTo`, and `size()` is its length. -/
theorem C70_buffer (ws : List Wr) (h : (Wr.encs ws).length < 2 ^ 64) :
    (Buf.empty.runs ws).makeBytes = .ok (Wr.encs ws) ∧ (Buf.empty.runs ws).writeTo = Wr.encs ws ∧
    (Buf.empty.runs ws).size = (Wr.encs ws).length := by
  have := adds_empty (adds_runs Buf.empty ws h)
  exact ⟨this.2.2, this.1, this.2.1⟩

mutual
theorem adds_item (b : Buf) (v : Item) (h : (enc v).length < 2 ^ 64) : Adds b (b.item v) (enc v) := by
  cases v with
  | str x =>
    rw [enc] at h ⊢
    rw [Buf.item, writeBytes_eq b x (by have := encStr_length x; omega)]; exact adds_write b _
  | list l =>
    cases l with
    | nil => rw [Buf.item, enc, encs]; exact adds_write b _
    | cons v l =>
      rw [enc] at h ⊢
      rw [Buf.item]
      have := encList_length (encs (v :: l))
      exact adds_list (by omega) (adds_items _ (v :: l) (by omega))
theorem adds_items (b : Buf) (l : List Item) (h : (encs l).length < 2 ^ 64) : Adds b (b.items l) (encs l) := by
  cases l with
  | nil => simpa [Buf.write, Buf.items, encs] using adds_write b []
  | cons v l =>
    rw [encs] at h ⊢
    rw [Buf.items]
    rw [List.length_append] at h
    exact adds_trans (adds_item b v (by omega)) (adds_items _ l (by omega))
end

/-- **C70.**  Encoding a nested value gives its RLP encoding. -/
theorem C70_encode (v : Item) (h : (enc v).length < 2 ^ 64) : encodeToBytes v = .ok (enc v) :=
  (adds_empty (adds_item Buf.empty v h)).2.2

/-- A nested list of each kind of write. -/
example : (Buf.empty.runs [.list [.uint64 1024, .list [.bytes [1], .bool true], .list []], .uint256 0 0 1 0]).makeBytes =
    .ok [0xC7, 0x82, 4, 0, 0xC2, 1, 1, 0xC0, 0x91, 1, 0, 0, 0, 0, 0, 0, 0, 0, 0, 0, 0, 0, 0, 0, 0, 0] := by decide +kernel

example : encodeToBytes (.list [.str [0x63, 0x61, 0x74], .list [], .str [5]]) =
    .ok [0xC6, 0x83, 0x63, 0x61, 0x74, 0xC0, 0x05] := by decide +kernel

/-! ### Reading the encoding piecewise -/

/-- `encReader` (`/repo/rlp/encbuffer.go:230-235`). -/
structure Reader where
  buf : Buf
  lhpos : Nat
  strpos : Nat
  piece : Option Bytes

/-- `next` (`/repo/rlp/encbuffer.go:263-293`). -/
def Reader.next (r : Reader) : Option Bytes × Reader :=
  match r.piece with
  | some p => (some p, r)
  | none =>
    match r.buf.lheads[r.lhpos]? with
    | some h =>
      if 0 < h.offset - r.strpos then
        (some ((r.buf.str.drop r.strpos).take (h.offset - r.strpos)), { r with strpos := r.strpos + (h.offset - r.strpos) })
      else (some h.encode, { r with lhpos := r.lhpos + 1 })
    | none =>
      if r.strpos < r.buf.str.length then (some (r.buf.str.drop r.strpos), { r with strpos := r.buf.str.length })
      else (none, r)

/-- `Read` into a slice with room for `m` more bytes (`/repo/rlp/encbuffer.go:237-259`), with at most `f` rounds of the loop:
the bytes read and whether the end was reported. -/
def Reader.read : Nat → Reader → Nat → Bytes × Bool × Reader
  | 0, r, _ => ([], false, r)
  | f + 1, r, m =>
    match r.next with
    | (none, r) => ([], true, r)
    | (some p, r) =>
      if m < p.length then (p.take m, false, { r with piece := some (p.drop m) })
      else
        let (x, e, r) := Reader.read f { r with piece := none } (m - p.length)
        (p ++ x, e, r)

/-- `EncodeToReader` (`/repo/rlp/encode.go:90-101`). -/
def Reader.ofBuf (b : Buf) : Reader := ⟨b, 0, 0, none⟩

/-- What is still to be read. -/
def Reader.rest (r : Reader) : Bytes := r.piece.getD [] ++ emit r.buf.str (r.buf.lheads.drop r.lhpos) r.strpos

/-- The headers ahead are in order and within the data. -/
structure Reader.WF (r : Reader) : Prop where
  pos : r.strpos ≤ r.buf.str.length
  piece : ∀ p, r.piece = some p → p ≠ []
  low : ∀ h ∈ r.buf.lheads.drop r.lhpos, r.strpos ≤ h.offset ∧ h.offset ≤ r.buf.str.length
  sorted : (r.buf.lheads.drop r.lhpos).Pairwise (fun x y => x.offset ≤ y.offset)

theorem next_none {r : Reader} (hw : r.WF) (hp : r.piece = none) :
    match r.next with
    | (none, r') => r' = r ∧ r.rest = []
    | (some p, r') => p ≠ [] ∧ r'.WF ∧ r'.piece = none ∧ r.rest = p ++ r'.rest := by
  obtain ⟨b, lh, sp, pc⟩ := r
  simp only at hp
  subst hp
  obtain ⟨h1, h2, h3, h4⟩ := hw
  simp only at h1 h2 h3 h4
  simp only [Reader.next]
  cases hg : b.lheads[lh]? with
  | none =>
    have hd : b.lheads.drop lh = [] := List.drop_of_length_le (List.getElem?_eq_none_iff.mp hg)
    simp only [Reader.rest, hd, emit, Option.getD_none, List.nil_append]
    by_cases hs : sp < b.str.length
    · rw [if_pos hs]
      refine ⟨?_, ⟨Nat.le_refl _, by simp, by simp [hd], by simp [hd]⟩, rfl, ?_⟩
      · intro h; rw [List.drop_eq_nil_iff] at h; omega
      · rw [hd]; simp [emit]
    · rw [if_neg hs]
      exact ⟨rfl, List.drop_of_length_le (by omega)⟩
  | some h =>
    obtain ⟨hlt, hget⟩ := List.getElem?_eq_some_iff.mp hg
    have hd : b.lheads.drop lh = h :: b.lheads.drop (lh + 1) := by rw [← hget]; exact List.drop_eq_getElem_cons hlt
    rw [hd] at h3 h4
    have h3h := h3 h (by simp)
    have h4' := List.pairwise_cons.mp h4
    simp only
    by_cases hs : 0 < h.offset - sp
    · rw [if_pos hs]
      have e : sp + (h.offset - sp) = h.offset := by omega
      refine ⟨?_, ⟨by simp only; omega, by simp, ?_, by simpa [hd] using h4⟩, rfl, ?_⟩
      · intro hh
        have := congrArg List.length hh
        rw [List.length_take, List.length_drop] at this
        simp at this; omega
      · simp only [hd, e]
        intro x hx
        rcases List.mem_cons.mp hx with rfl | hx
        · exact ⟨Nat.le_refl _, h3h.2⟩
        · exact ⟨h4'.1 x hx, (h3 x (by simp [hx])).2⟩
      · simp only [Reader.rest, hd, emit, e, Option.getD_none, List.nil_append, Nat.sub_self, List.take_zero]
        simp
    · rw [if_neg hs]
      have e : h.offset = sp := by omega
      refine ⟨?_, ⟨h1, by simp, ?_, h4'.2⟩, rfl, ?_⟩
      · rw [Head.encode, puthead_list]; exact head_ne_nil _ _
      · intro x hx
        have := h3 x (by simp only at hx; simp [hx])
        exact this
      · simp only [Reader.rest, hd, emit, e, Option.getD_none, List.nil_append, Nat.sub_self, List.take_zero]

theorem next_spec {r : Reader} (hw : r.WF) :
    match r.next with
    | (none, r') => r' = r ∧ r.rest = []
    | (some p, r') => p ≠ [] ∧ ({ r' with piece := none } : Reader).WF ∧
        r.rest = p ++ ({ r' with piece := none } : Reader).rest := by
  cases hp : r.piece with
  | none =>
    have := next_none hw hp
    revert this
    cases r.next with
    | mk o r' =>
      cases o with
      | none => exact id
      | some p =>
        rintro ⟨h1, h2, h3, h4⟩
        have e : ({ r' with piece := none } : Reader) = r' := by rw [← h3]
        simp only [e]
        exact ⟨h1, h2, h4⟩
  | some p =>
    simp only [Reader.next, hp]
    exact ⟨hw.piece p hp, ⟨hw.pos, by simp, hw.low, hw.sorted⟩, by simp [Reader.rest, hp]⟩

theorem read_spec (f : Nat) (r : Reader) (m : Nat) (hw : r.WF) (hf : r.rest.length < f) :
    (Reader.read f r m).1 = r.rest.take m ∧ ((Reader.read f r m).2.1 = true ↔ r.rest.length ≤ m) ∧
    (Reader.read f r m).2.2.WF ∧ (Reader.read f r m).2.2.rest = r.rest.drop m := by
  induction f generalizing r m with
  | zero => omega
  | succ f ih =>
    have hn := next_spec hw
    rw [Reader.read]
    revert hn
    cases r.next with
    | mk o r' =>
      cases o with
      | none =>
        rintro ⟨rfl, h2⟩
        simp only [h2]
        exact ⟨by simp, by simp, hw, by simp⟩
      | some p =>
        rintro ⟨h1, h2, h3⟩
        simp only
        have hpl := List.length_pos_iff.mpr h1
        by_cases hm : m < p.length
        · rw [if_pos hm, h3]
          simp only
          have h5 : ({ r' with piece := some (p.drop m) } : Reader).WF := by
            refine ⟨h2.pos, ?_, h2.low, h2.sorted⟩
            intro q hq hq0
            simp only [Option.some.injEq] at hq
            subst hq
            rw [List.drop_eq_nil_iff] at hq0
            omega
          refine ⟨?_, ?_, h5, ?_⟩
          · rw [List.take_append_of_le_length (by omega)]
          · constructor
            · intro hh; exact absurd hh (by decide)
            · intro hh; rw [List.length_append] at hh; omega
          · rw [List.drop_append_of_le_length (by omega)]; rfl
        · rw [if_neg hm, h3]
          simp only
          rw [h3, List.length_append] at hf
          obtain ⟨i1, i2, i3, i4⟩ := ih { r' with piece := none } (m - p.length) h2 (by omega)
          refine ⟨?_, ?_, i3, ?_⟩
          · rw [i1, List.take_append, List.take_of_length_le (l := p) (by omega)]
          · rw [i2, List.length_append]; omega
          · rw [i4, List.drop_append, List.drop_of_length_le (l := p) (by omega), List.nil_append]

/-- Reads into slices of the given lengths. -/
def Reader.reads (f : Nat) (r : Reader) : List Nat → List (Bytes × Bool)
  | [] => []
  | m :: ms =>
    let (x, e, r) := Reader.read f r m
    (x, e) :: Reader.reads f r ms

/-- What the reads of a byte string into slices of the given lengths give: the next bytes, and the end if none are left. -/
def chunks (d : Bytes) : List Nat → List (Bytes × Bool)
  | [] => []
  | m :: ms => (d.take m, decide (d.length ≤ m)) :: chunks (d.drop m) ms

theorem reads_spec (f : Nat) (ms : List Nat) (r : Reader) (hw : r.WF) (hf : r.rest.length < f) :
    r.reads f ms = chunks r.rest ms := by
  induction ms generalizing r with
  | nil => rfl
  | cons m ms ih =>
    obtain ⟨i1, i2, i3, i4⟩ := read_spec f r m hw hf
    rw [Reader.reads, chunks]
    simp only
    rw [ih _ i3 (by rw [i4, List.length_drop]; omega), i4, i1]
    congr 2
    exact Bool.eq_iff_iff.mpr (by rw [i2]; simp)

/-- **C107.**  However the reader of `EncodeToReader` is read, it gives the encoding in order, and reports the end exactly when
all of it has been read. -/
theorem C107_reader (v : Item) (h : (enc v).length < 2 ^ 64) (ms : List Nat) (f : Nat) (hf : (enc v).length < f) :
    (Reader.ofBuf (Buf.empty.item v)).reads f ms = chunks (enc v) ms := by
  have ha := adds_item Buf.empty v h
  have hr : (Reader.ofBuf (Buf.empty.item v)).rest = enc v := by
    have := (adds_empty ha).1
    simpa [Reader.rest, Reader.ofBuf, Buf.writeTo] using this
  have hw : (Reader.ofBuf (Buf.empty.item v)).WF := by
    obtain ⟨σ, hs, n, e, hl, ho, hu, hp, he⟩ := ha
    rw [e]
    refine ⟨Nat.zero_le _, by simp [Reader.ofBuf], ?_, by simpa [Reader.ofBuf, Buf.empty] using hp⟩
    intro x hx
    simp only [Reader.ofBuf, Buf.empty, List.drop_zero, List.nil_append] at hx ⊢
    exact ⟨Nat.zero_le _, by have := hu x hx; simpa [Buf.empty] using this⟩
  rw [reads_spec f ms _ hw (by rw [hr]; exact hf), hr]

example : (Reader.ofBuf (Buf.empty.item (.list [.list [.str [1]], .str [2, 3]]))).reads 10 [1, 3, 0, 1, 5, 1] =
    [([0xC5], false), ([0xC1, 1, 0x82], false), ([], false), ([2], false), ([3], true), ([], true)] := by decide +kernel

/-! ### Sizes -/

/-- **C71.**  The size functions give the lengths of the encodings. -/
theorem C71_bytes (b : Bytes) (h : b.length < 2 ^ 64) : bytesSize b = (encStr b).length := by
  unfold bytesSize encStr
  split
  · rfl
  · next x => simp only [le7f]; split <;> rfl
  · next h0 h1 =>
    split
    · next x => exact absurd rfl (h1 x)
    · rw [headsize_eq 0x80, u64of h, List.length_append]

theorem C71_list (c : Bytes) (h : (encList c).length < 2 ^ 64) :
    (listSize (UInt64.ofNat c.length)).toNat = (encList c).length := by
  have := encList_length c
  have hu : (UInt64.ofNat c.length).toNat = c.length := u64of (by omega)
  rw [encList, List.length_append] at *
  rw [listSize, headsize_eq 0xC0, hu, UInt64.toNat_add, hu, u64of (by omega), Nat.mod_eq_of_lt h]

theorem C71_int (i : UInt64) : intSize i = (encNat i.toNat).length := by
  unfold intSize
  split
  · next h =>
    rw [UInt64.lt_iff_toNat_lt] at h
    by_cases h0 : i.toNat = 0
    · rw [h0, encNat_zero]; rfl
    · rw [encNat_small h0 (by simpa using h)]; rfl
  · next h =>
    rw [UInt64.lt_iff_toNat_lt] at h
    have h : 128 ≤ i.toNat := by simp at h; omega
    have := natBytes_len_u64 i
    rw [encNat_big h, head_small (by omega), intsize_eq i (u64_ne_zero (n := 127) (by omega))]
    simp; omega

/-- **C71.**  `AppendUint64` appends the encoding of the integer. -/
theorem C71_append (b : Bytes) (i : UInt64) : appendUint64 b i = b ++ encNat i.toNat := by
  by_cases h0 : i = 0
  · subst h0; simp [appendUint64, encNat_zero]
  have h0' : i.toNat ≠ 0 := fun h => h0 (UInt64.toNat_inj.mp (by simpa using h))
  by_cases h1 : i < 128
  · have h1' := h1
    rw [UInt64.lt_iff_toNat_lt] at h1'
    rw [appendUint64, if_neg h0, if_pos h1, encNat_small h0' (by simpa using h1')]
    congr 1
  have h1' := h1
  rw [UInt64.lt_iff_toNat_lt] at h1'
  have h1' : 128 ≤ i.toNat := by simp at h1'; omega
  have := natBytes_len_u64 i
  rw [encNat_big h1', head_small (by omega), ← putint_eq i h0, appendUint64, if_neg h0, if_neg h1, putint, toUInt8_eq]
  split
  · rfl
  split
  · rfl
  split
  · rfl
  split
  · rfl
  split
  · rfl
  split
  · rfl
  split
  · rfl
  · rfl

example : appendUint64 [9] 0x010203 = [9, 0x83, 1, 2, 3] ∧ intSize 0x010203 = 4 ∧ bytesSize [0x80] = 2 ∧
    listSize 60 = 62 := by decide +kernel

end Verif.Rlp

import Verif.Rlp.TypedSpec
import Verif.Rlp.Enc

/-!
# Typed values: encoding
-/

namespace Verif.Rlp
open Verif

variable {Γ : Nat → Flds}

/-! ### Zero values -/

theorem replicate_of_all (l : List UInt8) : l.all (· == 0) = true ↔ l = List.replicate l.length 0 := by
  induction l with
  | nil => simp
  | cons x l ih =>
    rw [List.all_cons, Bool.and_eq_true, ih, List.length_cons, List.replicate_succ, List.cons.injEq, beq_iff_eq]

mutual
/-- `IsZero` recognises the zero value of the type. -/
theorem isZero_iff {t : Ty} {v : Val} (h : HasTy Γ t v) (ho : t.ok false = true) : isZero Γ t v = true ↔ v = t.zero := by
  cases h with
  | bool b => cases b <;> simp [isZero, Ty.zero]
  | uint bits n h => simp [isZero, Ty.zero]
  | big n => simp [isZero, Ty.zero]
  | u256 n h => simp [isZero, Ty.zero]
  | str b => simp [isZero, Ty.zero]
  | bytes b => simp [isZero, Ty.zero]
  | bytesNil => simp [isZero, Ty.zero]
  | byteArr b => rw [isZero, Ty.zero, replicate_of_all]; simp
  | raw b => simp [isZero, Ty.zero]
  | rawNil => simp [isZero, Ty.zero]
  | any i => simp [isZero, Ty.zero]
  | anyNil => simp [isZero, Ty.zero]
  | ptr h => simp [isZero, Ty.zero]
  | ptrNil => simp [isZero, Ty.zero]
  | slice h => simp [isZero, Ty.zero]
  | sliceNil => simp [isZero, Ty.zero]
  | array h =>
    rw [Ty.ok, Bool.and_eq_true] at ho
    rw [isZero, Ty.zero, allZero_iff h ho.2]; simp
  | struct h =>
    rw [Ty.ok] at ho
    rw [isZero, Ty.zero, fldsZero_iff h ho]; simp
  | ref h => simp [Ty.ok] at ho
theorem allZero_iff {t : Ty} {l : List Val} (h : HasTyL Γ t l) (ho : t.ok false = true) :
    allZero Γ t l = true ↔ l = List.replicate l.length t.zero := by
  cases h with
  | nil => simp [allZero]
  | cons h hl => rw [allZero, Bool.and_eq_true, isZero_iff h ho, allZero_iff hl ho, List.length_cons, List.replicate_succ,
      List.cons.injEq]
theorem fldsZero_iff {fs : Flds} {l : List Val} (h : HasTyF Γ fs l) (ho : fs.ok = true) :
    fldsZero Γ fs l = true ↔ l = fs.zeros := by
  cases h with
  | nil => simp [fldsZero, Flds.zeros]
  | cons h hl =>
    simp only [Flds.ok, Bool.and_eq_true] at ho
    rw [fldsZero, Bool.and_eq_true, isZero_iff h ho.1.1.1.1, fldsZero_iff hl ho.2, Flds.zeros, List.cons.injEq]
end

/-! ### Negative numbers -/

mutual
/-- There is a negative number in the value. -/
def Val.neg : Val → Bool
  | .num n => decide (n < 0)
  | .ptr v => v.neg
  | .list l => negs l
  | _ => false
def negs : List Val → Bool
  | [] => false
  | v :: l => v.neg || negs l
end

theorem negs_replicate (n : Nat) (v : Val) (h : v.neg = false) : negs (List.replicate n v) = false := by
  induction n with
  | zero => rfl
  | succ n ih => rw [List.replicate_succ, negs, h, ih]; rfl

mutual
theorem zero_neg (t : Ty) : t.zero.neg = false := by
  cases t with
  | array n t => rw [Ty.zero, Val.neg, negs_replicate _ _ (zero_neg t)]
  | struct fs => rw [Ty.zero, Val.neg, zeros_neg fs]
  | _ => simp [Ty.zero, Val.neg]
theorem zeros_neg (fs : Flds) : negs fs.zeros = false := by
  cases fs with
  | nil => rfl
  | cons g t fs => rw [Flds.zeros, negs, zero_neg t, zeros_neg fs]; rfl
end

/-! ### Which fields are written -/

/-- The first `k` fields are written: the others are zero and may be absent, and no field that could be left out is written. -/
inductive Cut (Γ : Nat → Flds) : Nat → Flds → List Val → Prop
  | stop {fs l} (hz : fldsZero Γ fs l = true) (ho : fs.optionals = true) : Cut Γ 0 fs l
  | next {k g t fs v l} (h : ¬ (g.optional = true ∧ isZero Γ t v = true ∧ fldsZero Γ fs l = true)) (hk : Cut Γ k fs l) :
      Cut Γ (k + 1) (.cons g t fs) (v :: l)

theorem lastLoop_shift (z : Bool) (zs : List Bool) (f m : Nat) : lastLoop (z :: zs) (f + 1) (m + 1) = lastLoop zs f m + 1 := by
  induction m with
  | zero => simp [lastLoop]
  | succ m ih =>
    rw [lastLoop, ih, lastLoop]
    simp only [List.getD_cons_succ]
    by_cases h : f ≤ m ∧ zs.getD m false = true
    · rw [if_pos h, if_pos ⟨by omega, h.2⟩]
    · rw [if_neg h, if_neg (fun hh => h ⟨by omega, hh.2⟩)]

theorem lastLoop_zero (z : Bool) (zs : List Bool) (m : Nat) : lastLoop (z :: zs) 0 (m + 1) =
    if lastLoop zs 0 m = 0 then (if z then 0 else 1) else lastLoop zs 0 m + 1 := by
  induction m with
  | zero => cases z <;> simp [lastLoop]
  | succ m ih =>
    rw [lastLoop, ih]
    simp only [List.getD_cons_succ, Nat.zero_le, true_and]
    conv => rhs; rw [lastLoop]
    simp only [Nat.zero_le, true_and]
    by_cases h : zs.getD m false = true
    · rw [if_pos h, if_pos h]
    · rw [if_neg h, if_neg h]; simp

theorem lastLoop_full (zs : List Bool) (f m : Nat) (h : m ≤ f) : lastLoop zs f m = m := by
  cases m with
  | zero => rfl
  | succ m => rw [lastLoop, if_neg (by omega)]

theorem keep_eq (fs : Flds) (l : List Val) : keep Γ fs l = lastLoop (zeroFlags Γ fs l) (firstOptional fs) fs.len := by
  unfold keep
  split
  · next h => rw [lastLoop_full _ _ _ (by omega)]
  · rfl

theorem cut_optionals {fs : Flds} {l : List Val} (h : HasTyF Γ fs l) (ho : fs.optionals = true) :
    Cut Γ (lastLoop (zeroFlags Γ fs l) 0 fs.len) fs l ∧
    (lastLoop (zeroFlags Γ fs l) 0 fs.len = 0 ↔ fldsZero Γ fs l = true) := by
  cases h with
  | nil => exact ⟨.stop rfl rfl, by simp [lastLoop, Flds.len, fldsZero]⟩
  | cons h hl =>
    rename_i g t fs v l
    rw [Flds.optionals, Bool.and_eq_true] at ho
    obtain ⟨ih1, ih2⟩ := cut_optionals hl ho.2
    rw [zeroFlags, Flds.len, lastLoop_zero, fldsZero]
    by_cases hz : lastLoop (zeroFlags Γ fs l) 0 fs.len = 0
    · rw [if_pos hz]
      have hf := ih2.mp hz
      cases hv : isZero Γ t v
      · simp only [Bool.false_eq_true, if_false, Bool.false_and]
        exact ⟨.next (by simp [hv]) (.stop hf ho.2), by simp⟩
      · simp only [if_true, hf, Bool.and_self]
        exact ⟨.stop (by rw [fldsZero, hv, hf]; rfl) (by rw [Flds.optionals, ho.1, ho.2]; rfl), by simp⟩
    · rw [if_neg hz]
      have hf : fldsZero Γ fs l = false := by
        cases hh : fldsZero Γ fs l
        · rfl
        · exact absurd (ih2.mpr hh) hz
      refine ⟨.next (by simp [hf]) ih1, by simp [hf]⟩

/-- The loop of the writer of structs keeps what it should. -/
theorem keep_cut {fs : Flds} {l : List Val} (h : HasTyF Γ fs l) (ho : fs.ok = true) : Cut Γ (keep Γ fs l) fs l := by
  rw [keep_eq]
  cases h with
  | nil => exact .stop rfl rfl
  | cons h hl =>
    rename_i g t fs v l
    simp only [Flds.ok, Bool.and_eq_true] at ho
    rw [firstOptional]
    cases hg : g.optional
    · simp only [Bool.false_eq_true, if_false]
      rw [zeroFlags, Flds.len, lastLoop_shift]
      rw [← keep_eq]
      exact .next (by simp [hg]) (keep_cut hl ho.2)
    · simp only [if_true]
      refine (cut_optionals (.cons h hl) ?_).1
      have := ho.1.2
      rw [hg] at this
      rw [Flds.optionals, hg]
      simpa using this

/-- The encodings of the first so many fields. -/
def bytesTake (Γ : Nat → Flds) : Nat → Flds → List Val → Bytes
  | k + 1, .cons g t fs, v :: l => bytesOf Γ g t v ++ bytesTake Γ k fs l
  | _, _, _ => []

theorem cut_bytes {k : Nat} {fs : Flds} {l : List Val} (hc : Cut Γ k fs l) (h : HasTyF Γ fs l) (ho : fs.ok = true) :
    bytesF Γ fs l = bytesTake Γ k fs l := by
  induction hc with
  | stop hz hop =>
    cases h with
    | nil => simp [bytesF, bytesTake]
    | cons h hl =>
      rename_i g t fs v l
      rw [bytesF, bytesTake]
      · rw [fldsZero, Bool.and_eq_true] at hz
        rw [Flds.optionals, Bool.and_eq_true, Bool.or_eq_true] at hop
        rcases hop.1 with hg | hg
        · rw [if_pos ⟨hg, hz⟩]
        · simp only [Flds.ok, Bool.and_eq_true, hg, Bool.not_true, Bool.false_or] at ho
          obtain ⟨⟨⟨⟨o1, o2⟩, ⟨o3, o4⟩, o5⟩, _⟩, o6⟩ := ho
          have hv := (isZero_iff h o1).mp hz.1
          cases t with
          | slice t =>
            rw [Ty.zero] at hv
            subst hv
            cases fs with
            | nil =>
              simp only [bytesOf, hg, if_true, bytesF, List.append_nil, ite_self]
            | cons => simp [Flds.len] at o5
          | _ => simp [Ty.isSlice] at o3
      · simp
  | next hn hk ih =>
    cases h with
    | cons h hl =>
      simp only [Flds.ok, Bool.and_eq_true] at ho
      rw [bytesF, if_neg hn, bytesTake, ih hl ho.2]

theorem cut_neg {k : Nat} {fs : Flds} {l : List Val} (hc : Cut Γ k fs l) (h : HasTyF Γ fs l) (ho : fs.ok = true) :
    negs l = negs (l.take k) := by
  induction hc with
  | stop hz hop =>
    rw [(fldsZero_iff h ho).mp hz, zeros_neg]; rfl
  | next hn hk ih =>
    cases h with
    | cons h hl =>
      simp only [Flds.ok, Bool.and_eq_true] at ho
      rw [List.take_succ_cons, negs, negs, ih hl ho.2]

/-! ### The writers -/

theorem writeByteArray_eq (b : Buf) (x : Bytes) (h : x.length < 2 ^ 64) : b.writeByteArray x.length x = b.write (encStr x) := by
  unfold Buf.writeByteArray
  split
  · next h0 =>
    have := List.length_eq_zero_iff.mp h0
    subst this; rfl
  · split
    · next h1 =>
      obtain ⟨y, rfl⟩ := List.length_eq_one_iff.mp h1
      simp only [List.getD_cons_zero, le7f, encStr]
      split
      · rfl
      · rfl
    · next h0 h1 =>
      rw [stringHeader_eq b _ h]
      unfold encStr
      split
      · simp at h1
      · simp [Buf.write]

theorem words_of (n : Nat) (h : n < 2 ^ 256) : (((wordOf n 3).toNat * 2 ^ 64 + (wordOf n 2).toNat) * 2 ^ 64 + (wordOf n 1).toNat) * 2 ^ 64 +
    (wordOf n 0).toNat = n := by
  simp only [wordOf, Int.toNat_natCast, UInt64.toNat_ofNat', Nat.mul_zero, Nat.pow_zero, Nat.div_one]
  omega

/-- What a writer does: an error if there is a negative number, otherwise it adds the encoding. -/
def Writes (f : Buf → Res Buf) (neg : Bool) (x : Bytes) : Prop :=
  ∀ b, (neg = true → f b = .err) ∧ (neg = false → ∃ c, f b = .ok c ∧ (x.length < 2 ^ 64 → Adds b c x))

theorem writes_ok {f : Buf → Buf} {x : Bytes} (h : ∀ b, x.length < 2 ^ 64 → f b = b.write x) :
    Writes (fun b => .ok (f b)) false x := by
  intro b
  refine ⟨by simp, fun _ => ⟨_, rfl, fun hx => ?_⟩⟩
  rw [h b hx]
  exact adds_write b x

theorem writes_list {f : Buf → Res Buf} {neg : Bool} {x : Bytes} (h : Writes f neg x) :
    Writes (fun b => match f b.list.1 with | .ok c => .ok (c.listEnd b.list.2) | r => r) neg (encList x) := by
  intro b
  obtain ⟨h1, h2⟩ := h b.list.1
  refine ⟨fun hn => by simp only [h1 hn], fun hn => ?_⟩
  obtain ⟨c, e1, e2⟩ := h2 hn
  refine ⟨c.listEnd b.list.2, by simp only [e1], fun hx => ?_⟩
  have := encList_length x
  exact adds_list (by omega) (e2 (by omega))

theorem encStr_lt {x : Bytes} (h : (encStr x).length < 2 ^ 64) : x.length < 2 ^ 64 := by
  have := encStr_length x; omega

theorem ok_bits {d : Bool} {bits : Nat} (h : (Ty.uint bits).ok d = true) : bits = 8 ∨ bits = 16 ∨ bits = 32 ∨ bits = 64 := by
  simp only [Ty.ok, Bool.or_eq_true, beq_iff_eq] at h
  omega

theorem adds_nil (b : Buf) : Adds b b [] := by simpa [Buf.write] using adds_write b []

mutual
theorem wr_writes (hΓ : ∀ i, (Γ i).ok = true) {d : Bool} {t : Ty} {v : Val} (g : Tags) (h : HasTy Γ t v) (ho : t.ok d = true) :
    Writes (wr Γ g t v) v.neg (bytesOf Γ g t v) := by
  cases h with
  | bool b =>
    simp only [wr, Val.neg, bytesOf]
    exact writes_ok fun c _ => writeBool_eq c b
  | uint bits n h =>
    have hb := ok_bits ho
    have hn : n < 2 ^ 64 := Nat.lt_of_lt_of_le h (Nat.pow_le_pow_right (by omega) (by omega))
    simp only [wr, Val.neg, bytesOf]
    rw [show decide ((n : Int) < 0) = false from by simp]
    refine writes_ok fun c _ => ?_
    rw [writeUint64_eq, Int.toNat_natCast, u64of hn]
  | big n =>
    simp only [Val.neg, bytesOf]
    intro b
    simp only [wr, decide_eq_true_eq, decide_eq_false_iff_not]
    refine ⟨fun hn => by rw [if_pos hn], fun hn => ⟨_, by rw [if_neg hn], fun hx => ?_⟩⟩
    rw [writeBigInt_eq _ _ (encStr_lt hx)]
    exact adds_write _ _
  | u256 n h =>
    simp only [wr, Val.neg, bytesOf]
    rw [show decide ((n : Int) < 0) = false from by simp]
    refine writes_ok fun c _ => ?_
    rw [writeUint256_eq, words_of n h, Int.toNat_natCast]
  | str b => simp only [wr, Val.neg, bytesOf]; exact writes_ok fun c hx => writeBytes_eq c b (encStr_lt hx)
  | bytes b => simp only [wr, Val.neg, bytesOf]; exact writes_ok fun c hx => writeBytes_eq c b (encStr_lt hx)
  | bytesNil => simp only [wr, Val.neg, bytesOf]; exact writes_ok fun c hx => writeBytes_eq c [] (encStr_lt hx)
  | byteArr b => simp only [wr, Val.neg, bytesOf]; exact writes_ok fun c hx => writeByteArray_eq c b (encStr_lt hx)
  | raw b => simp only [wr, Val.neg, bytesOf]; exact writes_ok fun c _ => rfl
  | rawNil => simp only [wr, Val.neg, bytesOf]; exact writes_ok fun c _ => rfl
  | any i =>
    simp only [wr, Val.neg, bytesOf]
    intro b
    exact ⟨by simp, fun _ => ⟨_, rfl, fun hx => adds_item b i hx⟩⟩
  | anyNil => simp only [wr, Val.neg, bytesOf]; exact writes_ok fun c _ => rfl
  | ptr h =>
    rw [Ty.ok] at ho
    simp only [wr, Val.neg, bytesOf]
    exact wr_writes hΓ {} h ho
  | ptrNil => simp only [wr, Val.neg, bytesOf]; exact writes_ok fun c _ => rfl
  | slice h =>
    rw [Ty.ok, Bool.and_eq_true] at ho
    have hw := wrL_writes hΓ h ho.2
    simp only [Val.neg, bytesOf]
    cases hg : g.tail
    · simp only [Bool.false_eq_true, if_false]
      rename_i l
      cases l with
      | nil => intro b; simp only [wr, hg, Bool.false_eq_true, if_false, List.length_nil, if_true]; exact writes_ok (f := fun b => b.write [0xC0]) (fun c _ => rfl) b
      | cons v l =>
        have := writes_list hw
        intro b
        have hb := this b
        simp only [wr, hg, Bool.false_eq_true, if_false, List.length_cons, Nat.add_eq_zero_iff, Nat.one_ne_zero, and_false]
        exact hb
    · simp only [if_true]
      intro b
      simp only [wr, hg, if_true]
      exact hw b
  | sliceNil =>
    simp only [Val.neg, bytesOf]
    intro b
    simp only [wr]
    cases hg : g.tail
    · exact ⟨by simp, fun _ => ⟨_, rfl, fun _ => adds_write b [0xC0]⟩⟩
    · exact ⟨by simp, fun _ => ⟨b, by simp, fun _ => by simpa using adds_nil b⟩⟩
  | array h =>
    rw [Ty.ok, Bool.and_eq_true] at ho
    have hw := wrL_writes hΓ h ho.2
    simp only [Val.neg, bytesOf]
    rename_i t l
    cases l with
    | nil => intro b; simp only [wr, List.length_nil, if_true]; exact writes_ok (f := fun b => b.write [0xC0]) (fun c _ => rfl) b
    | cons v l =>
      have := writes_list hw
      intro b
      have hb := this b
      simp only [wr, List.length_cons, Nat.add_eq_zero_iff, Nat.one_ne_zero, and_false, if_false]
      exact hb
  | struct h =>
    rw [Ty.ok] at ho
    rename_i fs l
    have hc := keep_cut h ho
    have hw := writes_list (wrF_writes hΓ (keep Γ fs l) h ho)
    rw [← cut_neg hc h ho, ← cut_bytes hc h ho] at hw
    simp only [Val.neg, bytesOf]
    intro b
    simp only [wr]
    exact hw b
  | ref h =>
    rename_i i l
    have hc := keep_cut h (hΓ i)
    have hw := writes_list (wrF_writes hΓ (keep Γ (Γ i) l) h (hΓ i))
    rw [← cut_neg hc h (hΓ i), ← cut_bytes hc h (hΓ i)] at hw
    simp only [Val.neg, bytesOf]
    intro b
    simp only [wr]
    exact hw b
theorem wrL_writes (hΓ : ∀ i, (Γ i).ok = true) {d : Bool} {t : Ty} {l : List Val} (h : HasTyL Γ t l) (ho : t.ok d = true) :
    Writes (wrL Γ t l) (negs l) (bytesL Γ t l) := by
  cases h with
  | nil =>
    intro b
    simp only [wrL, negs, bytesL]
    exact ⟨by simp, fun _ => ⟨b, rfl, fun _ => adds_nil b⟩⟩
  | cons h hl =>
    rename_i v l
    have h1 := wr_writes hΓ {} h ho
    have h2 := wrL_writes hΓ hl ho
    intro b
    simp only [wrL, negs, bytesL]
    obtain ⟨a1, a2⟩ := h1 b
    cases hn : v.neg
    · obtain ⟨c, e1, e2⟩ := a2 hn
      obtain ⟨b1, b2⟩ := h2 c
      simp only [e1, Bool.false_or]
      refine ⟨b1, fun hl => ?_⟩
      obtain ⟨c', f1, f2⟩ := b2 hl
      refine ⟨c', f1, fun hx => ?_⟩
      rw [List.length_append] at hx
      exact adds_trans (e2 (by omega)) (f2 (by omega))
    · simp only [a1 hn, Bool.true_or]
      exact ⟨fun _ => trivial, by simp⟩
theorem wrF_writes (hΓ : ∀ i, (Γ i).ok = true) (k : Nat) {fs : Flds} {l : List Val} (h : HasTyF Γ fs l) (ho : fs.ok = true) :
    Writes (wrF Γ k fs l) (negs (l.take k)) (bytesTake Γ k fs l) := by
  cases h with
  | nil =>
    intro b
    simp only [wrF, negs, List.take_nil, bytesTake]
    exact ⟨by simp, fun _ => ⟨b, rfl, fun _ => adds_nil b⟩⟩
  | cons h hl =>
    rename_i g t fs v l
    simp only [Flds.ok, Bool.and_eq_true] at ho
    cases k with
    | zero =>
      intro b
      simp only [wrF, negs, List.take_zero, bytesTake]
      exact ⟨by simp, fun _ => ⟨b, rfl, fun _ => adds_nil b⟩⟩
    | succ k =>
      have h1 := wr_writes hΓ g h ho.1.1.1.1
      have h2 := wrF_writes hΓ k hl ho.2
      intro b
      simp only [wrF, negs, List.take_succ_cons, bytesTake]
      obtain ⟨a1, a2⟩ := h1 b
      cases hn : v.neg
      · obtain ⟨c, e1, e2⟩ := a2 hn
        obtain ⟨b1, b2⟩ := h2 c
        simp only [e1, Bool.false_or]
        refine ⟨b1, fun hl => ?_⟩
        obtain ⟨c', f1, f2⟩ := b2 hl
        refine ⟨c', f1, fun hx => ?_⟩
        rw [List.length_append] at hx
        exact adds_trans (e2 (by omega)) (f2 (by omega))
      · simp only [a1 hn, Bool.true_or]
        exact ⟨fun _ => trivial, by simp⟩
end

/-- **C110.**  `EncodeToBytes` of a value of any type gives its encoding: numbers without leading zeros, structs as lists of
their fields with the trailing zero optional ones left out, a tail in place. -/
theorem C110_encode (hΓ : ∀ i, (Γ i).ok = true) {t : Ty} {v : Val} (h : HasTy Γ t v) (ho : t.ok true = true) (hn : v.neg = false)
    (hx : (bytesOf Γ {} t v).length < 2 ^ 64) : encodeTy Γ t v = .ok (bytesOf Γ {} t v) := by
  obtain ⟨c, e1, e2⟩ := (wr_writes hΓ {} h ho Buf.empty).2 hn
  unfold encodeTy
  rw [e1]
  exact (adds_empty (e2 hx)).2.2

/-- **C110.**  The encoder refuses exactly the values that hold a negative number, wherever it is; it never panics. -/
theorem C110_negative (hΓ : ∀ i, (Γ i).ok = true) {t : Ty} {v : Val} (h : HasTy Γ t v) (ho : t.ok true = true)
    (hx : (bytesOf Γ {} t v).length < 2 ^ 64) :
    (v.neg = true ↔ encodeTy Γ t v = .err) ∧ encodeTy Γ t v ≠ .panic := by
  cases hn : v.neg
  · rw [C110_encode hΓ h ho hn hx]; simp
  · have : encodeTy Γ t v = .err := by
      unfold encodeTy
      rw [(wr_writes hΓ {} h ho Buf.empty).1 hn]
    rw [this]; simp

end Verif.Rlp

import Verif.Abi.Model
import Verif.ByteOps.Props

/-!
# Packing follows the encoding
-/

namespace Verif.Abi
open Verif

theorem packNum_eq (i : Int) : packNum i = word i := BigMath.C41_u256Bytes i

theorem word_length (i : Int) : (word i).length = 32 := natBE_length _ _

theorem beNat_word (n : Nat) (h : n < 2 ^ 256) : beNat (word n) = n := by
  unfold word
  have e : ((n : Int) % 2 ^ 256).toNat = n := by omega
  rw [e, beNat_natBE_of_lt]
  exact Nat.lt_of_lt_of_eq h (by decide +kernel)

attribute [local irreducible] word

mutual
theorem isDynamicType_eq : ∀ t : Ty, isDynamicType t = t.dyn
  | .tuple l => by rw [isDynamicType, Ty.dyn, anyDynamic_eq l]
  | .array _ e => by rw [isDynamicType, Ty.dyn, isDynamicType_eq e]
  | .slice _ => rfl
  | .string => rfl
  | .bytes => rfl
  | .uint _ => rfl
  | .int _ => rfl
  | .bool => rfl
  | .address => rfl
  | .fixed _ => rfl
  | .function => rfl
theorem anyDynamic_eq : ∀ l : List Ty, anyDynamic l = anyDyn l
  | [] => rfl
  | t :: l => by
    rw [anyDynamic, anyDyn, isDynamicType_eq t, anyDynamic_eq l]
    cases t.dyn <;> rfl
end

/-! ### Sequences -/

/-- The heads with a running offset. -/
def runHeads : Nat → List Comp → Bytes
  | _, [] => []
  | off, c :: cs => if c.1 then word off ++ runHeads (off + c.2.length) cs else c.2 ++ runHeads off cs

theorem mapIdx_heads (pre cs : List Comp) (all : List Comp) (h : all = pre ++ cs) :
    (cs.mapIdx fun i c => head all (i + pre.length) c).flatten =
      runHeads ((all.map headLen).sum + (pre.flatMap tail).length) cs := by
  induction cs generalizing pre with
  | nil => rfl
  | cons c cs ih =>
    rw [List.mapIdx_cons, List.flatten_cons]
    have h2 := ih (pre ++ [c]) (by rw [h]; simp)
    have e : (fun i c => head all (i + 1 + pre.length) c) = fun i c' => head all (i + (pre ++ [c]).length) c' := by
      funext i c'
      rw [List.length_append, List.length_singleton, Nat.add_assoc, Nat.add_comm 1]
    rw [e, h2]
    have e2 : head all (0 + pre.length) c =
        if c.1 then word ((all.map headLen).sum + (pre.flatMap tail).length : Nat) else c.2 := by
      unfold head
      rw [Nat.zero_add, h, List.take_left]
    rw [e2, runHeads]
    have e3 : ((pre ++ [c]).flatMap tail).length = (pre.flatMap tail).length + (tail c).length := by simp
    rw [e3]
    cases hc : c.1
    · simp [tail, hc]
    · simp [tail, hc, Nat.add_assoc]

theorem encSeq_eq (cs : List Comp) : encSeq cs = runHeads (cs.map headLen).sum cs ++ cs.flatMap tail := by
  have := mapIdx_heads [] cs cs rfl
  simp only [List.length_nil, Nat.add_zero, List.flatMap_nil] at this
  rw [encSeq, ← this]

theorem runHeads_length (off : Nat) (cs : List Comp) : (runHeads off cs).length = (cs.map headLen).sum := by
  induction cs generalizing off with
  | nil => rfl
  | cons c cs ih =>
    rw [runHeads, List.map_cons, List.sum_cons, headLen]
    split <;> simp [ih, word_length]

theorem encSeq_length (cs : List Comp) : (encSeq cs).length = (cs.map headLen).sum + (cs.flatMap tail).length := by
  rw [encSeq_eq, List.length_append, runHeads_length]

theorem encSeq_static (cs : List Comp) (h : ∀ c ∈ cs, c.1 = false) : (encSeq cs).length = (cs.map headLen).sum := by
  rw [encSeq_length]
  have : cs.flatMap tail = [] := by
    rw [List.flatMap_eq_nil_iff]
    intro c hc
    simp [tail, h c hc]
  rw [this]; rfl

theorem encSeq_mod (cs : List Comp) (h : ∀ c ∈ cs, c.2.length % 32 = 0) : (encSeq cs).length % 32 = 0 := by
  rw [encSeq_length]
  induction cs with
  | nil => rfl
  | cons c cs ih =>
    have h1 := ih (fun c hc => h c (by simp [hc]))
    have h2 := h c (by simp)
    rw [List.map_cons, List.sum_cons, List.flatMap_cons, List.length_append]
    have h3 : (headLen c + (tail c).length) % 32 = 0 := by
      unfold headLen tail
      split
      · omega
      · simpa using h2
    omega

/-- Without dynamic components the offset does not matter. -/
theorem runHeads_static {α : Type} (E : α → Bytes) (off off' : Nat) (l : List α) :
    runHeads off (l.map fun v => (false, E v)) = runHeads off' (l.map fun v => (false, E v)) := by
  induction l with
  | nil => rfl
  | cons v l ih => simp only [List.map_cons, runHeads, Bool.false_eq_true, if_false]; rw [ih]

/-! ### Sizes -/

theorem getTypeSize_flat (t : Ty) (h : t.nested = false) : getTypeSize t = 32 := by
  cases t <;> simp_all [Ty.nested, getTypeSize]

theorem getTypeSize_dyn (t : Ty) (h : t.dyn = true) : getTypeSize t = 32 := by
  cases t with
  | array n e => rw [getTypeSize, isDynamicType_eq]; rw [Ty.dyn] at h; simp [h]
  | tuple l => rw [getTypeSize, isDynamicType_eq]; simp [h]
  | _ => simp [getTypeSize]

theorem getTypeSize_array (n : Nat) (e : Ty) (h : e.dyn = false) : getTypeSize (.array n e) = n * getTypeSize e := by
  rw [getTypeSize, isDynamicType_eq, h]
  simp only [Bool.not_false, if_true]
  cases hn : e.nested
  · simp [getTypeSize_flat e hn]
  · simp

theorem sum_const {α : Type} (l : List α) (f : α → Nat) (k : Nat) (h : ∀ x ∈ l, f x = k) : (l.map f).sum = l.length * k := by
  induction l with
  | nil => simp
  | cons a l ih =>
    rw [List.map_cons, List.sum_cons, h a (by simp), ih (fun x hx => h x (by simp [hx])), List.length_cons, Nat.succ_mul]
    omega

mutual
/-- The size of a static type. -/
theorem enc_static : ∀ (t : Ty) (v : Val), Wt t v → t.Sane → t.dyn = false → (enc t v).length = getTypeSize t
  | .uint _, v, _, _, _ => by rw [enc, word_length]; rfl
  | .int _, v, _, _, _ => by rw [enc, word_length]; rfl
  | .bool, v, _, _, _ => by rw [enc, word_length]; rfl
  | .address, v, hw, _, _ => by
    rw [Wt] at hw
    obtain ⟨b, rfl, hb⟩ := hw
    rw [enc, getTypeSize]
    simp only [Val.raw]
    simp [hb]
  | .fixed n, v, hw, hs, _ => by
    rw [Wt] at hw
    rw [Ty.Sane] at hs
    obtain ⟨b, rfl, hb⟩ := hw
    rw [enc, getTypeSize]
    simp only [Val.raw]
    simp [hb]
    omega
  | .function, v, hw, _, _ => by
    rw [Wt] at hw
    obtain ⟨b, rfl, hb⟩ := hw
    rw [enc, getTypeSize]
    simp only [Val.raw]
    simp [hb]
  | .string, _, _, _, h => by simp [Ty.dyn] at h
  | .bytes, _, _, _, h => by simp [Ty.dyn] at h
  | .slice _, _, _, _, h => by simp [Ty.dyn] at h
  | .array n e, v, hw, hs, h => by
    rw [Wt] at hw
    rw [Ty.Sane] at hs
    rw [Ty.dyn] at h
    obtain ⟨l, rfl, hl, hwl⟩ := hw
    rw [enc, getTypeSize_array n e h]
    simp only [Val.items]
    rw [encSeq_static _ (by intro c hc; obtain ⟨x, _, rfl⟩ := List.mem_map.mp hc; exact h), List.map_map,
      sum_const l _ (getTypeSize e), hl]
    intro x hx
    simp only [Function.comp, headLen, h]
    exact enc_static e x (hwl x hx) hs h
  | .tuple ts, v, hw, hs, h => by
    rw [Wt] at hw
    rw [Ty.Sane] at hs
    have hd := h
    rw [Ty.dyn] at h
    obtain ⟨l, rfl, hwl⟩ := hw
    rw [enc, getTypeSize, isDynamicType_eq, hd]
    simp only [Bool.not_false, if_true, Val.items]
    rw [encSeq_static _ (encFields_static ts l hwl h), encFields_size ts l hwl hs]
theorem encFields_size : ∀ (ts : List Ty) (vs : List Val), WtL ts vs → SaneL ts →
    ((encFields ts vs).map headLen).sum = sizeSum ts
  | [], vs, _, _ => by cases vs <;> rfl
  | t :: ts, vs, hw, hs => by
    rw [WtL] at hw
    rw [SaneL] at hs
    obtain ⟨v, l, rfl, h1, h2⟩ := hw
    rw [encFields, List.map_cons, List.sum_cons, sizeSum, encFields_size ts l h2 hs.2]
    congr 1
    unfold headLen
    cases hd : t.dyn
    · exact enc_static t v h1 hs.1 hd
    · exact (getTypeSize_dyn t hd).symm
theorem encFields_static : ∀ (ts : List Ty) (vs : List Val), WtL ts vs → anyDyn ts = false →
    ∀ c ∈ encFields ts vs, c.1 = false
  | [], vs, _, _ => by cases vs <;> simp [encFields]
  | t :: ts, vs, hw, h => by
    rw [WtL] at hw
    obtain ⟨v, l, rfl, h1, h2⟩ := hw
    rw [anyDyn, Bool.or_eq_false_iff] at h
    intro c hc
    rw [encFields, List.mem_cons] at hc
    rcases hc with rfl | hc
    · exact h.1
    · exact encFields_static ts l h2 h.2 c hc
end

theorem headLen_size (t : Ty) (v : Val) (hw : Wt t v) (hs : t.Sane) : headLen (t.dyn, enc t v) = getTypeSize t := by
  unfold headLen
  cases hd : t.dyn
  · exact enc_static t v hw hs hd
  · exact (getTypeSize_dyn t hd).symm

theorem pad32_length (b : Bytes) : (pad32 b).length = (b.length + 31) / 32 * 32 := by
  unfold pad32
  rw [List.length_append, List.length_replicate]
  omega

mutual
theorem enc_mod : ∀ (t : Ty) (v : Val), Wt t v → t.Sane → (enc t v).length % 32 = 0
  | .uint _, v, _, _ => by rw [enc, word_length]
  | .int _, v, _, _ => by rw [enc, word_length]
  | .bool, v, _, _ => by rw [enc, word_length]
  | .address, v, hw, hs => by rw [enc_static _ v hw hs rfl]; rfl
  | .fixed n, v, hw, hs => by rw [enc_static _ v hw hs rfl, getTypeSize]
  | .function, v, hw, hs => by rw [enc_static _ v hw hs rfl]; rfl
  | .string, v, _, _ => by rw [enc, List.length_append, word_length, pad32_length]; omega
  | .bytes, v, _, _ => by rw [enc, List.length_append, word_length, pad32_length]; omega
  | .slice e, v, hw, hs => by
    rw [Wt] at hw
    rw [Ty.Sane] at hs
    obtain ⟨l, rfl, hwl⟩ := hw
    rw [enc, List.length_append, word_length]
    have := encSeq_mod ((Val.list l).items.map fun x => (e.dyn, enc e x)) (by
      intro c hc
      obtain ⟨x, hx, rfl⟩ := List.mem_map.mp hc
      exact enc_mod e x (hwl x hx) hs)
    omega
  | .array n e, v, hw, hs => by
    rw [Wt] at hw
    rw [Ty.Sane] at hs
    obtain ⟨l, rfl, hl, hwl⟩ := hw
    rw [enc]
    exact encSeq_mod _ (by
      intro c hc
      obtain ⟨x, hx, rfl⟩ := List.mem_map.mp hc
      exact enc_mod e x (hwl x hx) hs)
  | .tuple ts, v, hw, hs => by
    rw [Wt] at hw
    rw [Ty.Sane] at hs
    obtain ⟨l, rfl, hwl⟩ := hw
    rw [enc]
    exact encSeq_mod _ (encFields_mod ts l hwl hs)
theorem encFields_mod : ∀ (ts : List Ty) (vs : List Val), WtL ts vs → SaneL ts → ∀ c ∈ encFields ts vs, c.2.length % 32 = 0
  | [], vs, _, _ => by cases vs <;> simp [encFields]
  | t :: ts, vs, hw, hs => by
    rw [WtL] at hw
    rw [SaneL] at hs
    obtain ⟨v, l, rfl, h1, h2⟩ := hw
    intro c hc
    rw [encFields, List.mem_cons] at hc
    rcases hc with rfl | hc
    · exact enc_mod t v h1 hs.1
    · exact encFields_mod ts l h2 hs.2 c hc
end

/-! ### The packing loops -/

theorem packElems_eq (p : Val → Res Bytes) (E : Val → Bytes) (d : Bool) (vs : List Val) (hp : ∀ v ∈ vs, p v = .ok (E v))
    (off : Nat) (ret tl : Bytes) : packElems p d vs off ret tl =
      .ok (ret ++ runHeads off (vs.map fun v => (d, E v)) ++ (tl ++ (vs.map fun v => (d, E v)).flatMap tail)) := by
  induction vs generalizing off ret tl with
  | nil => simp [packElems, runHeads]
  | cons v vs ih =>
    rw [packElems, hp v (by simp), Res.bind]
    have ih := ih (fun v hv => hp v (by simp [hv]))
    cases d
    · simp only [Bool.not_false, if_true]
      rw [ih]
      simp [runHeads, tail]
    · simp only [Bool.not_true, Bool.false_eq_true, if_false]
      rw [ih, packNum_eq]
      simp [runHeads, tail]

theorem bool_words : BigMath.paddedBigBytes 1 32 = word 1 ∧ BigMath.paddedBigBytes 0 32 = word 0 := by decide +kernel

theorem packBytesSlice_eq (b : Bytes) : packBytesSlice b b.length = word b.length ++ pad32 b := by
  unfold packBytesSlice pad32
  rw [packNum_eq, (ByteOps.C52_padding b _).2.1]
  congr 3
  omega

theorem WtL_length : ∀ (ts : List Ty) (vs : List Val), WtL ts vs → vs.length = ts.length
  | [], vs, h => by rw [WtL] at h; simp [h]
  | t :: ts, vs, h => by
    rw [WtL] at h
    obtain ⟨v, l, rfl, _, h2⟩ := h
    simp [WtL_length ts l h2]

mutual
/-- Well-typed values are packed as the encoding says. -/
theorem pack_eq : ∀ (t : Ty) (v : Val), Wt t v → t.Sane → pack t v = .ok (enc t v)
  | .uint _, v, hw, _ => by
    rw [Wt] at hw
    obtain ⟨i, rfl, _⟩ := hw
    rw [pack, enc]; simp only [packNum_eq]; rfl
  | .int _, v, hw, _ => by
    rw [Wt] at hw
    obtain ⟨i, rfl, _⟩ := hw
    rw [pack, enc]; simp only [packNum_eq]; rfl
  | .bool, v, hw, _ => by
    rw [Wt] at hw
    obtain ⟨b, rfl⟩ := hw
    rw [pack, enc]
    simp only [bool_words.1, bool_words.2]
    cases b <;> rfl
  | .string, v, hw, _ => by
    rw [Wt] at hw
    obtain ⟨b, rfl⟩ := hw
    rw [pack, enc]
    simp only [packBytesSlice_eq]; rfl
  | .bytes, v, hw, _ => by
    rw [Wt] at hw
    obtain ⟨b, rfl⟩ := hw
    rw [pack, enc]
    simp only [packBytesSlice_eq]; rfl
  | .address, v, hw, _ => by
    rw [Wt] at hw
    obtain ⟨b, rfl, _⟩ := hw
    rw [pack, enc]
    simp only [(ByteOps.C52_padding b 32).1]; rfl
  | .fixed n, v, hw, _ => by
    rw [Wt] at hw
    obtain ⟨b, rfl, hb⟩ := hw
    rw [pack, enc]
    simp only [(ByteOps.C52_padding b 32).2.1, hb]; simp [Val.raw, hb]
  | .function, v, hw, _ => by
    rw [Wt] at hw
    obtain ⟨b, rfl, _⟩ := hw
    rw [pack, enc]
    simp only [(ByteOps.C52_padding b 32).2.1]; rfl
  | .slice e, v, hw, hs => by
    rw [Wt] at hw
    rw [Ty.Sane] at hs
    obtain ⟨l, rfl, hwl⟩ := hw
    rw [pack, enc]
    simp only [Val.items]
    rw [packElems_eq (pack e) (enc e) _ l (fun x hx => pack_eq e x (hwl x hx) hs), isDynamicType_eq, encSeq_eq, packNum_eq,
      List.map_map, sum_const l (headLen ∘ fun x => (e.dyn, enc e x)) (getTypeSize e) (fun x hx => headLen_size e x (hwl x hx) hs)]
    cases hd : e.dyn
    · simp only [Bool.false_eq_true, if_false]
      rw [runHeads_static (enc e) 0 (l.length * getTypeSize e)]
      simp
    · simp [Nat.mul_comm]
  | .array n e, v, hw, hs => by
    rw [Wt] at hw
    rw [Ty.Sane] at hs
    obtain ⟨l, rfl, hl, hwl⟩ := hw
    rw [pack, enc]
    simp only [Val.items]
    rw [if_neg (by simp [hl]), packElems_eq (pack e) (enc e) _ l (fun x hx => pack_eq e x (hwl x hx) hs), isDynamicType_eq, encSeq_eq,
      List.map_map, sum_const l (headLen ∘ fun x => (e.dyn, enc e x)) (getTypeSize e) (fun x hx => headLen_size e x (hwl x hx) hs)]
    cases hd : e.dyn
    · simp only [Bool.false_eq_true, if_false]
      rw [runHeads_static (enc e) 0 (l.length * getTypeSize e)]
      simp
    · simp [Nat.mul_comm]
  | .tuple ts, v, hw, hs => by
    rw [Wt] at hw
    rw [Ty.Sane] at hs
    obtain ⟨l, rfl, hwl⟩ := hw
    rw [pack, enc]
    simp only [Val.items]
    rw [if_neg (by simp [WtL_length ts l hwl]), packFields_eq ts l hwl hs, encSeq_eq, encFields_size ts l hwl hs]
    simp
theorem packFields_eq : ∀ (ts : List Ty) (vs : List Val), WtL ts vs → SaneL ts → ∀ (off : Nat) (ret tl : Bytes),
    packFields ts vs off ret tl =
      .ok (ret ++ runHeads off (encFields ts vs) ++ (tl ++ (encFields ts vs).flatMap tail))
  | [], vs, hw, _, off, ret, tl => by
    rw [WtL] at hw
    subst hw
    simp [packFields, encFields, runHeads]
  | t :: ts, vs, hw, hs, off, ret, tl => by
    rw [WtL] at hw
    rw [SaneL] at hs
    obtain ⟨v, l, rfl, h1, h2⟩ := hw
    rw [packFields, pack_eq t v h1 hs.1, Res.bind, isDynamicType_eq, encFields]
    cases hd : t.dyn
    · simp only [Bool.false_eq_true, if_false]
      rw [packFields_eq ts l h2 hs.2]
      simp [runHeads, tail]
    · simp only [if_true]
      rw [packFields_eq ts l h2 hs.2, packNum_eq]
      simp [runHeads, tail]
end

/-- **C108.**  Packing follows the specification of the contract ABI. -/
theorem C108_pack (t : Ty) (v : Val) (hw : Wt t v) (hs : t.Sane) : pack t v = .ok (enc t v) := pack_eq t v hw hs

/-- **C108.**  A list of arguments is packed like a tuple: heads with offsets, then tails. -/
theorem C108_packArgs (ts : List Ty) (vs : List Val) (hw : WtL ts vs) (hs : SaneL ts) :
    packArgs ts vs = .ok (encSeq (encFields ts vs)) := by
  unfold packArgs
  rw [if_neg (by simp [WtL_length ts vs hw]), packFields_eq ts vs hw hs, encSeq_eq, encFields_size ts vs hw hs]
  simp

/-- The example `f(uint256,uint32[],bytes10,bytes)` of the ABI specification, called with
`(0x123, [0x456, 0x789], "1234567890", "Hello, world!")`. -/
example : packArgs [.uint 256, .slice (.uint 32), .fixed 10, .bytes]
      [.num 0x123, .list [.num 0x456, .num 0x789], .bytes [49, 50, 51, 52, 53, 54, 55, 56, 57, 48],
        .bytes [72, 101, 108, 108, 111, 44, 32, 119, 111, 114, 108, 100, 33]] =
    .ok (natBE 32 0x123 ++ natBE 32 0x80 ++
      ([49, 50, 51, 52, 53, 54, 55, 56, 57, 48] ++ List.replicate 22 0) ++ natBE 32 0xe0 ++
      natBE 32 2 ++ natBE 32 0x456 ++ natBE 32 0x789 ++
      natBE 32 13 ++ ([72, 101, 108, 108, 111, 44, 32, 119, 111, 114, 108, 100, 33] ++ List.replicate 19 0)) := by
  decide +kernel

/-- **C75.**  The packed form of a value of a static type has the size computed from the type; every packed form is a whole number
of words. -/
theorem C75_size (t : Ty) (v : Val) (hw : Wt t v) (hs : t.Sane) :
    ∃ b, pack t v = .ok b ∧ (isDynamicType t = false → b.length = getTypeSize t) ∧ b.length % 32 = 0 := by
  refine ⟨enc t v, pack_eq t v hw hs, ?_, enc_mod t v hw hs⟩
  intro h
  rw [isDynamicType_eq] at h
  exact enc_static t v hw hs h

/-- **C75.**  The packed arguments start with as many bytes of heads as the sizes of the types add up to, so that the first dynamic
argument is at that offset. -/
theorem C75_args (ts : List Ty) (vs : List Val) (hw : WtL ts vs) (hs : SaneL ts) :
    ∃ b, packArgs ts vs = .ok b ∧ sizeSum ts ≤ b.length ∧ b.length % 32 = 0 ∧ (anyDynamic ts = false → b.length = sizeSum ts) := by
  refine ⟨_, C108_packArgs ts vs hw hs, ?_, ?_, ?_⟩
  · rw [encSeq_length, encFields_size ts vs hw hs]; omega
  · exact encSeq_mod _ (encFields_mod ts vs hw hs)
  · intro h
    rw [anyDynamic_eq] at h
    rw [encSeq_static _ (encFields_static ts vs hw h), encFields_size ts vs hw hs]

example : getTypeSize (.array 2 (.tuple [.uint 8, .array 3 .bool])) = 256 := by decide +kernel

/-- **C75.**  `bytes33` is accepted as a type; its packed form is 33 bytes long. -/
theorem C75_bytes33_refuted : ∃ b, pack (.fixed 33) (.bytes (List.replicate 33 1)) = .ok b ∧ b.length = 33 ∧ getTypeSize (.fixed 33) = 32 :=
  ⟨List.replicate 33 1, by decide +kernel, by decide +kernel, by decide +kernel⟩

end Verif.Abi

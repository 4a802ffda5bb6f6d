import Verif.Abi.Unpack

/-!
# Topics: filters, parsing of indexed arguments, events

The digest `H` is a parameter.  Not modelled: the reflection that stores the values in a struct or a map (`setter`, `CopyEvent` apart
from its access to the values), the printing of the values by `EventString`, and the choice of the event by its identifier.
-/

namespace Verif.Abi
open Verif

/-- The values that a filter can contain. -/
inductive Rule where
  /-- `common.Hash` -/
  | hash (b : Bytes)
  /-- `common.Address` -/
  | address (b : Bytes)
  /-- `*big.Int` -/
  | big (i : Int)
  | bool (b : Bool)
  /-- `int8` … `int64` with the size in bytes -/
  | int (size : Nat) (i : Int)
  /-- `uint8` … `uint64` -/
  | uint (i : Nat)
  /-- `string` and `[]byte` -/
  | data (b : Bytes)
  /-- other arrays of bytes -/
  | array (b : Bytes)

/-- `copy(topic[HashLength-len(blob):], blob)` into an empty topic. -/
def rightCopy (blob : Bytes) : Res Bytes :=
  if 32 < blob.length then .panic else .ok (goCopyAt (List.replicate 32 0) (32 - blob.length) blob)

/-- `byte(rule >> (i * 8))`. -/
def intByte (rule : Int) (i : Nat) : UInt8 := UInt8.ofNat ((rule / 256 ^ i) % 256).toNat

/-- `genIntType` (`/repo/abi/topics.go:100-111`). -/
def genIntType (rule : Int) (size : Nat) : Bytes :=
  (List.range size).foldl (fun topic i => topic.set (32 - i - 1) (intByte rule i))
    (if rule < 0 then List.replicate 32 255 else List.replicate 32 0)

/-- One topic (`/repo/abi/topics.go:34-94`). -/
def makeTopic (H : Bytes → Bytes) : Rule → Res Bytes
  | .hash b => .ok (goCopy (List.replicate 32 0) b)
  | .address b => .ok (goCopyAt (List.replicate 32 0) 12 b)
  | .big i => rightCopy (natBytes i.natAbs)
  | .bool b => .ok (if b then (List.replicate 32 0).set 31 1 else List.replicate 32 0)
  | .int size i => .ok (goCopy (List.replicate 32 0) (genIntType i size))
  | .uint i => rightCopy (natBytes i)
  | .data b => .ok (goCopy (List.replicate 32 0) (H b))
  | .array b => if 32 < b.length then .panic else .ok (goCopy (List.replicate 32 0) b)

/-- The loops of `MakeTopics` (`/repo/abi/topics.go:30-98`). -/
def mapRes {α β : Type} (f : α → Res β) : List α → Res (List β)
  | [] => .ok []
  | x :: l => Res.bind (f x) fun y => Res.bind (mapRes f l) fun ys => .ok (y :: ys)

def makeTopics (H : Bytes → Bytes) (query : List (List Rule)) : Res (List (List Bytes)) := mapRes (mapRes (makeTopic H)) query

/-- An argument: whether it is indexed, and its type. -/
abbrev Arg := Bool × Ty

/-- The value read from one topic (`/repo/abi/topics.go:145-166`). -/
def parseTopic : Ty → Bytes → Res Val
  | .tuple _, _ => .err
  | .string, w => .ok (.bytes w)
  | .bytes, w => .ok (.bytes w)
  | .slice _, w => .ok (.bytes w)
  | .array _ _, w => .ok (.bytes w)
  | .function, w => if beNat (w.take 8) ≠ 0 then .err else .ok (.bytes ((w.drop 8).take 24))
  | .uint n, w => toGoType (.uint n) 0 w
  | .int n, w => toGoType (.int n) 0 w
  | .bool, w => toGoType .bool 0 w
  | .address, w => toGoType .address 0 w
  | .fixed n, w => toGoType (.fixed n) 0 w

/-- The loop over the fields (`/repo/abi/topics.go:141-171`). -/
def parseLoop : List Arg → List Bytes → Res (List Val)
  | (indexed, t) :: args, w :: ws =>
    if !indexed then .err
    else Res.bind (parseTopic t w) fun v => Res.bind (parseLoop args ws) fun vs => .ok (v :: vs)
  | _, _ => .ok []

/-- `parseTopicWithSetter` (`/repo/abi/topics.go:135-172`): the values given to the setter, in order. -/
def parseTopics (args : List Arg) (topics : List Bytes) : Res (List Val) :=
  if args.length ≠ topics.length then .err else parseLoop args topics

/-! ### Integers -/

attribute [local irreducible] word

theorem intByte_eq (r : Int) (i : Nat) (hi : i < 32) :
    intByte r i = UInt8.ofNat ((r % 256 ^ 32).toNat / 256 ^ i % 256) := by
  unfold intByte
  congr 1
  obtain ⟨d, hd⟩ : ∃ d, 32 = i + 1 + d := ⟨31 - i, by omega⟩
  have e : (256 : Int) ^ 32 = 256 ^ i * (256 * 256 ^ d) := by
    rw [hd, Int.pow_add, Int.pow_succ, Int.mul_assoc]
  generalize hP : (256 : Int) ^ 32 = P at *
  have hpos : (0 : Int) < 256 ^ i := by positivity
  have hq : 0 < P := by rw [e]; positivity
  have h1 : r / 256 ^ i % 256 = (r % P) / 256 ^ i % 256 := by
    conv_lhs => rw [← Int.mul_ediv_add_emod r P]
    rw [show P * (r / P) + r % P = r % P + 256 ^ i * (256 * (256 ^ d * (r / P))) by rw [e]; ring,
      Int.add_mul_ediv_left _ _ (by omega), Int.add_mul_emod_self_left]
  rw [h1]
  obtain ⟨n, hn⟩ := Int.eq_ofNat_of_zero_le (Int.emod_nonneg r (show P ≠ 0 by omega))
  rw [hn]
  norm_cast

theorem word_pow (r : Int) : word r = natBE 32 (r % 256 ^ 32).toNat := by
  unfold word
  congr 1

theorem natBE_ones (m : Nat) : natBE m (256 ^ m - 1) = List.replicate m 255 := by
  induction m with
  | zero => rfl
  | succ m ih =>
    have h : 256 ^ (m + 1) - 1 = 256 * (256 ^ m - 1) + 255 := by
      have : 0 < 256 ^ m := Nat.pow_pos (by omega)
      rw [Nat.pow_succ]; omega
    rw [natBE, h, List.replicate_succ']
    congr 1
    · rw [← ih]; congr 1; omega
    · congr 1
      rw [Nat.mul_add_mod]
      rfl

theorem genIntType_loop (r : Int) (f : UInt8) (k : Nat) (hk : k ≤ 32) :
    (List.range k).foldl (fun topic i => topic.set (32 - i - 1) (intByte r i)) (List.replicate 32 f) =
      List.replicate (32 - k) f ++ natBE k (r % 256 ^ 32).toNat := by
  induction k with
  | zero => simp [natBE]
  | succ k ih =>
    rw [List.range_succ, List.foldl_append, ih (by omega)]
    simp only [List.foldl_cons, List.foldl_nil]
    rw [intByte_eq r k (by omega)]
    generalize (r % 256 ^ 32).toNat = Y
    rw [Nat.add_comm k 1, BigMath.natBE_add]
    rw [show 32 - k - 1 = 32 - (1 + k) by omega]
    obtain ⟨m, hm⟩ : ∃ m, 32 - k = m + 1 := ⟨32 - k - 1, by omega⟩
    rw [hm, show 32 - (1 + k) = m by omega, List.replicate_succ', List.append_assoc, List.set_append_right _ _ (by simp)]
    simp [natBE]

/-- Sign extension: filling with zeros or ones. -/
theorem sign_fill (r : Int) (k : Nat) (hk : k ≤ 32) (h1 : -256 ^ k ≤ r) (h2 : r < 256 ^ k) :
    natBE (32 - k) ((r % 256 ^ 32).toNat / 256 ^ k) = List.replicate (32 - k) (if r < 0 then 255 else 0) := by
  obtain ⟨m, hm⟩ : ∃ m, 32 = m + k := ⟨32 - k, by omega⟩
  rw [show 32 - k = m by omega, hm]
  have hpos : 0 < 256 ^ k := Nat.pow_pos (n := k) (show 0 < 256 by omega)
  have hpm : 0 < 256 ^ m := Nat.pow_pos (n := m) (show 0 < 256 by omega)
  have e : ((256 : Int) ^ k) = ((256 ^ k : Nat) : Int) := by norm_cast
  have e2 : ((256 : Int) ^ (m + k)) = ((256 ^ m * 256 ^ k : Nat) : Int) := by rw [Int.pow_add]; norm_cast
  rw [e] at h1 h2
  rw [e2]
  generalize 256 ^ k = K at *
  by_cases h : r < 0
  · rw [if_pos h, ← natBE_ones]
    congr 1
    obtain ⟨a, rfl⟩ : ∃ a : Nat, r = -(a : Int) := ⟨r.natAbs, by omega⟩
    generalize 256 ^ m = M at *
    obtain ⟨M', rfl⟩ : ∃ M', M = M' + 1 := ⟨M - 1, by omega⟩
    have hmul : (M' + 1) * K = M' * K + K := by rw [Nat.succ_mul]
    rw [hmul]
    have : (-(a : Int)) % ((M' * K + K : Nat) : Int) = ((M' * K + K - a : Nat) : Int) := by
      rw [← Int.add_emod_right, Int.emod_eq_of_lt (by omega) (by omega)]
      omega
    rw [this, Int.toNat_natCast, Nat.add_sub_cancel]
    exact Nat.div_eq_of_lt_le (by omega) (by rw [Nat.succ_mul]; omega)
  · rw [if_neg h, ← BigMath.natBE_zero]
    congr 1
    obtain ⟨a, rfl⟩ : ∃ a : Nat, r = (a : Int) := ⟨r.natAbs, by omega⟩
    have hle : K ≤ 256 ^ m * K := Nat.le_mul_of_pos_left _ hpm
    have ha : a < K := by omega
    rw [Int.emod_eq_of_lt (by omega) (by omega), Int.toNat_natCast, Nat.div_eq_of_lt ha]

/-- **C77.**  The topic of a signed integer is its two's complement form. -/
theorem C77_genInt (r : Int) (k : Nat) (hk : k ≤ 32) (h1 : -256 ^ k ≤ r) (h2 : r < 256 ^ k) : genIntType r k = word r := by
  unfold genIntType
  have e := genIntType_loop r (if r < 0 then 255 else 0) k hk
  rw [← sign_fill r k hk h1 h2, ← BigMath.natBE_add, Nat.sub_add_cancel hk, ← word_pow] at e
  rw [← e]
  congr 1
  split <;> rfl

theorem rightCopy_eq (n : Nat) (h : n < 256 ^ 32) : rightCopy (natBytes n) = .ok (word n) := by
  have hl := BigMath.natBytes_len_le n 32 h
  unfold rightCopy
  rw [if_neg (by omega), goCopyAt_of_fits _ _ _ (by rw [List.length_replicate]; omega)]
  congr 1
  rw [word_pow, Int.emod_eq_of_lt (by omega) (by exact_mod_cast h), Int.toNat_natCast]
  apply beNat_inj
  · simp [natBE_length]; omega
  · rw [beNat_natBE_of_lt h, show 32 - (natBytes n).length + (natBytes n).length = 32 by omega]
    have hz : ∀ m, beNat (List.replicate m 0) = 0 := fun m => by rw [← BigMath.natBE_zero, beNat_natBE]; simp
    rw [beNat_append, beNat_append, beNat_natBytes, List.take_replicate, hz, List.drop_of_length_le (by simp)]
    simp [beNat]

theorem goCopy_full (b : Bytes) (h : b.length = 32) : goCopy (List.replicate 32 0) b = b := by
  unfold goCopy
  simp [h]
  exact List.take_of_length_le (by omega)

/-- **C77.**  Topics of integers: two's complement words for every signed integer of up to 64 bits, every unsigned integer of up to
64 bits, and every `*big.Int` between 0 and 2^256. -/
theorem C77_topic_partial (H : Bytes → Bytes) :
    (∀ size i, size ∈ [1, 2, 4, 8] → -2 ^ (8 * size - 1) ≤ i → i < 2 ^ (8 * size - 1) → makeTopic H (.int size i) = .ok (word i)) ∧
    (∀ n : Nat, n < 2 ^ 64 → makeTopic H (.uint n) = .ok (word n)) ∧
    (∀ i : Int, 0 ≤ i → i < 2 ^ 256 → makeTopic H (.big i) = .ok (word i)) := by
  refine ⟨?_, ?_, ?_⟩
  · intro size i hs h1 h2
    have hk : size ≤ 32 ∧ 1 ≤ size := by simp at hs; omega
    have e : (256 : Int) ^ size = 2 ^ (8 * size - 1) * 2 := by
      rw [← Int.pow_succ, Nat.succ_eq_add_one, show 8 * size - 1 + 1 = 8 * size by omega, Int.pow_mul]; rfl
    have hp : (0 : Int) < 2 ^ (8 * size - 1) := two_pow_pos _
    rw [makeTopic, C77_genInt i size hk.1 (by rw [e]; omega) (by rw [e]; omega), goCopy_full _ (word_length _)]
  · intro n h
    rw [makeTopic, rightCopy_eq n (Nat.lt_trans h (by decide +kernel))]
  · intro i h0 h1
    obtain ⟨n, rfl⟩ := Int.eq_ofNat_of_zero_le h0
    have : n < 256 ^ 32 := by
      have e : (256 : Nat) ^ 32 = 2 ^ 256 := by decide +kernel
      rw [e]; exact_mod_cast h1
    rw [makeTopic, Int.natAbs_natCast, rightCopy_eq n this]

/-- **C77.**  Parsing the word of an integer of the type gives the integer. -/
theorem C77_parse (bits : Nat) (i : Int) :
    (0 ≤ i → i < 2 ^ width bits → parseTopics [(true, .uint bits)] [word i] = .ok [.num i]) ∧
    (-2 ^ (width bits - 1) ≤ i → i < 2 ^ (width bits - 1) → parseTopics [(true, .int bits)] [word i] = .ok [.num i]) := by
  have hslice : sliceOf (word i) 0 (0 + 32) = .ok (word i) := by
    unfold sliceOf; rw [word_length, if_pos (by omega)]
    congr 1
    rw [List.drop_zero, List.take_of_length_le (by rw [word_length])]
  constructor <;> intro h0 h1
  · simp [parseTopics, parseLoop, parseTopic, toGoType, word_length, hslice, Res.bind, readUint_word bits i h0 h1]
  · simp [parseTopics, parseLoop, parseTopic, toGoType, word_length, hslice, Res.bind, readInt_word bits i h0 h1]

example (H : Bytes → Bytes) : makeTopic H (.int 2 (-300)) = .ok (List.replicate 30 255 ++ [254, 212]) := by
  show Res.ok _ = Res.ok _
  decide +kernel

/-- **C77.**  A negative `*big.Int` has the topic of its absolute value; a `*big.Int` of more than 256 bits panics. -/
theorem C77_big_refuted (H : Bytes → Bytes) :
    makeTopic H (.big (-1)) = .ok (word 1) ∧ makeTopic H (.big (-1)) = makeTopic H (.big 1) ∧ makeTopic H (.big (2 ^ 256)) = .panic := by
  refine ⟨?_, rfl, ?_⟩
  · exact rightCopy_eq 1 (by decide +kernel)
  · show rightCopy _ = _
    decide +kernel

/-! ### Round trip -/

/-- The Go value of an argument of a type, as an element of a filter. -/
def ruleOf : Ty → Val → Option Rule
  | .uint n, .num i => some (if n = 8 ∨ n = 16 ∨ n = 32 ∨ n = 64 then .uint i.toNat else .big i)
  | .int n, .num i => some (if n = 8 ∨ n = 16 ∨ n = 32 ∨ n = 64 then .int (n / 8) i else .big i)
  | .bool, .bool b => some (.bool b)
  | .address, .bytes b => some (.address b)
  | .fixed _, .bytes b => some (.array b)
  | .function, .bytes b => some (.array b)
  | _, _ => none

/-- Not a negative `*big.Int`. -/
def Rule.plain : Rule → Prop
  | .big i => 0 ≤ i
  | _ => True

theorem topic_enc (H : Bytes → Bytes) (t : Ty) (v : Val) (r : Rule) (hw : Wt t v) (hs : t.Sane) (hr : ruleOf t v = some r)
    (hp : r.plain) : makeTopic H r = .ok (enc t v) := by
  obtain ⟨c1, c2, c3⟩ := C77_topic_partial H
  cases t <;> rw [Wt] at hw <;> obtain ⟨x, rfl, hx⟩ := hw <;> try cases hr
  · next n => 
    rw [width] at hx
    by_cases hn : n = 8 ∨ n = 16 ∨ n = 32 ∨ n = 64
    · rw [if_pos hn] at *
      have : (2 : Int) ^ n ≤ 2 ^ 64 := by rcases hn with rfl | rfl | rfl | rfl <;> decide +kernel
      rw [c2 x.toNat (by omega), Int.toNat_of_nonneg hx.1]
      rfl
    · rw [if_neg hn] at *
      exact c3 x hx.1 hx.2
  · next n =>
    rw [width] at hx
    by_cases hn : n = 8 ∨ n = 16 ∨ n = 32 ∨ n = 64
    · rw [if_pos hn] at *
      have e : 8 * (n / 8) = n := by omega
      exact c1 (n / 8) x (by simp; omega) (by rw [e]; exact hx.1) (by rw [e]; exact hx.2)
    · rw [if_neg hn] at *
      refine c3 x hp (lt_trans hx.2 ?_)
      decide +kernel
  · rw [makeTopic]
    cases x <;> (simp only [enc, Val.truth]; decide +kernel)
  · rw [makeTopic, goCopyAt_of_fits _ _ _ (by rw [List.length_replicate]; omega)]
    simp only [enc, Val.raw, hx]
    simp
  · rw [Ty.Sane] at hs
    rw [makeTopic, if_neg (by omega)]
    simp only [enc, Val.raw, goCopy, List.length_replicate, List.drop_replicate]
    rw [List.take_of_length_le (by omega)]
  · rw [makeTopic, if_neg (by omega)]
    simp only [enc, Val.raw, goCopy, List.length_replicate, List.drop_replicate]
    rw [List.take_of_length_le (by omega)]

/-- The types whose topic is the value itself, as far as the code reads them back. -/
def Ty.inTopic : Ty → Bool
  | .uint _ => true
  | .int _ => true
  | .bool => true
  | .address => true
  | .fixed _ => true
  | _ => false

theorem parse_enc (t : Ty) (v : Val) (hw : Wt t v) (hs : t.Sane) (ht : t.inTopic = true) : parseTopic t (enc t v) = .ok v := by
  have key : t.dyn = false → t.Full → toGoType t 0 (enc t v) = .ok v := fun hd hf => by
    have hl : (enc t v).length < 2 ^ 63 := by
      rw [enc_static t v hw hs hd]
      cases t <;> simp [Ty.inTopic] at ht <;> simp [getTypeSize]
    refine toGoType_ok t v _ 0 hw hs hf hl ?_
    simp [Holds, hd]
  cases t <;> simp only [Ty.inTopic, Bool.false_eq_true] at ht <;> exact key rfl trivial

/-- **C109.**  The topic of a value type is its ABI word, and parsing the topics gives the values back: booleans, addresses, byte
arrays, integers (no negative `*big.Int`). -/
theorem C109_roundtrip_partial (H : Bytes → Bytes) (items : List (Ty × Val × Rule))
    (h : ∀ it ∈ items, Wt it.1 it.2.1 ∧ it.1.Sane ∧ it.1.inTopic = true ∧ ruleOf it.1 it.2.1 = some it.2.2 ∧ it.2.2.plain) :
    makeTopics H (items.map fun it => [it.2.2]) = .ok (items.map fun it => [enc it.1 it.2.1]) ∧
      parseTopics (items.map fun it => (true, it.1)) (items.map fun it => enc it.1 it.2.1) = .ok (items.map fun it => it.2.1) := by
  constructor
  · unfold makeTopics
    induction items with
    | nil => rfl
    | cons it items ih =>
      obtain ⟨h1, h2, h3, h4, h5⟩ := h it (by simp)
      rw [List.map_cons, mapRes, ih (fun x hx => h x (List.mem_cons_of_mem _ hx)), mapRes, topic_enc H _ _ _ h1 h2 h4 h5]
      rfl
  · unfold parseTopics
    rw [if_neg (by simp)]
    induction items with
    | nil => rfl
    | cons it items ih =>
      obtain ⟨h1, h2, h3, h4, h5⟩ := h it (by simp)
      simp only [List.map_cons]
      rw [parseLoop, ih (fun x hx => h x (List.mem_cons_of_mem _ hx)), parse_enc _ _ h1 h2 h3]
      rfl

/-- **C109.**  Strings and byte strings are represented by their digest, which is what parsing returns. -/
theorem C109_digest (H : Bytes → Bytes) (hH : ∀ b, (H b).length = 32) (b : Bytes) :
    makeTopic H (.data b) = .ok (H b) ∧ parseTopics [(true, .string)] [H b] = .ok [.bytes (H b)] ∧
      parseTopics [(true, .bytes)] [H b] = .ok [.bytes (H b)] := by
  refine ⟨?_, rfl, rfl⟩
  rw [makeTopic, goCopy_full _ (hH b)]

/-- **C109.**  Parsing reports an error for an argument that is not indexed and for a missing or surplus topic. -/
theorem C109_mismatch (args : List Arg) (topics : List Bytes) (vs : List Val) (h : parseTopics args topics = .ok vs) :
    args.length = topics.length ∧ vs.length = args.length ∧ ∀ a ∈ args, a.1 = true := by
  unfold parseTopics at h
  split at h
  · cases h
  next hl =>
  simp only [ne_eq, not_not] at hl
  refine ⟨hl, ?_⟩
  induction args generalizing topics vs with
  | nil =>
    rw [parseLoop] at h
    · injection h with h; subst h; simp
    · simp
  | cons a args ih =>
    cases topics with
    | nil => simp at hl
    | cons w ws =>
      obtain ⟨i, t⟩ := a
      rw [parseLoop] at h
      cases i
      · cases h
      · simp only [Bool.not_true, Bool.false_eq_true, if_false] at h
        cases hp : parseTopic t w with
        | err => rw [hp] at h; cases h
        | panic => rw [hp] at h; cases h
        | ok v =>
          rw [hp] at h
          cases hq : parseLoop args ws with
          | err => rw [hq] at h; cases h
          | panic => rw [hq] at h; cases h
          | ok l =>
            rw [hq] at h
            injection h with h
            subst h
            obtain ⟨g1, g2⟩ := ih ws l hq (by simpa using hl)
            simp [g1]
            exact fun x hx => absurd (g2 _ hx) (by simp)

/-- **C109.**  Function values: the topic has the value on the left, parsing expects it on the right. -/
theorem C109_function_refuted (H : Bytes → Bytes) :
    makeTopic H (.array (List.replicate 24 7)) = .ok (List.replicate 24 7 ++ List.replicate 8 0) ∧
      parseTopics [(true, .function)] [List.replicate 24 7 ++ List.replicate 8 0] = .err := by
  refine ⟨?_, err_of (by decide +kernel)⟩
  rw [makeTopic]
  decide +kernel

/-- **C109, functions.**  A topic is read as a function value exactly if its first eight bytes are zero; the value is the other
24 bytes. -/
theorem C109_function_partial (p f : Bytes) (hp : p.length = 8) (hf : f.length = 24) :
    parseTopics [(true, .function)] [p ++ f] = if p = List.replicate 8 0 then .ok [.bytes f] else .err := by
  have e : beNat p = 0 ↔ p = List.replicate 8 0 :=
    ⟨fun h => beNat_inj (by simp [hp]) (by rw [h]; decide +kernel), fun h => by rw [h]; decide +kernel⟩
  have ht : (p ++ f).take 8 = p := by rw [List.take_append_of_le_length (by omega), ← hp, List.take_length]
  have hd : (p ++ f).drop 8 = f := by rw [← hp, List.drop_left]
  by_cases h : p = List.replicate 8 0
  · have hft : f.take 24 = f := by rw [← hf, List.take_length]
    rw [if_pos h]
    simp [parseTopics, parseLoop, parseTopic, ht, hd, e.2 h, Res.bind, hft]
  · rw [if_neg h]
    simp [parseTopics, parseLoop, parseTopic, ht, mt e.1 h, Res.bind]

example : parseTopics [(true, .function)] [List.replicate 8 0 ++ List.replicate 24 7] = .ok [.bytes (List.replicate 24 7)] := by
  rw [C109_function_partial _ _ (by simp) (by simp)]; simp

example (H : Bytes → Bytes) : makeTopics H [[.bool true], [.int 1 (-2), .uint 5]] =
    .ok [[List.replicate 31 0 ++ [1]], [List.replicate 31 255 ++ [254], List.replicate 31 0 ++ [5]]] := by
  simp only [makeTopics, mapRes, makeTopic]
  decide +kernel

/-! ### Events -/

/-- The loop of `EventString` (`/repo/abi/abi.go:457-476`): the values printed.  `i` is the position of the argument, `indexes` the
number of indexed arguments before it. -/
def eventStringLoop (topics : List Bytes) (values : List Val) : List Arg → Nat → Nat → Res (List Val)
  | [], _, _ => .ok []
  | (true, t) :: args, i, indexes =>
    match topics[1 + i]? with
    | none => .err
    | some w => Res.bind (toGoType t 0 w) fun v =>
      Res.bind (eventStringLoop topics values args (i + 1) (indexes + 1)) fun vs => .ok (v :: vs)
  | (false, _) :: args, i, indexes =>
    match values[i - indexes]? with
    | none => .panic
    | some v => Res.bind (eventStringLoop topics values args (i + 1) indexes) fun vs => .ok (v :: vs)

/-- `args.NonIndexed()` (`/repo/abi/argument.go:63-72`). -/
def nonIndexed (args : List Arg) : List Ty := (args.filter fun a => !a.1).map (·.2)

/-- The values of the arguments that are not indexed (`/repo/abi/abi.go:443-452`, `/repo/abi/thinkium.go:85-94`). -/
def dataValues (args : List Arg) (data : Bytes) : Res (List Val) :=
  Res.bind (if data.length > 0 then unpackArgs (nonIndexed args) data else .ok []) fun values =>
    if (nonIndexed args).length ≠ values.length then .err else .ok values

/-- `EventString` for a known event (`/repo/abi/abi.go:433-479`): the values printed, in order. -/
def eventString (args : List Arg) (topics : List Bytes) (data : Bytes) : Res (List Val) :=
  if topics.length = 0 then .err
  else Res.bind (dataValues args data) fun values => eventStringLoop topics values args 0 0

/-- The loop of `UnpackEvent` (`/repo/abi/thinkium.go:98-113`): it ends at the first argument that is not indexed. -/
def unpackEventLoop (topics : List Bytes) : List Arg → Nat → Res (List Val)
  | (true, t) :: args, i =>
    match topics[1 + i]? with
    | none => .err
    | some w => Res.bind (toGoType t 0 w) fun v => Res.bind (unpackEventLoop topics args (i + 1)) fun vs => .ok (v :: vs)
  | _, _ => .ok []

/-- `CopyEvent` (`/repo/abi/thinkium.go:19-73`) into a struct with a field for every argument, or a slice of that length: the values
in the order of the arguments. -/
def copyEvent (args : List Arg) (values : List Val) : Res (List Val) :=
  if values.length = 0 then (if (nonIndexed args).length ≠ 0 then .err else .ok [])
  else if args.length > 1 then (if values.length < args.length then .panic else .ok (values.take args.length))
  else .ok (values.take 1)

/-- `UnpackEvent` for a known event (`/repo/abi/thinkium.go:75-116`). -/
def unpackEvent (args : List Arg) (topics : List Bytes) (data : Bytes) : Res (List Val) :=
  if topics.length = 0 then .err
  else Res.bind (dataValues args data) fun values =>
    Res.bind (unpackEventLoop topics args 0) fun ret => copyEvent args (ret ++ values)

/-- What an event holds: every indexed argument takes the next topic, every other one the next value of the data. -/
def eventSpec : List Arg → List Bytes → List Val → Option (List Val)
  | [], _, _ => some []
  | (true, t) :: args, w :: ws, vs =>
    match toGoType t 0 w, eventSpec args ws vs with
    | .ok v, some l => some (v :: l)
    | _, _ => none
  | (false, _) :: args, ws, v :: vs => (eventSpec args ws vs).map (v :: ·)
  | _, _, _ => none

theorem stringLoop_data (topics : List Bytes) (values : List Val) (ts : List Ty) (i indexes : Nat) (l : List Val) (h : indexes ≤ i)
    (hs : eventSpec (ts.map fun t => (false, t)) [] (values.drop (i - indexes)) = some l) :
    eventStringLoop topics values (ts.map fun t => (false, t)) i indexes = .ok l := by
  induction ts generalizing i l with
  | nil =>
    simp only [List.map_nil, eventSpec, Option.some.injEq] at hs
    subst hs
    rfl
  | cons t ts ih =>
    rw [List.map_cons] at *
    cases hv : values[i - indexes]? with
    | none =>
      rw [List.drop_of_length_le (by simpa using hv)] at hs
      simp [eventSpec] at hs
    | some v =>
      have hlt := (List.getElem?_eq_some_iff.mp hv)
      obtain ⟨hlt, he⟩ := hlt
      rw [← List.getElem_cons_drop hlt, he, eventSpec] at hs
      simp only [Option.map_eq_some_iff] at hs
      obtain ⟨l', h1, rfl⟩ := hs
      rw [eventStringLoop, hv]
      simp only
      rw [ih (i + 1) l' (by omega) (by rw [show i + 1 - indexes = i - indexes + 1 by omega]; exact h1)]
      rfl

theorem spec_data (ts : List Ty) (ws : List Bytes) (vs : List Val) : eventSpec (ts.map fun t => (false, t)) ws vs =
    eventSpec (ts.map fun t => (false, t)) [] vs := by
  induction ts generalizing vs with
  | nil => simp [eventSpec]
  | cons t ts ih =>
    rw [List.map_cons]
    cases vs with
    | nil => simp [eventSpec]
    | cons v vs => rw [eventSpec, eventSpec, ih]

theorem spec_data_take (ts : List Ty) (ws : List Bytes) (vs l : List Val) (h : eventSpec (ts.map fun t => (false, t)) ws vs = some l) :
    l = vs.take ts.length := by
  induction ts generalizing vs l with
  | nil => simp [eventSpec] at h; simp [← h]
  | cons t ts ih =>
    rw [List.map_cons] at h
    cases vs with
    | nil => simp [eventSpec] at h
    | cons v vs =>
      rw [eventSpec] at h
      simp only [Option.map_eq_some_iff] at h
      obtain ⟨l', h1, rfl⟩ := h
      rw [ih vs l' h1]
      rfl

theorem stringLoop_front (topics : List Bytes) (values : List Val) (is ts : List Ty) (i : Nat) (l : List Val)
    (hs : eventSpec ((is.map fun t => (true, t)) ++ ts.map fun t => (false, t)) (topics.drop (1 + i)) values = some l) :
    eventStringLoop topics values ((is.map fun t => (true, t)) ++ ts.map fun t => (false, t)) i i = .ok l := by
  induction is generalizing i l with
  | nil =>
    rw [List.map_nil, List.nil_append] at *
    rw [spec_data] at hs
    exact stringLoop_data topics values ts i i l (Nat.le_refl _) (by rw [Nat.sub_self]; exact hs)
  | cons t is ih =>
    rw [List.map_cons, List.cons_append] at *
    cases hv : topics[1 + i]? with
    | none =>
      rw [List.drop_of_length_le (by simpa using hv)] at hs
      simp [eventSpec] at hs
    | some w =>
      obtain ⟨hlt, he⟩ := List.getElem?_eq_some_iff.mp hv
      rw [← List.getElem_cons_drop hlt, he, eventSpec] at hs
      rw [eventStringLoop, hv]
      simp only
      cases hd : toGoType t 0 w with
      | err => rw [hd] at hs; cases hs
      | panic => rw [hd] at hs; cases hs
      | ok v =>
        cases hr : eventSpec ((is.map fun t => (true, t)) ++ ts.map fun t => (false, t)) (topics.drop (1 + i + 1)) values with
        | none => rw [hd, hr] at hs; cases hs
        | some l' =>
          rw [hd, hr] at hs
          injection hs with hs
          subst hs
          rw [ih (i + 1) l' hr]
          rfl

theorem unpackLoop_front (topics : List Bytes) (values : List Val) (is ts : List Ty) (i : Nat) (l : List Val)
    (hs : eventSpec ((is.map fun t => (true, t)) ++ ts.map fun t => (false, t)) (topics.drop (1 + i)) values = some l) :
    ∃ k, unpackEventLoop topics ((is.map fun t => (true, t)) ++ ts.map fun t => (false, t)) i = .ok k ∧
      k ++ values.take ts.length = l ∧ k.length = is.length := by
  induction is generalizing i l with
  | nil =>
    rw [List.map_nil, List.nil_append] at *
    refine ⟨[], ?_, ?_, rfl⟩
    · cases ts <;> rfl
    · exact (spec_data_take ts _ values l hs).symm
  | cons t is ih =>
    rw [List.map_cons, List.cons_append] at *
    cases hv : topics[1 + i]? with
    | none =>
      rw [List.drop_of_length_le (by simpa using hv)] at hs
      simp [eventSpec] at hs
    | some w =>
      obtain ⟨hlt, he⟩ := List.getElem?_eq_some_iff.mp hv
      rw [← List.getElem_cons_drop hlt, he, eventSpec] at hs
      rw [unpackEventLoop, hv]
      simp only
      cases hd : toGoType t 0 w with
      | err => rw [hd] at hs; cases hs
      | panic => rw [hd] at hs; cases hs
      | ok v =>
        cases hr : eventSpec ((is.map fun t => (true, t)) ++ ts.map fun t => (false, t)) (topics.drop (1 + i + 1)) values with
        | none => rw [hd, hr] at hs; cases hs
        | some l' =>
          rw [hd, hr] at hs
          injection hs with hs
          subst hs
          obtain ⟨k, h1, h2, h3⟩ := ih (i + 1) l' hr
          exact ⟨v :: k, by rw [h1]; rfl, by simp [h2], by simp [h3]⟩

theorem nonIndexed_front (is ts : List Ty) : nonIndexed ((is.map fun t => (true, t)) ++ ts.map fun t => (false, t)) = ts := by
  unfold nonIndexed
  rw [List.filter_append, List.filter_eq_nil_iff.mpr (by simp), List.filter_eq_self.mpr (by simp)]
  simp

/-- **C78.**  If the indexed arguments come first, every one is decoded from its own topic and the others from the data. -/
theorem C78_indexedFirst_partial (is ts : List Ty) (sig : Bytes) (topics : List Bytes) (data : Bytes) (values l : List Val)
    (hv : dataValues ((is.map fun t => (true, t)) ++ ts.map fun t => (false, t)) data = .ok values)
    (hs : eventSpec ((is.map fun t => (true, t)) ++ ts.map fun t => (false, t)) topics values = some l) :
    eventString ((is.map fun t => (true, t)) ++ ts.map fun t => (false, t)) (sig :: topics) data = .ok l ∧
      unpackEvent ((is.map fun t => (true, t)) ++ ts.map fun t => (false, t)) (sig :: topics) data = .ok l := by
  constructor
  · unfold eventString
    rw [if_neg (by simp), hv, Res.bind]
    exact stringLoop_front (sig :: topics) values is ts 0 l hs
  · unfold unpackEvent
    rw [if_neg (by simp), hv, Res.bind]
    obtain ⟨k, h1, h2, h3⟩ := unpackLoop_front (sig :: topics) values is ts 0 l hs
    rw [h1, Res.bind]
    have hlen : values.length = ts.length := by
      unfold dataValues at hv
      rw [nonIndexed_front] at hv
      cases hb : (if data.length > 0 then unpackArgs ts data else .ok []) with
      | err => rw [hb] at hv; cases hv
      | panic => rw [hb] at hv; cases hv
      | ok w =>
        rw [hb, Res.bind] at hv
        split at hv
        · cases hv
        · next h => injection hv with hv; subst hv; simp only [ne_eq, not_not] at h; exact h.symm
    rw [List.take_of_length_le (by omega)] at h2
    have hl : l.length = is.length + ts.length := by rw [← h2, List.length_append, h3, hlen]
    unfold copyEvent
    rw [h2, nonIndexed_front]
    split
    · next h0 =>
      rw [if_neg (by omega)]
      cases l with
      | nil => rfl
      | cons a l => simp at h0
    · split
      · rw [if_neg (by simp; omega)]
        congr 1
        exact List.take_of_length_le (by simp; omega)
      · next h0 h1 =>
        congr 1
        simp at h1
        exact List.take_of_length_le (by omega)

/-- The number of indexed arguments. -/
def indexedCount (args : List Arg) : Nat := (args.filter (·.1)).length

theorem stringLoop_bound (topics : List Bytes) (values : List Val) (args : List Arg) (i k : Nat) (l : List Val)
    (h : eventStringLoop topics values args i k = .ok l) (j : Nat) (t : Ty) (hj : args[j]? = some (true, t)) :
    1 + i + j < topics.length := by
  induction args generalizing i k l j with
  | nil => simp at hj
  | cons a args ih =>
    obtain ⟨b, t'⟩ := a
    cases b
    · rw [eventStringLoop] at h
      cases hv : values[i - k]? with
      | none => rw [hv] at h; cases h
      | some v =>
        rw [hv] at h
        simp only at h
        cases hr : eventStringLoop topics values args (i + 1) k with
        | err => rw [hr] at h; cases h
        | panic => rw [hr] at h; cases h
        | ok l' =>
          cases j with
          | zero => simp at hj
          | succ j => have := ih _ _ _ hr j (by simpa using hj); omega
    · rw [eventStringLoop] at h
      cases hv : topics[1 + i]? with
      | none => rw [hv] at h; cases h
      | some w =>
        rw [hv] at h
        simp only at h
        have hlt := (List.getElem?_eq_some_iff.mp hv).1
        cases hd : toGoType t' 0 w with
        | err => rw [hd] at h; cases h
        | panic => rw [hd] at h; cases h
        | ok v =>
          rw [hd, Res.bind] at h
          cases hr : eventStringLoop topics values args (i + 1) (k + 1) with
          | err => rw [hr] at h; cases h
          | panic => rw [hr] at h; cases h
          | ok l' =>
            cases j with
            | zero => omega
            | succ j => have := ih _ _ _ hr j (by simpa using hj); omega

theorem last_indexed (n : Nat) : ∀ (pre post : List Arg) (t : Ty), post.length ≤ n → (∃ a ∈ pre, a.1 = false) →
    ∃ j t', (pre ++ (true, t) :: post)[j]? = some (true, t') ∧ indexedCount (pre ++ (true, t) :: post) ≤ j := by
  induction n with
  | zero =>
    intro pre post t hn hp
    have : post = [] := by simpa using hn
    subst this
    refine ⟨pre.length, t, by simp, ?_⟩
    unfold indexedCount
    have : (pre.filter (·.1)).length < pre.length := by
      obtain ⟨a, ha, hb⟩ := hp
      exact List.length_filter_lt_length_iff_exists.mpr ⟨a, ha, by simp [hb]⟩
    simp; omega
  | succ n ih =>
    intro pre post t hn hp
    cases post with
    | nil => exact ih pre [] t (by simp) hp
    | cons a post =>
      obtain ⟨b, t2⟩ := a
      cases b
      · obtain ⟨j, t', h1, h2⟩ := ih pre post t (by simpa using hn) hp
        by_cases hj : j ≤ pre.length
        · refine ⟨j, t', ?_, ?_⟩
          · rw [← h1]
            rcases Nat.lt_or_eq_of_le hj with h | h
            · rw [List.getElem?_append_left h, List.getElem?_append_left h]
            · subst h; simp
          · unfold indexedCount at *
            simpa using h2
        · refine ⟨j + 1, t', ?_, ?_⟩
          · rw [← h1, List.getElem?_append_right (by omega), List.getElem?_append_right (by omega)]
            obtain ⟨m, hm⟩ : ∃ m, j - pre.length = m + 1 := ⟨j - pre.length - 1, by omega⟩
            rw [hm, show j + 1 - pre.length = m + 1 + 1 by omega]
            simp
          · unfold indexedCount at *
            simp at h2 ⊢
            omega
      · obtain ⟨j, t', h1, h2⟩ := ih (pre ++ [(true, t)]) post t2 (by simpa using hn)
          (by obtain ⟨a, ha, hb⟩ := hp; exact ⟨a, by simp [ha], hb⟩)
        refine ⟨j, t', by rw [← h1]; simp, ?_⟩
        simpa using h2

/-- **C78.**  With one topic for each indexed argument, printing an event never succeeds if an indexed argument follows one that is
not indexed. -/
theorem C78_string_refuted (pre post : List Arg) (t t' : Ty) (mid : List Arg) (topics : List Bytes) (data : Bytes)
    (ht : topics.length = 1 + indexedCount (pre ++ (false, t') :: mid ++ (true, t) :: post)) (l : List Val) :
    eventString (pre ++ (false, t') :: mid ++ (true, t) :: post) topics data ≠ .ok l := by
  intro h
  unfold eventString at h
  rw [if_neg (by omega)] at h
  cases hv : dataValues (pre ++ (false, t') :: mid ++ (true, t) :: post) data with
  | err => rw [hv] at h; cases h
  | panic => rw [hv] at h; cases h
  | ok values =>
    rw [hv, Res.bind] at h
    obtain ⟨j, t2, h1, h2⟩ := last_indexed post.length (pre ++ (false, t') :: mid) post t (Nat.le_refl _) ⟨(false, t'), by simp, rfl⟩
    have := stringLoop_bound topics values _ 0 0 l h j t2 h1
    omega

theorem toGo_word (i : Int) (h0 : 0 ≤ i) (h1 : i < 2 ^ 256) : toGoType (.uint 256) 0 (word i) = .ok (.num i) :=
  parse_enc (.uint 256) (.num i) (by rw [Wt]; exact ⟨i, rfl, h0, by simpa [width] using h1⟩) trivial rfl

/-- **C78.**  Two arguments, the second one indexed: printing fails, unpacking panics, although topic and data are well formed. -/
theorem C78_unpack_refuted (sig : Bytes) :
    dataValues [(false, .uint 256), (true, .uint 256)] (word 7) = .ok [.num 7] ∧
    eventSpec [(false, .uint 256), (true, .uint 256)] [word 5] [.num 7] = some [.num 7, .num 5] ∧
    eventString [(false, .uint 256), (true, .uint 256)] [sig, word 5] (word 7) = .err ∧
    unpackEvent [(false, .uint 256), (true, .uint 256)] [sig, word 5] (word 7) = .panic := by
  have h7 := toGo_word 7 (by decide) (by decide +kernel)
  have h5 := toGo_word 5 (by decide) (by decide +kernel)
  have hd : dataValues [(false, .uint 256), (true, .uint 256)] (word 7) = .ok [.num 7] := by
    simp [dataValues, nonIndexed, unpackArgs, word_length, unpackValues, unpackFields, h7, Res.bind]
  refine ⟨hd, ?_, ?_, ?_⟩
  · simp [eventSpec, h5]
  · simp [eventString, hd, Res.bind, eventStringLoop]
  · simp [unpackEvent, hd, Res.bind, unpackEventLoop, copyEvent]

/-- **C78.**  An indexed string is stored as a digest (here one that is not all zeros); both functions read the digest as an offset
and fail. -/
theorem C78_string_arg_refuted (sig : Bytes) (d : Bytes) (hd : d.length = 32) (hz : beNat d ≠ 0) :
    eventString [(true, .string)] [sig, d] [] = .err ∧ unpackEvent [(true, .string)] [sig, d] [] = .err := by
  have key : toGoType .string 0 d = .err := by
    rw [toGoType, if_neg (by omega)]
    unfold lengthPrefixPointsTo sliceOf
    rw [if_pos (by omega), Res.bind]
    simp only
    by_cases h : beNat ((d.drop 0).take (0 + 32 - 0)) + 32 > d.length
    · rw [if_pos h]; rfl
    · have e : beNat ((d.drop 0).take (0 + 32 - 0)) = 0 := by omega
      have e2 : d.take 32 = d := List.take_of_length_le (by omega)
      simp only [List.drop_zero, Nat.zero_add, Nat.sub_zero, e2] at e
      exact absurd e hz
  constructor
  · simp [eventString, dataValues, nonIndexed, Res.bind, eventStringLoop, key]
  · simp [unpackEvent, dataValues, nonIndexed, Res.bind, unpackEventLoop, key]

/-- Both functions on `Transfer(address indexed, address indexed, uint256)`. -/
example (sig : Bytes) : ∃ l, eventString [(true, .address), (true, .address), (false, .uint 256)] [sig, word 1, word 2] (word 3) = .ok l ∧
    unpackEvent [(true, .address), (true, .address), (false, .uint 256)] [sig, word 1, word 2] (word 3) = .ok l ∧
    l.length = 3 := by
  have h3 := toGo_word 3 (by decide) (by decide +kernel)
  have ha : ∀ i, toGoType .address 0 (word i) = .ok (.bytes (readAddress (word i))) := fun i => by
    simp [toGoType, word_length, sliceOf, Res.bind, List.take_of_length_le]
  refine ⟨[.bytes (readAddress (word 1)), .bytes (readAddress (word 2)), .num 3], ?_⟩
  obtain ⟨h1, h2⟩ := C78_indexedFirst_partial [.address, .address] [.uint 256] sig [word 1, word 2] (word 3) [.num 3]
    [.bytes (readAddress (word 1)), .bytes (readAddress (word 2)), .num 3]
    (by simp [dataValues, nonIndexed, unpackArgs, word_length, unpackValues, unpackFields, h3, Res.bind])
    (by simp [eventSpec, ha])
  exact ⟨h1, h2, rfl⟩

end Verif.Abi

import Verif.BigMath.Props

/-!
# Property C168: sums and payments made by many calls, and which results are copies

`AddBigInt`, `MustBigInt`, `MustPositiveInt`, `MustCreatedBigInt`, `BigMax`, `BigMin`, `BigPow` (`/repo/math/big.go:145-165, 363-397`) and
`BigInt.Int`, `MustInt`, `SetInt`, `MustPositive`, `Positive`, `Negative` (`/repo/math/big.go:465-500, 598-606, 639-644`) on the heap of
`BigMath/Model.lean`. `sumAll` and `pay` are callers: they show what a sequence of calls of `AddBigInt` and of `SubIntNotLessZero` does.

Simplifications. Those of `BigMath/Model.lean`. `big.Int.Exp` without modulus is given by its documentation: 1 for exponents that are
not positive.
-/

namespace Verif.BigMath
open Verif

/-! ### The model -/

/-- `MustBigInt` (`/repo/math/big.go:363-368`), `BigInt.MustInt` (`495-500`). -/
def mustBigInt (h : Heap) : Ptr → Heap × Ptr
  | none => alloc h 0
  | some i => (h, some i)

/-- `MustPositiveInt` (`/repo/math/big.go:370-375`), `BigInt.MustPositive` (`639-644`). -/
def mustPositive (h : Heap) : Ptr → Ptr
  | none => none
  | some i => if h.at i ≤ 0 then none else some i

/-- `BigInt.Int` (`/repo/math/big.go:484-493`). -/
def intOf (h : Heap) : Ptr → Ptr
  | none => none
  | some i => if h.at i = 0 then none else some i

/-- `MustCreatedBigInt` (`/repo/math/big.go:377-385`). -/
def mustCreated (h : Heap) (v : Ptr) (isCreated : Bool) : Heap × Ptr :=
  match v with
  | none => alloc h 0
  | some i => if isCreated then (h, some i) else alloc h (h.at i)

/-- `BigInt.SetInt` (`/repo/math/big.go:598-606`). -/
def setInt (h : Heap) (b a : Ptr) : Heap × Ptr :=
  match a with
  | none => (h, none)
  | some j =>
    match b with
    | none => alloc h (h.at j)
    | some i => (h.set i (h.at j), some i)

/-- `BigMax` (`/repo/math/big.go:152-157`) of numbers that are there. -/
def bigMax (h : Heap) (x y : Nat) : Nat := if cmp (h.at x) (h.at y) < 0 then y else x

/-- `BigMin` (`/repo/math/big.go:160-165`). -/
def bigMin (h : Heap) (x y : Nat) : Nat := if cmp (h.at x) (h.at y) > 0 then y else x

/-- `BigPow` (`/repo/math/big.go:146-149`). -/
def bigPow (a b : Int) : Int := if b ≤ 0 then 1 else a ^ b.toNat

/-- A caller: `for _, d := range ds { sum = AddBigInt(sum, d) }`. -/
def sumAll : Heap → Ptr → List Ptr → Heap × Ptr
  | h, acc, [] => (h, acc)
  | h, acc, d :: ds => sumAll (addInt h acc d).1 (addInt h acc d).2 ds

/-- A caller: `for _, s := range ss { b, t = b.SubIntNotLessZero(s); taken = append(taken, t) }`. -/
def pay : Heap → Ptr → List Ptr → Heap × Ptr × List Ptr
  | h, b, [] => (h, b, [])
  | h, b, s :: ss =>
    let r := subIntNotLessZero h b s
    let q := pay r.1 r.2.1 ss
    (q.1, q.2.1, r.2.2 :: q.2.2)

/-! ### Sums -/

theorem val_grow {h h' : Heap} {p : Ptr} (hp : InHeap h p) (hk : ∀ k < h.length, h'.at k = h.at k) : val h' p = val h p := by
  cases p with
  | none => rfl
  | some i => exact hk i (hp i rfl)

/-- The accumulator of a sum: a cell that was not there in `h0`, or none yet. -/
def Fresh (h0 h : Heap) (acc : Ptr) : Prop :=
  h0.length ≤ h.length ∧ (∀ k < h0.length, h.at k = h0.at k) ∧ ∀ i, acc = some i → h0.length ≤ i ∧ i < h.length

theorem fresh_add {h0 h : Heap} {acc d : Ptr} (hf : Fresh h0 h acc) (hd : InHeap h0 d) :
    Fresh h0 (addInt h acc d).1 (addInt h acc d).2 ∧ val (addInt h acc d).1 (addInt h acc d).2 = val h acc + val h0 d ∧
      ((addInt h acc d).2 = none ↔ acc = none ∧ d = none) := by
  obtain ⟨h1, h2, h3⟩ := hf
  cases d with
  | none => exact ⟨⟨h1, h2, h3⟩, by simp [addInt, val, val?], by simp [addInt]⟩
  | some j =>
    have hj := hd j rfl
    cases acc with
    | none =>
      refine ⟨⟨by simp [addInt, alloc]; omega, fun k hk => ?_, ?_⟩, ?_, by simp [addInt, alloc]⟩
      · simp only [addInt, alloc]
        rw [at_append_lt (by omega)]
        exact h2 k hk
      · intro i hi
        simp only [addInt, alloc, Option.some.injEq] at hi
        simp only [addInt, alloc, List.length_append, List.length_singleton]
        omega
      · simp only [addInt, alloc, val, val?, Option.getD_some, Option.getD_none]
        rw [at_append_new, h2 j hj]
        omega
    | some i =>
      obtain ⟨h4, h5⟩ := h3 i rfl
      refine ⟨⟨by simp [addInt]; omega, fun k hk => ?_, ?_⟩, ?_, by simp [addInt]⟩
      · simp only [addInt]
        rw [at_set_ne h _ (by omega)]
        exact h2 k hk
      · intro i' hi
        simp only [addInt, Option.some.injEq] at hi
        simp only [addInt, List.length_set]
        omega
      · simp only [addInt, val, val?, Option.getD_some]
        rw [at_set h i _ h5, h2 j hj]

theorem sumAll_spec (h0 : Heap) : ∀ (ds : List Ptr) (h : Heap) (acc : Ptr), (∀ d ∈ ds, InHeap h0 d) → Fresh h0 h acc →
    Fresh h0 (sumAll h acc ds).1 (sumAll h acc ds).2 ∧ val (sumAll h acc ds).1 (sumAll h acc ds).2 = val h acc + (ds.map (val h0)).sum ∧
      ((sumAll h acc ds).2 = none ↔ acc = none ∧ ∀ d ∈ ds, d = none) := by
  intro ds
  induction ds with
  | nil => intro h acc _ hf; exact ⟨hf, by simp [sumAll], by simp [sumAll]⟩
  | cons d ds ih =>
    intro h acc hd hf
    obtain ⟨a1, a2, a3⟩ := fresh_add hf (hd d (by simp))
    obtain ⟨b1, b2, b3⟩ := ih _ _ (fun x hx => hd x (by simp [hx])) a1
    refine ⟨b1, ?_, ?_⟩
    · simp only [sumAll, List.map_cons, List.sum_cons]
      rw [b2, a2]
      omega
    · simp only [sumAll, List.mem_cons, forall_eq_or_imp]
      rw [b3, a3]
      exact and_assoc

/-- **C168, sums.** Adding any numbers, some of them nil and some of them the same one, to a sum that starts as nil gives their sum and
changes none of them; the sum is a number of its own, and nil exactly if all of them are. -/
theorem C168_sum (h : Heap) (ds : List Ptr) (hd : ∀ d ∈ ds, InHeap h d) :
    val (sumAll h none ds).1 (sumAll h none ds).2 = (ds.map (val h)).sum ∧
      (∀ k < h.length, (sumAll h none ds).1.at k = h.at k) ∧ (∀ d ∈ ds, d ≠ none → (sumAll h none ds).2 ≠ d) ∧
      ((sumAll h none ds).2 = none ↔ ∀ d ∈ ds, d = none) := by
  obtain ⟨⟨-, a2, a3⟩, b, c⟩ := sumAll_spec h ds h none hd ⟨Nat.le_refl _, fun _ _ => rfl, by simp⟩
  refine ⟨by rw [b]; simp [val, val?], a2, ?_, by rw [c]; simp⟩
  intro d hdm hn he
  cases d with
  | none => exact hn rfl
  | some i =>
    have := (a3 i he).1
    have := hd _ hdm i rfl
    omega

/-- **C168 refuted** for a sum that starts with one of the numbers: that number is changed. -/
theorem C168_sum_refuted : ∃ (h : Heap) (b : Nat) (ds : List Ptr), b < h.length ∧ (∀ d ∈ ds, InHeap h d) ∧
    (sumAll h (some b) ds).1.at b ≠ h.at b := by
  refine ⟨[1, 2], 0, [some 1], by decide, ?_, by decide⟩
  intro d hd
  simp only [List.mem_singleton] at hd
  subst hd
  intro i hi
  cases hi
  decide

/-! ### Payments -/

theorem sub_inHeap (h : Heap) (b s : Ptr) (hb : InHeap h b) : h.length ≤ (subIntNotLessZero h b s).1.length ∧
    InHeap (subIntNotLessZero h b s).1 (subIntNotLessZero h b s).2.1 ∧ InHeap (subIntNotLessZero h b s).1 (subIntNotLessZero h b s).2.2 := by
  unfold subIntNotLessZero
  have hnone : ∀ h : Heap, InHeap h none := fun h i hi => by cases hi
  split
  · exact ⟨Nat.le_refl _, hb, hnone _⟩
  · split
    · exact ⟨Nat.le_refl _, hb, hnone _⟩
    · rename_i h1 h2
      cases b with
      | none => simp [notPositive] at h2
      | some i =>
        cases s with
        | none => simp [notPositive] at h1
        | some j =>
          split
          · simp only [clone, alloc, subInt]
            refine ⟨by simp, fun k hk => ?_, fun k hk => ?_⟩
            · cases hk; simp
            · cases hk; simp
          · simp only [clone, alloc]
            refine ⟨by simp, hnone _, fun k hk => ?_⟩
            cases hk; simp

/-- What a list of payments must do: no earlier number changes; each takes at most what is asked; together they take the smaller of the
balance and the sum of all that is asked, and the rest is left. -/
structure Paid (h : Heap) (b : Ptr) (ss : List Ptr) (r : Heap × Ptr × List Ptr) : Prop where
  grows : h.length ≤ r.1.length
  keeps : ∀ k < h.length, r.1.at k = h.at k
  left : InHeap r.1 r.2.1
  each : List.Forall₂ (fun t a => 0 ≤ val r.1 t ∧ val r.1 t ≤ a) r.2.2 (ss.map (val h))
  total : (r.2.2.map (val r.1)).sum = min (val h b) (ss.map (val h)).sum
  rest : val r.1 r.2.1 + (r.2.2.map (val r.1)).sum = val h b
  inside : ∀ t ∈ r.2.2, InHeap r.1 t

/-- **C168, payments.** Paying any list of amounts out of a balance by `SubIntNotLessZero`. -/
theorem C168_payments : ∀ (ss : List Ptr) (h : Heap) (b : Ptr), InHeap h b → (∀ s ∈ ss, InHeap h s) → 0 ≤ val h b →
    (∀ s ∈ ss, 0 ≤ val h s) → Paid h b ss (pay h b ss) := by
  intro ss
  induction ss with
  | nil =>
    intro h b hb _ h0 _
    exact ⟨Nat.le_refl _, fun _ _ => rfl, hb, .nil, by simp [pay, h0], by simp [pay], by simp [pay]⟩
  | cons s ss ih =>
    intro h b hb hs h0 hs0
    obtain ⟨i1, i2, i3⟩ := sub_inHeap h b s hb
    have hpay : pay h b (s :: ss) = ((pay (subIntNotLessZero h b s).1 (subIntNotLessZero h b s).2.1 ss).1,
      (pay (subIntNotLessZero h b s).1 (subIntNotLessZero h b s).2.1 ss).2.1,
      (subIntNotLessZero h b s).2.2 :: (pay (subIntNotLessZero h b s).1 (subIntNotLessZero h b s).2.1 ss).2.2) := rfl
    obtain ⟨⟨h', l, t⟩, he⟩ : ∃ r, subIntNotLessZero h b s = r := ⟨_, rfl⟩
    obtain ⟨c1, c2, c3, c4⟩ := C44_clamped_sub h b s hb (hs s (by simp)) h0 (hs0 s (by simp)) _ _ _ he
    rw [he] at i1 i2 i3 hpay
    simp only at i1 i2 i3 hpay
    have hv : ∀ x ∈ ss, val h' x = val h x := fun x hx => val_grow (hs x (by simp [hx])) c4
    have q := ih h' l i2 (fun x hx i hi => Nat.lt_of_lt_of_le (hs x (by simp [hx]) i hi) i1) c2
      (fun x hx => by rw [hv x hx]; exact hs0 x (by simp [hx]))
    have hvs : ss.map (val h') = ss.map (val h) := List.map_congr_left hv
    have ht : val (pay h' l ss).1 t = val h' t := val_grow i3 q.keeps
    have hsum : ∀ l : List Ptr, (∀ x ∈ l, 0 ≤ val h x) → 0 ≤ (l.map (val h)).sum := by
      intro l
      induction l with
      | nil => simp
      | cons x l ih =>
        intro hx
        simp only [List.map_cons, List.sum_cons]
        have := ih fun y hy => hx y (by simp [hy])
        have := hx x (by simp)
        omega
    have hsum := hsum ss fun x hx => hs0 x (by simp [hx])
    have hs0' := hs0 s (by simp)
    have e1 := q.total
    have e2 := q.rest
    have e3 := q.each
    rw [hvs] at e1 e3
    rw [hpay]
    refine ⟨Nat.le_trans i1 q.grows, fun k hk => ?_, q.left, ?_, ?_, ?_, ?_⟩
    · rw [q.keeps k (by omega), c4 k hk]
    · refine .cons ?_ e3
      rw [ht, c3]
      exact ⟨by omega, by omega⟩
    · simp only [List.map_cons, List.sum_cons]
      rw [ht, e1]
      omega
    · simp only [List.map_cons, List.sum_cons]
      rw [ht]
      omega
    · intro t' htm
      simp only [List.mem_cons] at htm
      rcases htm with rfl | htm
      · exact fun i hi => Nat.lt_of_lt_of_le (i3 i hi) q.grows
      · exact q.inside t' htm

/-! ### Copies and single calls -/

/-- **C168, copies.** `MustCreatedBigInt` gives a number of its own with the value of its argument (nil is zero) unless it is told that
the argument is already one; `MustBigInt` gives its argument, or a new zero for nil. -/
theorem C168_created (h : Heap) (v : Ptr) (hv : InHeap h v) (c : Bool) :
    val (mustCreated h v c).1 (mustCreated h v c).2 = val h v ∧ (∀ k < h.length, (mustCreated h v c).1.at k = h.at k) ∧
      ((mustCreated h v c).2 = v ↔ c = true ∧ v ≠ none) ∧ (mustCreated h v c).2 ≠ none ∧
      mustBigInt h v = mustCreated h v true := by
  cases v with
  | none =>
    refine ⟨?_, fun k hk => at_append_lt hk, by simp [mustCreated, alloc], by simp [mustCreated, alloc], rfl⟩
    simp only [mustCreated, alloc, val, val?, Option.getD_some, Option.getD_none]
    exact at_append_new h 0
  | some i =>
    have hi := hv i rfl
    cases c with
    | true => exact ⟨rfl, fun _ _ => rfl, by simp [mustCreated], by simp [mustCreated], rfl⟩
    | false =>
      refine ⟨?_, fun k hk => at_append_lt hk, ?_, by simp [mustCreated, alloc], rfl⟩
      · simp only [mustCreated, alloc, val, val?, Option.getD_some, Bool.false_eq_true, if_false]
        exact at_append_new h _
      · simp [mustCreated, alloc]
        omega

/-- **C168, signs.** `Int` and `MustPositive` give their argument or nil: nil for nothing to add, and for nothing to pay. -/
theorem C168_signs (h : Heap) (p : Ptr) : val h (intOf h p) = val h p ∧ (intOf h p = none ↔ val h p = 0) ∧
    val h (mustPositive h p) = max 0 (val h p) ∧ (mustPositive h p = none ↔ val h p ≤ 0) ∧
    (intOf h p = p ∨ intOf h p = none) ∧ (mustPositive h p = p ∨ mustPositive h p = none) := by
  cases p with
  | none => simp [intOf, mustPositive, val, val?]
  | some i =>
    by_cases h0 : h.at i = 0
    · simp [intOf, mustPositive, val, val?, h0]
    · by_cases h1 : h.at i ≤ 0
      · simp [intOf, mustPositive, val, val?, h0, h1]
      · simp [intOf, mustPositive, val, val?, h0, h1]
        omega

/-- **C168, setting.** `SetInt` stores the value in the receiver, or in a new number; only the receiver changes. -/
theorem C168_set (h : Heap) (b a : Ptr) (hb : InHeap h b) (ha : InHeap h a) :
    val? (setInt h b a).1 (setInt h b a).2 = val? h a ∧ OnlyChanges h (setInt h b a).1 b := by
  cases a with
  | none => exact ⟨rfl, onlyChanges_refl _ _⟩
  | some j =>
    cases b with
    | none => exact ⟨by simp only [setInt, alloc, val?]; rw [at_append_new], onlyChanges_append _ _ _⟩
    | some i => exact ⟨by simp only [setInt, val?]; rw [at_set h i _ (hb i rfl)], onlyChanges_set h i _⟩

/-- **C168, the larger and the smaller.** They are the arguments themselves, the first one if both are equal. -/
theorem C168_max_min (h : Heap) (x y : Nat) : h.at (bigMax h x y) = max (h.at x) (h.at y) ∧ h.at (bigMin h x y) = min (h.at x) (h.at y) ∧
    (h.at x = h.at y → bigMax h x y = x ∧ bigMin h x y = x) := by
  unfold bigMax bigMin
  rcases cmp_cases (h.at x) (h.at y) with ⟨a, b⟩ | ⟨a, b⟩ | ⟨a, b⟩ <;> rw [b]
  · simp; omega
  · simp [a]
  · simp; omega

/-- **C168, powers.** Exact for exponents that are not negative, and 1 for negative ones. -/
theorem C168_pow_partial (a b : Int) : (0 ≤ b → bigPow a b = a ^ b.toNat) ∧ (b < 0 → bigPow a b = 1) := by
  unfold bigPow
  constructor
  · intro hb
    split
    · rw [show b = 0 by omega]
      simp
    · rfl
  · intro hb
    rw [if_pos (by omega)]

/-- **C168 refuted** for negative exponents: 2 to the power of −1 is not 1. -/
theorem C168_pow_refuted : bigPow 2 (-1) = 1 ∧ ((2 : ℚ) ^ (-1 : Int)) ≠ (bigPow 2 (-1) : ℚ) := by
  refine ⟨rfl, ?_⟩
  rw [show bigPow 2 (-1) = 1 from rfl]
  norm_num

/-- A sum with nil and a repeated number; three payments out of ten. -/
example : sumAll [5, 7] none [none, some 1, some 0, some 1] = ([5, 7, 19], some 2) ∧
    pay [10, 4, 9, 1] (some 0) [some 1, some 2, some 3] = ([10, 4, 9, 1, 6, 4, 6], none, [some 5, some 6, none]) := by decide

end Verif.BigMath

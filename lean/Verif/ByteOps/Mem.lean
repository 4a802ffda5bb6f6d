import Verif.ByteOps.Props

/-!
# Property C186: whose memory the byte helpers return

`CopyBytes`, `SplitBytes` and `ConcatenateBytes` return new arrays (/repo/bytes.go:142-153, 232-261).  `LeftPadBytes` and `RightPadBytes`
return the argument itself if it is long enough (/repo/bytes.go:207-229), `ForPrintSlice` returns a window of it (/repo/bytes.go:40-47), and
`ReverseBytes` reverses it in place and returns it (/repo/utils.go:39-46).
-/

namespace Verif.ByteOps.Mem
open Verif Verif.ByteOps

/-! ### The code -/

/-- A slice: its array, where it begins and its length. The capacity is not used by these functions. -/
structure Sl where
  arr : Nat
  off : Nat
  len : Nat

/-- The arrays and the variables of a caller. -/
structure St where
  heap : List Bytes
  vars : Nat → Option Sl

/-- The bytes of a slice now. -/
def St.read (s : St) (w : Sl) : Bytes := ((s.heap.getD w.arr []).drop w.off).take w.len

/-- A variable becomes a slice of an existing array. -/
def St.point (s : St) (x : Nat) (w : Sl) : St := { s with vars := fun k => if k = x then some w else s.vars k }

/-- A variable becomes a new array (`make` and `copy`). -/
def St.new (s : St) (x : Nat) (b : Bytes) : St :=
  ({ s with heap := s.heap ++ [b] } : St).point x ⟨s.heap.length, 0, b.length⟩

/-- Several variables from `x` on become new arrays. -/
def St.news (s : St) (x : Nat) : List Bytes → St
  | [] => s
  | b :: bs => (s.new x b).news (x + 1) bs

/-- The bytes of a slice become `r`. -/
def St.patch (s : St) (w : Sl) (r : Bytes) : St :=
  let A := s.heap.getD w.arr []
  { s with heap := s.heap.set w.arr (A.take w.off ++ r ++ A.drop (w.off + w.len)) }

/-- What a caller does; the first number is the variable that is set. A view is a window of `n` bytes from `a` on. -/
inductive Op where
  | lit (x : Nat) (b : Bytes)
  | copy (x y : Nat)
  | rpad (x y l : Nat)
  | lpad (x y l : Nat)
  | view (x y a n : Nat)
  | split (x y size : Nat)
  | concat (x : Nat) (ys : List Nat)
  | rev (x y : Nat)
  | write (x i : Nat) (v : UInt8)

/-- One of them: `CopyBytes` (/repo/bytes.go:142-153), `RightPadBytes` and `LeftPadBytes` (/repo/bytes.go:207-229), the window of
`ForPrintSlice` (/repo/bytes.go:40-47), `SplitBytes` and `ConcatenateBytes` (/repo/bytes.go:232-261), `ReverseBytes`
(/repo/utils.go:39-46), and an assignment to an element. A panic, an error and a variable that is not set change nothing. -/
def step (s : St) : Op → St
  | .lit x b => s.new x b
  | .copy x y => match s.vars y with
    | none => s
    | some w => s.new x (s.read w)
  | .rpad x y l => match s.vars y with
    | none => s
    | some w => if l ≤ w.len then s.point x w else s.new x (rightPad (s.read w) l)
  | .lpad x y l => match s.vars y with
    | none => s
    | some w => if l ≤ w.len then s.point x w else s.new x (leftPad (s.read w) l)
  | .view x y a n => match s.vars y with
    | none => s
    | some w => if a + n ≤ w.len then s.point x ⟨w.arr, w.off + a, n⟩ else s
  | .split x y size => match s.vars y with
    | none => s
    | some w => match splitBytes (s.read w) size with
      | .ok l => s.news x l
      | _ => s
  | .concat x ys => s.new x (concatBytes (ys.map fun y => ((s.vars y).map s.read).getD []))
  | .rev x y => match s.vars y with
    | none => s
    | some w => (s.patch w (reverseBytes (s.read w))).point x w
  | .write x i v => match s.vars x with
    | none => s
    | some w => if i < w.len then s.patch w ((s.read w).set i v) else s

/-- Nothing is set. -/
def start : St := ⟨[], fun _ => none⟩

/-! ### Specification -/

/-- The variables hold values that have nothing to do with each other. -/
abbrev Ideal := Nat → Option Bytes

/-- A variable is set. -/
def Ideal.set (d : Ideal) (x : Nat) (b : Bytes) : Ideal := fun k => if k = x then some b else d k

/-- Several variables are set. -/
def Ideal.sets (d : Ideal) (x : Nat) : List Bytes → Ideal
  | [] => d
  | b :: bs => (d.set x b).sets (x + 1) bs

/-- Each call sets one variable to a value; no other variable changes. -/
def Ideal.step (d : Ideal) : Op → Ideal
  | .lit x b => d.set x b
  | .copy x y => match d y with
    | none => d
    | some b => d.set x b
  | .rpad x y l => match d y with
    | none => d
    | some b => d.set x (b ++ List.replicate (l - b.length) 0)
  | .lpad x y l => match d y with
    | none => d
    | some b => d.set x (List.replicate (l - b.length) 0 ++ b)
  | .view x y a n => match d y with
    | none => d
    | some b => if a + n ≤ b.length then d.set x ((b.drop a).take n) else d
  | .split x y size => match d y with
    | none => d
    | some b => match splitBytes b size with
      | .ok l => d.sets x l
      | _ => d
  | .concat x ys => d.set x (ys.map fun y => (d y).getD []).flatten
  | .rev x y => match d y with
    | none => d
    | some b => d.set x b.reverse
  | .write x i v => match d x with
    | none => d
    | some b => d.set x (b.set i v)

/-- The variable whose bytes are written. -/
def Op.target : Op → Option Nat
  | .write x _ _ => some x
  | .rev _ y => some y
  | _ => none

/-- The bytes of a variable are not written by `os`. -/
def Frozen (os : List Op) (x : Nat) : Prop := ∀ op ∈ os, op.target ≠ some x

/-- A call after which the two variables may be the same memory is followed by no write into either of them, and reversed bytes are
put back where they were. -/
def Okay (d : Ideal) (os : List Op) : Op → Prop
  | .rpad x y l | .lpad x y l => x ≠ y → (∀ b, d y = some b → l ≤ b.length → Frozen os x ∧ Frozen os y)
  | .view x y _ _ => x ≠ y → Frozen os x ∧ Frozen os y
  | .rev x y => x = y
  | _ => True

/-- All calls are like that. -/
def Careful (d : Ideal) : List Op → Prop
  | [] => True
  | op :: os => Okay d os op ∧ Careful (d.step op) os

/-! ### Proof -/

/-- What holds before the calls `os`. -/
structure Inv (s : St) (d : Ideal) (os : List Op) : Prop where
  vals : ∀ x, (s.vars x).map s.read = d x
  fits : ∀ x w, s.vars x = some w → w.arr < s.heap.length ∧ w.off + w.len ≤ (s.heap.getD w.arr []).length
  sep : ∀ x y w u, x ≠ y → s.vars x = some w → s.vars y = some u → w.arr = u.arr → Frozen os x

theorem Inv.tail {s : St} {d : Ideal} {op : Op} {os : List Op} (h : Inv s d (op :: os)) : Inv s d os :=
  ⟨h.vals, h.fits, fun x y w u h1 h2 h3 h4 o ho => h.sep x y w u h1 h2 h3 h4 o (List.mem_cons_of_mem _ ho)⟩

theorem Inv.val {s : St} {d : Ideal} {os : List Op} (h : Inv s d os) {x : Nat} {w : Sl} (hx : s.vars x = some w) : d x = some (s.read w) := by
  rw [← h.vals x, hx]; rfl

theorem Inv.len {s : St} {d : Ideal} {os : List Op} (h : Inv s d os) {x : Nat} {w : Sl} (hx : s.vars x = some w) : (s.read w).length = w.len := by
  have := (h.fits x w hx).2
  simp only [St.read, List.length_take, List.length_drop]
  omega

theorem Inv.new {s : St} {d : Ideal} {os : List Op} (h : Inv s d os) (x : Nat) (b : Bytes) : Inv (s.new x b) (d.set x b) os := by
  have old : ∀ w : Sl, w.arr < s.heap.length → (s.heap ++ [b]).getD w.arr [] = s.heap.getD w.arr [] := by
    intro w hw
    simp only [List.getD_eq_getElem?_getD, List.getElem?_append_left hw]
  have new : (s.heap ++ [b]).getD s.heap.length [] = b := by simp
  refine ⟨?_, ?_, ?_⟩
  · intro k
    by_cases hk : k = x
    · simp [St.new, St.point, Ideal.set, hk, St.read]
    · simp only [St.new, St.point, Ideal.set, if_neg hk]
      rw [← h.vals k]
      cases hw : s.vars k with
      | none => rfl
      | some w => simp only [Option.map_some, St.read, old w (h.fits k w hw).1]
  · intro k w hw
    by_cases hk : k = x
    · simp only [St.new, St.point, hk, if_true, Option.some.injEq] at hw
      subst hw
      simp only [St.new, St.point, new]
      simp
    · simp only [St.new, St.point, if_neg hk] at hw
      obtain ⟨h1, h2⟩ := h.fits k w hw
      simp only [St.new, St.point, old w h1]
      exact ⟨by simp; omega, h2⟩
  · intro k y w u hky hw hu e
    simp only [St.new, St.point] at hw hu
    by_cases hk : k = x
    · have hy : ¬ y = x := fun hy => hky (hk.trans hy.symm)
      rw [if_pos hk] at hw; rw [if_neg hy] at hu
      simp only [Option.some.injEq] at hw
      subst hw
      exact absurd (h.fits y u hu).1 (by simp at e; omega)
    · rw [if_neg hk] at hw
      by_cases hy : y = x
      · rw [if_pos hy] at hu
        simp only [Option.some.injEq] at hu
        subst hu
        exact absurd (h.fits k w hw).1 (by simp at e; omega)
      · rw [if_neg hy] at hu
        exact h.sep k y w u hky hw hu e

theorem Inv.news {os : List Op} (l : List Bytes) : ∀ {s : St} {d : Ideal}, Inv s d os → ∀ x, Inv (s.news x l) (d.sets x l) os := by
  induction l with
  | nil => intro s d h x; exact h
  | cons b bs ih => intro s d h x; exact ih (h.new x b) (x + 1)

/-- A variable becomes a part of another. -/
theorem Inv.point {s : St} {d : Ideal} {os : List Op} (h : Inv s d os) {x y : Nat} {w u : Sl} (hy : s.vars y = some w) (ha : u.arr = w.arr)
    (hu : u.off + u.len ≤ w.off + w.len) (hf : x ≠ y → Frozen os x ∧ Frozen os y) : Inv (s.point x u) (d.set x (s.read u)) os := by
  refine ⟨?_, ?_, ?_⟩
  · intro k
    by_cases hk : k = x
    · simp [St.point, Ideal.set, hk, St.read]
    · simp only [St.point, Ideal.set, if_neg hk]
      rw [← h.vals k]
      rfl
  · intro k v hv
    by_cases hk : k = x
    · simp only [St.point, hk, if_true, Option.some.injEq] at hv
      subst hv
      have := h.fits y w hy
      simp only [St.point, ha]
      exact ⟨this.1, by omega⟩
    · simp only [St.point, if_neg hk] at hv
      exact h.fits k v hv
  · intro k z v t hkz hv ht e
    simp only [St.point] at hv ht
    by_cases hk : k = x
    · have hz : ¬ z = x := fun hz => hkz (hk.trans hz.symm)
      rw [if_pos hk] at hv; rw [if_neg hz] at ht
      simp only [Option.some.injEq] at hv
      subst hv
      by_cases hxy : x = y
      · rw [hk, hxy]
        exact h.sep y z w t (fun q => hz (by rw [← q, hxy])) hy ht (by rw [← ha, e])
      · rw [hk]; exact (hf hxy).1
    · rw [if_neg hk] at hv
      by_cases hz : z = x
      · rw [if_pos hz] at ht
        simp only [Option.some.injEq] at ht
        subst ht
        by_cases hky : k = y
        · rw [hky]; exact (hf (fun q => hk (hky.trans q.symm))).2
        · exact h.sep k y v w hky hv hy (by rw [e, ha])
      · rw [if_neg hz] at ht
        exact h.sep k z v t hkz hv ht e

/-- The bytes of a variable that shares them with no other are written. -/
theorem Inv.patch {s : St} {d : Ideal} {op : Op} {os : List Op} (h : Inv s d (op :: os)) {x : Nat} {w : Sl} (hx : s.vars x = some w)
    (ht : op.target = some x) (r : Bytes) (hr : r.length = w.len) : Inv (s.patch w r) (d.set x r) os := by
  obtain ⟨f1, f2⟩ := h.fits x w hx
  have alone : ∀ k v, k ≠ x → s.vars k = some v → v.arr ≠ w.arr := by
    intro k v hk hv e
    exact h.sep x k w v (fun q => hk q.symm) hx hv e.symm op (List.mem_cons_self ..) ht
  have other : ∀ v : Sl, v.arr ≠ w.arr → (s.patch w r).heap.getD v.arr [] = s.heap.getD v.arr [] := by
    intro v hv
    simp only [St.patch, List.getD_eq_getElem?_getD, List.getElem?_set_ne (fun q => hv q.symm)]
  have same : (s.patch w r).heap.getD w.arr [] =
      (s.heap.getD w.arr []).take w.off ++ r ++ (s.heap.getD w.arr []).drop (w.off + w.len) := by
    simp only [St.patch, List.getD_eq_getElem?_getD, List.getElem?_set_self f1, Option.getD_some]
  have hlen : (s.patch w r).heap.length = s.heap.length := by simp [St.patch]
  refine ⟨?_, ?_, ?_⟩
  · intro k
    by_cases hk : k = x
    · have : (s.patch w r).vars k = some w := by rw [hk]; exact hx
      rw [this, Ideal.set, if_pos hk, Option.map_some, St.read, same, List.append_assoc,
        List.drop_append_of_le_length (by rw [List.length_take]; omega), List.drop_of_length_le (by rw [List.length_take]; omega),
        List.nil_append, List.take_append_of_le_length (by omega), List.take_of_length_le (by omega)]
    · show (s.vars k).map _ = _
      rw [Ideal.set, if_neg hk, ← h.vals k]
      cases hv : s.vars k with
      | none => rfl
      | some v => simp only [Option.map_some, St.read, other v (alone k v hk hv)]
  · intro k v hv
    have hv' : s.vars k = some v := hv
    rw [hlen]
    obtain ⟨g1, g2⟩ := h.fits k v hv'
    refine ⟨g1, ?_⟩
    by_cases e : v.arr = w.arr
    · rw [e, same]
      rw [e] at g2
      simp only [List.length_append, List.length_take, List.length_drop]
      omega
    · rw [other v e]; exact g2
  · exact h.tail.sep

theorem Ideal.set_same {d : Ideal} {x : Nat} {b : Bytes} (h : d x = some b) : d.set x b = d := by
  funext k
  simp only [Ideal.set]
  split
  · rename_i e; rw [e, h]
  · rfl

theorem Inv.step {s : St} {d : Ideal} {op : Op} {os : List Op} (h : Inv s d (op :: os)) (ho : Okay d os op) :
    Inv (Mem.step s op) (d.step op) os := by
  have none_ : ∀ {y}, s.vars y = none → d y = none := fun {y} hy => by rw [← h.vals y, hy]; rfl
  cases op with
  | lit x b => exact h.tail.new x b
  | copy x y =>
    cases hy : s.vars y with
    | none => simp only [Mem.step, Ideal.step, hy, none_ hy]; exact h.tail
    | some w => simp only [Mem.step, Ideal.step, hy, h.val hy]; exact h.tail.new _ _
  | rpad x y l =>
    cases hy : s.vars y with
    | none => simp only [Mem.step, Ideal.step, hy, none_ hy]; exact h.tail
    | some w =>
      have hl := h.len hy
      simp only [Mem.step, Ideal.step, hy, h.val hy]
      rw [← (C52_padding (s.read w) l).2.1]
      split
      · rename_i hle
        rw [rightPad, if_pos (by omega)]
        exact h.tail.point hy rfl (Nat.le_refl _) (fun hxy => ho hxy _ (h.val hy) (by omega))
      · exact h.tail.new _ _
  | lpad x y l =>
    cases hy : s.vars y with
    | none => simp only [Mem.step, Ideal.step, hy, none_ hy]; exact h.tail
    | some w =>
      have hl := h.len hy
      simp only [Mem.step, Ideal.step, hy, h.val hy]
      rw [← (C52_padding (s.read w) l).1]
      split
      · rename_i hle
        rw [leftPad, if_pos (by omega)]
        exact h.tail.point hy rfl (Nat.le_refl _) (fun hxy => ho hxy _ (h.val hy) (by omega))
      · exact h.tail.new _ _
  | view x y a n =>
    cases hy : s.vars y with
    | none => simp only [Mem.step, Ideal.step, hy, none_ hy]; exact h.tail
    | some w =>
      have hl := h.len hy
      simp only [Mem.step, Ideal.step, hy, h.val hy, hl]
      split
      · rename_i hle
        have e : ((s.read w).drop a).take n = s.read ⟨w.arr, w.off + a, n⟩ := by
          simp only [St.read, List.drop_take, List.take_take, List.drop_drop]
          congr 1
          omega
        rw [e]
        exact h.tail.point hy rfl (by show w.off + a + n ≤ _; omega) ho
      · exact h.tail
  | split x y size =>
    cases hy : s.vars y with
    | none => simp only [Mem.step, Ideal.step, hy, none_ hy]; exact h.tail
    | some w =>
      simp only [Mem.step, Ideal.step, hy, h.val hy]
      cases splitBytes (s.read w) size with
      | ok l => exact h.tail.news l x
      | err => exact h.tail
      | panic => exact h.tail
  | concat x ys =>
    simp only [Mem.step, Ideal.step, C51_concat, h.vals]
    exact h.tail.new _ _
  | rev x y =>
    have hxy : x = y := ho
    subst hxy
    cases hy : s.vars x with
    | none => simp only [Mem.step, Ideal.step, hy, none_ hy]; exact h.tail
    | some w =>
      have hl := h.len hy
      simp only [Mem.step, Ideal.step, hy, h.val hy]
      have hp : ∀ r, (s.patch w r).point x w = s.patch w r := by
        intro r
        simp only [St.point, St.patch]
        congr 1
        funext k
        split
        · rename_i e; rw [e, hy]
        · rfl
      rw [hp, (C86_reverse _).1]
      exact h.patch hy rfl _ (by rw [List.length_reverse, hl])
  | write x i v =>
    cases hy : s.vars x with
    | none => simp only [Mem.step, Ideal.step, hy, none_ hy]; exact h.tail
    | some w =>
      have hl := h.len hy
      simp only [Mem.step, Ideal.step, hy, h.val hy]
      split
      · exact h.patch hy rfl _ (by rw [List.length_set, hl])
      · rw [List.set_eq_of_length_le (by omega), Ideal.set_same (h.val hy)]
        exact h.tail

theorem Inv.run {os : List Op} : ∀ {s : St} {d : Ideal}, Inv s d os → Careful d os → Inv (os.foldl Mem.step s) (os.foldl Ideal.step d) [] := by
  induction os with
  | nil => intro s d h _; exact h
  | cons op os ih => intro s d h hc; exact ih (h.step hc.1) hc.2

/-! ### C186 -/

/-- **C186.** Whatever byte helpers are called in whatever order, with writes into the results and the arguments in between, every variable
holds what it would hold if all of them were values of their own, if no variable is written after it was padded to no more than its
length or looked at through a window, or is the result of that, and reversed bytes are put back where they were. -/
theorem C186_values_partial (os : List Op) (h : Careful (fun _ => none) os) (x : Nat) :
    let s := os.foldl step start
    (s.vars x).map s.read = os.foldl Ideal.step (fun _ => none) x :=
  (Inv.run (s := start) (d := fun _ => none) ⟨fun _ => rfl, (fun _ _ h => by cases h), (fun _ _ _ _ _ h => by cases h)⟩ h).vals x

/-- C186 fails for padding to no more than the length: whatever the bytes and whichever the side, a write into the result is a write into the argument. -/
theorem C186_pad_refuted (b : Bytes) (l : Nat) (hl : l ≤ b.length) (h0 : 0 < b.length) (v : UInt8) (hv : b[0]? ≠ some v) :
    ∀ op ∈ [Op.rpad 1 0 l, Op.lpad 1 0 l],
      let s := [.lit 0 b, op, .write 1 0 v].foldl step start
      (s.vars 0).map s.read = some (b.set 0 v) ∧ b.set 0 v ≠ b ∧
        [.lit 0 b, op, .write 1 0 v].foldl Ideal.step (fun _ => none) 0 = some b := by
  have hne : b.set 0 v ≠ b := by
    intro e
    apply hv
    rw [← e, List.getElem?_set_self h0]
  intro op hop
  simp only [List.mem_cons, List.not_mem_nil, or_false] at hop
  rcases hop with rfl | rfl <;>
    (refine ⟨?_, hne, ?_⟩
     · simp [step, start, St.new, St.point, St.patch, St.read, hl, h0, List.take_of_length_le]
     · simp [Ideal.step, Ideal.set])

/-- C186 fails for windows and for reversed bytes: the bytes they were made of change. -/
theorem C186_window_refuted :
    let s := [Op.lit 0 [1, 2, 3, 4], .view 1 0 1 2, .write 1 0 9].foldl step start
    let t := [Op.lit 0 [1, 2, 3, 4], .rev 1 0].foldl step start
    (s.vars 0).map s.read = some [1, 9, 3, 4] ∧ (t.vars 0).map t.read = some [4, 3, 2, 1] := by
  decide +kernel

/-- Bytes are split, a piece is written, the pieces are joined, and the result is padded and written. -/
def demo : List Op :=
  [.lit 0 [1, 2, 3, 4], .split 1 0 2, .write 1 0 9, .concat 3 [2, 1, 0], .lpad 4 3 10, .write 4 9 7, .view 5 0 1 2, .rev 3 3]

/-- Careful calls. -/
example : Careful (fun _ => none) demo := by
  have e : splitBytes [1, 2, 3, 4] 2 = .ok [[1, 2], [3, 4]] := by decide +kernel
  simp [demo, Careful, Okay, Ideal.step, Ideal.set, Ideal.sets, Frozen, Op.target, e]

/-- What they give. -/
example :
    let s := demo.foldl step start
    (List.range 6).map (fun x => (s.vars x).map s.read) =
      [some [1, 2, 3, 4], some [9, 2], some [3, 4], some [4, 3, 2, 1, 2, 9, 4, 3], some [0, 0, 3, 4, 9, 2, 1, 2, 3, 7], some [2, 3]] := by
  decide +kernel

end Verif.ByteOps.Mem

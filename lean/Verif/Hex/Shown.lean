import Verif.Hex.Props
import Verif.Sorted
import Verif.Nodes.Model

/-!
# Properties C134 and C135: parts of byte strings for printing, equality and order of things that may be missing
(/repo/bytes.go:25-130, /repo/hash.go:1007-1038, /repo/basic.go, /repo/utils.go:96-123)

A nil slice or pointer is `none`.
-/

namespace Verif.Hex
open Verif

/-! ## C134 -/

/-- /repo/bytes.go:25-39 `startAndEnd`. -/
def startAndEnd (length startPos endPos : Int) : Int × Int :=
  let startPos := if startPos ≥ length then length - 1 else startPos
  let endPos := if endPos < 0 then length else endPos
  let endPos := if endPos > length then length else endPos
  let endPos := if endPos ≤ startPos then startPos + 1 else endPos
  (startPos, endPos)

/-- The slice expression `s[i:j]`; the capacity is the length. -/
def goSlice (s : Bytes) (i j : Int) : Res Bytes :=
  if i < 0 ∨ j < i ∨ (s.length : Int) < j then .panic else .ok ((s.take j.toNat).drop i.toNat)

/-- /repo/bytes.go:41-48 `ForPrintSlice`. -/
def forPrintSlice (s : Option Bytes) (startPos endPos : Int) : Res Bytes :=
  match s with
  | none => .ok []
  | some s => let se := startAndEnd s.length startPos endPos; goSlice s se.1 se.2

/-- What a reflected value is, as far as `ForPrintValue` looks at it. -/
inductive Shown where
  | ptr (v : Option Shown)
  | array (b : Bytes)
  | slice (b : Option Bytes)
  | string (b : Bytes)
  | other

/-- /repo/bytes.go:50-78 `ForPrintValue`; `addr` says whether the value is addressable, that is, reached through a pointer.  `Slice` of an
array that is not addressable panics, and so does `Bytes` of a string.  Arrays and slices of other elements are `other`. -/
def forPrintValue (addr : Bool) (startPos endPos : Int) : Shown → Res Bytes
  | .ptr none => .ok []
  | .ptr (some v) => forPrintValue true startPos endPos v
  | .array b =>
    let se := startAndEnd b.length startPos endPos
    if addr then goSlice b se.1 se.2 else .panic
  | .slice none => .ok []
  | .slice (some b) =>
    if b.length = 0 then .ok []
    else let se := startAndEnd b.length startPos endPos; goSlice b se.1 se.2
  | .string b =>
    let se := startAndEnd b.length startPos endPos
    match goSlice b se.1 se.2 with
    | .ok _ => .panic
    | r => r
  | .other => .ok []

/-- /repo/bytes.go:80-94 `ForPrint`; `none` is the nil interface. -/
def forPrint (v : Option Shown) (poss : List Int) : Res Bytes :=
  match v with
  | none => .ok []
  | some v =>
    match poss with
    | [] => forPrintValue false 0 5 v
    | [a] => forPrintValue false a (-1) v
    | a :: b :: _ => forPrintValue false a b v

/-- /repo/bytes.go:99-105: the loop of `PrintBytesSlice`; `first` is `i = 0`. -/
def printLoop (length : Int) (first : Bool) : List (Option Bytes) → Res Bytes
  | [] => .ok []
  | s :: r =>
    match forPrintSlice s 0 length with
    | .ok b =>
      match printLoop length false r with
      | .ok t => .ok ((if first then [] else [44, 32]) ++ hexEncode b ++ t)
      | e => e
    | e => e

/-- /repo/bytes.go:96-108 `PrintBytesSlice`. -/
def printBytesSlice (bss : List (Option Bytes)) (length : Int) : Res Bytes :=
  match printLoop length true bss with
  | .ok t => .ok ([91] ++ t ++ [93])
  | e => e

/-- /repo/bytes.go:110-130 `ForPrintSliceString`: the elements that are printed, for a slice. -/
def shownElements {α : Type} (l : List α) (maxSize : List Int) : List α :=
  match maxSize with
  | [] => l
  | m :: _ => if m < l.length ∧ m > 0 then l.take m.toNat else l

/-- The part that the arguments ask for: from `start` to before `stop`, at least one byte, `stop` negative for the end. -/
def askedPart (s : Bytes) (start : Nat) (stop : Int) : Bytes :=
  if s.length ≤ start then s.drop (s.length - 1)
  else if stop < 0 then s.drop start
  else (s.drop start).take (max 1 (stop.toNat - start))

theorem slice_asked (s : Bytes) (hs : s ≠ []) (start : Nat) (stop : Int) :
    goSlice s (startAndEnd s.length start stop).1 (startAndEnd s.length start stop).2 = .ok (askedPart s start stop) := by
  have hl : 0 < s.length := List.length_pos_iff.2 hs
  unfold startAndEnd askedPart goSlice
  simp only
  by_cases h1 : s.length ≤ start
  · have h1' : (start : Int) ≥ s.length := by omega
    simp only [if_pos h1, if_pos h1']
    have e : (if (if (if stop < 0 then (s.length : Int) else stop) > s.length then (s.length : Int) else if stop < 0 then (s.length : Int) else stop) ≤
        (s.length : Int) - 1 then (s.length : Int) - 1 + 1 else (if (if stop < 0 then (s.length : Int) else stop) > s.length then (s.length : Int)
        else if stop < 0 then (s.length : Int) else stop)) = s.length := by
      split <;> (repeat' split at *) <;> omega
    rw [e, if_neg (by omega)]
    rw [show ((s.length : Int) - 1).toNat = s.length - 1 by omega, Int.toNat_natCast, List.take_length]
  · have h1' : ¬ (start : Int) ≥ s.length := by omega
    simp only [if_neg h1, if_neg h1']
    by_cases h2 : stop < 0
    · simp only [if_pos h2]
      rw [if_neg (by omega : ¬ (s.length : Int) > s.length), if_neg (by omega), if_neg (by omega)]
      rw [Int.toNat_natCast, Int.toNat_natCast, List.take_length]
    · simp only [if_neg h2]
      by_cases h3 : stop > s.length
      · simp only [if_pos h3]
        rw [if_neg (by omega), if_neg (by omega), Int.toNat_natCast, Int.toNat_natCast, List.take_length,
          List.take_of_length_le (by rw [List.length_drop]; omega)]
      · simp only [if_neg h3]
        by_cases h4 : stop ≤ start
        · rw [if_pos h4, if_neg (by omega), show ((start : Int) + 1).toNat = start + 1 by omega, Int.toNat_natCast, List.drop_take]
          congr 2; omega
        · rw [if_neg h4, if_neg (by omega), Int.toNat_natCast, List.drop_take]
          congr 2; omega

theorem askedPart_ne_nil (s : Bytes) (hs : s ≠ []) (start : Nat) (stop : Int) : askedPart s start stop ≠ [] ∧ askedPart s start stop <:+: s := by
  have hl : 0 < s.length := List.length_pos_iff.2 hs
  unfold askedPart
  constructor
  · rw [← List.length_pos_iff]
    split
    · rw [List.length_drop]; omega
    · split
      · rw [List.length_drop]; omega
      · rw [List.length_take, List.length_drop]; omega
  · split
    · exact (List.drop_suffix _ _).isInfix
    · split
      · exact (List.drop_suffix _ _).isInfix
      · exact (List.take_prefix _ _).isInfix.trans (List.drop_suffix _ _).isInfix

/-- **C134, parts:** of a byte string that is not empty the part asked for is shown, at least one byte, for every start that is not
negative; it does not matter how the string is passed: as a slice, through pointers to it, or as an array through pointers. -/
theorem C134_part_partial (s : Bytes) (hs : s ≠ []) (start : Nat) (stop : Int) :
    forPrintSlice (some s) start stop = .ok (askedPart s start stop) ∧
    forPrint (some (.slice (some s))) [start, stop] = .ok (askedPart s start stop) ∧
    forPrint (some (.ptr (some (.slice (some s))))) [start, stop] = .ok (askedPart s start stop) ∧
    forPrint (some (.ptr (some (.array s)))) [start, stop] = .ok (askedPart s start stop) ∧
    askedPart s start stop ≠ [] ∧ askedPart s start stop <:+: s := by
  have h := slice_asked s hs start stop
  have h0 : s.length ≠ 0 := fun h => hs (List.length_eq_zero_iff.1 h)
  exact ⟨h, by simp only [forPrint, forPrintValue, if_neg h0]; exact h, by simp only [forPrint, forPrintValue, if_neg h0]; exact h,
    by simp only [forPrint, forPrintValue, if_true]; exact h, askedPart_ne_nil s hs start stop⟩

/-- **C134, without arguments** the first five bytes are shown. -/
theorem C134_default_partial (s : Bytes) : forPrint (some (.slice (some s))) [] = .ok (s.take 5) := by
  by_cases hs : s = []
  · subst hs; rfl
  · have h0 : s.length ≠ 0 := fun h => hs (List.length_eq_zero_iff.1 h)
    have h := slice_asked s hs 0 5
    simp only [forPrint, forPrintValue, if_neg h0]
    rw [show ((0 : Int) = ((0 : Nat) : Int)) from rfl, h]
    simp only [askedPart]
    rw [if_neg (by omega), if_neg (by omega)]
    rfl

/-- C134 fails for `ForPrintSlice` of empty strings, which panics (`ForPrint` does not). -/
theorem C134_empty_refuted (start : Int) (stop : Int) : forPrintSlice (some []) start stop = .panic ∧
    forPrint (some (.slice (some []))) [start, stop] = .ok [] := by
  refine ⟨?_, rfl⟩
  unfold forPrintSlice goSlice startAndEnd
  simp only [List.length_nil]
  rw [if_pos]
  left
  split <;> omega

/-- C134 fails for negative starts, which panic. -/
theorem C134_negative_refuted (s : Bytes) (start : Int) (h : start < 0) (stop : Int) : forPrintSlice (some s) start stop = .panic := by
  unfold forPrintSlice goSlice startAndEnd
  simp only
  rw [if_pos]
  left
  split <;> omega

/-- C134 fails for strings and for arrays passed by value: they always panic. -/
theorem C134_string_refuted (s : Bytes) (poss : List Int) : forPrint (some (.string s)) poss = .panic ∧
    forPrint (some (.ptr (some (.string s)))) poss = .panic ∧ forPrint (some (.array s)) poss = .panic := by
  have hg : ∀ a b, (match goSlice s a b with | .ok _ => (.panic : Res Bytes) | r => r) = .panic := by
    intro a b
    unfold goSlice
    by_cases h : a < 0 ∨ b < a ∨ (s.length : Int) < b
    · rw [if_pos h]
    · rw [if_neg h]
  refine ⟨?_, ?_, ?_⟩ <;> (unfold forPrint; simp only; split) <;> first | exact hg _ _ | rfl

/-- **C134, lists:** if no entry is empty without being nil, `PrintBytesSlice` gives the entries in hexadecimal, cut to the length, between
brackets. -/
theorem C134_list_partial (bss : List (Option Bytes)) (h : some [] ∉ bss) (length : Int) :
    printBytesSlice bss length = .ok ([91] ++ List.intercalate [44, 32] (bss.map fun s => hexEncode (match s with
      | none => []
      | some s => askedPart s 0 length)) ++ [93]) := by
  have hs : ∀ s ∈ bss, forPrintSlice s 0 length = .ok (match s with | none => [] | some s => askedPart s 0 length) := by
    intro s hm
    cases s with
    | none => rfl
    | some s =>
      have : s ≠ [] := by rintro rfl; exact h hm
      exact slice_asked s this 0 length
  have key : ∀ l : List (Option Bytes), (∀ s ∈ l, s ∈ bss) → printLoop length false l =
      .ok ((l.map fun s => [44, 32] ++ hexEncode (match s with | none => [] | some s => askedPart s 0 length)).flatten) := by
    intro l
    induction l with
    | nil => intro _; rfl
    | cons s l ih =>
      intro hl
      rw [printLoop, hs s (hl s List.mem_cons_self)]
      simp only
      rw [ih fun x hx => hl x (List.mem_cons_of_mem _ hx)]
      simp
  have hint : ∀ (x : Bytes) (l : List Bytes), List.intercalate [44, 32] (x :: l) = x ++ (l.map ([44, 32] ++ ·)).flatten := by
    intro x l
    induction l generalizing x with
    | nil => simp
    | cons y l ih => rw [List.intercalate_cons_cons, ih]; simp
  unfold printBytesSlice
  cases bss with
  | nil => rfl
  | cons s l =>
    rw [printLoop, hs s List.mem_cons_self]
    simp only
    rw [key l fun x hx => List.mem_cons_of_mem _ hx]
    simp only [List.map_cons, hint]
    simp [Function.comp_def]

/-- C134 fails for lists with an empty entry. -/
theorem C134_list_refuted : printBytesSlice [some [1, 2], some []] 5 = .panic := by decide +kernel

/-- **C134, elements:** of a slice the first `n` elements are printed, or all if `n` is not positive or too large. -/
theorem C134_elements {α : Type} (l : List α) (n : Int) : shownElements l [] = l ∧ shownElements l [n] <+: l ∧
    ((shownElements l [n]).length : Int) = if 0 < n then min n l.length else l.length := by
  refine ⟨rfl, ?_, ?_⟩
  · simp only [shownElements]
    split
    · exact List.take_prefix _ _
    · exact List.prefix_rfl
  · simp only [shownElements]
    split
    · rename_i h
      rw [List.length_take, if_pos h.2]; omega
    · split <;> omega

example : forPrintSlice (some [1, 2, 3, 4]) 1 3 = .ok [2, 3] ∧ forPrintSlice (some [1, 2, 3, 4]) 9 3 = .ok [4] ∧
    forPrintSlice (some [1, 2, 3, 4]) 2 0 = .ok [3] ∧ forPrintSlice (some [1, 2, 3, 4]) 2 (-1) = .ok [3, 4] := by decide +kernel
example : printBytesSlice [some [1, 0xab, 3], none] 2 = .ok [91, 48, 49, 97, 98, 44, 32, 93] := by decide +kernel

/-! ## C135 -/

/-- /repo/hash.go:1007-1012 `IsNilHash`; the hash of nothing is `N`. -/
def isNilHash (N : Bytes) (b : Bytes) : Bool := if b.length = 0 then true else decide (b = N)

/-- /repo/hash.go:1014-1017 `InvalidHash`; `E` is the hash of the empty trie node. -/
def invalidHash (N E : Bytes) (b : Bytes) : Bool :=
  decide (b.length < 32) || decide (b = List.replicate 32 0) || decide (b = N) || decide (b = E)

/-- /repo/basic.go:1376-1378 `Hash.Invalid`. -/
def hashInvalid (N E : Bytes) (h : Bytes) : Bool := decide (h = List.replicate 32 0) || decide (h = N) || decide (h = E)

/-- /repo/hash.go:1019-1028 `HashSliceEquals`. -/
def hashSliceEquals (N a b : Bytes) : Bool :=
  let na := isNilHash N a
  let nb := isNilHash N b
  if na && nb then true else if na || nb then false else decide (a = b)

/-- /repo/basic.go:1492-1500 `Hash.Equal`, 704-712, 1063-1071, 1217-1225, 1675-1683 `Equal` of pointers to numbers, addresses, seeds. -/
def pointerEqual {α : Type} [DecidableEq α] : Option α → Option α → Bool
  | none, none => true
  | some a, some b => decide (a = b)
  | _, _ => false

/-- /repo/hash.go:1030-1038 `HashEquals`. -/
def hashEquals (N : Bytes) (a b : Option Bytes) : Bool :=
  if (a = none ∨ a = some N) ∧ (b = none ∨ b = some N) then true else if pointerEqual a b then true else false

/-- /repo/basic.go:1380-1385 `Hash.Slice`: nil as the empty slice. -/
def hashSlice (a : Option Bytes) : Bytes := a.getD []

/-- /repo/basic.go:1482-1490 `Hash.SliceEqual`. -/
def hashSliceEqual (a : Option Bytes) (val : Bytes) : Bool :=
  match a with
  | none => if val.length = 0 then true else false
  | some h => decide (h = val)

/-- /repo/basic.go:1521-1525: the loop of `HashsEquals`. -/
def hashsLoop : List Bytes → List Bytes → Bool
  | x :: xs, y :: ys => if x ≠ y then false else hashsLoop xs ys
  | _, _ => true

/-- /repo/basic.go:1513-1529 `HashsEquals`. -/
def hashsEquals (a b : Option (List Bytes)) : Bool :=
  match a, b with
  | none, none => true
  | some x, some y => if x.length ≠ y.length then false else hashsLoop x y
  | _, _ => false

/-- /repo/utils.go:96-123 `PointerSliceLess` of a slice of pointers: the verdict and whether the objects must be compared. -/
def pointerSliceLess {α : Type} (l : Option (List (Option α))) (i j : Int) : Bool × Bool :=
  match l with
  | none => (false, false)
  | some l =>
    if i = j ∨ i < 0 ∨ j < 0 ∨ (l.length : Int) ≤ i ∨ (l.length : Int) ≤ j then (false, false)
    else match l[i.toNat]?, l[j.toNat]? with
      | some none, some none => (false, false)
      | some none, _ => (true, false)
      | _, some none => (false, false)
      | _, _ => (false, true)

/-- A `Less` that the comment in utils.go describes: continue with the objects only if asked to. -/
def lessWith {α : Type} (less : α → α → Bool) (l : List (Option α)) (i j : Nat) : Bool :=
  match pointerSliceLess (some l) i j with
  | (b, false) => b
  | (_, true) =>
    match l[i]?, l[j]? with
    | some (some a), some (some b) => less a b
    | _, _ => false

/-- A hash that may be missing: nothing and the hash of nothing are missing. -/
def present (N b : Bytes) : Option Bytes := if b = [] ∨ b = N then none else some b

/-- **C135, equality of slices:** `HashSliceEquals` holds exactly if both are missing or they are the same hash, and so is an equivalence. -/
theorem C135_slices (N : Bytes) (a b : Bytes) : hashSliceEquals N a b = true ↔ present N a = present N b := by
  have hn : ∀ x, isNilHash N x = true ↔ (x = [] ∨ x = N) := by
    intro x; unfold isNilHash
    cases x <;> simp
  unfold hashSliceEquals present
  simp only
  by_cases ha : isNilHash N a = true <;> by_cases hb : isNilHash N b = true
  · simp only [ha, hb, Bool.and_self, if_true, if_pos ((hn _).1 ha), if_pos ((hn _).1 hb)]
  · have hb' : ¬ (b = [] ∨ b = N) := fun h => hb ((hn _).2 h)
    simp [ha, hb, (hn _).1 ha, hb']
  · have ha' : ¬ (a = [] ∨ a = N) := fun h => ha ((hn _).2 h)
    simp [ha, hb, (hn _).1 hb, ha']
  · have ha' : ¬ (a = [] ∨ a = N) := fun h => ha ((hn _).2 h)
    have hb' : ¬ (b = [] ∨ b = N) := fun h => hb ((hn _).2 h)
    simp [ha, hb, ha', hb']

/-- **C135, equality of pointers:** `HashEquals` is the same equality on pointers. -/
theorem C135_pointers (N : Bytes) (a b : Option Bytes) (ha : ∀ x, a = some x → x.length = 32)
    (hb : ∀ x, b = some x → x.length = 32) : hashEquals N a b = hashSliceEquals N (hashSlice a) (hashSlice b) := by
  rw [Bool.eq_iff_iff, C135_slices]
  have hp : ∀ (a : Option Bytes), (∀ x, a = some x → x.length = 32) →
      present N (hashSlice a) = (if a = none ∨ a = some N then none else a) := by
    intro a ha
    cases a with
    | none => simp [present, hashSlice]
    | some x =>
      have : x ≠ [] := by rintro rfl; exact absurd (ha [] rfl) (by simp)
      simp only [present, hashSlice, Option.getD_some, this, false_or, reduceCtorEq, Option.some.injEq]
  rw [hp a ha, hp b hb]
  have he : pointerEqual a b = true ↔ a = b := by cases a <;> cases b <;> simp [pointerEqual]
  unfold hashEquals
  by_cases h1 : a = none ∨ a = some N <;> by_cases h2 : b = none ∨ b = some N
  · simp [h1, h2]
  · rw [if_neg (fun h => h2 h.2), if_pos h1, if_neg h2]
    have : ¬ a = b := by rintro rfl; exact h2 h1
    have hb' : ¬ none = b := fun h => h2 (Or.inl h.symm)
    simp [he, this, hb']
  · rw [if_neg (fun h => h1 h.1), if_pos h2, if_neg h1]
    have : ¬ a = b := by rintro rfl; exact h1 h2
    have ha' : ¬ a = none := fun h => h1 (Or.inl h)
    simp [he, this, ha']
  · rw [if_neg (fun h => h1 h.1), if_neg h1, if_neg h2]
    simp [he]

/-- **C135, exact equality:** `Equal` of pointers, `SliceEqual` and `HashsEquals` are equality of content, nil being different from
everything else (for `SliceEqual`, the same as the empty slice). -/
theorem C135_exact : (∀ {α : Type} [DecidableEq α] (a b : Option α), pointerEqual a b = true ↔ a = b) ∧
    (∀ (a : Option Bytes) (v : Bytes), hashSliceEqual a v = true ↔ v = hashSlice a) ∧
    ∀ a b, hashsEquals a b = true ↔ a = b := by
  refine ⟨?_, ?_, ?_⟩
  · intro α _ a b; cases a <;> cases b <;> simp [pointerEqual]
  · intro a v
    cases a with
    | none => simp [hashSliceEqual, hashSlice]
    | some h => simp only [hashSliceEqual, hashSlice, decide_eq_true_eq, Option.getD_some]; exact eq_comm
  · have hl : ∀ (a b : List Bytes), a.length = b.length → (hashsLoop a b = true ↔ a = b) := by
      intro a
      induction a with
      | nil => intro b h; cases b <;> simp_all [hashsLoop]
      | cons x a ih =>
        intro b h
        cases b with
        | nil => simp at h
        | cons y b =>
          rw [hashsLoop]
          by_cases e : x = y
          · subst e; rw [if_neg (by simp), ih b (by simpa using h)]; simp
          · rw [if_pos e]; simp [e]
    intro a b
    cases a <;> cases b <;> simp only [hashsEquals, reduceCtorEq, Bool.false_eq_true]
    rename_i x y
    by_cases h : x.length = y.length
    · rw [if_neg (by simp [h]), hl x y h]; simp
    · rw [if_pos h]
      simp only [Bool.false_eq_true, Option.some.injEq, false_iff]
      rintro rfl; exact h rfl

/-- **C135, invalid hashes:** the two checks agree on hashes. -/
theorem C135_invalid_partial (N E : Bytes) (h : Bytes) (hl : h.length = 32) : invalidHash N E h = hashInvalid N E h := by
  unfold invalidHash hashInvalid
  simp [hl]

/-- C135 fails for longer slices: `InvalidHash` takes them for valid. -/
theorem C135_invalid_refuted (N E b : Bytes) (hN : N.length = 32) (hE : E.length = 32) (hb : 32 < b.length) : invalidHash N E b = false := by
  unfold invalidHash
  have h1 : b ≠ List.replicate 32 0 := by rintro rfl; simp at hb
  have h2 : b ≠ N := by rintro rfl; omega
  have h3 : b ≠ E := by rintro rfl; omega
  have h4 : ¬ b.length < 32 := by omega
  simp only [h1, h2, h3, h4, decide_false, Bool.or_self]

/-- **C135, order of pointers:** completed by an order of the objects, `PointerSliceLess` is the order with nil least, for all positions. -/
theorem C135_less {α : Type} (less : α → α → Bool) (hir : ∀ a, less a a = false) (l : List (Option α)) (i j : Nat) (a b : Option α)
    (hi : l[i]? = some a) (hj : l[j]? = some b) : lessWith less l i j = match a, b with
      | none, none => false
      | none, some _ => true
      | some _, none => false
      | some a, some b => less a b := by
  have h1 := (List.getElem?_eq_some_iff.1 hi).1
  have h2 := (List.getElem?_eq_some_iff.1 hj).1
  unfold lessWith pointerSliceLess
  by_cases e : i = j
  · subst e
    rw [hi] at hj
    cases hj
    simp only [if_true, true_or]
    cases a with
    | none => rfl
    | some a => exact (hir a).symm
  · simp only
    rw [if_neg (by omega)]
    simp only [Int.toNat_natCast, hi, hj]
    cases a <;> cases b <;> rfl

/-- **C135, sorting:** with an order of the objects (a strict weak one) this is a strict weak order again, as `sort.Sort` requires. -/
theorem C135_weak {α : Type} (less : α → α → Bool) (hir : ∀ a, less a a = false) (htr : ∀ a b c, less a b = true → less b c = true → less a c = true)
    (hinc : ∀ a b c, less a b = false → less b c = false → less a c = false) (l : List (Option α)) (i j k : Nat)
    (hi : i < l.length) (hj : j < l.length) (hk : k < l.length) :
    lessWith less l i i = false ∧ (lessWith less l i j = true → lessWith less l j k = true → lessWith less l i k = true) ∧
      (lessWith less l i j = false → lessWith less l j k = false → lessWith less l i k = false) := by
  have hi' := List.getElem?_eq_getElem hi
  have hj' := List.getElem?_eq_getElem hj
  have hk' := List.getElem?_eq_getElem hk
  generalize l[i] = a at hi'
  generalize l[j] = b at hj'
  generalize l[k] = c at hk'
  rw [C135_less less hir l i i a a hi' hi', C135_less less hir l i j a b hi' hj', C135_less less hir l j k b c hj' hk',
    C135_less less hir l i k a c hi' hk']
  refine ⟨?_, ?_, ?_⟩
  · cases a <;> simp [hir]
  · cases a <;> cases b <;> cases c <;> simp
    exact htr _ _ _
  · cases a <;> cases b <;> cases c <;> simp
    exact hinc _ _ _

example : hashSliceEquals [9] [] [9] = true ∧ hashSliceEquals [9] [1] [1] = true ∧ hashSliceEquals [9] [] [1] = false ∧
    hashEquals [9] none (some [9]) = true ∧ pointerEqual (none : Option Bytes) (some [9]) = false ∧
    hashsEquals none (some []) = false := by decide +kernel
example : lessWith (fun a b => decide (a < b)) [some 3, none, some 2] 1 0 = true ∧
    lessWith (fun a b => decide (a < b)) [some 3, none, some 2] 2 0 = true ∧
    lessWith (fun a b => decide (a < b)) [some 3, none, some 2] 0 1 = false := by decide +kernel

end Verif.Hex

import Verif.Hex.Props

/-!
# Printing with indentation

`/repo/types.go:291-369`: `IndentLevel.IndentString`, `_valueInfo`, `InfoString`, `DoubleByteSlice`, the printing
used for logs and for the `InfoString` methods of the package.

Simplifications. Reflection is not modelled: an element is what the type switch of `_valueInfo` sees of it (`Face`),
and an object is what `InfoString` sees of it (`Obj`). Methods `String` and `InfoString` of the elements are
arbitrary functions that return; a method that panics on a nil pointer is not modelled. The branches of an invalid
`reflect.Value` are left out: `reflect.ValueOf` of something not nil and the elements of a slice are valid.
Levels are integers, `IndentLevel` being an `int`: the overflow at the greatest level is not modelled.
-/

namespace Verif.Printing
open Verif Verif.Hex

/-- What the type switch of `_valueInfo` tells apart (`/repo/types.go:309-320`). -/
inductive Face where
  | bytes (b : Bytes)
  | text (s : Bytes)
  | infoer (f : Int → Bytes)
  | stringer (s : Bytes)
  | other

/-- What `InfoString` tells apart (`/repo/types.go:324-353`): the nil interface, a slice (`none` for a nil slice), an
array, anything else. -/
inductive Obj where
  | nothing
  | slice (xs : Option (List Face))
  | array (xs : List Face)
  | plain (f : Face)

/-- `IndentLevel.IndentString` (`/repo/types.go:297-302`): tabs. -/
def indentString (l : Int) : Bytes := if l ≤ 0 then [] else List.replicate l.toNat 9

/-- `IndentLevel._valueInfo` (`/repo/types.go:304-321`). -/
def valueInfo (l : Int) : Face → Bytes
  | .bytes b => encode b
  | .text s => s
  | .infoer f => f l
  | .stringer s => s
  | .other => [85, 75, 78]

/-- The loop of `InfoString` (`/repo/types.go:343-346`). -/
def elemLines (nextIndent : Bytes) (next : Int) : List Face → Bytes
  | [] => []
  | x :: xs => (10 :: nextIndent ++ valueInfo next x ++ [44]) ++ elemLines nextIndent next xs

/-- The branch of arrays and slices that are not nil (`/repo/types.go:334, 338-351`). -/
def listInfo (l : Int) (xs : List Face) : Bytes :=
  [91] ++ (if xs.length > 0 then elemLines (indentString (l + 1)) (l + 1) xs ++ (10 :: indentString l) else []) ++ [93]

/-- The text of nil (`/repo/types.go:325, 336, 359`). -/
def nilText : Bytes := [60, 110, 105, 108, 62]

/-- `IndentLevel.InfoString` (`/repo/types.go:323-355`). -/
def infoString (l : Int) : Obj → Bytes
  | .nothing => nilText
  | .slice none => nilText
  | .slice (some xs) => listInfo l xs
  | .array xs => listInfo l xs
  | .plain f => valueInfo l f

/-- The loop of `DoubleByteSlice` (`/repo/types.go:364-366`). -/
def sliceLines (indent : Bytes) : List Bytes → Bytes
  | [] => []
  | s :: ss => (10 :: indent ++ 9 :: hexEncode s ++ [44]) ++ sliceLines indent ss

/-- `IndentLevel.DoubleByteSlice` (`/repo/types.go:357-369`); `none` for a nil slice. An inner slice that is nil prints
as the empty one. -/
def doubleByteSlice (l : Int) : Option (List Bytes) → Bytes
  | none => nilText
  | some ss => [91] ++ sliceLines (indentString l) ss ++ (10 :: indentString l ++ [93])

/-! ## What may be read off a text -/

/-- The pieces of a text between separators. -/
theorem first_comma {a b r s : Bytes} (ha : (44 : UInt8) ∉ a) (hb : (44 : UInt8) ∉ b)
    (h : a ++ 44 :: r = b ++ 44 :: s) : a = b ∧ r = s := by
  induction a generalizing b with
  | nil =>
    cases b with
    | nil => simpa using h
    | cons y b => simp at h; simp [← h.1] at hb
  | cons x a ih =>
    cases b with
    | nil => simp at h; simp [h.1] at ha
    | cons y b =>
      simp only [List.cons_append, List.cons.injEq] at h
      simp only [List.mem_cons, not_or] at ha hb
      obtain ⟨e, e'⟩ := ih ha.2 hb.2 h.2
      exact ⟨by rw [h.1, e], e'⟩

theorem indent_comma (l : Int) : (44 : UInt8) ∉ indentString l := by
  unfold indentString; split <;> simp [List.mem_replicate]

theorem elemLines_map (i : Bytes) (l : Int) (hi : (44 : UInt8) ∉ i) : ∀ (xs ys : List Face) (t u : Bytes),
    (44 : UInt8) ∉ t → (44 : UInt8) ∉ u →
    (∀ x ∈ xs, (44 : UInt8) ∉ valueInfo l x) → (∀ y ∈ ys, (44 : UInt8) ∉ valueInfo l y) →
    elemLines i l xs ++ t = elemLines i l ys ++ u → xs.map (valueInfo l) = ys.map (valueInfo l) := by
  intro xs
  induction xs with
  | nil =>
    intro ys t u ht hu _ hy h
    cases ys with
    | nil => rfl
    | cons y ys =>
      exfalso; apply ht
      simp only [elemLines, List.nil_append] at h
      rw [h]; simp
  | cons x xs ih =>
    intro ys t u ht hu hx hy h
    cases ys with
    | nil =>
      exfalso; apply hu
      simp only [elemLines, List.nil_append] at h
      rw [← h]; simp
    | cons y ys =>
      have h' : (10 :: i ++ valueInfo l x) ++ 44 :: (elemLines i l xs ++ t) =
          (10 :: i ++ valueInfo l y) ++ 44 :: (elemLines i l ys ++ u) := by
        simpa [elemLines, List.append_assoc] using h
      have hc : ∀ z, (44 : UInt8) ∉ valueInfo l z → (44 : UInt8) ∉ 10 :: i ++ valueInfo l z := by
        intro z hz; simp [hi, hz]
      obtain ⟨e, e'⟩ := first_comma (hc x (hx x (by simp))) (hc y (hy y (by simp))) h'
      have e1 : valueInfo l x = valueInfo l y := List.append_cancel_left e
      rw [List.map_cons, List.map_cons, e1,
        ih ys t u ht hu (fun z hz => hx z (by simp [hz])) (fun z hz => hy z (by simp [hz])) e']

theorem sliceLines_eq (i : Bytes) (l : Int) : ∀ ss : List Bytes,
    sliceLines i ss = elemLines (i ++ [9]) l (ss.map fun s => Face.text (hexEncode s))
  | [] => rfl
  | s :: ss => by simp [sliceLines, elemLines, valueInfo, sliceLines_eq i l ss]

theorem digit_no_comma {c : UInt8} {d : Nat} (h : Digit c d) : c ≠ 44 := by
  have hlt := h.lt
  revert hlt
  cases h with
  | _ => intro hlt; intro e; have := congrArg UInt8.toNat e; simp at this; omega

theorem hexEncode_no_comma (b : Bytes) : (44 : UInt8) ∉ hexEncode b := by
  intro h
  have hf := forall2_hexEncode b
  revert h hf
  generalize hexEncode b = cs
  generalize byteDigits b = ds
  intro h hf
  induction hf with
  | nil => simp at h
  | cons hd _ ih =>
    rcases List.mem_cons.1 h with e | e
    · exact digit_no_comma hd e.symm
    · exact ih e

theorem encode_no_comma (b : Bytes) : (44 : UInt8) ∉ encode b := by
  rw [encode_eq]; simp [hexEncode_no_comma]

theorem hexEncode_inj {a b : Bytes} (h : hexEncode a = hexEncode b) : a = b := by
  have := (C54_fromHex a).2
  rw [h, (C54_fromHex b).2] at this
  exact this.symm

theorem encode_inj {a b : Bytes} (h : encode a = encode b) : a = b := by
  have := C54_decode_encode a
  rw [h, C54_decode_encode b] at this
  exact (Option.some.inj this).symm

/-! ## The claims -/

/-- **C157.** From the printed text of a list the texts of its elements can be read off, in their order, if they have
no comma. -/
theorem C157_elements (l : Int) (xs ys : List Face)
    (hx : ∀ x ∈ xs, (44 : UInt8) ∉ valueInfo (l + 1) x) (hy : ∀ y ∈ ys, (44 : UInt8) ∉ valueInfo (l + 1) y)
    (h : infoString l (.slice (some xs)) = infoString l (.slice (some ys))) :
    xs.map (valueInfo (l + 1)) = ys.map (valueInfo (l + 1)) := by
  have key : ∀ zs : List Face, ∃ t, (44 : UInt8) ∉ t ∧
      infoString l (.slice (some zs)) = 91 :: (elemLines (indentString (l + 1)) (l + 1) zs ++ t) := by
    intro zs
    cases zs with
    | nil => exact ⟨[93], by simp, rfl⟩
    | cons z zs =>
      refine ⟨10 :: indentString l ++ [93], by simp [indent_comma], ?_⟩
      simp [infoString, listInfo]
  obtain ⟨t, ht, et⟩ := key xs
  obtain ⟨u, hu, eu⟩ := key ys
  rw [et, eu] at h
  exact elemLines_map _ _ (indent_comma _) xs ys t u ht hu hx hy (List.cons.inj h).2

/-- **C157.** Two lists of byte slices that print alike are equal. -/
theorem C157_bytes (l : Int) (xs ys : List Bytes)
    (h : infoString l (.slice (some (xs.map .bytes))) = infoString l (.slice (some (ys.map .bytes)))) : xs = ys := by
  have hc : ∀ zs : List Bytes, ∀ z ∈ zs.map Face.bytes, (44 : UInt8) ∉ valueInfo (l + 1) z := by
    intro zs z hz
    obtain ⟨b, _, rfl⟩ := List.mem_map.1 hz
    exact encode_no_comma b
  have := C157_elements l _ _ (hc xs) (hc ys) h
  rw [List.map_map, List.map_map] at this
  exact List.map_injective_iff.2 (fun a b e => encode_inj e) this

/-- **C157.** `DoubleByteSlice`: two lists, nil or not, that print alike at one level are equal. -/
theorem C157_double (l : Int) (xs ys : Option (List Bytes)) (h : doubleByteSlice l xs = doubleByteSlice l ys) :
    xs = ys := by
  cases xs with
  | none =>
    cases ys with
    | none => rfl
    | some ys => simp [doubleByteSlice, nilText] at h
  | some xs =>
    cases ys with
    | none => simp [doubleByteSlice, nilText] at h
    | some ys =>
      simp only [doubleByteSlice, sliceLines_eq _ 0, List.singleton_append, List.cons_append] at h
      replace h := (List.cons.inj h).2
      have ht : (44 : UInt8) ∉ 10 :: indentString l ++ [93] := by simp [indent_comma]
      have hc : ∀ zs : List Bytes, ∀ z ∈ zs.map (fun s => Face.text (hexEncode s)), (44 : UInt8) ∉ valueInfo 0 z := by
        intro zs z hz
        obtain ⟨b, _, rfl⟩ := List.mem_map.1 hz
        exact hexEncode_no_comma b
      have := elemLines_map (indentString l ++ [9]) 0 (by simp [indent_comma]) _ _ _ _ ht ht (hc xs) (hc ys) h
      rw [List.map_map, List.map_map] at this
      exact congrArg some (List.map_injective_iff.2 (fun a b e => hexEncode_inj e) this)

/-- **C157** Byte slices at the top are shown with 0x, strings as they are and values of other types as UKN, without brackets. -/
theorem C157_single (l : Int) (b s : Bytes) :
    infoString l (.plain (.bytes b)) = [48, 120] ++ hexEncode b ∧ infoString l (.plain (.text s)) = s ∧
    infoString l (.plain .other) = "UKN".toUTF8.data.toList :=
  ⟨encode_eq b, rfl, by rw [show "UKN".toUTF8.data.toList = [85, 75, 78] by decide +kernel]; rfl⟩

/-- **C157.** A nil slice and the nil interface print alike, and unlike every list. -/
theorem C157_nil (l : Int) (xs : List Face) :
    infoString l .nothing = "<nil>".toUTF8.data.toList ∧ infoString l .nothing = infoString l (.slice none) ∧
    infoString l (.slice none) ≠ infoString l (.slice (some xs)) ∧
    infoString l (.slice none) ≠ infoString l (.array xs) := by
  refine ⟨by rw [show "<nil>".toUTF8.data.toList = [60, 110, 105, 108, 62] by decide +kernel]; rfl, rfl, ?_, ?_⟩ <;>
    simp [infoString, listInfo, nilText]

/-- **C157.** The printed text of a list with elements whose texts are single lines: the line of the bracket, one line
per element, indented by one tab more than the bracket that ends the text. -/
theorem C157_lines (l : Int) (h0 : 0 ≤ l) (x : Face) (xs : List Face) :
    infoString l (.slice (some (x :: xs))) =
      [91] ++ ((x :: xs).flatMap fun e =>
        10 :: (List.replicate (l.toNat + 1) 9 ++ valueInfo (l + 1) e ++ [44])) ++
      (10 :: (List.replicate l.toNat 9 ++ [93])) := by
  have e1 : indentString (l + 1) = List.replicate (l.toNat + 1) 9 := by
    unfold indentString
    rw [if_neg (by omega)]
    congr 1; omega
  have e2 : indentString l = List.replicate l.toNat 9 := by
    unfold indentString
    split
    · have : l = 0 := by omega
      subst this; rfl
    · rfl
  have e3 : ∀ zs : List Face, elemLines (List.replicate (l.toNat + 1) 9) (l + 1) zs =
      zs.flatMap fun e => 10 :: (List.replicate (l.toNat + 1) 9 ++ valueInfo (l + 1) e ++ [44]) := by
    intro zs
    induction zs with
    | nil => rfl
    | cons z zs ih => rw [List.flatMap_cons, ← ih]; simp [elemLines]
  rw [← e3]
  simp [infoString, listInfo, e1, e2]

/-- A list of two byte slices at level 1. -/
example : infoString 1 (.slice (some [.bytes [0xab], .bytes []])) =
    "[\n\t\t0xab,\n\t\t0x,\n\t]".toUTF8.data.toList := by decide +kernel

example : doubleByteSlice 0 (some [[0xab], []]) = "[\n\tab,\n\t,\n]".toUTF8.data.toList := by decide +kernel

/-- **C157, where it ends.** With texts that have commas a list cannot be read off: one string prints as two. -/
theorem C157_commas_refuted : ∃ xs ys : List Face, xs.length ≠ ys.length ∧
    infoString 0 (.slice (some xs)) = infoString 0 (.slice (some ys)) :=
  ⟨[.text "a,\n\tb".toUTF8.data.toList], [.text "a".toUTF8.data.toList, .text "b".toUTF8.data.toList],
    by decide, by decide +kernel⟩

/-- A byte slice, a hash or an address given to `InfoString` itself, not within a list: an array or a slice of bytes,
and a byte is none of the cases of the switch. -/
def ofBytes (b : Bytes) : List Face := b.map fun _ => Face.other

/-- **C157, where it ends.** Hashes and byte slices given to `InfoString` directly print only their length: all of one
length print alike. -/
theorem C157_toplevel_refuted (l : Int) (a b : Bytes) (h : a.length = b.length) :
    infoString l (.array (ofBytes a)) = infoString l (.array (ofBytes b)) ∧
    infoString l (.slice (some (ofBytes a))) = infoString l (.slice (some (ofBytes b))) := by
  have : ofBytes a = ofBytes b := by
    unfold ofBytes
    rw [List.map_const', List.map_const', h]
  rw [this]; exact ⟨rfl, rfl⟩

end Verif.Printing

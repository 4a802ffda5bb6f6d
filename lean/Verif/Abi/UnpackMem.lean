import Verif.Abi.Model

/-!
# Property C184: unpacked values and the memory of the data (/repo/abi/unpack.go:194-252)

`toGoType` returns a value of type `bytes` as a window into the data (line 246); all other values are made of copies (numbers, booleans, addresses,
byte arrays, functions, and strings at line 236).  Here windows are explicit, and the data may be written into after unpacking.
-/

namespace Verif.Abi.UnpackMem
open Verif

/-! ### The code -/

/-- An unpacked value: memory of its own, a window into the data, or a slice, array or struct of such values. -/
inductive MVal where
  | own (v : Val)
  | window (off len : Nat)
  | list (l : List MVal)

mutual
/-- The value that is seen while the data are `d`. -/
def look (d : Bytes) : MVal → Val
  | .own v => v
  | .window off len => .bytes ((d.drop off).take len)
  | .list l => .list (lookL d l)
/-- The values that are seen while the data are `d`. -/
def lookL (d : Bytes) : List MVal → List Val
  | [] => []
  | m :: l => look d m :: lookL d l
end

/-- A result with `f` applied to it. -/
def mapRes {α β : Type} (f : α → β) (r : Res α) : Res β := Res.bind r fun a => .ok (f a)

/-- The loop of `forEachUnpack` (`/repo/abi/unpack.go:148-156`). -/
def forEachLoopM (dec : Nat → Res MVal) (elemSize : Nat) : Nat → Nat → Res (List MVal)
  | 0, _ => .ok []
  | size + 1, i => Res.bind (dec i) fun v => Res.bind (forEachLoopM dec elemSize size (i + elemSize)) fun l => .ok (v :: l)

/-- `forEachUnpack` (`/repo/abi/unpack.go:124-160`) from the start of `out`. -/
def forEachUnpackM (dec : Nat → Res MVal) (elemSize : Nat) (out : Bytes) (size : Nat) : Res MVal :=
  if 32 * size > out.length then .err
  else Res.bind (forEachLoopM dec elemSize size 0) fun l => .ok (.list l)

mutual
/-- `toGoType` (`/repo/abi/unpack.go:194-252`) on the data `out`, which begin at byte `base` of the whole.  What is made of copies is taken from
the model without memory. -/
def toGoMem : Ty → Nat → Nat → Bytes → Res MVal
  | .uint bits, i, _, out => mapRes .own (toGoType (.uint bits) i out)
  | .int bits, i, _, out => mapRes .own (toGoType (.int bits) i out)
  | .bool, i, _, out => mapRes .own (toGoType .bool i out)
  | .address, i, _, out => mapRes .own (toGoType .address i out)
  | .fixed n, i, _, out => mapRes .own (toGoType (.fixed n) i out)
  | .function, i, _, out => mapRes .own (toGoType .function i out)
  | .string, i, _, out => mapRes .own (toGoType .string i out)
  | .bytes, i, base, out =>
    if i + 32 > out.length then .err
    else Res.bind (lengthPrefixPointsTo i out) fun p => Res.bind (sliceOf out p.1 (p.1 + p.2)) fun _ => .ok (.window (base + p.1) p.2)
  | .slice e, i, base, out =>
    if i + 32 > out.length then .err
    else Res.bind (lengthPrefixPointsTo i out) fun p =>
      Res.bind (sliceFrom out p.1) fun o => forEachUnpackM (fun j => toGoMem e j (base + p.1) o) (getTypeSize e) o p.2
  | .array n e, i, base, out =>
    if i + 32 > out.length then .err
    else Res.bind (sliceOf out i (i + 32)) fun w =>
      if isDynamicType e then
        if beNat (w.drop 24) > out.length then .err
        else Res.bind (sliceFrom out (beNat (w.drop 24))) fun o =>
          forEachUnpackM (fun j => toGoMem e j (base + beNat (w.drop 24)) o) (getTypeSize e) o n
      else Res.bind (sliceFrom out i) fun o => forEachUnpackM (fun j => toGoMem e j (base + i) o) (getTypeSize e) o n
  | .tuple ts, i, base, out =>
    if i + 32 > out.length then .err
    else if isDynamicType (.tuple ts) then
      Res.bind (tuplePointsTo i out) fun b => Res.bind (sliceFrom out b) fun o => Res.bind (unpackFieldsM ts 0 0 (base + b) o) fun l =>
        .ok (.list l)
    else Res.bind (sliceFrom out i) fun o => Res.bind (unpackFieldsM ts 0 0 (base + i) o) fun l => .ok (.list l)
/-- The loops of `forTupleUnpack` and `UnpackValues` (`/repo/abi/unpack.go:162-190`, `/repo/abi/argument.go:192-222`). -/
def unpackFieldsM : List Ty → Nat → Int → Nat → Bytes → Res (List MVal)
  | [], _, _, _, _ => .ok []
  | t :: ts, index, virt, base, out =>
    if (index : Int) + virt < 0 then .panic
    else Res.bind (toGoMem t (((index : Int) + virt) * 32).toNat base out) fun v =>
      Res.bind (unpackFieldsM ts (index + 1) (virt + virtual t) base out) fun l => .ok (v :: l)
end

/-- `Arguments.UnpackValues` (`/repo/abi/argument.go:195-224`). -/
def unpackMem (ts : List Ty) (data : Bytes) : Res (List MVal) := unpackFieldsM ts 0 0 0 data

/-! ### Specification -/

mutual
/-- The type has no part of type `bytes`. -/
def NoBytes : Ty → Prop
  | .bytes => False
  | .slice e => NoBytes e
  | .array _ e => NoBytes e
  | .tuple ts => NoBytesL ts
  | _ => True
/-- None of the types has. -/
def NoBytesL : List Ty → Prop
  | [] => True
  | t :: ts => NoBytes t ∧ NoBytesL ts
end

/-! ### Proof -/

theorem mapRes_bind {α β γ : Type} (f : β → γ) (r : Res α) (g : α → Res β) : mapRes f (Res.bind r g) = Res.bind r fun a => mapRes f (g a) := by
  cases r <;> rfl

theorem bind_congr {α β : Type} {r : Res α} {f g : α → Res β} (h : ∀ a, r = .ok a → f a = g a) : Res.bind r f = Res.bind r g := by
  cases r with
  | ok a => exact h a rfl
  | err => rfl
  | panic => rfl

theorem mapRes_own (d : Bytes) (r : Res Val) : mapRes (look d) (mapRes .own r) = r := by
  cases r with
  | ok a => simp [mapRes, Res.bind, look]
  | err => rfl
  | panic => rfl

theorem loop_eq {d : Bytes} {dm : Nat → Res MVal} {dec : Nat → Res Val} (h : ∀ j, mapRes (look d) (dm j) = dec j) (sz : Nat) :
    ∀ n i, mapRes (lookL d) (forEachLoopM dm sz n i) = forEachLoop dec sz n i := by
  intro n
  induction n with
  | zero => intro i; simp [forEachLoopM, forEachLoop, mapRes, Res.bind, lookL]
  | succ n ih =>
    intro i
    rw [forEachLoopM, forEachLoop, ← h i, ← ih (i + sz)]
    cases dm i with
    | err => rfl
    | panic => rfl
    | ok v =>
      cases forEachLoopM dm sz n (i + sz) with
      | err => rfl
      | panic => rfl
      | ok l => simp [mapRes, Res.bind, lookL]

theorem forEach_eq {d : Bytes} {dm : Nat → Res MVal} {dec : Nat → Res Val} (h : ∀ j, mapRes (look d) (dm j) = dec j) (sz : Nat) (out : Bytes) (n : Nat) :
    mapRes (look d) (forEachUnpackM dm sz out n) = forEachUnpack dec sz out n := by
  rw [forEachUnpackM, forEachUnpack]
  split
  · rfl
  · rw [mapRes_bind, ← loop_eq h sz n 0]
    cases forEachLoopM dm sz n 0 with
    | err => rfl
    | panic => rfl
    | ok l => simp [mapRes, Res.bind, look]

theorem list_eq {d : Bytes} {r : Res (List MVal)} {r' : Res (List Val)} (h : mapRes (lookL d) r = r') :
    mapRes (look d) (Res.bind r fun l => .ok (.list l)) = Res.bind r' fun l => .ok (.list l) := by
  rw [← h]
  cases r with
  | err => rfl
  | panic => rfl
  | ok l => simp [mapRes, Res.bind, look]

theorem from_eq {out o d : Bytes} {base k : Nat} {P : Prop} (h : P ∨ out = d.drop base) (ho : sliceFrom out k = .ok o) : P ∨ o = d.drop (base + k) := by
  rcases h with h | h
  · exact Or.inl h
  · refine Or.inr ?_
    rw [sliceFrom] at ho
    split at ho
    · cases ho
      rw [h, List.drop_drop]
    · cases ho

mutual
/-- What is seen, if there are no windows or the data are as they were. -/
theorem toGoMem_eq (d : Bytes) : ∀ (t : Ty) (i base : Nat) (out : Bytes), NoBytes t ∨ out = d.drop base →
    mapRes (look d) (toGoMem t i base out) = toGoType t i out
  | .uint _, i, base, out, _ => by rw [toGoMem, mapRes_own]
  | .int _, i, base, out, _ => by rw [toGoMem, mapRes_own]
  | .bool, i, base, out, _ => by rw [toGoMem, mapRes_own]
  | .address, i, base, out, _ => by rw [toGoMem, mapRes_own]
  | .fixed _, i, base, out, _ => by rw [toGoMem, mapRes_own]
  | .function, i, base, out, _ => by rw [toGoMem, mapRes_own]
  | .string, i, base, out, _ => by rw [toGoMem, mapRes_own]
  | .bytes, i, base, out, h => by
    have h : out = d.drop base := h.resolve_left (by simp [NoBytes])
    rw [toGoMem, toGoType]
    split
    · rfl
    · rw [mapRes_bind]
      refine bind_congr fun p _ => ?_
      rw [mapRes_bind]
      refine bind_congr fun b hb => ?_
      rw [sliceOf] at hb
      split at hb
      · cases hb
        simp only [mapRes, Res.bind, look, h, List.drop_drop, Nat.add_sub_cancel_left]
      · cases hb
  | .slice e, i, base, out, h => by
    rw [NoBytes] at h
    rw [toGoMem, toGoType]
    split
    · rfl
    · rw [mapRes_bind]
      refine bind_congr fun p _ => ?_
      rw [mapRes_bind]
      refine bind_congr fun o ho => ?_
      exact forEach_eq (fun j => toGoMem_eq d e j _ o (from_eq h ho)) _ _ _
  | .array n e, i, base, out, h => by
    rw [NoBytes] at h
    rw [toGoMem, toGoType]
    split
    · rfl
    · rw [mapRes_bind]
      refine bind_congr fun w _ => ?_
      split
      · split
        · rfl
        · rw [mapRes_bind]
          refine bind_congr fun o ho => ?_
          exact forEach_eq (fun j => toGoMem_eq d e j _ o (from_eq h ho)) _ _ _
      · rw [mapRes_bind]
        refine bind_congr fun o ho => ?_
        exact forEach_eq (fun j => toGoMem_eq d e j _ o (from_eq h ho)) _ _ _
  | .tuple ts, i, base, out, h => by
    rw [NoBytes] at h
    rw [toGoMem, toGoType]
    split
    · rfl
    · split
      · rw [mapRes_bind]
        refine bind_congr fun b _ => ?_
        rw [mapRes_bind]
        refine bind_congr fun o ho => ?_
        exact list_eq (unpackFieldsM_eq d ts 0 0 _ o (from_eq h ho))
      · rw [mapRes_bind]
        refine bind_congr fun o ho => ?_
        exact list_eq (unpackFieldsM_eq d ts 0 0 _ o (from_eq h ho))
/-- The same for fields. -/
theorem unpackFieldsM_eq (d : Bytes) : ∀ (ts : List Ty) (index : Nat) (virt : Int) (base : Nat) (out : Bytes), NoBytesL ts ∨ out = d.drop base →
    mapRes (lookL d) (unpackFieldsM ts index virt base out) = unpackFields ts index virt out
  | [], _, _, _, _, _ => by simp [unpackFieldsM, unpackFields, mapRes, Res.bind, lookL]
  | t :: ts, index, virt, base, out, h => by
    rw [NoBytesL] at h
    rw [unpackFieldsM, unpackFields]
    split
    · rfl
    · rw [← toGoMem_eq d t _ base out (h.imp_left And.left), ← unpackFieldsM_eq d ts (index + 1) _ base out (h.imp_left And.right)]
      cases toGoMem t (((index : Int) + virt) * 32).toNat base out with
      | err => rfl
      | panic => rfl
      | ok v =>
        cases unpackFieldsM ts (index + 1) (virt + virtual t) base out with
        | err => rfl
        | panic => rfl
        | ok l => simp [mapRes, Res.bind, lookL]
end

/-- **C184.** As long as the data are not written into, the unpacked values are those of the model without memory. -/
theorem C184_values (ts : List Ty) (data : Bytes) : mapRes (lookL data) (unpackMem ts data) = unpackValues ts data :=
  unpackFieldsM_eq data ts 0 0 0 data (Or.inr rfl)

/-- **C184, as far as it holds.** Whatever is written into the data after unpacking, unpacked values stay as they were, if no type has a part of type
`bytes`. -/
theorem C184_kept_partial (ts : List Ty) (hts : NoBytesL ts) (data later : Bytes) :
    mapRes (lookL later) (unpackMem ts data) = unpackValues ts data :=
  unpackFieldsM_eq later ts 0 0 0 data (Or.inl hts)

/-! ### Cases and refutations -/

/-- A word with a small number. -/
def num (n : UInt8) : Bytes := List.replicate 31 0 ++ [n]

/-- `Arguments.Pack` of the byte strings 1 2 3 and 4 5. -/
def two : Bytes := num 64 ++ num 128 ++ num 3 ++ ([1, 2, 3] ++ List.replicate 29 0) ++ num 2 ++ ([4, 5] ++ List.replicate 30 0)

/-- The contents of byte strings that were unpacked. -/
def seen (d : Bytes) (r : Res (List MVal)) : List Bytes :=
  match r with
  | .ok l => (lookL d l).map Val.raw
  | _ => []

/-- Strings stay. -/
example : seen [] (unpackMem [.string, .string] two) = [[1, 2, 3], [4, 5]] := by decide +kernel

/-- Where byte strings that were unpacked lie in the data. -/
def places (r : Res (List MVal)) : List (Nat × Nat) :=
  match r with
  | .ok l => l.filterMap fun | .window off len => some (off, len) | _ => none
  | _ => []

/-- **C184 is false for `bytes`**: if the buffer is used again, unpacked byte strings change; and since a window has room up to the end of the data,
appending 63 bytes to the first byte string, which ends at byte 99, overwrites the second one. -/
theorem C184_bytes_refuted :
    seen two (unpackMem [.bytes, .bytes] two) = [[1, 2, 3], [4, 5]] ∧
    seen (List.replicate two.length 7) (unpackMem [.bytes, .bytes] two) = [[7, 7, 7], [7, 7]] ∧
    places (unpackMem [.bytes, .bytes] two) = [(96, 3), (160, 2)] ∧
    seen (two.take 99 ++ List.replicate 63 9 ++ two.drop (99 + 63)) (unpackMem [.bytes, .bytes] two) = [[1, 2, 3], [9, 9]] := by
  decide +kernel

end Verif.Abi.UnpackMem

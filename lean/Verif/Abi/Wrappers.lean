import Verif.Abi.Contract
import Verif.Hex.Props

/-!
# Packing and unpacking by name

The methods of a contract description that pack and unpack by the name of a function or event, and the texts they show for calls and
results.

Simplifications: storing the unpacked values in the object of the caller (`Arguments.Copy`) is a parameter `copy` (it is in `Verif.Abi.Copy`, its cases are in
`Verif.Abi.Fields` and `Verif.Abi.Set`), which is given the arguments and the values; the object and the map are not nil.  The texts
that `fmt` makes of values that are not byte strings are a parameter `V`.
-/

namespace Verif.Abi
open Verif

/-! ### The code -/

/-- `ABI.PackEventArgs` (`/repo/abi/abi.go:84-97`). -/
def packEventArgs (c : Contract) (name : Bytes) (args : List Val) : Res Bytes :=
  match look c.events name with
  | none => .err
  | some e =>
    if e.inputs.isNone then .err
    else if (dataParams e.inputs).isEmpty then .err
    else packArgs ((dataParams e.inputs).map (·.ty)) args

/-- `ABI.PackInputWithoutID` (`/repo/abi/abi.go:272-281`). -/
def packInput (c : Contract) (name : Bytes) (args : List Val) : Res Bytes :=
  if name = [] then .ok []
  else
    match look c.methods name with
    | none => .err
    | some m => packArgs (allTys m.inputs) args

/-- `ABI.InputUnpack` (`/repo/abi/abi.go:283-297`), the map not nil. -/
def inputUnpack (c : Contract) (v : List (Bytes × Val)) (name data : Bytes) : Res (List (Bytes × Val)) :=
  if data.length = 0 then .err
  else if data.length % 32 ≠ 0 then .err
  else
    match look c.methods name with
    | none => .err
    | some m => unpackIntoMap m.inputs v data

/-- `ABI.UnpackReturnsMap` (`/repo/abi/abi.go:323-336`), the map not nil. -/
def unpackReturnsMap (c : Contract) (v : List (Bytes × Val)) (name data : Bytes) : Res (List (Bytes × Val)) :=
  if data.length = 0 then .err
  else if data.length % 32 ≠ 0 then .err
  else
    match look c.methods name with
    | none => .err
    | some m => unpackIntoMap m.outputs v data

section Objects
variable {α : Type} (copy : List Param → List Val → Res α)

/-- `Arguments.UnpackIntoInterface` (`/repo/abi/argument.go:112-121`), the object not nil. -/
def unpackInto (ps : Option (List Param)) (data : Bytes) : Res α := Res.bind (unpackParams ps data) (copy (ps.getD []))

/-- `ABI.UnpackInput` (`/repo/abi/abi.go:299-304`). -/
def unpackInput (c : Contract) (name data : Bytes) : Res α :=
  match look c.methods name with
  | none => .err
  | some m => unpackInto copy m.inputs data

/-- `ABI.UnpackReturns` (`/repo/abi/abi.go:338-351`). -/
def unpackReturns (c : Contract) (name data : Bytes) : Res α :=
  if data.length = 0 then .err
  else if data.length % 32 ≠ 0 then .err
  else
    match look c.methods name with
    | none => .err
    | some m => unpackInto copy m.outputs data

/-- `ABI.UnpackInputObject` (`/repo/abi/thinkium.go:118-130`). -/
def unpackInputObject (c : Contract) (name input : Bytes) : Res α :=
  if input.length < 4 then .err
  else
    match look c.methods name with
    | none => .err
    | some m => if m.id ≠ input.take 4 then .err else unpackInto copy m.inputs (input.drop 4)

/-- `ABI.UnpackIntoInterface` (`/repo/abi/abi.go:130-140`). -/
def unpackIntoInterface (c : Contract) (name data : Bytes) : Res α :=
  Res.bind (getArguments c name data) fun args => Res.bind (unpackParams args data) (copy (args.getD []))

end Objects

/-- `ABI.UnpackIntoMap` (`/repo/abi/abi.go:143-149`), the map not nil. -/
def unpackNamedMap (c : Contract) (v : List (Bytes × Val)) (name data : Bytes) : Res (List (Bytes × Val)) :=
  Res.bind (getArguments c name data) fun args => unpackIntoMap args v data

/-- The bytes of a slice or an array of `uint8`. -/
def u8s (l : List Val) : Bytes := l.map fun x => UInt8.ofNat x.int.toNat

section Texts
variable (V : Ty → Val → Bytes)

/-- `ABI._argString` (`/repo/abi/abi.go:353-373`): slices and arrays of `uint8` in hexadecimal. -/
def argString (name : Bytes) : Ty → Val → Bytes
  | .bytes, v => name ++ txt ":0x" ++ Hex.hexEncode v.raw
  | .slice (.uint 8), v => name ++ txt ":0x" ++ Hex.hexEncode (u8s v.items)
  | .fixed _, v => name ++ txt ":0x" ++ Hex.hexEncode v.raw
  | .address, v => name ++ txt ":0x" ++ Hex.hexEncode v.raw
  | .function, v => name ++ txt ":0x" ++ Hex.hexEncode v.raw
  | .array _ (.uint 8), v => name ++ txt ":0x" ++ Hex.hexEncode (u8s v.items)
  | t, v => name ++ txt ":" ++ V t v

/-- The loop of `ABI._argsValuesString` (`/repo/abi/abi.go:380-385`). -/
def argsLoop : Nat → List Param → List Val → Bytes
  | i, p :: ps, v :: vs => (if i > 0 then txt ", " else []) ++ argString V p.name p.ty v ++ argsLoop (i + 1) ps vs
  | _, _, _ => []

/-- `ABI._argsValuesString` (`/repo/abi/abi.go:375-387`). -/
def argsValuesString (ps : List Param) (vs : List Val) : Res Bytes :=
  if ps.length ≠ vs.length then .err else .ok (argsLoop V 0 ps vs)

/-- `ABI.MethodString` (`/repo/abi/abi.go:389-410`) for an order of the map. -/
def methodString (order : List (Bytes × Method)) (input : Bytes) : Res Bytes :=
  if input.length < 4 then .err
  else Res.bind (methodById order (input.take 4)) fun m =>
    if (m.inputs.getD []).length = 0 then .ok (m.name ++ txt "()")
    else Res.bind (unpackParams m.inputs (input.drop 4)) fun vs =>
      Res.bind (argsValuesString V (m.inputs.getD []) vs) fun s => .ok (m.name ++ txt "(" ++ s ++ txt ")")

/-- `ABI.ReturnsString` (`/repo/abi/abi.go:412-432`) for an order of the map. -/
def returnsString (order : List (Bytes × Method)) (funcSig output : Bytes) : Res Bytes :=
  if funcSig.length < 4 then .err
  else Res.bind (methodById order (funcSig.take 4)) fun m =>
    if (m.outputs.getD []).length = 0 then .ok (txt "returns ()")
    else Res.bind (unpackParams m.outputs output) fun vs =>
      Res.bind (argsValuesString V (m.outputs.getD []) vs) fun s => .ok (txt "returns (" ++ s ++ txt ")")

end Texts

/-! ### The specification -/

/-- The selector of a function. -/
def selectorOf (H : Bytes → Bytes) (f : Bytes × List (Bytes × Sol) × List (Bytes × Sol)) : Bytes :=
  (H (sigOf f.1 (f.2.1.map (·.2)))).take 4

/-- The types of parameters. -/
abbrev typesOf (l : List (Bytes × Sol)) : List Ty := tys (l.map (·.2))

/-- The parameters of an event that are not indexed. -/
def dataOf (l : List (Bytes × Sol × Bool)) : List (Bytes × Sol) := (l.filter fun p => !p.2.2).map fun p => (p.1, p.2.1)

/-- The text of a list of parameters with values. -/
def shownParams (V : Ty → Val → Bytes) (l : List (Bytes × Sol)) (vs : List Val) : Bytes :=
  List.intercalate (txt ", ") ((l.zip vs).map fun q => argString V q.1.1 q.1.2.ty q.2)

/-- Each name has its value, the other names have what they had. -/
def Stored (l : List (Bytes × Sol)) (vs : List Val) (v v' : List (Bytes × Val)) : Prop :=
  (∀ (i : Nat) (p : Bytes × Sol), l[i]? = some p → look v' p.1 = vs[i]?) ∧ ∀ k, ¬ k ∈ l.map (·.1) → look v' k = look v k

/-! ### Functions -/

variable (U : Bytes → Bool) (H : Bytes → Bytes)

/-- The entry of the table for a function. -/
theorem entry (hH : ∀ b, (H b).length = 32) (items : List Item) (hv : ∀ i ∈ items, i.Valid) (c : Contract)
    (h : readContract U H (items.map Item.field) = .ok c) (f : Bytes × List (Bytes × Sol) × List (Bytes × Sol)) (hf : f ∈ functions items)
    (hn : f.1 ≠ []) : ∃ name m, name ≠ [] ∧ look c.methods name = some m ∧ (name, m) ∈ c.methods ∧ MethodOf H f (name, m) := by
  obtain ⟨t1, t2, _⟩ := C125_methods U H hH items hv c h
  obtain ⟨⟨name, m⟩, hp, hm⟩ := forall₂_left t1 hf
  refine ⟨name, m, ?_, (look_mem _ t2 _ _).mpr hp, hp, hm⟩
  rcases hm.1 with e | ⟨k, e⟩
  · simp only at e; rw [e]; exact hn
  · simp only at e; rw [e]; simp [hn]

theorem packed_nonempty (l : List (Bytes × Sol)) (hl : l ≠ []) (b : Bytes) (hv : ∀ p ∈ l, p.2.Valid)
    (hb : ∃ vs, WtL (typesOf l) vs ∧ packArgs (typesOf l) vs = .ok b ∧ FullL (typesOf l) ∧ b.length < 2 ^ 63) : b.length ≠ 0 := by
  intro h0
  obtain ⟨vs, hw, hp, hfull, hlt⟩ := hb
  obtain ⟨b', b1, b2⟩ := C74_roundtrip _ vs hw (sane_of l hv) hfull
  rw [hp] at b1
  injection b1 with b1
  subst b1
  have := (b2 hlt).1
  rw [unpackArgs, if_pos h0] at this
  split at this
  · cases this
  · next h1 =>
    apply hl
    have e : (typesOf l).length = l.length := by rw [typesOf, ← tys_params]; simp [params]
    rw [e] at h1
    exact List.eq_nil_of_length_eq_zero (by omega)

/-- What is packed for parameters of these types: a multiple of 32 bytes, none only if there are no parameters, and the values can be
unpacked again. -/
theorem packed (l : List (Bytes × Sol)) (hv : ∀ p ∈ l, p.2.Valid) (vs : List Val) (hw : WtL (typesOf l) vs) (hfull : FullL (typesOf l)) :
    ∃ b, packArgs (typesOf l) vs = .ok b ∧ b.length % 32 = 0 ∧
      (b.length < 2 ^ 63 → (l ≠ [] → b.length ≠ 0) ∧ unpackParams (some (params l)) b = .ok vs ∧
        ((l.map (·.1)).Nodup → ∀ v, ∃ v', unpackIntoMap (some (params l)) v b = .ok v' ∧ Stored l vs v v')) := by
  obtain ⟨b, b1, b2⟩ := C74_roundtrip _ vs hw (sane_of l hv) hfull
  obtain ⟨b', b1', _, hmod, _⟩ := C75_args _ vs hw (sane_of l hv)
  rw [b1] at b1'
  injection b1' with b1'
  subst b1'
  refine ⟨b, b1, hmod, fun hlt => ⟨fun hl => packed_nonempty l hl b hv ⟨vs, hw, b1, hfull, hlt⟩, ?_, ?_⟩⟩
  · rw [unpackParams, data_params, tys_params]
    exact (b2 hlt).1
  · intro hn v
    obtain ⟨b'', c1, c2⟩ := C125_map_partial l hv hn vs hw hfull v
    rw [b1] at c1
    injection c1 with c1
    subst c1
    obtain ⟨v', d1, d2, d3⟩ := c2 hlt
    exact ⟨v', d1, d2, d3⟩

theorem packArgs_params (l : List (Bytes × Sol)) (vs : List Val) : packArgs (allTys (some (params l))) vs = packArgs (typesOf l) vs := by
  rw [allTys, Option.getD_some, tys_params]

/-- **C136.**  The inputs of a function, packed without selector, can be unpacked: `UnpackInput` stores the values in the object, and
`InputUnpack` in the map.  Missing: functions without inputs for `InputUnpack` (`C136_empty_refuted`), parameters with the same name
for the map (`C125_map_refuted`). -/
theorem C136_inputs_partial (hH : ∀ b, (H b).length = 32) (items : List Item) (hv : ∀ i ∈ items, i.Valid) (c : Contract)
    (h : readContract U H (items.map Item.field) = .ok c) (f : Bytes × List (Bytes × Sol) × List (Bytes × Sol)) (hf : f ∈ functions items)
    (hn : f.1 ≠ []) (args : List Val) (hw : WtL (typesOf f.2.1) args) (hfull : FullL (typesOf f.2.1)) :
    ∃ name m b, look c.methods name = some m ∧ MethodOf H f (name, m) ∧ packInput c name args = .ok b ∧
      (b.length < 2 ^ 63 →
        (∀ {α : Type} (copy : List Param → List Val → Res α), unpackInput copy c name b = copy (params f.2.1) args) ∧
        (f.2.1 ≠ [] → (f.2.1.map (·.1)).Nodup → ∀ v, ∃ v', inputUnpack c v name b = .ok v' ∧ Stored f.2.1 args v v')) := by
  obtain ⟨name, m, hname, hl, hmem, hm⟩ := entry U H hH items hv c h f hf hn
  obtain ⟨m1, m2, m3, m4, m5, m6, m7⟩ := id hm
  simp only at m6 m7
  obtain ⟨b, b1, b2, b3⟩ := packed f.2.1 (functions_valid items hv f hf).1 args hw hfull
  refine ⟨name, m, b, hl, hm, ?_, fun hlt => ?_⟩
  · rw [packInput, if_neg hname, hl]
    simp only
    rw [m6, packArgs_params, b1]
  · obtain ⟨d1, d2, d3⟩ := b3 hlt
    constructor
    · intro α copy
      rw [unpackInput, hl]
      simp only
      rw [unpackInto, m6, d2]
      rfl
    · intro hne hnd v
      obtain ⟨v', e1, e2⟩ := d3 hnd v
      refine ⟨v', ?_, e2⟩
      rw [inputUnpack, if_neg (d1 hne), if_neg (by omega), hl]
      simp only
      rw [m6, e1]

/-- **C136.**  The same for the results of a function.  Missing: functions that return nothing (`C136_empty_refuted`), results with the
same name for the map. -/
theorem C136_returns_partial (hH : ∀ b, (H b).length = 32) (items : List Item) (hv : ∀ i ∈ items, i.Valid) (c : Contract)
    (h : readContract U H (items.map Item.field) = .ok c) (f : Bytes × List (Bytes × Sol) × List (Bytes × Sol)) (hf : f ∈ functions items)
    (hn : f.1 ≠ []) (vs : List Val) (hw : WtL (typesOf f.2.2) vs) (hfull : FullL (typesOf f.2.2)) (hne : f.2.2 ≠ []) :
    ∃ name m b, look c.methods name = some m ∧ MethodOf H f (name, m) ∧ packReturns c name vs = .ok b ∧
      (b.length < 2 ^ 63 →
        (∀ {α : Type} (copy : List Param → List Val → Res α), unpackReturns copy c name b = copy (params f.2.2) vs) ∧
        ((f.2.2.map (·.1)).Nodup → ∀ v, ∃ v', unpackReturnsMap c v name b = .ok v' ∧ Stored f.2.2 vs v v')) := by
  obtain ⟨name, m, hname, hl, hmem, hm⟩ := entry U H hH items hv c h f hf hn
  obtain ⟨m1, m2, m3, m4, m5, m6, m7⟩ := id hm
  simp only at m6 m7
  obtain ⟨b, b1, b2, b3⟩ := packed f.2.2 (functions_valid items hv f hf).2 vs hw hfull
  refine ⟨name, m, b, hl, hm, ?_, fun hlt => ?_⟩
  · rw [packReturns, if_neg hname, hl]
    simp only
    rw [m7, packArgs_params, b1]
  · obtain ⟨d1, d2, d3⟩ := b3 hlt
    constructor
    · intro α copy
      rw [unpackReturns, if_neg (d1 hne), if_neg (by omega), hl]
      simp only
      rw [unpackInto, m7, d2]
      rfl
    · intro hnd v
      obtain ⟨v', e1, e2⟩ := d3 hnd v
      refine ⟨v', ?_, e2⟩
      rw [unpackReturnsMap, if_neg (d1 hne), if_neg (by omega), hl]
      simp only
      rw [m7, e1]

/-- **C136.**  `UnpackIntoMap` stores the results of a function in the map, also if there are none.  Missing: names that are also names of
events (`C125_returns_refuted`), results with the same name (`C125_map_refuted`). -/
theorem C136_map_partial (hH : ∀ b, (H b).length = 32) (items : List Item) (hv : ∀ i ∈ items, i.Valid) (c : Contract)
    (h : readContract U H (items.map Item.field) = .ok c) (f : Bytes × List (Bytes × Sol) × List (Bytes × Sol)) (hf : f ∈ functions items)
    (hn : f.1 ≠ []) (vs : List Val) (hw : WtL (typesOf f.2.2) vs) (hfull : FullL (typesOf f.2.2)) (hnd : (f.2.2.map (·.1)).Nodup) :
    ∃ name m b, look c.methods name = some m ∧ MethodOf H f (name, m) ∧ packReturns c name vs = .ok b ∧
      (b.length < 2 ^ 63 → look c.events name = none → ∀ v, ∃ v', unpackNamedMap c v name b = .ok v' ∧ Stored f.2.2 vs v v') := by
  obtain ⟨name, m, hname, hl, hmem, hm⟩ := entry U H hH items hv c h f hf hn
  obtain ⟨m1, m2, m3, m4, m5, m6, m7⟩ := id hm
  simp only at m7
  obtain ⟨b, b1, b2, b3⟩ := packed f.2.2 (functions_valid items hv f hf).2 vs hw hfull
  refine ⟨name, m, b, hl, hm, ?_, fun hlt he v => ?_⟩
  · rw [packReturns, if_neg hname, hl]
    simp only
    rw [m7, packArgs_params, b1]
  · obtain ⟨v', e1, e2⟩ := (b3 hlt).2.2 hnd v
    have hargs : getArguments c name b = .ok m.outputs := by
      rw [getArguments, hl, he]
      simp only
      rw [if_neg (by omega), m7]
      rfl
    refine ⟨v', ?_, e2⟩
    rw [unpackNamedMap, hargs]
    show unpackIntoMap m.outputs v b = _
    rw [m7, e1]

/-- **C136.**  Functions without inputs or without results: what is packed for them is refused, by `InputUnpack`, `UnpackReturns` and
`UnpackReturnsMap`; `UnpackInput` takes it. -/
theorem C136_empty_refuted (hH : ∀ b, (H b).length = 32) (items : List Item) (hv : ∀ i ∈ items, i.Valid) (c : Contract)
    (h : readContract U H (items.map Item.field) = .ok c) (f : Bytes × List (Bytes × Sol) × List (Bytes × Sol)) (hf : f ∈ functions items)
    (hn : f.1 ≠ []) : ∃ name m, look c.methods name = some m ∧ MethodOf H f (name, m) ∧
      (f.2.1 = [] → packInput c name [] = .ok [] ∧ (∀ v, inputUnpack c v name [] = .err) ∧
        ∀ {α : Type} (copy : List Param → List Val → Res α), unpackInput copy c name [] = copy [] []) ∧
      (f.2.2 = [] → packReturns c name [] = .ok [] ∧ (∀ v, unpackReturnsMap c v name [] = .err) ∧
        ∀ {α : Type} (copy : List Param → List Val → Res α), unpackReturns copy c name [] = .err) := by
  obtain ⟨name, m, hname, hl, hmem, hm⟩ := entry U H hH items hv c h f hf hn
  obtain ⟨m1, m2, m3, m4, m5, m6, m7⟩ := id hm
  simp only at m6 m7
  refine ⟨name, m, hl, hm, fun h0 => ⟨?_, fun _ => rfl, fun copy => ?_⟩, fun h0 => ⟨?_, fun _ => rfl, fun copy => rfl⟩⟩
  · rw [packInput, if_neg hname, hl]
    simp only
    rw [m6, h0]
    rfl
  · rw [unpackInput, hl]
    simp only
    rw [unpackInto, m6, h0]
    rfl
  · rw [packReturns, if_neg hname, hl]
    simp only
    rw [m7, h0]
    rfl

/-- **C136.**  A call packed with `Pack` is taken by `UnpackInputObject` under the same name; under any name it takes nothing but calls
with the selector of the function, and it does not panic unless storing the values does. -/
theorem C136_object (hH : ∀ b, (H b).length = 32) (items : List Item) (hv : ∀ i ∈ items, i.Valid) (c : Contract)
    (h : readContract U H (items.map Item.field) = .ok c) {α : Type} (copy : List Param → List Val → Res α) :
    (∀ f ∈ functions items, f.1 ≠ [] → ∀ args, WtL (typesOf f.2.1) args → FullL (typesOf f.2.1) →
      ∃ name m data, look c.methods name = some m ∧ MethodOf H f (name, m) ∧ packCall c name args = .ok data ∧
        (data.length < 2 ^ 63 → unpackInputObject copy c name data = copy (params f.2.1) args)) ∧
    ∀ name input x, unpackInputObject copy c name input = .ok x →
      ∃ m, look c.methods name = some m ∧ ∃ f ∈ functions items, MethodOf H f (name, m) ∧ input.take 4 = selectorOf H f := by
  obtain ⟨t1, t2, _⟩ := C125_methods U H hH items hv c h
  constructor
  · intro f hf hn args hw hfull
    obtain ⟨name, m, hname, hl, hmem, hm⟩ := entry U H hH items hv c h f hf hn
    obtain ⟨m1, m2, m3, m4, m5, m6, m7⟩ := id hm
    simp only at m5 m6
    obtain ⟨b, b1, b2, b3⟩ := packed f.2.1 (functions_valid items hv f hf).1 args hw hfull
    have hid : m.id.length = 4 := by rw [m5, List.length_take, hH]; rfl
    refine ⟨name, m, m.id ++ b, hl, hm, ?_, fun hlt => ?_⟩
    · rw [packCall, if_neg hname, hl]
      simp only
      rw [m6, packArgs_params, b1]
      rfl
    · have htake : (m.id ++ b).take 4 = m.id := by rw [List.take_append_of_le_length (by omega), List.take_of_length_le (by omega)]
      have hdrop : (m.id ++ b).drop 4 = b := by rw [← hid, List.drop_left]
      rw [unpackInputObject, if_neg (by rw [List.length_append]; omega), hl]
      simp only
      rw [htake, hdrop, if_neg (by simp), unpackInto, m6, (b3 (by rw [List.length_append] at hlt; omega)).2.1]
      rfl
  · intro name input x hx
    rw [unpackInputObject] at hx
    split at hx
    · cases hx
    · split at hx
      · cases hx
      · next m hl =>
        split at hx
        · cases hx
        · next hid =>
          obtain ⟨f, hf, hm⟩ := forall₂_right t1 ((look_mem _ t2 _ _).mp hl)
          refine ⟨m, hl, f, hf, hm, ?_⟩
          have := hm.2.2.2.2.1
          simp only at this
          rw [selectorOf, ← this]
          simpa using (not_not.mp hid).symm

/-! ### Events -/

theorem data_event (k : Nat → Bytes → Bytes) (l : List (Bytes × Sol × Bool)) :
    (dataParams (some (l.mapIdx fun i q => (⟨k i q.1, q.2.1.ty, q.2.1.sig, q.2.2⟩ : Param)))).map (·.ty) = typesOf (dataOf l) := by
  rw [dataParams, Option.getD_some]
  induction l generalizing k with
  | nil => rfl
  | cons a l ih =>
    rw [List.mapIdx_cons, List.filter_cons, dataOf, List.filter_cons]
    have := ih (fun i => k (i + 1))
    rcases a with ⟨a, s, b⟩
    cases b
    · simp only [Bool.not_false, if_true, List.map_cons, typesOf, tys]
      rw [this]
      rfl
    · simp only [Bool.not_true, Bool.false_eq_true, if_false]
      exact this

theorem events_valid (items : List Item) (hv : ∀ i ∈ items, i.Valid) (f) (hf : f ∈ events items) : ∀ p ∈ f.2.1, p.2.1.Valid := by
  induction items with
  | nil => cases hf
  | cons i l ih =>
    have hl := ih fun j hj => hv j (by simp [hj])
    have hi := hv i (by simp)
    cases i with
    | event n i a =>
      rcases List.mem_cons.mp hf with rfl | hf
      · exact hi
      · exact hl hf
    | _ => exact hl hf

theorem dataOf_valid (l : List (Bytes × Sol × Bool)) (h : ∀ p ∈ l, p.2.1.Valid) : ∀ p ∈ dataOf l, p.2.Valid := by
  intro p hp
  obtain ⟨q, hq, rfl⟩ := List.mem_map.mp hp
  exact h q (List.mem_filter.mp hq).1

/-- **C136.**  The data of an event, packed with `PackEventArgs`, is unpacked by `Unpack` and stored by `UnpackIntoInterface`, also if a
function has the name.  Missing: events without data (`C136_event_refuted`). -/
theorem C136_event_partial (hH : ∀ b, (H b).length = 32) (items : List Item) (hv : ∀ i ∈ items, i.Valid) (c : Contract)
    (h : readContract U H (items.map Item.field) = .ok c) (f : Bytes × List (Bytes × Sol × Bool) × Bool) (hf : f ∈ events items)
    (vs : List Val) (hw : WtL (typesOf (dataOf f.2.1)) vs) (hfull : FullL (typesOf (dataOf f.2.1))) (hne : dataOf f.2.1 ≠ []) :
    ∃ name e b, look c.events name = some e ∧ EventOf H f (name, e) ∧ packEventArgs c name vs = .ok b ∧
      (b.length < 2 ^ 63 → unpackNamed c name b = .ok vs ∧
        ∀ {α : Type} (copy : List Param → List Val → Res α), unpackIntoInterface copy c name b = copy (e.inputs.getD []) vs) := by
  obtain ⟨t1, t2, _⟩ := C125_events U H hH items hv c h
  obtain ⟨⟨name, e⟩, hp, hm⟩ := forall₂_left t1 hf
  obtain ⟨m1, m2, m3, m4, m5, m6, m7⟩ := id hm
  simp only at m7
  have hl := (look_mem _ t2 _ _).mpr hp
  have hty : (dataParams e.inputs).map (·.ty) = typesOf (dataOf f.2.1) := by rw [m7]; exact data_event shownName f.2.1
  have hemp : (dataParams e.inputs).isEmpty = false := by
    cases hd : dataParams e.inputs with
    | nil =>
      rw [hd] at hty
      cases hx : dataOf f.2.1 with
      | nil => exact absurd hx hne
      | cons a t => rw [hx, typesOf, List.map_cons, tys] at hty; cases hty
    | cons a t => rfl
  obtain ⟨b, b1, b2, b3⟩ := packed (dataOf f.2.1) (dataOf_valid _ (events_valid items hv f hf)) vs hw hfull
  have hargs : getArguments c name b = .ok e.inputs := by
    rw [getArguments, hl]
    simp only
    cases hml : look c.methods name with
    | none => simp only [Res.bind]; rw [m7]; rfl
    | some m =>
      simp only
      rw [if_neg (by omega)]
      simp only [Res.bind]; rw [m7]; rfl
  refine ⟨name, e, b, hl, hm, ?_, fun hlt => ?_⟩
  · rw [packEventArgs, hl]
    simp only
    rw [if_neg (by rw [m7]; simp), hemp, hty, b1]
    rfl
  · have : unpackParams e.inputs b = .ok vs := by
      rw [unpackParams, hty]
      have := (b3 hlt).2.1
      rwa [unpackParams, data_params, tys_params] at this
    constructor
    · rw [unpackNamed, hargs]; exact this
    · intro α copy
      rw [unpackIntoInterface, hargs]
      simp only [Res.bind]
      rw [this]

/-- **C136.**  The data of an event all of whose arguments are indexed, and of one without arguments, cannot be packed, although nothing
is to be packed; it can be unpacked. -/
theorem C136_event_refuted (hH : ∀ b, (H b).length = 32) (items : List Item) (hv : ∀ i ∈ items, i.Valid) (c : Contract)
    (h : readContract U H (items.map Item.field) = .ok c) (f : Bytes × List (Bytes × Sol × Bool) × Bool) (hf : f ∈ events items)
    (hemp : dataOf f.2.1 = []) : ∃ name e, look c.events name = some e ∧ EventOf H f (name, e) ∧ (∀ vs, packEventArgs c name vs = .err) ∧
      unpackNamed c name [] = .ok [] := by
  obtain ⟨t1, t2, _⟩ := C125_events U H hH items hv c h
  obtain ⟨⟨name, e⟩, hp, hm⟩ := forall₂_left t1 hf
  obtain ⟨m1, m2, m3, m4, m5, m6, m7⟩ := id hm
  simp only at m7
  have hl := (look_mem _ t2 _ _).mpr hp
  have hty : (dataParams e.inputs).map (·.ty) = typesOf (dataOf f.2.1) := by rw [m7]; exact data_event shownName f.2.1
  rw [hemp] at hty
  have hnil : dataParams e.inputs = [] := by simpa [typesOf, tys] using hty
  refine ⟨name, e, hl, hm, fun vs => ?_, ?_⟩
  · rw [packEventArgs, hl]
    simp only
    rw [if_neg (by rw [m7]; simp), hnil]
    rfl
  · have hargs : getArguments c name [] = .ok e.inputs := by
      rw [getArguments, hl]
      simp only
      cases hml : look c.methods name with
      | none => simp only [Res.bind]; rw [m7]; rfl
      | some m => simp only [Res.bind, List.length_nil]; rw [m7]; rfl
    rw [unpackNamed, hargs]
    show unpackParams e.inputs [] = _
    rw [unpackParams, hnil]
    rfl

/-! ### Texts -/

variable (V : Ty → Val → Bytes)

theorem argsLoop_pos : ∀ (l : List (Bytes × Sol)) (vs : List Val) (i : Nat), 0 < i → l.length = vs.length →
    argsLoop V i (params l) vs = (((l.zip vs).map fun q => argString V q.1.1 q.1.2.ty q.2).map (txt ", " ++ ·)).flatten
  | [], [], i, _, _ => by simp [argsLoop, params]
  | [], _ :: _, i, _, h => by simp at h
  | _ :: _, [], i, _, h => by simp at h
  | p :: l, v :: vs, i, hi, h => by
    have := argsLoop_pos l vs (i + 1) (by omega) (by simpa using h)
    rw [params, List.map_cons, argsLoop, if_pos hi, ← params, this]
    simp

theorem intercalate_eq (sep : Bytes) : ∀ (x : Bytes) (l : List Bytes), List.intercalate sep (x :: l) = x ++ (l.map (sep ++ ·)).flatten
  | x, [] => by simp [List.intercalate]
  | x, y :: l => by
    have := intercalate_eq sep y l
    rw [List.intercalate, List.intersperse_cons_cons]
    rw [List.intercalate] at this
    simp [this]

theorem argsLoop_eq (l : List (Bytes × Sol)) (vs : List Val) (h : l.length = vs.length) : argsLoop V 0 (params l) vs = shownParams V l vs := by
  cases l with
  | nil => cases vs <;> simp [argsLoop, params, shownParams, List.intercalate]
  | cons p l =>
    cases vs with
    | nil => simp at h
    | cons v vs =>
      rw [params, List.map_cons, argsLoop, ← params, argsLoop_pos V l vs 1 (by omega) (by simpa using h), shownParams, List.zip_cons_cons,
        List.map_cons, intercalate_eq]
      rfl

theorem found (hH : ∀ b, (H b).length = 32) (items : List Item) (hv : ∀ i ∈ items, i.Valid) (c : Contract)
    (h : readContract U H (items.map Item.field) = .ok c) (hd : ((functions items).map (selectorOf H)).Nodup)
    (f : Bytes × List (Bytes × Sol) × List (Bytes × Sol)) (name : Bytes) (m : Method) (hp : (name, m) ∈ c.methods)
    (hm : MethodOf H f (name, m)) (order : List (Bytes × Method)) (ho : order.Perm c.methods) : methodById order m.id = .ok m := by
  obtain ⟨t1, t2, _⟩ := C125_methods U H hH items hv c h
  have hid : m.id.length = 4 := by
    have := hm.2.2.2.2.1
    simp only at this
    rw [this, List.length_take, hH]; rfl
  have hids : (c.methods.map fun p => p.2.id) = (functions items).map (selectorOf H) := by
    clear hp hd ho h t2
    generalize functions items = fs at t1
    generalize c.methods = ms at t1
    induction t1 with
    | nil => rfl
    | cons h1 _ ih =>
      rw [List.map_cons, List.map_cons, ih, h1.2.2.2.2.1]
      rfl
  rw [methodById, if_neg (by omega), List.take_of_length_le (by omega)]
  cases hfind : order.find? (fun p => p.2.id == m.id) with
  | none =>
    rw [List.find?_eq_none] at hfind
    exact absurd (hfind _ (ho.mem_iff.mpr hp)) (by simp)
  | some p =>
    have hpm := ho.mem_iff.mp (List.mem_of_find?_eq_some hfind)
    have hpid : p.2.id = m.id := by simpa using List.find?_some hfind
    have := List.inj_on_of_nodup_map (f := fun p : Bytes × Method => p.2.id) (by rw [hids]; exact hd) hpm hp hpid
    rw [this]

/-- **C136.**  `MethodString` shows a packed call as the name in the table and, in parentheses, the name and value of each argument in
order, and `ReturnsString` the results, if the selectors of the contract differ. -/
theorem C136_text (hH : ∀ b, (H b).length = 32) (items : List Item) (hv : ∀ i ∈ items, i.Valid) (c : Contract)
    (h : readContract U H (items.map Item.field) = .ok c) (hd : ((functions items).map (selectorOf H)).Nodup)
    (f : Bytes × List (Bytes × Sol) × List (Bytes × Sol)) (hf : f ∈ functions items) (hn : f.1 ≠ [])
    (order : List (Bytes × Method)) (ho : order.Perm c.methods) :
    ∃ name m, look c.methods name = some m ∧ MethodOf H f (name, m) ∧
      (∀ args, WtL (typesOf f.2.1) args → FullL (typesOf f.2.1) → ∃ data, packCall c name args = .ok data ∧
        (data.length < 2 ^ 63 → methodString V order data = .ok (name ++ txt "(" ++ shownParams V f.2.1 args ++ txt ")"))) ∧
      (∀ vs, WtL (typesOf f.2.2) vs → FullL (typesOf f.2.2) → ∃ b, packReturns c name vs = .ok b ∧
        (b.length < 2 ^ 63 → ∀ rest, returnsString V order (selectorOf H f ++ rest) b = .ok (txt "returns (" ++ shownParams V f.2.2 vs ++ txt ")"))) := by
  obtain ⟨name, m, hname, hl, hmem, hm⟩ := entry U H hH items hv c h f hf hn
  have hfound := found U H hH items hv c h hd f name m hmem hm order ho
  obtain ⟨m1, m2, m3, m4, m5, m6, m7⟩ := id hm
  simp only at m2 m5 m6 m7
  have hid : m.id.length = 4 := by rw [m5, List.length_take, hH]; rfl
  have htake : ∀ b, (m.id ++ b).take 4 = m.id := fun b => by
    rw [List.take_append_of_le_length (by omega), List.take_of_length_le (by omega)]
  have hdrop : ∀ b, (m.id ++ b).drop 4 = b := fun b => by rw [← hid, List.drop_left]
  have hlen : ∀ l : List (Bytes × Sol), (params l).length = l.length := fun l => by simp [params]
  have hvlen : ∀ (l : List (Bytes × Sol)) vs, WtL (typesOf l) vs → l.length = vs.length := fun l vs hw => by
    rw [WtL_length _ _ hw, ← hlen, typesOf, ← tys_params]; simp
  have hno : ∀ vs, shownParams V [] vs = [] := fun vs => by simp [shownParams, List.intercalate]
  refine ⟨name, m, hl, hm, fun args hw hfull => ?_, fun vs hw hfull => ?_⟩
  · obtain ⟨b, b1, b2, b3⟩ := packed f.2.1 (functions_valid items hv f hf).1 args hw hfull
    refine ⟨m.id ++ b, ?_, fun hlt => ?_⟩
    · rw [packCall, if_neg hname, hl]
      simp only
      rw [m6, packArgs_params, b1]
      rfl
    · rw [methodString, if_neg (by rw [List.length_append]; omega), htake, hdrop, hfound]
      simp only [Res.bind]
      rw [m6, Option.getD_some, hlen, m2]
      split
      · next h0 =>
        rw [List.eq_nil_of_length_eq_zero h0, hno]
        rw [List.append_nil, List.append_assoc]
        rfl
      · rw [(b3 (by rw [List.length_append] at hlt; omega)).2.1]
        simp only
        rw [argsValuesString, if_neg (by rw [hlen, hvlen _ _ hw]; simp), argsLoop_eq V _ _ (hvlen _ _ hw)]
  · obtain ⟨b, b1, b2, b3⟩ := packed f.2.2 (functions_valid items hv f hf).2 vs hw hfull
    refine ⟨b, ?_, fun hlt rest => ?_⟩
    · rw [packReturns, if_neg hname, hl]
      simp only
      rw [m7, packArgs_params, b1]
    · have hsel : selectorOf H f = m.id := by rw [m5]; rfl
      rw [returnsString, hsel, if_neg (by rw [List.length_append]; omega), htake, hfound]
      simp only [Res.bind]
      rw [m7, Option.getD_some, hlen]
      split
      · next h0 =>
        rw [List.eq_nil_of_length_eq_zero h0, hno, List.append_nil]
        rfl
      · rw [(b3 hlt).2.1]
        simp only
        rw [argsValuesString, if_neg (by rw [hlen, hvlen _ _ hw]; simp), argsLoop_eq V _ _ (hvlen _ _ hw)]

theorem hexEncode_inj (x y : Bytes) (h : Hex.hexEncode x = Hex.hexEncode y) : x = y := by
  rw [← (Hex.C54_fromHex x).2, ← (Hex.C54_fromHex y).2, h]

/-- The types whose Go type is a slice or an array of bytes. -/
def ByteTy : Ty → Prop
  | .bytes | .address | .fixed _ | .function | .slice (.uint 8) | .array _ (.uint 8) => True
  | _ => False

theorem u8s_inj : ∀ (x y : List Val), (∀ a ∈ x, Wt (.uint 8) a) → (∀ a ∈ y, Wt (.uint 8) a) → u8s x = u8s y → x = y
  | [], [], _, _, _ => rfl
  | [], _ :: _, _, _, h => by simp [u8s] at h
  | _ :: _, [], _, _, h => by simp [u8s] at h
  | a :: x, b :: y, hx, hy, h => by
    simp only [u8s, List.map_cons, List.cons.injEq] at h
    have := u8s_inj x y (fun z hz => hx z (by simp [hz])) (fun z hz => hy z (by simp [hz])) h.2
    have ha := hx a (by simp)
    have hb := hy b (by simp)
    rw [Wt] at ha hb
    obtain ⟨i, rfl, i0, i1⟩ := ha
    obtain ⟨j, rfl, j0, j1⟩ := hb
    have hw : width 8 = 8 := rfl
    rw [hw] at i1 j1
    have h1 := congrArg UInt8.toNat h.1
    simp only [Val.int, UInt8.toNat_ofNat'] at h1
    have : i = j := by omega
    rw [this, ‹x = y›]

/-- **C136.**  The text of a value of such a type tells the value. -/
theorem C136_shown (n : Bytes) (t : Ty) (ht : ByteTy t) (v w : Val) (hv : Wt t v) (hw : Wt t w) (h : argString V n t v = argString V n t w) :
    v = w := by
  unfold ByteTy at ht
  split at ht
  all_goals first | exact ht.elim | skip
  all_goals
    simp only [argString, List.append_assoc, List.append_cancel_left_eq] at h
    have h := hexEncode_inj _ _ h
    rw [Wt] at hv hw
  · obtain ⟨a, rfl⟩ := hv; obtain ⟨b, rfl⟩ := hw; simpa [Val.raw] using h
  · obtain ⟨a, rfl, _⟩ := hv; obtain ⟨b, rfl, _⟩ := hw; simpa [Val.raw] using h
  · obtain ⟨a, rfl, _⟩ := hv; obtain ⟨b, rfl, _⟩ := hw; simpa [Val.raw] using h
  · obtain ⟨a, rfl, _⟩ := hv; obtain ⟨b, rfl, _⟩ := hw; simpa [Val.raw] using h
  · obtain ⟨a, rfl, ha⟩ := hv; obtain ⟨b, rfl, hb⟩ := hw
    rw [u8s_inj a b ha hb h]
  · obtain ⟨a, rfl, _, ha⟩ := hv; obtain ⟨b, rfl, _, hb⟩ := hw
    rw [u8s_inj a b ha hb h]

example : shownParams (fun _ _ => txt "1000") [(txt "to", .address), (txt "value", .uint 256)] [.bytes (List.replicate 20 7), .num 1000]
    = txt "to:0x0707070707070707070707070707070707070707, value:1000" := by decide +kernel

/-- **C136.**  Texts are also made for data that is no call: a call without arguments is shown, with whatever follows the selector; so are results of a function without results. -/
theorem C136_rest_refuted (m : Method) (hi : m.inputs = some []) (ho : m.outputs = some []) (hid : m.id.length = 4) (rest : Bytes) :
    methodString V [(m.name, m)] (m.id ++ rest) = .ok (m.name ++ txt "()") ∧
    returnsString V [(m.name, m)] m.id rest = .ok (txt "returns ()") := by
  have htake : (m.id ++ rest).take 4 = m.id := by
    rw [List.take_append_of_le_length (by omega), List.take_of_length_le (by omega)]
  have hfound : methodById [(m.name, m)] m.id = .ok m := by
    rw [methodById, if_neg (by omega), List.take_of_length_le (by omega)]
    simp
  constructor
  · rw [methodString, if_neg (by rw [List.length_append]; omega), htake, hfound]
    simp only [Res.bind]
    rw [hi]
    rfl
  · rw [returnsString, if_neg (by omega), List.take_of_length_le (by omega), hfound]
    simp only [Res.bind]
    rw [ho]
    rfl

example : (∃ c, readContract U H (overloaded.map Item.field) = .ok c) ∧ typesOf [(txt "a", Sol.bool)] = [.bool] ∧
    WtL (typesOf [(txt "a", .bool)]) [.bool true] ∧ dataOf [(txt "a", .address, true), (txt "v", .bool, false)] = [(txt "v", .bool)] := by
  have hv : ∀ i ∈ overloaded, i.Valid := by simp [overloaded, Item.Valid, Sol.Valid]
  refine ⟨(C125_accept U H overloaded hv).2.1.mpr ?_, rfl, ?_, rfl⟩
  · simp [overloaded, fallbacks, receives]
  · show WtL [.bool] [.bool true]
    simp [WtL, Wt]

section
variable {α : Type} (copy : List Param → List Val → Res α)

/-- **C136.**  A name that is neither a function nor an event of the contract is refused, whatever the data, by every way to unpack. -/
theorem C136_unknown (c : Contract) (name : Bytes) (hm : ∀ m, (name, m) ∉ c.methods) (he : ∀ e, (name, e) ∉ c.events) (data : Bytes)
    (v : List (Bytes × Val)) :
    unpackNamed c name data = .err ∧ unpackNamedMap c v name data = .err ∧ unpackIntoInterface copy c name data = .err ∧
      unpackInput copy c name data = .err ∧ unpackReturns copy c name data = .err ∧ unpackInputObject copy c name data = .err := by
  have lk : ∀ {β} (l : List (Bytes × β)), (∀ m, (name, m) ∉ l) → look l name = none := by
    intro β l hl
    rw [look, List.find?_eq_none.2 (fun p hp => by
      intro e
      exact hl p.2 (by rw [← (beq_iff_eq.1 e)]; exact hp))]
    rfl
  have hg : getArguments c name data = .err := by
    rw [getArguments, lk _ hm, lk _ he]; rfl
  refine ⟨by rw [unpackNamed, hg]; rfl, by rw [unpackNamedMap, hg]; rfl, by rw [unpackIntoInterface, hg]; rfl, ?_, ?_, ?_⟩
  · rw [unpackInput, lk _ hm]
  · rw [unpackReturns, lk _ hm]; split <;> [rfl; (split <;> rfl)]
  · rw [unpackInputObject, lk _ hm]; split <;> rfl

end

/-- A function without results: its name is known, other names are not. -/
example : unpackNamed { emptyContract with methods := [(txt "f", { noMethod with outputs := some [] })] } (txt "f") [] = .ok [] ∧
    unpackNamed { emptyContract with methods := [(txt "f", { noMethod with outputs := some [] })] } (txt "g") [] = .err := ⟨rfl, rfl⟩

end Verif.Abi

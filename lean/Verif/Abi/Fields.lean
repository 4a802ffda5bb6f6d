import Verif.Abi.Contract

/-!
# Struct fields for the names of a description

`mapArgNamesToStructFields` says which field of a Go struct belongs to which argument or component of a tuple; packing a tuple and
copying unpacked values into a struct go by it.

Simplifications: the struct has no embedded structs, so that `FieldByName` finds exactly the fields; storing a value in a field is an
assignment (`set` for other types is in `Abi/Set.lean`).
-/

namespace Verif.Abi
open Verif

/-! ### The code -/

/-- A field of a struct: its name and what the tag `abi` says, if there is one. -/
structure GoField where
  name : Bytes
  tag : Option Bytes
  deriving DecidableEq

/-- `structFieldName[:1] != strings.ToUpper(structFieldName[:1])`, negated. -/
def seemsPublic : Bytes → Bool
  | [] => true
  | c :: _ => [c] == toUpper c

/-- `m[k]`. -/
def at' (m : List (Bytes × Bytes)) (k : Bytes) : Bytes := (look m k).getD []

/-- `abi2struct` and `struct2abi`. -/
structure NameMaps where
  a2s : List (Bytes × Bytes)
  s2a : List (Bytes × Bytes)

/-- The loop over the arguments in the first round (`/repo/abi/reflect.go:203-214`). -/
def pairTag (tag f : Bytes) : List Bytes → NameMaps → Bool → Res (NameMaps × Bool)
  | [], m, found => .ok (m, found)
  | a :: l, m, found =>
    if a = tag then
      if at' m.a2s a ≠ [] then .err else pairTag tag f l ⟨put m.a2s a f, put m.s2a f a⟩ true
    else pairTag tag f l m found

/-- The first round (`/repo/abi/reflect.go:185-219`). -/
def firstRound (args : List Bytes) : List GoField → NameMaps → Res NameMaps
  | [], m => .ok m
  | g :: l, m =>
    if seemsPublic g.name = false then firstRound args l m
    else
      match g.tag with
      | none => firstRound args l m
      | some tag =>
        if tag = [] then .err
        else Res.bind (pairTag tag g.name args m false) fun r => if r.2 = false then .err else firstRound args l r.1

/-- `value.FieldByName(name).IsValid()`. -/
def hasField (fields : List GoField) (name : Bytes) : Bool := fields.any fun g => g.name == name

/-- The second round (`/repo/abi/reflect.go:222-258`). -/
def secondRound (fields : List GoField) : List Bytes → NameMaps → Res NameMaps
  | [], m => .ok m
  | a :: l, m =>
    if toCamelCase a = [] then .err
    else if at' m.a2s a ≠ [] then
      if at' m.a2s a ≠ toCamelCase a ∧ at' m.s2a (toCamelCase a) = [] ∧ hasField fields (toCamelCase a) = true then .err
      else secondRound fields l m
    else if at' m.s2a (toCamelCase a) ≠ [] then .err
    else if hasField fields (toCamelCase a) then
      secondRound fields l ⟨put m.a2s a (toCamelCase a), put m.s2a (toCamelCase a) a⟩
    else secondRound fields l ⟨m.a2s, put m.s2a (toCamelCase a) a⟩

/-- `mapArgNamesToStructFields` (`/repo/abi/reflect.go:178-260`). -/
def mapNames (args : List Bytes) (fields : List GoField) : Res (List (Bytes × Bytes)) :=
  Res.bind (firstRound args fields ⟨[], []⟩) fun m => Res.bind (secondRound fields args m) fun m => .ok m.a2s

/-- The loop of `copyTuple` for a struct (`/repo/abi/argument.go:168-176`): the struct is the values of its fields.  Index beyond the
values panics. -/
def storeAll (fields : List GoField) (m : List (Bytes × Bytes)) : List Bytes → List Val → List (Bytes × Val) → Res (List (Bytes × Val))
  | [], _, st => .ok st
  | a :: l, vs, st =>
    if hasField fields (at' m a) = false then .err
    else
      match vs with
      | [] => .panic
      | v :: vs => storeAll fields m l vs (put st (at' m a) v)

/-- `copyTuple` for a struct (`/repo/abi/argument.go:153-176`). -/
def copyStruct (args : List Bytes) (fields : List GoField) (vs : List Val) (st : List (Bytes × Val)) : Res (List (Bytes × Val)) :=
  Res.bind (mapNames args fields) fun m => storeAll fields m args vs st

/-- The fields in the order of the tuple, as the loop in `Type.pack` takes them (`/repo/abi/type.go:314-328`). -/
def tupleFields (raws : List Bytes) (fields : List GoField) : Res (List Bytes) :=
  Res.bind (mapNames raws fields) fun m =>
    if raws.all fun a => hasField fields (at' m a) then .ok (raws.map (at' m)) else .err

/-! ### The specification -/

/-- A name that does not begin with a small letter of ASCII or a character beyond ASCII. -/
def Public (n : Bytes) : Prop := ∀ c r, n = c :: r → c.toNat < 128 ∧ ¬ ('a'.toNat ≤ c.toNat ∧ c.toNat ≤ 'z'.toNat)

/-- A field has the name of the argument as tag. -/
def Tagged (fields : List GoField) (a : Bytes) : Prop := ∃ g ∈ fields, Public g.name ∧ g.tag = some a

/-- The field of an argument: the one that has its name as tag, else the one that has its name in camel case. -/
def IsTarget (fields : List GoField) (a f : Bytes) : Prop :=
  (∃ g ∈ fields, Public g.name ∧ g.tag = some a ∧ g.name = f) ∨
    (¬ Tagged fields a ∧ f = fieldName true a ∧ ∃ g ∈ fields, g.name = f)

/-- Names of fields in a struct are different and not empty. -/
def GoodFields (fields : List GoField) : Prop := (fields.map (·.name)).Nodup ∧ ∀ g ∈ fields, g.name ≠ []

theorem public_iff (n : Bytes) : seemsPublic n = true ↔ Public n := by
  cases n with
  | nil => simp [seemsPublic, Public]
  | cons c r =>
    simp only [seemsPublic, Public, List.cons.injEq, and_imp, forall_apply_eq_imp_iff, forall_eq']
    have hnat : (97 ≤ c ∧ c ≤ 122) ↔ ('a'.toNat ≤ c.toNat ∧ c.toNat ≤ 'z'.toNat) := by
      rw [UInt8.le_iff_toNat_le, UInt8.le_iff_toNat_le]
      rfl
    have hlt : c < 128 ↔ c.toNat < 128 := UInt8.lt_iff_toNat_lt
    rw [toUpper, ← hnat, ← hlt]
    constructor
    · intro h
      have h := eq_of_beq h
      split at h
      · next h1 =>
        simp only [Bool.and_eq_true, decide_eq_true_eq] at h1
        simp only [List.cons.injEq, and_true] at h
        have : c.toNat = (c - 32).toNat := congrArg UInt8.toNat h
        have h2 : 32 ≤ c := UInt8.le_trans (by decide : (32 : UInt8) ≤ 97) h1.1
        rw [UInt8.toNat_sub_of_le _ _ h2] at this
        have h3 := UInt8.le_iff_toNat_le.mp h1.1
        have e : (32 : UInt8).toNat = 32 := rfl
        have e' : (97 : UInt8).toNat = 97 := rfl
        omega
      · next h1 =>
        split at h
        · next h2 => exact ⟨h2, by simpa using h1⟩
        · simp at h
    · rintro ⟨h1, h2⟩
      rw [if_neg (by simpa using h2), if_pos h1]
      simp

/-! ### The invariant -/

/-- Pairs agree in both directions; nothing in them is empty. -/
structure Inv (m : NameMaps) : Prop where
  back : ∀ a f, look m.a2s a = some f → look m.s2a f = some a
  ne1 : ∀ a f, look m.a2s a = some f → a ≠ [] ∧ f ≠ []
  ne2 : ∀ f a, look m.s2a f = some a → a ≠ []

theorem at_ne (m : List (Bytes × Bytes)) (k : Bytes) (h : ∀ v, look m k = some v → v ≠ []) : at' m k ≠ [] ↔ ∃ v, look m k = some v := by
  rw [at']
  cases hl : look m k with
  | none => simp
  | some v => simp [h v hl]

theorem at_eq (m : List (Bytes × Bytes)) (k v : Bytes) (h : look m k = some v) : at' m k = v := by rw [at', h]; rfl

/-- What the loop over the arguments does. -/
theorem pairTag_ok (tag f : Bytes) (ht : tag ≠ []) (hf : f ≠ []) : ∀ (args : List Bytes) (m m' : NameMaps) (found found' : Bool),
    Inv m → (found = false → ∀ a, look m.a2s a ≠ some f) → (found = false → look m.s2a f = none) →
    (found = true → look m.a2s tag = some f) →
    pairTag tag f args m found = .ok (m', found') →
    Inv m' ∧ (found' = true ↔ found = true ∨ tag ∈ args) ∧
    (∀ a, a ≠ tag → look m'.a2s a = look m.a2s a) ∧ (∀ x, x ≠ f → look m'.s2a x = look m.s2a x) ∧
    (found' = true → look m'.a2s tag = some f) ∧ (found = false → tag ∈ args → look m.a2s tag = none) ∧ (found' = false → m' = m)
  | [], m, m', found, found', hi, _, _, ht', h => by
    simp only [pairTag, Res.ok.injEq, Prod.mk.injEq] at h
    obtain ⟨rfl, rfl⟩ := h
    exact ⟨hi, by simp, fun _ _ => rfl, fun _ _ => rfl, ht', by simp, fun _ => rfl⟩
  | a :: l, m, m', found, found', hi, hn, hs, ht', h => by
    rw [pairTag] at h
    by_cases ha : a = tag
    · subst ha
      rw [if_pos rfl] at h
      by_cases he : at' m.a2s a ≠ []
      · rw [if_pos he] at h; cases h
      · rw [if_neg he] at h
        have hnone : look m.a2s a = none := by
          rw [at_ne _ _ fun v hv => (hi.ne1 a v hv).2] at he
          cases hl : look m.a2s a with
          | none => rfl
          | some v => exact absurd ⟨v, hl⟩ he
        have hfound : found = false := by
          cases found with
          | false => rfl
          | true => have := ht' rfl; rw [hnone] at this; cases this
        subst hfound
        have hi' : Inv ⟨put m.a2s a f, put m.s2a f a⟩ := by
          refine ⟨?_, ?_, ?_⟩
          · intro b g hb
            simp only [look_put] at hb ⊢
            by_cases hab : a = b
            · subst hab
              rw [if_pos rfl] at hb
              injection hb with hb
              subst hb
              rw [if_pos rfl]
            · rw [if_neg hab] at hb
              have hfg : f ≠ g := fun e => hn rfl b (by rw [hb, e])
              rw [if_neg hfg]
              exact hi.back b g hb
          · intro b g hb
            simp only [look_put] at hb
            split at hb
            · next e => injection hb with hb; subst hb e; exact ⟨ht, hf⟩
            · exact hi.ne1 b g hb
          · intro g b hb
            simp only [look_put] at hb
            split at hb
            · injection hb with hb; subst hb; exact ht
            · exact hi.ne2 g b hb
        obtain ⟨i1, i2, i3, i4, i5, i6, i7⟩ := pairTag_ok a f ht hf l _ m' true found' hi' (by simp) (by simp)
          (fun _ => by rw [look_put, if_pos rfl]) h
        refine ⟨i1, ?_, ?_, ?_, i5, fun _ _ => hnone, ?_⟩
        · rw [i2]; simp
        · intro b hb
          rw [i3 b hb, look_put, if_neg (fun e => hb e.symm)]
        · intro x hx
          rw [i4 x hx, look_put, if_neg (fun e => hx e.symm)]
        · intro hx
          have := i2.mpr (Or.inl rfl)
          rw [hx] at this
          cases this
    · rw [if_neg ha] at h
      obtain ⟨i1, i2, i3, i4, i5, i6, i7⟩ := pairTag_ok tag f ht hf l m m' found found' hi hn hs ht' h
      refine ⟨i1, ?_, i3, i4, i5, ?_, i7⟩
      · rw [i2]; simp [Ne.symm ha]
      · intro hx hm
        rcases List.mem_cons.mp hm with e | hm
        · exact absurd e.symm ha
        · exact i6 hx hm

/-- The first round pairs exactly the tags. -/
theorem firstRound_ok (args : List Bytes) : ∀ (l : List GoField) (m m' : NameMaps), Inv m → GoodFields l →
    (∀ g ∈ l, (∀ a, look m.a2s a ≠ some g.name) ∧ look m.s2a g.name = none) → firstRound args l m = .ok m' →
    Inv m' ∧ (∀ a f, look m'.a2s a = some f ↔ look m.a2s a = some f ∨ ∃ g ∈ l, Public g.name ∧ g.tag = some a ∧ g.name = f) ∧
    (∀ g ∈ l, Public g.name → ∀ t, g.tag = some t → t ∈ args) ∧
    (∀ f, (∀ g ∈ l, g.name ≠ f) → look m'.s2a f = look m.s2a f)
  | [], m, m', hi, _, _, h => by
    simp only [firstRound, Res.ok.injEq] at h
    subst h
    exact ⟨hi, by simp, by simp, fun _ _ => rfl⟩
  | g :: l, m, m', hi, hg, hfree, h => by
    have hg' : GoodFields l := by
      obtain ⟨h1, h2⟩ := hg
      rw [List.map_cons, List.nodup_cons] at h1
      exact ⟨h1.2, fun x hx => h2 x (by simp [hx])⟩
    have hgn : ∀ x ∈ l, x.name ≠ g.name := by
      intro x hx e
      obtain ⟨h1, _⟩ := hg
      rw [List.map_cons, List.nodup_cons] at h1
      exact h1.1 (List.mem_map.mpr ⟨x, hx, e⟩)
    have skip : firstRound args l m = .ok m' → (¬ Public g.name ∨ g.tag = none) →
        Inv m' ∧ (∀ a f, look m'.a2s a = some f ↔ look m.a2s a = some f ∨ ∃ x ∈ g :: l, Public x.name ∧ x.tag = some a ∧ x.name = f) ∧
        (∀ x ∈ g :: l, Public x.name → ∀ t, x.tag = some t → t ∈ args) ∧
        (∀ f, (∀ x ∈ g :: l, x.name ≠ f) → look m'.s2a f = look m.s2a f) := by
      intro h hno
      obtain ⟨i1, i2, i3, i4⟩ := firstRound_ok args l m m' hi hg' (fun x hx => hfree x (by simp [hx])) h
      refine ⟨i1, ?_, ?_, ?_⟩
      · intro a f
        rw [i2]
        refine or_congr Iff.rfl ⟨fun ⟨x, hx, h⟩ => ⟨x, by simp [hx], h⟩, ?_⟩
        rintro ⟨x, hx, h1, h2, h3⟩
        rcases List.mem_cons.mp hx with rfl | hx
        · rcases hno with hno | hno
          · exact absurd h1 hno
          · rw [hno] at h2; cases h2
        · exact ⟨x, hx, h1, h2, h3⟩
      · intro x hx hp t ht
        rcases List.mem_cons.mp hx with rfl | hx
        · rcases hno with hno | hno
          · exact absurd hp hno
          · rw [hno] at ht; cases ht
        · exact i3 x hx hp t ht
      · exact fun f hf => i4 f fun x hx => hf x (by simp [hx])
    rw [firstRound] at h
    by_cases hp : seemsPublic g.name = false
    · rw [if_pos hp] at h
      exact skip h (Or.inl (by rw [← public_iff, hp]; simp))
    · rw [if_neg hp] at h
      have hp' : Public g.name := by rw [← public_iff]; simpa using hp
      cases htag : g.tag with
      | none => rw [htag] at h; exact skip h (Or.inr htag)
      | some tag =>
        rw [htag] at h
        simp only at h
        by_cases ht : tag = []
        · rw [if_pos ht] at h; cases h
        · rw [if_neg ht] at h
          cases hr : pairTag tag g.name args m false with
          | err => rw [hr] at h; cases h
          | panic => rw [hr] at h; cases h
          | ok r =>
            obtain ⟨m1, found⟩ := r
            rw [hr] at h
            simp only [Res.bind] at h
            by_cases hfd : found = false
            · rw [if_pos hfd] at h; cases h
            · rw [if_neg hfd] at h
              have hfd : found = true := by simpa using hfd
              subst hfd
              have hfg := hfree g (by simp)
              obtain ⟨j1, j2, j3, j4, j5, j6, _⟩ := pairTag_ok tag g.name ht (hg.2 g (by simp)) args m m1 false true hi (fun _ => hfg.1)
                (fun _ => hfg.2) (by simp) hr
              have htm : tag ∈ args := by simpa using j2
              have hnone := j6 rfl htm
              obtain ⟨i1, i2, i3, i4⟩ := firstRound_ok args l m1 m' j1 hg' (by
                intro x hx
                refine ⟨fun a ha => ?_, ?_⟩
                · by_cases hat : a = tag
                  · subst hat
                    rw [j5 rfl] at ha
                    injection ha with ha
                    exact hgn x hx ha.symm
                  · rw [j3 a hat] at ha
                    exact (hfree x (by simp [hx])).1 a ha
                · rw [j4 _ (hgn x hx)]
                  exact (hfree x (by simp [hx])).2) h
              refine ⟨i1, ?_, ?_, ?_⟩
              · intro a f
                rw [i2]
                constructor
                · rintro (ha | ⟨x, hx, hh⟩)
                  · by_cases hat : a = tag
                    · subst hat
                      rw [j5 rfl] at ha
                      injection ha with ha
                      exact Or.inr ⟨g, by simp, hp', htag, ha⟩
                    · rw [j3 a hat] at ha; exact Or.inl ha
                  · exact Or.inr ⟨x, by simp [hx], hh⟩
                · rintro (ha | ⟨x, hx, h1, h2, h3⟩)
                  · left
                    have hat : a ≠ tag := by
                      intro e
                      rw [e, hnone] at ha
                      cases ha
                    rw [j3 a hat]
                    exact ha
                  · rcases List.mem_cons.mp hx with rfl | hx
                    · left
                      rw [htag] at h2
                      injection h2 with h2
                      rw [← h2, ← h3]
                      exact j5 rfl
                    · exact Or.inr ⟨x, hx, h1, h2, h3⟩
              · intro x hx hpx t htx
                rcases List.mem_cons.mp hx with rfl | hx
                · rw [htag] at htx
                  injection htx with htx
                  rw [← htx]
                  exact htm
                · exact i3 x hx hpx t htx
              · intro f hf
                rw [i4 f fun x hx => hf x (by simp [hx]), j4 f (fun e => hf g (by simp) e.symm)]

theorem hasField_iff (fields : List GoField) (n : Bytes) : hasField fields n = true ↔ ∃ g ∈ fields, g.name = n := by
  simp [hasField]

theorem camel_nil : toCamelCase [] = [] := rfl

/-- The second round keeps what is paired and pairs every other argument with the field that has its name in camel case. -/
theorem secondRound_ok (fields : List GoField) : ∀ (args : List Bytes) (m m' : NameMaps), Inv m → secondRound fields args m = .ok m' →
    Inv m' ∧ (∀ a f, look m.a2s a = some f → look m'.a2s a = some f) ∧
    (∀ a f, look m.a2s a = none → (look m'.a2s a = some f ↔ a ∈ args ∧ f = toCamelCase a ∧ ∃ g ∈ fields, g.name = f)) ∧
    (∀ a ∈ args, toCamelCase a ≠ []) ∧ (∀ f a, look m.s2a f = some a → look m'.s2a f = some a) ∧
    (∀ a ∈ args, look m.a2s a = none → look m'.s2a (toCamelCase a) = some a)
  | [], m, m', hi, h => by
    simp only [secondRound, Res.ok.injEq] at h
    subst h
    exact ⟨hi, fun _ _ h => h, fun a f h => by simp [h], by simp, fun _ _ h => h, by simp⟩
  | a :: l, m, m', hi, h => by
    rw [secondRound] at h
    by_cases hc : toCamelCase a = []
    · rw [if_pos hc] at h; cases h
    · rw [if_neg hc] at h
      have hane : a ≠ [] := by rintro rfl; exact hc rfl
      by_cases ha : at' m.a2s a ≠ []
      · rw [if_pos ha] at h
        obtain ⟨v, hv⟩ := (at_ne _ _ fun v hv => (hi.ne1 a v hv).2).mp ha
        split at h
        · cases h
        · obtain ⟨i1, i2, i3, i4, i5, i6⟩ := secondRound_ok fields l m m' hi h
          refine ⟨i1, i2, ?_, ?_, ?_, ?_⟩
          · intro b f hb
            rw [i3 b f hb]
            have : b ≠ a := by rintro rfl; rw [hv] at hb; cases hb
            simp [this]
          · intro b hb
            rcases List.mem_cons.mp hb with rfl | hb
            · exact hc
            · exact i4 b hb
          · exact i5
          · intro b hb hbn
            rcases List.mem_cons.mp hb with rfl | hb
            · rw [hv] at hbn; cases hbn
            · exact i6 b hb hbn
      · rw [if_neg ha] at h
        have hnone : look m.a2s a = none := by
          rw [at_ne _ _ fun v hv => (hi.ne1 a v hv).2] at ha
          cases hl : look m.a2s a with
          | none => rfl
          | some v => exact absurd ⟨v, hl⟩ ha
        by_cases hs : at' m.s2a (toCamelCase a) ≠ []
        · rw [if_pos hs] at h; cases h
        · rw [if_neg hs] at h
          have hsn : look m.s2a (toCamelCase a) = none := by
            rw [at_ne _ _ fun v hv => hi.ne2 _ v hv] at hs
            cases hl : look m.s2a (toCamelCase a) with
            | none => rfl
            | some v => exact absurd ⟨v, hl⟩ hs
          have hnf : ∀ b, look m.a2s b ≠ some (toCamelCase a) := by
            intro b hb
            rw [hi.back b _ hb] at hsn
            cases hsn
          by_cases hf : hasField fields (toCamelCase a) = true
          · rw [if_pos hf] at h
            have hi' : Inv ⟨put m.a2s a (toCamelCase a), put m.s2a (toCamelCase a) a⟩ := by
              refine ⟨?_, ?_, ?_⟩
              · intro b g hb
                simp only [look_put] at hb ⊢
                by_cases hab : a = b
                · subst hab
                  rw [if_pos rfl] at hb
                  injection hb with hb
                  subst hb
                  rw [if_pos rfl]
                · rw [if_neg hab] at hb
                  have hfg : toCamelCase a ≠ g := fun e => hnf b (by rw [hb, e])
                  rw [if_neg hfg]
                  exact hi.back b g hb
              · intro b g hb
                simp only [look_put] at hb
                split at hb
                · next e => injection hb with hb; subst hb e; exact ⟨hane, hc⟩
                · exact hi.ne1 b g hb
              · intro g b hb
                simp only [look_put] at hb
                split at hb
                · injection hb with hb; subst hb; exact hane
                · exact hi.ne2 g b hb
            obtain ⟨i1, i2, i3, i4, i5, i6⟩ := secondRound_ok fields l _ m' hi' h
            refine ⟨i1, ?_, ?_, ?_, ?_, ?_⟩
            · intro b f hb
              refine i2 b f ?_
              simp only [look_put]
              rw [if_neg (by rintro rfl; rw [hnone] at hb; cases hb)]
              exact hb
            · intro b f hb
              by_cases hab : b = a
              · subst hab
                have h1 : look m'.a2s b = some (toCamelCase b) := i2 b _ (by show look (put _ _ _) _ = _; rw [look_put, if_pos rfl])
                rw [h1]
                simp only [Option.some.injEq, List.mem_cons, true_or, true_and]
                constructor
                · rintro rfl
                  exact ⟨rfl, (hasField_iff _ _).mp hf⟩
                · exact fun h => h.1.symm
              · have := i3 b f (by simp only [look_put]; rw [if_neg (Ne.symm hab)]; exact hb)
                rw [this]
                simp [hab]
            · intro b hb
              rcases List.mem_cons.mp hb with rfl | hb
              · exact hc
              · exact i4 b hb
            · intro f b hb
              refine i5 f b ?_
              show look (put _ _ _) _ = _
              rw [look_put, if_neg (by rintro rfl; rw [hsn] at hb; cases hb)]
              exact hb
            · intro b hb hbn
              by_cases hab : b = a
              · subst hab
                refine i5 _ _ ?_
                show look (put _ _ _) _ = _
                rw [look_put, if_pos rfl]
              · refine i6 b ?_ ?_
                · rcases List.mem_cons.mp hb with e | hb
                  · exact absurd e hab
                  · exact hb
                · show look (put _ _ _) _ = _
                  rw [look_put, if_neg (Ne.symm hab)]
                  exact hbn
          · rw [if_neg hf] at h
            have hi' : Inv ⟨m.a2s, put m.s2a (toCamelCase a) a⟩ := by
              refine ⟨?_, hi.ne1, ?_⟩
              · intro b g hb
                simp only [look_put]
                rw [if_neg (fun e => hnf b (by simp only at hb; rw [hb, e]))]
                exact hi.back b g hb
              · intro g b hb
                simp only [look_put] at hb
                split at hb
                · injection hb with hb; subst hb; exact hane
                · exact hi.ne2 g b hb
            obtain ⟨i1, i2, i3, i4, i5, i6⟩ := secondRound_ok fields l _ m' hi' h
            refine ⟨i1, i2, ?_, ?_, ?_, ?_⟩
            · intro b f hb
              rw [i3 b f hb]
              by_cases hab : b = a
              · subst hab
                constructor
                · rintro ⟨h1, h2, h3⟩
                  exact ⟨by simp, h2, h3⟩
                · rintro ⟨_, rfl, h3⟩
                  exact absurd ((hasField_iff _ _).mpr h3) hf
              · simp [hab]
            · intro b hb
              rcases List.mem_cons.mp hb with rfl | hb
              · exact hc
              · exact i4 b hb
            · intro f b hb
              refine i5 f b ?_
              show look (put _ _ _) _ = _
              rw [look_put, if_neg (by rintro rfl; rw [hsn] at hb; cases hb)]
              exact hb
            · intro b hb hbn
              by_cases hab : b = a
              · subst hab
                refine i5 _ _ ?_
                show look (put _ _ _) _ = _
                rw [look_put, if_pos rfl]
              · refine i6 b ?_ ?_
                · rcases List.mem_cons.mp hb with e | hb
                  · exact absurd e hab
                  · exact hb
                · exact hbn

/-! ### The claims -/

theorem inv_empty : Inv ⟨[], []⟩ := ⟨by simp [look], by simp [look], by simp [look]⟩

/-- **C126.**  If the names of the arguments can be mapped to the fields of a struct, every argument gets the field that is tagged with its
name, else the one that has its name in camel case, if there is any; arguments get different fields; every tag is the name of an
argument; arguments without a tag have different names in camel case. -/
theorem C126_map (args : List Bytes) (fields : List GoField) (hg : GoodFields fields) (hascii : ∀ a ∈ args, ∀ c ∈ a, c < 128) (m : List (Bytes × Bytes))
    (h : mapNames args fields = .ok m) :
    (∀ a ∈ args, ∀ f, look m a = some f ↔ IsTarget fields a f) ∧ (∀ a, ¬ a ∈ args → look m a = none) ∧
    (∀ a b f, look m a = some f → look m b = some f → a = b) ∧
    (∀ g ∈ fields, Public g.name → ∀ t, g.tag = some t → t ∈ args ∧ look m t = some g.name) ∧
    (∀ a ∈ args, fieldName true a ≠ []) ∧
    (∀ a ∈ args, ∀ b ∈ args, ¬ Tagged fields a → ¬ Tagged fields b → fieldName true a = fieldName true b → a = b) := by
  rw [mapNames] at h
  cases h1 : firstRound args fields ⟨[], []⟩ with
  | err => rw [h1] at h; cases h
  | panic => rw [h1] at h; cases h
  | ok m1 =>
    rw [h1] at h
    simp only [Res.bind] at h
    cases h2 : secondRound fields args m1 with
    | err => rw [h2] at h; cases h
    | panic => rw [h2] at h; cases h
    | ok m2 =>
      rw [h2] at h
      simp only [Res.ok.injEq] at h
      subst h
      obtain ⟨i1, i2, i3, i4⟩ := firstRound_ok args fields _ m1 inv_empty hg (fun g _ => ⟨by simp [look], by simp [look]⟩) h1
      obtain ⟨j1, j2, j3, j4, j5, j6⟩ := secondRound_ok fields args m1 m2 i1 h2
      have i2' : ∀ a f, look m1.a2s a = some f ↔ ∃ g ∈ fields, Public g.name ∧ g.tag = some a ∧ g.name = f := by
        intro a f
        rw [i2]
        simp [look]
      have hcam : ∀ a ∈ args, toCamelCase a = fieldName true a := fun a ha => (camel_ascii a (hascii a ha)).1
      have hun : ∀ a, ¬ Tagged fields a → look m1.a2s a = none := by
        intro a ha
        cases hl : look m1.a2s a with
        | none => rfl
        | some f =>
          obtain ⟨g, h1, h2, h3, _⟩ := (i2' a f).mp hl
          exact absurd ⟨g, h1, h2, h3⟩ ha
      refine ⟨?_, ?_, ?_, ?_, ?_, ?_⟩
      · intro a ha f
        rw [IsTarget, Tagged, ← hcam a ha]
        cases hl : look m1.a2s a with
        | some f' =>
          obtain ⟨g, hgm, hp, ht, hn⟩ := (i2' a f').mp hl
          rw [j2 a f' hl]
          constructor
          · intro e
            injection e with e
            subst e
            exact Or.inl ⟨g, hgm, hp, ht, hn⟩
          · rintro (hx | ⟨hx, _⟩)
            · have := (i2' a f).mpr hx
              rw [hl] at this
              exact this
            · exact absurd ⟨g, hgm, hp, ht⟩ hx
        | none =>
          rw [j3 a f hl]
          have hno : ¬ ∃ g ∈ fields, Public g.name ∧ g.tag = some a := by
            rintro ⟨g, hgm, hp, ht⟩
            have := (i2' a g.name).mpr ⟨g, hgm, hp, ht, rfl⟩
            rw [hl] at this
            cases this
          constructor
          · rintro ⟨_, h3, h4⟩
            exact Or.inr ⟨hno, h3, h4⟩
          · rintro (⟨g, hgm, hp, ht, _⟩ | ⟨_, h3, h4⟩)
            · exact absurd ⟨g, hgm, hp, ht⟩ hno
            · exact ⟨ha, h3, h4⟩
      · intro a ha
        cases hl : look m1.a2s a with
        | some f' =>
          obtain ⟨g, hgm, hp, ht, hn⟩ := (i2' a f').mp hl
          exact absurd (i3 g hgm hp a ht) ha
        | none =>
          cases hl2 : look m2.a2s a with
          | none => rfl
          | some f => exact absurd ((j3 a f hl).mp hl2).1 ha
      · intro a b f ha hb
        have e1 := j1.back a f ha
        have e2 := j1.back b f hb
        rw [e1] at e2
        injection e2
      · intro g hgm hp t ht
        exact ⟨i3 g hgm hp t ht, j2 t _ ((i2' t g.name).mpr ⟨g, hgm, hp, ht, rfl⟩)⟩
      · intro a ha
        rw [← hcam a ha]
        exact j4 a ha
      · intro a ha b hb hta htb he
        have e1 := j6 a ha (hun a hta)
        have e2 := j6 b hb (hun b htb)
        rw [hcam a ha, he, ← hcam b hb, e2] at e1
        injection e1 with e1
        exact e1.symm

/-- Success of the rounds for a struct without tags. -/
theorem firstRound_plain (args : List Bytes) : ∀ (l : List GoField) (m : NameMaps), (∀ g ∈ l, Public g.name → g.tag = none) →
    firstRound args l m = .ok m
  | [], m, _ => rfl
  | g :: l, m, h => by
    rw [firstRound]
    have ih := firstRound_plain args l m fun x hx => h x (by simp [hx])
    by_cases hp : seemsPublic g.name = false
    · rw [if_pos hp]; exact ih
    · rw [if_neg hp, h g (by simp) (by rw [← public_iff]; simpa using hp)]
      exact ih

theorem secondRound_plain (fields : List GoField) : ∀ (args : List Bytes) (m : NameMaps), (args.map toCamelCase).Nodup →
    (∀ a ∈ args, toCamelCase a ≠ []) → (∀ a ∈ args, look m.a2s a = none ∧ look m.s2a (toCamelCase a) = none) →
    ∃ m', secondRound fields args m = .ok m'
  | [], m, _, _, _ => ⟨m, rfl⟩
  | a :: l, m, hn, hne, hfree => by
    rw [List.map_cons, List.nodup_cons] at hn
    have hdiff : ∀ b ∈ l, toCamelCase a ≠ toCamelCase b := fun b hb e => hn.1 (List.mem_map.mpr ⟨b, hb, e.symm⟩)
    obtain ⟨f1, f2⟩ := hfree a (by simp)
    rw [secondRound, if_neg (hne a (by simp)), if_neg (by simp [at', f1]), if_neg (by simp [at', f2])]
    split
    · refine secondRound_plain fields l _ hn.2 (fun b hb => hne b (by simp [hb])) fun b hb => ?_
      obtain ⟨g1, g2⟩ := hfree b (by simp [hb])
      refine ⟨?_, ?_⟩
      · show look (put _ _ _) _ = _
        rw [look_put, if_neg (by rintro rfl; exact hdiff _ hb rfl)]
        exact g1
      · show look (put _ _ _) _ = _
        rw [look_put, if_neg (hdiff b hb)]
        exact g2
    · refine secondRound_plain fields l _ hn.2 (fun b hb => hne b (by simp [hb])) fun b hb => ?_
      obtain ⟨g1, g2⟩ := hfree b (by simp [hb])
      refine ⟨g1, ?_⟩
      show look (put _ _ _) _ = _
      rw [look_put, if_neg (hdiff b hb)]
      exact g2

/-- **C126.**  A struct without tags is accepted whatever its fields and their order, if the names of the arguments in camel case are
different and not empty. -/
theorem C126_plain (args : List Bytes) (fields : List GoField) (ht : ∀ g ∈ fields, Public g.name → g.tag = none)
    (hascii : ∀ a ∈ args, ∀ c ∈ a, c < 128) (hn : (args.map (fieldName true)).Nodup) (hne : ∀ a ∈ args, fieldName true a ≠ []) :
    ∃ m, mapNames args fields = .ok m := by
  have hcam : ∀ a ∈ args, toCamelCase a = fieldName true a := fun a ha => (camel_ascii a (hascii a ha)).1
  obtain ⟨m', h⟩ := secondRound_plain fields args ⟨[], []⟩ (by rw [List.map_congr_left hcam]; exact hn)
    (fun a ha => by rw [hcam a ha]; exact hne a ha) (fun a _ => ⟨rfl, rfl⟩)
  exact ⟨m'.a2s, by rw [mapNames, firstRound_plain args fields _ ht]; simp only [Res.bind]; rw [h]⟩

theorem storeAll_ok (fields : List GoField) (m : List (Bytes × Bytes)) (hinj : ∀ a b f, look m a = some f → look m b = some f → a = b)
    (hne : ∀ a f, look m a = some f → f ≠ []) (hg : ∀ g ∈ fields, g.name ≠ []) :
    ∀ (args : List Bytes) (vs : List Val) (st st' : List (Bytes × Val)), args.Nodup → storeAll fields m args vs st = .ok st' →
    args.length ≤ vs.length ∧ (∀ i (h : i < args.length) (h' : i < vs.length), ∃ f, look m args[i] = some f ∧ look st' f = some vs[i]) ∧
    ∀ f, (∀ a ∈ args, look m a ≠ some f) → look st' f = look st f
  | [], vs, st, st', _, h => by
    simp only [storeAll, Res.ok.injEq] at h
    subst h
    exact ⟨by simp, by simp, fun _ _ => rfl⟩
  | a :: l, vs, st, st', hnd, h => by
    rw [storeAll.eq_def] at h
    simp only at h
    rw [List.nodup_cons] at hnd
    by_cases hf : hasField fields (at' m a) = false
    · rw [if_pos hf] at h; cases h
    · rw [if_neg hf] at h
      have hf : hasField fields (at' m a) = true := by simpa using hf
      obtain ⟨g, hgm, hgn⟩ := (hasField_iff _ _).mp hf
      have hl : look m a = some (at' m a) := by
        cases hx : look m a with
        | none => exact absurd (by rw [hgn, at', hx]; rfl) (hg g hgm)
        | some f => rw [at_eq m a f hx]
      cases vs with
      | nil => cases h
      | cons v vs =>
        obtain ⟨i1, i2, i3⟩ := storeAll_ok fields m hinj hne hg l vs _ st' hnd.2 h
        refine ⟨by simpa using i1, ?_, ?_⟩
        · intro i h1 h2
          cases i with
          | zero =>
            refine ⟨at' m a, hl, ?_⟩
            rw [i3 _ fun b hb hbl => hnd.1 (by rw [hinj a b _ hl hbl]; exact hb), look_put, if_pos rfl]
            rfl
          | succ i => exact i2 i (by simpa using h1) (by simpa using h2)
        · intro f hf
          rw [i3 f fun b hb => hf b (by simp [hb]), look_put, if_neg (fun e => hf a (by simp) (by rw [hl, e]))]

theorem storeAll_some (fields : List GoField) (m : List (Bytes × Bytes)) :
    ∀ (args : List Bytes) (vs : List Val) (st : List (Bytes × Val)), args.length ≤ vs.length →
    (∀ a ∈ args, hasField fields (at' m a) = true) → ∃ st', storeAll fields m args vs st = .ok st'
  | [], _, st, _, _ => ⟨st, rfl⟩
  | a :: l, [], _, h, _ => by simp at h
  | a :: l, v :: vs, st, h, hf => by
    have e : storeAll fields m (a :: l) (v :: vs) st = if hasField fields (at' m a) = false then .err
        else storeAll fields m l vs (put st (at' m a) v) := rfl
    rw [e, if_neg (by rw [hf a (by simp)]; simp)]
    exact storeAll_some fields m l vs _ (by simpa using h) fun b hb => hf b (by simp [hb])

theorem target_field (fields : List GoField) (a f : Bytes) (h : IsTarget fields a f) : ∃ g ∈ fields, g.name = f := by
  rcases h with ⟨g, hg, _, _, h⟩ | ⟨_, _, h⟩
  · exact ⟨g, hg, h⟩
  · exact h

/-- **C126.**  Values for arguments with different names are copied into a struct exactly if the names can be mapped and every argument
has a field; then each value is in the field of its argument, and the other fields are as before.  Missing: arguments with the same
name. -/
theorem C126_copy_partial (args : List Bytes) (fields : List GoField) (hg : GoodFields fields) (hascii : ∀ a ∈ args, ∀ c ∈ a, c < 128)
    (hnd : args.Nodup) (vs : List Val) (hlen : args.length ≤ vs.length) (st : List (Bytes × Val)) :
    ((∃ st', copyStruct args fields vs st = .ok st') ↔ (∃ m, mapNames args fields = .ok m) ∧ ∀ a ∈ args, ∃ f, IsTarget fields a f) ∧
    ∀ st', copyStruct args fields vs st = .ok st' →
      (∀ i (h : i < args.length) (h' : i < vs.length) f, IsTarget fields args[i] f → look st' f = some vs[i]) ∧
      ∀ f, (∀ a ∈ args, ¬ IsTarget fields a f) → look st' f = look st f := by
  have key : ∀ m, mapNames args fields = .ok m → ∀ st', storeAll fields m args vs st = .ok st' →
      (∀ a ∈ args, ∃ f, IsTarget fields a f) ∧
      (∀ i (h : i < args.length) (h' : i < vs.length) f, IsTarget fields args[i] f → look st' f = some vs[i]) ∧
      ∀ f, (∀ a ∈ args, ¬ IsTarget fields a f) → look st' f = look st f := by
    intro m hm st' hs
    obtain ⟨i1, i2, i3, _⟩ := C126_map args fields hg hascii m hm
    have hne : ∀ a f, look m a = some f → f ≠ [] := by
      intro a f ha
      by_cases haa : a ∈ args
      · obtain ⟨g, hg', e⟩ := target_field fields a f ((i1 a haa f).mp ha)
        rw [← e]
        exact hg.2 g hg'
      · rw [i2 a haa] at ha; cases ha
    obtain ⟨_, j2, j3⟩ := storeAll_ok fields m i3 hne hg.2 args vs st st' hnd hs
    refine ⟨?_, ?_, ?_⟩
    · intro a ha
      obtain ⟨i, hi, rfl⟩ := List.getElem_of_mem ha
      obtain ⟨f, hf, _⟩ := j2 i hi (by omega)
      exact ⟨f, (i1 _ ha f).mp hf⟩
    · intro i h h' f hf
      obtain ⟨f', e1, e2⟩ := j2 i h h'
      have := (i1 _ (List.getElem_mem h) f).mpr hf
      rw [e1] at this
      injection this with this
      rw [← this]
      exact e2
    · intro f hf
      exact j3 f fun a ha hl => hf a ha ((i1 a ha f).mp hl)
  constructor
  · constructor
    · rintro ⟨st', h⟩
      rw [copyStruct] at h
      cases hm : mapNames args fields with
      | err => rw [hm] at h; cases h
      | panic => rw [hm] at h; cases h
      | ok m =>
        rw [hm] at h
        exact ⟨⟨m, rfl⟩, (key m hm st' h).1⟩
    · rintro ⟨⟨m, hm⟩, hall⟩
      obtain ⟨i1, _⟩ := C126_map args fields hg hascii m hm
      rw [copyStruct, hm]
      refine storeAll_some fields m args vs st hlen fun a ha => ?_
      obtain ⟨f, hf⟩ := hall a ha
      rw [at_eq m a f ((i1 a ha f).mpr hf)]
      exact (hasField_iff _ _).mpr (target_field fields a f hf)
  · intro st' h
    rw [copyStruct] at h
    cases hm : mapNames args fields with
    | err => rw [hm] at h; cases h
    | panic => rw [hm] at h; cases h
    | ok m =>
      rw [hm] at h
      exact (key m hm st' h).2

/-- **C126.**  A struct that has the fields for the components of a tuple and no tags, in any order and with others between them, is
packed with each component from the field of its name, if the names in camel case are different. -/
theorem C126_tuple_partial (raws : List Bytes) (fields : List GoField) (hg : GoodFields fields)
    (ht : ∀ g ∈ fields, Public g.name → g.tag = none) (hascii : ∀ a ∈ raws, ∀ c ∈ a, c < 128) (hn : (raws.map (fieldName true)).Nodup)
    (hall : ∀ a ∈ raws, ∃ g ∈ fields, g.name = fieldName true a) : tupleFields raws fields = .ok (raws.map (fieldName true)) := by
  have hne : ∀ a ∈ raws, fieldName true a ≠ [] := by
    intro a ha
    obtain ⟨g, h1, h2⟩ := hall a ha
    rw [← h2]
    exact hg.2 g h1
  obtain ⟨m, hm⟩ := C126_plain raws fields ht hascii hn hne
  obtain ⟨i1, _⟩ := C126_map raws fields hg hascii m hm
  have hat : ∀ a ∈ raws, at' m a = fieldName true a := by
    intro a ha
    refine at_eq m a _ ((i1 a ha _).mpr (Or.inr ⟨?_, rfl, hall a ha⟩))
    rintro ⟨g, h1, h2, h3⟩
    rw [ht g h1 h2] at h3
    cases h3
  rw [tupleFields, hm]
  simp only [Res.bind]
  rw [if_pos, List.map_congr_left hat]
  rw [List.all_eq_true]
  intro a ha
  rw [hat a ha, hasField_iff]
  exact hall a ha

/-- If the names in camel case are different, they are the names of the fields. -/
theorem newFields_camel (U : Bytes → Bool) : ∀ (comps : List Selector.AM) (used : List Bytes) (r : List (Bytes × Bytes × Info)),
    newFields U comps used = .ok r → (r.map fun f => toCamelCase f.1).Nodup → (∀ f ∈ r, ¬ toCamelCase f.1 ∈ used) →
    r.map (fun f => f.2.1) = r.map fun f => toCamelCase f.1
  | [], _, r, h, _, _ => by
    simp only [newFields, Res.ok.injEq] at h
    subst h
    rfl
  | .mk name t cs :: l, used, r, h, hn, hu => by
    rw [newFields] at h
    cases hc : newType U (.mk name t cs) with
    | err => rw [hc] at h; cases h
    | panic => rw [hc] at h; cases h
    | ok c =>
      rw [hc] at h
      simp only [Res.bind] at h
      by_cases h0 : toCamelCase name = []
      · rw [if_pos h0] at h; cases h
      · rw [if_neg h0] at h
        obtain ⟨f, f1, _, f3, _⟩ := C79_fresh (toCamelCase name) (fun s => used.contains s) used (fun s hs => by simpa using hs)
          (used.length + 1) (by omega)
        rw [f1] at h
        simp only at h
        split at h
        · cases h
        · split at h
          · cases h
          · cases hr : newFields U l (f :: used) with
            | err => rw [hr] at h; cases h
            | panic => rw [hr] at h; cases h
            | ok r' =>
              rw [hr] at h
              simp only [Res.ok.injEq] at h
              subst h
              have hf : f = toCamelCase name := f3 (by simpa using hu (name, f, c) (by simp))
              rw [List.map_cons, List.nodup_cons] at hn
              have := newFields_camel U l (f :: used) r' hr hn.2 (by
                intro x hx
                rw [List.mem_cons, hf]
                rintro (e | e)
                · exact hn.1 (List.mem_map.mpr ⟨x, hx, e⟩)
                · exact hu x (by simp [hx]) e)
              rw [List.map_cons, List.map_cons, this, hf]

/-- **C126.**  A value of the struct that `NewType` makes for a tuple is packed field by field, if the names in camel case are different.
Missing: names that are equal in camel case. -/
theorem C126_own_partial (U : Bytes → Bool) (name : Bytes) (names : List Bytes) (l : List Sol) (hv : (Sol.tuple names l).Valid)
    (hn : (names.map (fieldName true)).Nodup) :
    ∃ info, newType U ((Sol.tuple names l).arg name) = .ok info ∧ info.fields.length = names.length ∧
      tupleFields info.raw (info.fields.map fun f => ⟨f, none⟩) = .ok info.fields := by
  obtain ⟨info, h1, _, _, h4⟩ := C124_read_partial U name (.tuple names l) hv
  obtain ⟨hraw, hnd, _⟩ := h4 names l rfl
  simp only [Sol.Valid] at hv
  obtain ⟨hlen, hgood, hvs, hroom⟩ := hv
  have hcam : ∀ a ∈ names, toCamelCase a = fieldName true a := fun a ha => (camel_ascii a (good_ascii a (hgood a ha))).1
  have hfields : info.fields = names.map (fieldName true) := by
    have e : newType U ((Sol.tuple names l).arg name) = Res.bind (newFields U (compList names l) []) tupleInfo := by
      rw [Sol.arg, newType, Sol.comps]; rfl
    rw [e] at h1
    obtain ⟨r, r1, _, _, r4, _⟩ := newFields_ok U names l [] hlen hgood hvs (by rw [room] at hroom; omega)
    have hmap : (r.map fun f => toCamelCase f.1) = names.map (fieldName true) := by
      rw [← List.map_congr_left hcam, ← r4, List.map_map]
      rfl
    have hr := newFields_camel U _ [] r r1 (by rw [hmap]; exact hn) (by simp)
    rw [r1] at h1
    simp only [Res.bind, tupleInfo] at h1
    split at h1
    · cases h1
    · simp only [Res.ok.injEq] at h1
      rw [← h1]
      exact hr.trans hmap
  refine ⟨info, h1, by rw [hfields, List.length_map], ?_⟩
  rw [hraw, hfields]
  refine C126_tuple_partial names _ ⟨?_, ?_⟩ ?_ (fun a ha => good_ascii a (hgood a ha)) hn ?_
  · rw [List.map_map]
    exact (List.map_id _).symm ▸ hn
  · intro g hg
    rw [List.map_map, List.mem_map] at hg
    obtain ⟨f, hf, rfl⟩ := hg
    obtain ⟨c, r, e, _⟩ := good_camel f (hgood f hf)
    simp only [Function.comp]
    rw [← hcam f hf, e]
    simp
  · intro g hg _
    rw [List.mem_map] at hg
    obtain ⟨f, _, rfl⟩ := hg
    rfl
  · intro a ha
    exact ⟨⟨_, none⟩, List.mem_map.mpr ⟨_, List.mem_map.mpr ⟨a, ha, rfl⟩, rfl⟩, rfl⟩

/-- A struct with a field that is not asked for, one that is found by its name and one that is found by its tag. -/
def sampleFields : List GoField := [⟨txt "Extra", none⟩, ⟨txt "ToAddr", none⟩, ⟨txt "V", some (txt "value")⟩, ⟨txt "hidden", some (txt "x")⟩]

example : mapNames [txt "value", txt "_to_addr"] sampleFields = .ok [(txt "value", txt "V"), (txt "_to_addr", txt "ToAddr")] := by
  decide +kernel

example (v w x : Val) : copyStruct [txt "value", txt "_to_addr"] sampleFields [v, w] [(txt "Extra", x)] =
    .ok [(txt "Extra", x), (txt "V", v), (txt "ToAddr", w)] := rfl

example : tupleFields [txt "to_addr", txt "extra"] [⟨txt "Extra", none⟩, ⟨txt "X", none⟩, ⟨txt "ToAddr", none⟩] =
    .ok [txt "ToAddr", txt "Extra"] := by decide +kernel

/-! ### Where it fails -/

theorem forall₂_mem {α β : Type} {R : α → β → Prop} {l : List α} {l' : List β} (h : List.Forall₂ R l l') : ∀ b ∈ l', ∃ a ∈ l, R a b := by
  induction h with
  | nil => simp
  | @cons a b l1 l2 h _ ih =>
    intro x hx
    rcases List.mem_cons.mp hx with rfl | hx
    · exact ⟨a, by simp, h⟩
    · obtain ⟨y, h1, h2⟩ := ih x hx
      exact ⟨y, by simp [h1], h2⟩

/-- A tuple with two names that are equal in camel case. -/
def clashing : Sol := .tuple [txt "a_b", txt "aB"] [.bool, .bool]

/-- **C126, refuted.**  A tuple is read, but no value of the struct that the code made for it can be packed: two names are equal in
camel case. -/
theorem C126_own_refuted (U : Bytes → Bool) (name : Bytes) : clashing.Valid ∧
    ∃ info, newType U (clashing.arg name) = .ok info ∧ ∀ r, tupleFields info.raw (info.fields.map fun f => ⟨f, none⟩) ≠ .ok r := by
  have hv : clashing.Valid := by
    simp only [clashing, Sol.Valid, ValidSols, List.mem_cons, List.not_mem_nil, or_false, forall_eq_or_imp, forall_eq, and_true]
    refine ⟨rfl, ⟨⟨0, 97, [95, 98], rfl, ?_, ?_⟩, ⟨0, 97, [66], rfl, ?_, ?_⟩⟩, by decide⟩ <;>
      first
        | (simp only [Selector.Letter]; decide)
        | (simp only [List.mem_cons, List.not_mem_nil, or_false, forall_eq_or_imp, forall_eq, Selector.Letter, Selector.Digit]; decide)
  obtain ⟨info, h1, _, _, h4⟩ := C124_read_partial U name clashing hv
  obtain ⟨hraw, hnd, hform⟩ := h4 _ _ rfl
  refine ⟨hv, info, h1, fun r hr => ?_⟩
  rw [tupleFields] at hr
  cases hm : mapNames info.raw (info.fields.map fun f => ⟨f, none⟩) with
  | err => rw [hm] at hr; cases hr
  | panic => rw [hm] at hr; cases hr
  | ok m =>
    have hgf : GoodFields (info.fields.map fun f => ⟨f, none⟩) := by
      refine ⟨by rw [List.map_map]; exact (List.map_id _).symm ▸ hnd, ?_⟩
      intro g hg
      rw [List.mem_map] at hg
      obtain ⟨f, hf, rfl⟩ := hg
      simp only
      rintro rfl
      obtain ⟨a, ha, hx⟩ := forall₂_mem hform _ hf
      have h2 : fieldName true a = [65, 66] := by
        rcases List.mem_cons.mp ha with rfl | ha
        · rfl
        · rw [List.mem_singleton] at ha
          subst ha
          rfl
      rw [h2] at hx
      simp at hx
    have hun : ∀ a, ¬ Tagged (info.fields.map fun f => (⟨f, none⟩ : GoField)) a := by
      rintro a ⟨g, hg, _, ht⟩
      rw [List.mem_map] at hg
      obtain ⟨f, _, rfl⟩ := hg
      cases ht
    obtain ⟨_, _, _, _, _, h⟩ := C126_map _ _ hgf (by rw [hraw]; decide) m hm
    rw [hraw] at h
    exact absurd (h (txt "a_b") (by simp) (txt "aB") (by simp) (hun _) (hun _) rfl) (by decide)

/-- **C126, refuted.**  Components with the same name: the field of the first is packed twice, without an error. -/
theorem C126_twice_refuted : tupleFields [txt "a", txt "a"] [⟨txt "A", none⟩, ⟨txt "A0", none⟩] = .ok [txt "A", txt "A"] := by
  decide +kernel

/-- **C126, refuted.**  Whether a struct is accepted depends on the order of the arguments. -/
theorem C126_order_refuted :
    (∃ m, mapNames [txt "_value", txt "value"] [⟨txt "Value", none⟩, ⟨txt "Value1", some (txt "value")⟩] = .ok m ∧
      look m (txt "value") = some (txt "Value1") ∧ look m (txt "_value") = some (txt "Value")) ∧
    mapNames [txt "value", txt "_value"] [⟨txt "Value", none⟩, ⟨txt "Value1", some (txt "value")⟩] = .err := by
  refine ⟨⟨_, rfl, by decide +kernel, by decide +kernel⟩, by decide +kernel⟩

/-- **C126, refuted.**  A field with a name that Go exports is skipped as private and its tag is ignored: the name begins with a capital
letter beyond ASCII. -/
theorem C126_tag_refuted : mapNames [txt "x"] [⟨[0xC3, 0x84], some (txt "x")⟩] = .ok [] := by
  decide +kernel

/-- **C126, refuted.**  Two arguments with the same name are copied into one field; the first value is lost. -/
theorem C126_copy_refuted (v w : Val) : copyStruct [txt "a", txt "a"] [⟨txt "A", none⟩] [v, w] [] = .ok [(txt "A", w)] := by
  rfl

end Verif.Abi

import Verif.Abi.Fields
import Verif.Abi.Set

/-!
# Copying unpacked values into the object of the caller

`Arguments.Copy`: one value goes into a variable or into the first field of a struct, several go into the fields of a struct by their
names or into the elements of a slice or array by their positions.

Simplifications: those of `Verif.Abi.Fields` and `Verif.Abi.Set`; the tags of the fields of the struct are given beside its type.
-/

namespace Verif.Abi.Set
open Verif

/-! ### The code -/

/-- Name and `Indexed` of an `Argument` (`/repo/abi/argument.go:28-32`). -/
structure Arg where
  name : Bytes
  indexed : Bool

/-- The names of `NonIndexed` (`/repo/abi/argument.go:63-72`). -/
def dataNames (args : List Arg) : List Bytes := (args.filter fun a => !a.indexed).map (·.name)

/-- `copyAtomic` (`/repo/abi/argument.go:142-150`): the pointed value, and the value to be stored. -/
def copyAtomic (n : Nat) (dt : GTy) (dv : GVal) (x : GTy × GVal) : Option (Res GVal) :=
  match dt, dv with
  | .struct _ _ (t :: _), .struct (v :: vs) => wrap (fun r => .struct (r :: vs)) (set n t v x.1 x.2)
  | .struct _ _ _, _ => some .panic
  | dt, dv => set n dt dv x.1 x.2

/-- The loop over the fields (`/repo/abi/argument.go:168-176`); an index beyond the values panics. -/
def copyFields (n : Nat) (names : List Bytes) (types : List GTy) (m : List (Bytes × Bytes)) :
    List Bytes → List (GTy × GVal) → List GVal → Option (Res (List GVal))
  | [], _, st => some (.ok st)
  | a :: l, xs, st =>
    match names.idxOf? (at' m a) with
    | none => some .err
    | some i =>
      match xs, types[i]?, st[i]? with
      | x :: xs, some t, some v =>
        match set n t v x.1 x.2 with
        | some (.ok r) => copyFields n names types m l xs (st.set i r)
        | some .err => some .err
        | some .panic => some .panic
        | none => none
      | _, _, _ => some .panic

/-- The loop over the elements (`/repo/abi/argument.go:181-185`), for a number of arguments. -/
def copyItems (n : Nat) (t : GTy) : Nat → List (GTy × GVal) → List GVal → Option (Res (List GVal))
  | 0, _, st => some (.ok st)
  | k + 1, x :: xs, v :: st =>
    match set n t v x.1 x.2 with
    | some (.ok r) => wrap (fun l => r :: l) (copyItems n t k xs st)
    | some .err => some .err
    | some .panic => some .panic
    | none => none
  | _ + 1, _, _ => some .panic

/-- `copyTuple` (`/repo/abi/argument.go:153-190`). -/
def copyTuple (n : Nat) (tags : List (Option Bytes)) (args : List Arg) (dt : GTy) (dv : GVal) (xs : List (GTy × GVal)) : Option (Res GVal) :=
  match dt, dv with
  | .struct _ names types, .struct st =>
    match mapNames (dataNames args) (List.zipWith GoField.mk names tags) with
    | .ok m => wrap .struct (copyFields n names types m (dataNames args) xs st)
    | .err => some .err
    | .panic => some .panic
  | .slice t, .slice st => if st.length < xs.length then some .err else wrap .slice (copyItems n t (dataNames args).length xs st)
  | .array _ t, .array st => if st.length < xs.length then some .err else wrap .array (copyItems n t (dataNames args).length xs st)
  | _, _ => some .err

/-- `Copy` (`/repo/abi/argument.go:124-139`).  A `*big.Int` is a pointer to a struct without fields that can be set: nothing can be
stored there. -/
def copyArgs (n : Nat) (tags : List (Option Bytes)) (args : List Arg) (dt : GTy) (dv : GVal) (xs : List (GTy × GVal)) : Option (Res GVal) :=
  match dt, dv with
  | .ptr t, .ptr o =>
    match xs with
    | [] => if (dataNames args).length ≠ 0 then some .err else some (.ok (.ptr o))
    | x :: _ =>
      match o with
      | none => some .panic
      | some v => wrap (fun r => .ptr (some r)) (if args.length > 1 then copyTuple n tags args t v xs else copyAtomic n t v x)
  | .big, .big z =>
    match xs with
    | [] => if (dataNames args).length ≠ 0 then some .err else some (.ok (.big z))
    | _ :: _ => if args.length > 1 ∧ (dataNames args).length = 0 then some (.ok (.big z)) else some .err
  | _, _ => some .err

/-! ### The loops -/

/-- What one argument needs and what happens to its field. -/
def Stores (n : Nat) (names : List Bytes) (types : List GTy) (m : List (Bytes × Bytes)) (st : List GVal) (a : Bytes) (x : Option (GTy × GVal))
    (j : Nat) (r : GVal) : Prop :=
  names.idxOf? (at' m a) = some j ∧ ∃ t v y, types[j]? = some t ∧ st[j]? = some v ∧ x = some y ∧ set n t v y.1 y.2 = some (.ok r)

theorem copyFields_ok (n : Nat) (names : List Bytes) (types : List GTy) (m : List (Bytes × Bytes)) (l : List Bytes) (xs : List (GTy × GVal))
    (st st' : List GVal) (hnd : l.Nodup)
    (hinj : ∀ a ∈ l, ∀ b ∈ l, ∀ j, names.idxOf? (at' m a) = some j → names.idxOf? (at' m b) = some j → a = b)
    (h : copyFields n names types m l xs st = some (.ok st')) :
    (∀ i (hi : i < l.length), ∃ j r, Stores n names types m st l[i] xs[i]? j r ∧ st'[j]? = some r) ∧
      ∀ j, (∀ a ∈ l, names.idxOf? (at' m a) ≠ some j) → st'[j]? = st[j]? := by
  induction l generalizing xs st with
  | nil =>
    simp only [copyFields, Option.some.injEq, Res.ok.injEq] at h
    subst h
    exact ⟨fun i hi => by simp at hi, fun _ _ => rfl⟩
  | cons a l ih =>
    rw [copyFields] at h
    cases hj : names.idxOf? (at' m a) with
    | none => rw [hj] at h; cases h
    | some j0 =>
      rw [hj] at h
      simp only at h
      cases xs with
      | nil => simp at h
      | cons x xs =>
        cases ht : types[j0]? with
        | none => simp [ht] at h
        | some t =>
          cases hv : st[j0]? with
          | none => simp [ht, hv] at h
          | some v =>
            simp only [ht, hv] at h
            match hs : set n t v x.1 x.2, h with
            | some (.ok r), h =>
              simp only at h
              rw [List.nodup_cons] at hnd
              obtain ⟨i1, i2⟩ := ih xs (st.set j0 r) hnd.2 (fun a ha b hb => hinj a (by simp [ha]) b (by simp [hb])) h
              have hlt : j0 < st.length := by
                by_contra hc
                rw [List.getElem?_eq_none (by omega)] at hv; cases hv
              have hother : ∀ b ∈ l, names.idxOf? (at' m b) ≠ some j0 := by
                intro b hb e
                have := hinj a (by simp) b (by simp [hb]) j0 hj e
                exact hnd.1 (this ▸ hb)
              constructor
              · intro i hi
                cases i with
                | zero =>
                  refine ⟨j0, r, ⟨hj, t, v, x, ht, hv, rfl, hs⟩, ?_⟩
                  rw [i2 j0 hother, List.getElem?_set_self hlt]
                | succ i =>
                  have hi' : i < l.length := by simpa using hi
                  obtain ⟨j, r', ⟨e1, t', v', y, e2, e3, e4, e5⟩, e6⟩ := i1 i hi'
                  have hne : j0 ≠ j := fun e => hother _ (List.getElem_mem hi') (e ▸ e1)
                  rw [List.getElem?_set_ne hne] at e3
                  exact ⟨j, r', ⟨e1, t', v', y, e2, e3, e4, e5⟩, e6⟩
              · intro j hjn
                rw [i2 j (fun b hb => hjn b (by simp [hb])), List.getElem?_set_ne (fun e => hjn a (by simp) (by rw [hj, e]))]
            | some .err, h => cases h
            | some .panic, h => cases h
            | none, h => cases h

theorem copyFields_total (n : Nat) (names : List Bytes) (types : List GTy) (m : List (Bytes × Bytes)) (l : List Bytes) (xs : List (GTy × GVal))
    (st : List GVal) (hnd : l.Nodup)
    (hinj : ∀ a ∈ l, ∀ b ∈ l, ∀ j, names.idxOf? (at' m a) = some j → names.idxOf? (at' m b) = some j → a = b)
    (h : ∀ i (hi : i < l.length), ∃ j r, Stores n names types m st l[i] xs[i]? j r) :
    ∃ st', copyFields n names types m l xs st = some (.ok st') := by
  induction l generalizing xs st with
  | nil => exact ⟨st, rfl⟩
  | cons a l ih =>
    obtain ⟨j0, r, hj, t, v, x, ht, hv, hx, hs⟩ := h 0 (by simp)
    simp only [List.getElem_cons_zero] at hj
    cases xs with
    | nil => simp at hx
    | cons x' xs =>
      simp only [List.getElem?_cons_zero, Option.some.injEq] at hx
      subst hx
      rw [List.nodup_cons] at hnd
      rw [copyFields, hj]
      simp only [ht, hv, hs]
      refine ih xs (st.set j0 r) hnd.2 (fun a ha b hb => hinj a (by simp [ha]) b (by simp [hb])) fun i hi => ?_
      obtain ⟨j, r', e1, t', v', y, e2, e3, e4, e5⟩ := h (i + 1) (by simpa using hi)
      simp only [List.getElem_cons_succ, List.getElem?_cons_succ] at e1 e4
      have hne : j0 ≠ j := by
        intro e
        have := hinj a (by simp) l[i] (by simp) j0 hj (e ▸ e1)
        exact hnd.1 (this ▸ List.getElem_mem hi)
      exact ⟨j, r', e1, t', v', y, e2, by rw [List.getElem?_set_ne hne]; exact e3, e4, e5⟩

theorem copyItems_ok (n : Nat) (t : GTy) (k : Nat) (xs : List (GTy × GVal)) (st st' : List GVal) (h : copyItems n t k xs st = some (.ok st')) :
    st'.length = st.length ∧ (∀ i < k, ∃ v x r, st[i]? = some v ∧ xs[i]? = some x ∧ set n t v x.1 x.2 = some (.ok r) ∧ st'[i]? = some r) ∧
      ∀ i, k ≤ i → st'[i]? = st[i]? := by
  induction k generalizing xs st st' with
  | zero =>
    simp only [copyItems, Option.some.injEq, Res.ok.injEq] at h
    subst h
    exact ⟨rfl, fun i hi => by omega, fun _ _ => rfl⟩
  | succ k ih =>
    match xs, st, h with
    | x :: xs, v :: st, h =>
      rw [copyItems] at h
      match hs : set n t v x.1 x.2, h with
      | some (.ok r), h =>
        simp only at h
        obtain ⟨l, hl, e⟩ := wrap_ok _ _ _ h
        subst e
        obtain ⟨i0, i1, i2⟩ := ih xs st l hl
        refine ⟨by simp [i0], fun i hi => ?_, fun i hi => ?_⟩
        · cases i with
          | zero => exact ⟨v, x, r, rfl, rfl, hs, rfl⟩
          | succ i => simpa using i1 i (by omega)
        · cases i with
          | zero => omega
          | succ i => simpa using i2 i (by omega)
      | some .err, h => cases h
      | some .panic, h => cases h
      | none, h => cases h
    | [], _, h => cases h
    | _ :: _, [], h => cases h

theorem copyItems_total (n : Nat) (t : GTy) (k : Nat) (xs : List (GTy × GVal)) (st : List GVal)
    (h : ∀ i < k, ∃ v x r, st[i]? = some v ∧ xs[i]? = some x ∧ set n t v x.1 x.2 = some (.ok r)) :
    ∃ st', copyItems n t k xs st = some (.ok st') := by
  induction k generalizing xs st with
  | zero => exact ⟨st, rfl⟩
  | succ k ih =>
    obtain ⟨v, x, r, e1, e2, e3⟩ := h 0 (by omega)
    cases st with
    | nil => simp at e1
    | cons v' st =>
      cases xs with
      | nil => simp at e2
      | cons x' xs =>
        simp only [List.getElem?_cons_zero, Option.some.injEq] at e1 e2
        subst e1 e2
        obtain ⟨st', hs⟩ := ih xs st fun i hi => by simpa using h (i + 1) (by omega)
        exact ⟨r :: st', by rw [copyItems, e3]; simp only; rw [hs]; rfl⟩

theorem idxOf_iff (names : List Bytes) (hn : names.Nodup) (f : Bytes) (j : Nat) : names.idxOf? f = some j ↔ names[j]? = some f := by
  rw [List.idxOf?_eq_some_iff]
  constructor
  · rintro ⟨h, e, -⟩
    rw [List.getElem?_eq_getElem h, e]
  · intro h
    obtain ⟨hj, e⟩ := List.getElem?_eq_some_iff.1 h
    refine ⟨hj, e, fun k hk hc => ?_⟩
    have := (hn.getElem_inj_iff (hi := by omega) (hj := hj)).1 (hc.trans e.symm)
    omega

/-! ### The claims -/

/-- The fields of a struct with their tags. -/
def fieldsOf (names : List Bytes) (tags : List (Option Bytes)) : List GoField := List.zipWith GoField.mk names tags

theorem fieldsOf_names (names : List Bytes) (tags : List (Option Bytes)) (h : tags.length = names.length) :
    (fieldsOf names tags).map (·.name) = names := by
  induction names generalizing tags with
  | nil => rfl
  | cons a l ih =>
    cases tags with
    | nil => simp at h
    | cons t tags =>
      simp only [fieldsOf, List.zipWith_cons_cons, List.map_cons, List.cons.injEq, true_and]
      exact ih tags (by simpa using h)

/-- **C173.**  Several values, copied into a struct: if it succeeds, every argument that is not indexed has a field, the one tagged with
its name or that has its name in camel case; the value is there and says the same as the one unpacked if it has its form; all fields
of no argument are as before.  Missing: arguments with the same name. -/
theorem C173_struct_partial (n : Nat) (id : Option Nat) (names : List Bytes) (tags : List (Option Bytes)) (types : List GTy) (st : List GVal)
    (args : List Arg) (xs : List (GTy × GVal)) (htags : tags.length = names.length) (hg : GoodFields (fieldsOf names tags))
    (hascii : ∀ a ∈ dataNames args, ∀ c ∈ a, c < 128) (hnd : (dataNames args).Nodup) (h1 : 1 < args.length) (hx : xs ≠ [])
    (hxt : ∀ x ∈ xs, HasTy x.1 x.2) (r : GVal)
    (h : copyArgs n tags args (.ptr (.struct id names types)) (.ptr (some (.struct st))) xs = some (.ok r)) :
    ∃ st', r = .ptr (some (.struct st')) ∧
      (∀ (i : Nat) (a : Bytes), (dataNames args)[i]? = some a → ∃ (x : GTy × GVal) (f : Bytes) (j : Nat) (w : GVal), xs[i]? = some x ∧ IsTarget (fieldsOf names tags) a f ∧ names[j]? = some f ∧
        st'[j]? = some w ∧ (form (content w) = form (content x.2) → content w = content x.2)) ∧
      ∀ (j : Nat) (f : Bytes), names[j]? = some f → (∀ a ∈ dataNames args, ¬ IsTarget (fieldsOf names tags) a f) → st'[j]? = st[j]? := by
  have hnames := fieldsOf_names names tags htags
  have hnn : names.Nodup := hnames ▸ hg.1
  cases xs with
  | nil => exact absurd rfl hx
  | cons x0 xs0 =>
    simp only [copyArgs, if_pos (show args.length > 1 from h1)] at h
    obtain ⟨b, hb, e⟩ := wrap_ok _ _ _ h
    subst e
    simp only [copyTuple] at hb
    rw [show List.zipWith GoField.mk names tags = fieldsOf names tags from rfl] at hb
    cases hm : mapNames (dataNames args) (fieldsOf names tags) with
    | err => rw [hm] at hb; cases hb
    | panic => rw [hm] at hb; cases hb
    | ok m =>
      rw [hm] at hb
      simp only at hb
      obtain ⟨st', hs, e⟩ := wrap_ok _ _ _ hb
      subst e
      obtain ⟨i1, i2, i3, -⟩ := C126_map _ _ hg hascii m hm
      have hidx : ∀ a ∈ dataNames args, ∀ j, names.idxOf? (at' m a) = some j → ∃ f, look m a = some f ∧ names[j]? = some f := by
        intro a _ j hj
        rw [idxOf_iff names hnn] at hj
        cases hl : look m a with
        | none =>
          rw [at', hl] at hj
          have hmem := List.mem_of_getElem? hj
          rw [← hnames] at hmem
          obtain ⟨g, hg1, hg2⟩ := List.mem_map.1 hmem
          exact absurd hg2 (hg.2 g hg1)
        | some f => exact ⟨f, rfl, by rw [at_eq m a f hl] at hj; exact hj⟩
      have hinj : ∀ a ∈ dataNames args, ∀ b ∈ dataNames args, ∀ j, names.idxOf? (at' m a) = some j → names.idxOf? (at' m b) = some j → a = b := by
        intro a ha b hb j h1 h2
        obtain ⟨f, e1, e2⟩ := hidx a ha j h1
        obtain ⟨f', e3, e4⟩ := hidx b hb j h2
        rw [e2, Option.some.injEq] at e4
        subst e4
        exact i3 a b f e1 e3
      obtain ⟨k1, k2⟩ := copyFields_ok n names types m _ _ st st' hnd hinj hs
      refine ⟨st', rfl, ?_, ?_⟩
      · intro i a ha
        obtain ⟨hi, e⟩ := List.getElem?_eq_some_iff.1 ha
        obtain ⟨j, w, ⟨e1, t, v, y, e2, e3, e4, e5⟩, e6⟩ := k1 i hi
        rw [e] at e1
        have hmem : a ∈ dataNames args := e ▸ List.getElem_mem hi
        obtain ⟨f, g1, g2⟩ := hidx a hmem j e1
        exact ⟨y, f, j, w, e4, (i1 a hmem f).1 g1, g2, e6,
          C127_faithful_partial n t v y.1 y.2 w (hxt y (List.mem_of_getElem? e4)) e5⟩
      · intro j f hf hno
        refine k2 j fun a ha hc => ?_
        obtain ⟨f', g1, g2⟩ := hidx a ha j hc
        rw [hf, Option.some.injEq] at g2
        subst g2
        exact hno a ha ((i1 a ha f).1 g1)

/-- **C173.**  Several values go into a struct in which every argument that is not indexed has a field of the type of its value (but for
the names of structs), if the names can be mapped; each value is then in the field of its argument, and the other fields are as before. -/
theorem C173_struct_total (n : Nat) (id : Option Nat) (names : List Bytes) (tags : List (Option Bytes)) (types : List GTy) (st : List GVal)
    (args : List Arg) (xs : List (GTy × GVal)) (htags : tags.length = names.length) (hg : GoodFields (fieldsOf names tags))
    (hascii : ∀ a ∈ dataNames args, ∀ c ∈ a, c < 128) (hnd : (dataNames args).Nodup) (h1 : 1 < args.length) (hx : xs ≠ [])
    (hmap : ∃ m, mapNames (dataNames args) (fieldsOf names tags) = .ok m)
    (hall : ∀ (i : Nat) (a : Bytes), (dataNames args)[i]? = some a → ∃ (x : GTy × GVal) (f : Bytes) (j : Nat) (t : GTy) (v : GVal), xs[i]? = some x ∧ IsTarget (fieldsOf names tags) a f ∧ names[j]? = some f ∧
      types[j]? = some t ∧ st[j]? = some v ∧ Alike t x.1 ∧ HasTy t v ∧ HasTy x.1 x.2 ∧ depth x.1 < n) :
    ∃ st', copyArgs n tags args (.ptr (.struct id names types)) (.ptr (some (.struct st))) xs = some (.ok (.ptr (some (.struct st')))) ∧
      (∀ (i : Nat) (a : Bytes) (x : GTy × GVal) (f : Bytes) (j : Nat), (dataNames args)[i]? = some a → xs[i]? = some x → IsTarget (fieldsOf names tags) a f → names[j]? = some f →
        ∃ w, st'[j]? = some w ∧ content w = content x.2) ∧
      ∀ (j : Nat) (f : Bytes), names[j]? = some f → (∀ a ∈ dataNames args, ¬ IsTarget (fieldsOf names tags) a f) → st'[j]? = st[j]? := by
  have hnames := fieldsOf_names names tags htags
  have hnn : names.Nodup := hnames ▸ hg.1
  obtain ⟨m, hm⟩ := hmap
  obtain ⟨i1, i2, i3, -⟩ := C126_map _ _ hg hascii m hm
  have hto : ∀ a ∈ dataNames args, ∀ f j, IsTarget (fieldsOf names tags) a f → names[j]? = some f → names.idxOf? (at' m a) = some j := by
    intro a ha f j hf hj
    rw [at_eq m a f ((i1 a ha f).2 hf), idxOf_iff names hnn]
    exact hj
  have hone : ∀ a ∈ dataNames args, ∀ j, names.idxOf? (at' m a) = some j → ∃ f, look m a = some f ∧ names[j]? = some f := by
    intro a ha j hj
    obtain ⟨i, hi, e⟩ := List.getElem_of_mem ha
    obtain ⟨x, f, j', t, v, -, hf, hj', -⟩ := hall i a (by rw [List.getElem?_eq_getElem hi, e])
    rw [hto a ha f j' hf hj', Option.some.injEq] at hj
    subst hj
    exact ⟨f, (i1 a ha f).2 hf, hj'⟩
  have hinj : ∀ a ∈ dataNames args, ∀ b ∈ dataNames args, ∀ j, names.idxOf? (at' m a) = some j → names.idxOf? (at' m b) = some j → a = b := by
    intro a ha b hb j h1 h2
    obtain ⟨f, e1, e2⟩ := hone a ha j h1
    obtain ⟨f', e3, e4⟩ := hone b hb j h2
    rw [e2, Option.some.injEq] at e4
    subst e4
    exact i3 a b f e1 e3
  obtain ⟨st', hs⟩ := copyFields_total n names types m (dataNames args) xs st hnd hinj fun i hi => by
    obtain ⟨x, f, j, t, v, h1, h2, h3, h4, h5, h6, h7, h8, h9⟩ := hall i _ (List.getElem?_eq_getElem hi)
    obtain ⟨r, hr, -⟩ := C127_alike n t v x.1 x.2 h6 h7 h8 h9
    exact ⟨j, r, hto _ (List.getElem_mem hi) f j h2 h3, t, v, x, h4, h5, h1, hr⟩
  obtain ⟨k1, k2⟩ := copyFields_ok n names types m _ _ st st' hnd hinj hs
  refine ⟨st', ?_, ?_, ?_⟩
  · cases xs with
    | nil => exact absurd rfl hx
    | cons x0 xs0 =>
      simp only [copyArgs, if_pos (show args.length > 1 from h1), copyTuple]
      rw [show List.zipWith GoField.mk names tags = fieldsOf names tags from rfl, hm]
      simp only
      rw [hs]
      rfl
  · intro i a x f j ha hxi hf hj
    obtain ⟨hi, e⟩ := List.getElem?_eq_some_iff.1 ha
    have hmem : a ∈ dataNames args := e ▸ List.getElem_mem hi
    obtain ⟨j', w, ⟨e1, t, v, y, e2, e3, e4, e5⟩, e6⟩ := k1 i hi
    rw [e, hto a hmem f j hf hj, Option.some.injEq] at e1
    subst e1
    rw [hxi, Option.some.injEq] at e4
    subst e4
    obtain ⟨x', f', j'', t', v', h1, h2, h3, h4, h5, h6, h7, h8, h9⟩ := hall i a ha
    rw [hxi, Option.some.injEq] at h1
    subst h1
    have hjj := hto a hmem f' j'' h2 h3
    rw [hto a hmem f j hf hj, Option.some.injEq] at hjj
    subst hjj
    rw [e2, Option.some.injEq] at h4
    rw [e3, Option.some.injEq] at h5
    subst h4 h5
    obtain ⟨r, hr, hc⟩ := C127_alike n t v x.1 x.2 h6 h7 h8 h9
    rw [e5, Option.some.injEq, Res.ok.injEq] at hr
    subst hr
    exact ⟨w, e6, hc⟩
  · intro j f hf hno
    refine k2 j fun a ha hc => ?_
    obtain ⟨f', g1, g2⟩ := hone a ha j hc
    rw [hf, Option.some.injEq] at g2
    subst g2
    exact hno a ha ((i1 a ha f).1 g1)

/-- **C173.**  Several values go into a slice or an array whose elements have the types of the values (but for the names of structs) exactly
if there are enough elements: the first elements then say what the values say, in order, and the others are as before.  With too few
elements there is an error. -/
theorem C173_list (n k : Nat) (tags : List (Option Bytes)) (t : GTy) (st : List GVal) (args : List Arg) (xs : List (GTy × GVal))
    (h1 : 1 < args.length) (hx : xs ≠ []) (hlen : xs.length = (dataNames args).length) (hst : ∀ v ∈ st, HasTy t v)
    (hall : ∀ x ∈ xs, Alike t x.1 ∧ HasTy x.1 x.2 ∧ depth x.1 < n) :
    (st.length < xs.length → copyArgs n tags args (.ptr (.slice t)) (.ptr (some (.slice st))) xs = some .err ∧
      copyArgs n tags args (.ptr (.array k t)) (.ptr (some (.array st))) xs = some .err) ∧
    (xs.length ≤ st.length → ∃ st', copyArgs n tags args (.ptr (.slice t)) (.ptr (some (.slice st))) xs = some (.ok (.ptr (some (.slice st')))) ∧
      copyArgs n tags args (.ptr (.array k t)) (.ptr (some (.array st))) xs = some (.ok (.ptr (some (.array st')))) ∧
      (st'.take xs.length).map content = xs.map (fun x => content x.2) ∧ st'.drop xs.length = st.drop xs.length) := by
  cases xs with
  | nil => exact absurd rfl hx
  | cons x0 xs0 =>
    constructor
    · intro h
      simp only [copyArgs, if_pos (show args.length > 1 from h1), copyTuple, if_pos h]
      exact ⟨rfl, rfl⟩
    · intro h
      have hstep : ∀ i < (dataNames args).length, ∃ v x r, st[i]? = some v ∧ (x0 :: xs0)[i]? = some x ∧ set n t v x.1 x.2 = some (.ok r) ∧
          content r = content x.2 := by
        intro i hi
        have hi1 : i < (x0 :: xs0).length := by omega
        have hi2 : i < st.length := by omega
        obtain ⟨a1, a2, a3⟩ := hall _ (List.getElem_mem hi1)
        obtain ⟨r, hr, hc⟩ := C127_alike n t st[i] _ _ a1 (hst _ (List.getElem_mem hi2)) a2 a3
        exact ⟨st[i], (x0 :: xs0)[i], r, List.getElem?_eq_getElem hi2, List.getElem?_eq_getElem hi1, hr, hc⟩
      obtain ⟨st', hs⟩ := copyItems_total n t _ (x0 :: xs0) st fun i hi => by
        obtain ⟨v, x, r, e1, e2, e3, -⟩ := hstep i hi
        exact ⟨v, x, r, e1, e2, e3⟩
      obtain ⟨k0, k1, k2⟩ := copyItems_ok n t _ _ st st' hs
      refine ⟨st', ?_, ?_, ?_, ?_⟩
      · simp only [copyArgs, if_pos (show args.length > 1 from h1), copyTuple, if_neg (show ¬ st.length < (x0 :: xs0).length by omega), hs]
        rfl
      · simp only [copyArgs, if_pos (show args.length > 1 from h1), copyTuple, if_neg (show ¬ st.length < (x0 :: xs0).length by omega), hs]
        rfl
      · apply List.ext_getElem?
        intro i
        by_cases hi : i < (x0 :: xs0).length
        · obtain ⟨v, x, r, e1, e2, e3, e4⟩ := hstep i (by omega)
          obtain ⟨v', x', r', g1, g2, g3, g4⟩ := k1 i (by omega)
          rw [e1, Option.some.injEq] at g1
          rw [e2, Option.some.injEq] at g2
          subst g1 g2
          rw [e3, Option.some.injEq, Res.ok.injEq] at g3
          subst g3
          rw [List.getElem?_map, List.getElem?_take, if_pos hi, g4, List.getElem?_map, e2]
          simp [e4]
        · rw [List.getElem?_eq_none (by simp at hi ⊢; omega), List.getElem?_eq_none (by simp at hi ⊢; omega)]
      · apply List.ext_getElem?
        intro i
        rw [List.getElem?_drop, List.getElem?_drop]
        exact k2 _ (by omega)

/-- **C173.**  A single value goes into a variable of its type (but for the names of structs) that is no struct, or into the first field of a
struct if that has its type; the other fields stay as they are.  If there is nothing to store and nothing expected, nothing happens; if
there is nothing but something expected, or the object is no pointer, there is an error. -/
theorem C173_single (n : Nat) (tags : List (Option Bytes)) (a : Arg) (x : GTy × GVal) (t : GTy) (v : GVal) (ha : Alike t x.1) (hv : HasTy t v)
    (hx : HasTy x.1 x.2) (hn : depth x.1 < n) (id : Option Nat) (names : List Bytes) (types : List GTy) (st : List GVal) :
    ((∀ i ns ts, t ≠ .struct i ns ts) → ∃ w, copyArgs n tags [a] (.ptr t) (.ptr (some v)) [x] = some (.ok (.ptr (some w))) ∧ content w = content x.2) ∧
    (∃ w, copyArgs n tags [a] (.ptr (.struct id names (t :: types))) (.ptr (some (.struct (v :: st)))) [x] =
      some (.ok (.ptr (some (.struct (w :: st))))) ∧ content w = content x.2) ∧
    (∀ args o, copyArgs n tags args (.ptr t) (.ptr o) [] = if dataNames args = [] then some (.ok (.ptr o)) else some .err) ∧
    (∀ args xs dt dv, (∀ u, dt ≠ .ptr u) → dt ≠ .big → copyArgs n tags args dt dv xs = some .err) := by
  obtain ⟨w, hw, hc⟩ := C127_alike n t v x.1 x.2 ha hv hx hn
  refine ⟨fun hns => ⟨w, ?_, hc⟩, ⟨w, ?_, hc⟩, fun args o => ?_, fun args xs dt dv h1 h2 => ?_⟩
  · have : copyAtomic n t v x = set n t v x.1 x.2 := by
      cases t <;> first | rfl | exact absurd rfl (hns _ _ _)
    simp only [copyArgs, List.length_singleton, gt_iff_lt, Nat.lt_irrefl, if_false, this, hw]
    rfl
  · simp only [copyArgs, List.length_singleton, gt_iff_lt, Nat.lt_irrefl, if_false, copyAtomic, hw]
    rfl
  · simp only [copyArgs]
    by_cases h : dataNames args = []
    · rw [if_pos h, if_neg (by simp [h])]
    · rw [if_neg h, if_pos (by simpa using h)]
  · cases dt <;> first | rfl | exact absurd rfl (h1 _) | exact absurd rfl h2

/-- The log of a transfer: two indexed addresses and a number; and a call with two results. -/
def transferArgs : List Arg := [⟨txt "from", true⟩, ⟨txt "to", true⟩, ⟨txt "value", false⟩]
def resultArgs : List Arg := [⟨txt "balance", false⟩, ⟨txt "is_open", false⟩]

/-- Two results go into the fields of a struct by name and tag, in any order; a third field stays as it is. -/
example : copyArgs 9 [some (txt "is_open"), none, none] resultArgs (.ptr (.struct (some 1) [txt "Open", txt "Extra", txt "Balance"] [.other 0, .u8, .big]))
      (.ptr (some (.struct [.other 0, .u8 7, .big 0]))) [(.big, .big 5), (.other 0, .other 1)] =
    some (.ok (.ptr (some (.struct [.other 1, .u8 7, .big 5])))) := by rfl

/-- Two results go into a slice of three. -/
example : copyArgs 9 [] resultArgs (.ptr (.slice .iface)) (.ptr (some (.slice [.iface none, .iface none, .iface none]))) [(.big, .big 5), (.other 0, .other 1)] =
    some (.ok (.ptr (some (.slice [.iface (some (.big, .big 5)), .iface (some (.other 0, .other 1)), .iface none])))) := by rfl

/-- **C173, refuted.**  Whether there is a single value is decided by all arguments, those that are indexed too: the one value of the log of
a transfer cannot be stored in a variable of its type, although it could if the indexed arguments were not declared. -/
theorem C173_indexed_refuted (n : Nat) (z w : Int) :
    copyArgs (n + 1) [] transferArgs (.ptr .big) (.ptr (some (.big w))) [(.big, .big z)] = some .err ∧
    copyArgs (n + 1) [] (transferArgs.filter fun a => !a.indexed) (.ptr .big) (.ptr (some (.big w))) [(.big, .big z)] =
      some (.ok (.ptr (some (.big z)))) := ⟨rfl, rfl⟩

/-- **C173, refuted.**  A single value goes into the first field, whatever the names and tags: here into `Block` although there is a field
with the name of the argument; if a second argument is declared that is indexed, it goes into the field of its name. -/
theorem C173_first_refuted (z : Int) :
    copyArgs 1 [none, none] [⟨txt "value", false⟩] (.ptr (.struct (some 1) [txt "Block", txt "Value"] [.big, .big]))
      (.ptr (some (.struct [.big 0, .big 0]))) [(.big, .big z)] = some (.ok (.ptr (some (.struct [.big z, .big 0])))) ∧
    copyArgs 1 [none, none] transferArgs (.ptr (.struct (some 1) [txt "Block", txt "Value"] [.big, .big]))
      (.ptr (some (.struct [.big 0, .big 0]))) [(.big, .big z)] = some (.ok (.ptr (some (.struct [.big 0, .big z])))) := by
  constructor <;> rfl

/-- **C173, refuted.**  A value for a `*big.Int` is refused: a pointer to the pointer is needed. -/
theorem C173_big_refuted (n : Nat) (a : Arg) (z w : Int) : copyArgs (n + 1) [] [a] .big (.big w) [(.big, .big z)] = some .err ∧
    copyArgs (n + 1) [] [a] (.ptr .big) (.ptr (some (.big w))) [(.big, .big z)] = some (.ok (.ptr (some (.big z)))) := ⟨rfl, rfl⟩

end Verif.Abi.Set

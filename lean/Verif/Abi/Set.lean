import Verif.Base

/-!
# Storing unpacked values in variables of other types

`set` stores a value that was unpacked in a variable of the caller: what is assignable is assigned, slices, arrays and structs are
copied piece by piece.

Simplifications: all fields of structs are exported; interfaces are empty ones; of the pointers to `big.Int` none is nil.  A run that does
not end is one for which no number of steps is enough; in Go it ends the process, because the stack overflows.  What is left in the
destination after an error is not modelled.
-/

namespace Verif.Abi.Set
open Verif

/-! ### The code -/

/-- Types of Go: bytes, strings, `*big.Int`, other atoms (numbers, `bool`), and composite ones; a struct may have a name. -/
inductive GTy where
  | u8
  | str
  | big
  | other (id : Nat)
  | slice (e : GTy)
  | array (n : Nat) (e : GTy)
  | struct (id : Option Nat) (names : List Bytes) (types : List GTy)
  | ptr (e : GTy)
  | iface

/-- Values; one in an interface has its type with it. -/
inductive GVal where
  | u8 (b : UInt8)
  | str (s : Bytes)
  | big (z : Int)
  | other (v : Nat)
  | slice (l : List GVal)
  | array (l : List GVal)
  | struct (l : List GVal)
  | ptr (v : Option GVal)
  | iface (v : Option (GTy × GVal))

mutual
/-- The zero value of a type. -/
def zero : GTy → GVal
  | .u8 => .u8 0
  | .str => .str []
  | .big => .big 0
  | .other _ => .other 0
  | .slice _ => .slice []
  | .array n e => .array (List.replicate n (zero e))
  | .struct _ _ ts => .struct (zeros ts)
  | .ptr _ => .ptr none
  | .iface => .iface none
def zeros : List GTy → List GVal
  | [] => []
  | t :: l => zero t :: zeros l
end

mutual
/-- The same type. -/
def same : GTy → GTy → Bool
  | .u8, .u8 => true
  | .str, .str => true
  | .big, .big => true
  | .other a, .other b => a == b
  | .slice s, .slice t => same s t
  | .array n s, .array m t => n == m && same s t
  | .struct a ns ts, .struct b ms us => a == b && ns == ms && sames ts us
  | .ptr s, .ptr t => same s t
  | .iface, .iface => true
  | _, _ => false
def sames : List GTy → List GTy → Bool
  | [], [] => true
  | s :: l, t :: m => same s t && sames l m
  | _, _ => false
end

/-- `AssignableTo`: the same type, an interface, or structs with the same fields of which one has no name. -/
def assignable : GTy → GTy → Bool
  | s, .iface => (fun _ => true) s
  | .struct a ns ts, .struct b ms us => (a == b || a.isNone || b.isNone) && ns == ms && sames ts us
  | s, d => same s d

/-- `dst.Set(src)`. -/
def store : GTy → GTy → GVal → GVal
  | .iface, .iface, v => v
  | .iface, s, v => .iface (some (s, v))
  | _, _, v => v

/-- `indirect` (`/repo/abi/reflect.go:50-57`); a nil pointer panics. -/
def indirect : GTy → GVal → Res (GTy × GVal)
  | .ptr t, .ptr (some v) => indirect t v
  | .ptr _, _ => .panic
  | t, v => .ok (t, v)

/-- The elements of what has `Len` and `Index`. -/
def elements : GTy → GVal → Option (GTy × List GVal)
  | .slice t, .slice l => some (t, l)
  | .array _ t, .array l => some (t, l)
  | .str, .str s => some (.u8, s.map .u8)
  | _, _ => none

/-- A loop that stores pieces: the first failure ends it. -/
def collect : List (Option (Res GVal)) → Option (Res (List GVal))
  | [] => some (.ok [])
  | none :: _ => none
  | some .err :: _ => some .err
  | some .panic :: _ => some .panic
  | some (.ok v) :: l =>
    match collect l with
    | some (.ok r) => some (.ok (v :: r))
    | o => o

/-- The outcome changed by a function. -/
def wrap (f : α → β) : Option (Res α) → Option (Res β)
  | none => none
  | some .err => some .err
  | some .panic => some .panic
  | some (.ok v) => some (.ok (f v))

/-- The pieces for `setStruct`: beyond the fields of the destination it panics. -/
def structPieces (f : GTy → GVal → GTy → GVal → Option (Res GVal)) : List GTy → List GVal → List GTy → List GVal → List (Option (Res GVal))
  | dt :: dts, dv :: dvs, st :: sts, sv :: svs => f dt dv st sv :: structPieces f dts dvs sts svs
  | _, _, _ :: _, _ :: _ => [some .panic]
  | _, _, _, _ => []

/-- What holds for sources that are not assignable (`/repo/abi/reflect.go:108-170`); `f` is `set`. -/
def setParts (f : GTy → GVal → GTy → GVal → Option (Res GVal)) (dt : GTy) (dv : GVal) (st : GTy) (sv : GVal) : Option (Res GVal) :=
  match dt, st with
  | .slice t, .slice u =>
    match sv with
    | .slice l => wrap .slice (collect (l.map fun x => f t (zero t) u x))
    | _ => some .panic
  | .array k t, .big => f (.array k t) dv .big sv
  | .array k t, .ptr u =>
    match indirect (.ptr u) sv with
    | .ok p => f (.array k t) dv p.1 p.2
    | _ => some .panic
  | .array k t, st =>
    match elements st sv with
    | some (u, l) =>
      wrap (fun r => .array (r ++ List.replicate (k - l.length) (zero t))) (collect ((l.take k).map fun x => f t (zero t) u x))
    | none => some .panic
  | .struct _ _ dts, .struct _ _ sts =>
    match dv, sv with
    | .struct dvs, .struct svs => wrap (fun r => .struct (r ++ dvs.drop r.length)) (collect (structPieces f dts dvs sts svs))
    | _, _ => some .panic
  | .struct _ _ _, _ => some .panic
  | _, _ => some .err

/-- The cases for a destination that is not a pointer (`/repo/abi/reflect.go:106-118`). -/
def setFlat (f : GTy → GVal → GTy → GVal → Option (Res GVal)) (dt : GTy) (dv : GVal) (st : GTy) (sv : GVal) : Option (Res GVal) :=
  if assignable st dt = true then some (.ok (store dt st sv)) else setParts f dt dv st sv

/-- `set` (`/repo/abi/reflect.go:99-118`): type and value of the destination, type and value of the source. -/
def set : Nat → GTy → GVal → GTy → GVal → Option (Res GVal)
  | 0, _, _, _, _ => none
  | n + 1, dt, dv, st, sv =>
    match dt, dv with
    | .iface, .iface (some (.ptr t, v)) => wrap (fun r => .iface (some (.ptr t, r))) (set n (.ptr t) v st sv)
    | .ptr t, .ptr (some v) => wrap (fun r => .ptr (some r)) (set n t v st sv)
    | .ptr _, _ => some .panic
    | dt, dv => setFlat (set n) dt dv st sv

/-! ### Specification -/

/-- What a value says, without the kinds of composite values and without pointers; a string is its bytes. -/
inductive Content where
  | byte (b : UInt8)
  | number (z : Int)
  | other (v : Nat)
  | nothing
  | list (l : List Content)

mutual
def content : GVal → Content
  | .u8 b => .byte b
  | .str s => .list (s.map .byte)
  | .big z => .number z
  | .other v => .other v
  | .slice l => .list (contents l)
  | .array l => .list (contents l)
  | .struct l => .list (contents l)
  | .ptr none => .nothing
  | .ptr (some v) => content v
  | .iface none => .nothing
  | .iface (some (_, v)) => content v
def contents : List GVal → List Content
  | [] => []
  | v :: l => content v :: contents l
end

mutual
/-- The form of a content: its lists and their lengths. -/
def form : Content → Content
  | .list l => .list (forms l)
  | _ => .nothing
def forms : List Content → List Content
  | [] => []
  | c :: l => form c :: forms l
end

mutual
/-- A value has a type. -/
def HasTy : GTy → GVal → Prop
  | .u8, .u8 _ => True
  | .str, .str _ => True
  | .big, .big _ => True
  | .other _, .other _ => True
  | .slice t, .slice l => ∀ x ∈ l, HasTy t x
  | .array n t, .array l => l.length = n ∧ ∀ x ∈ l, HasTy t x
  | .struct _ _ ts, .struct l => HasTys ts l
  | .ptr t, .ptr v => ∀ x, v = some x → HasTy t x
  | .iface, .iface _ => True
  | _, _ => False
def HasTys : List GTy → List GVal → Prop
  | [], [] => True
  | t :: ts, v :: vs => HasTy t v ∧ HasTys ts vs
  | _, _ => False
end

mutual
/-- The same type but for the names of structs and of their fields; without pointers and interfaces. -/
def Alike : GTy → GTy → Prop
  | .u8, .u8 => True
  | .str, .str => True
  | .big, .big => True
  | .other a, .other b => a = b
  | .slice s, .slice t => Alike s t
  | .array n s, .array m t => n = m ∧ Alike s t
  | .struct _ _ ts, .struct _ _ us => Alikes ts us
  | _, _ => False
def Alikes : List GTy → List GTy → Prop
  | [], [] => True
  | s :: l, t :: m => Alike s t ∧ Alikes l m
  | _, _ => False
end

mutual
/-- How deep a type is nested. -/
def depth : GTy → Nat
  | .slice t => depth t + 1
  | .array _ t => depth t + 1
  | .struct _ _ ts => depths ts + 1
  | .ptr t => depth t + 1
  | _ => 0
def depths : List GTy → Nat
  | [] => 0
  | t :: l => max (depth t) (depths l)
end

theorem hasTys_iff : ∀ (ts : List GTy) (vs : List GVal), HasTys ts vs ↔ List.Forall₂ HasTy ts vs
  | [], [] => by simp [HasTys]
  | [], _ :: _ => by simp only [HasTys]; exact ⟨False.elim, fun h => by cases h⟩
  | _ :: _, [] => by simp only [HasTys]; exact ⟨False.elim, fun h => by cases h⟩
  | t :: ts, v :: vs => by rw [HasTys, hasTys_iff ts vs, List.forall₂_cons]

theorem contents_eq (l : List GVal) : contents l = l.map content := by
  induction l with
  | nil => rfl
  | cons v l ih => rw [contents, ih]; rfl

theorem forms_eq (l : List Content) : forms l = l.map form := by
  induction l with
  | nil => rfl
  | cons v l ih => rw [forms, ih]; rfl

theorem collect_ok : ∀ (l : List (Option (Res GVal))) (r : List GVal), collect l = some (.ok r) → l = r.map fun v => some (.ok v)
  | [], r, h => by
    simp only [collect, Option.some.injEq, Res.ok.injEq] at h
    subst h
    rfl
  | none :: l, r, h => by cases h
  | some .err :: l, r, h => by cases h
  | some .panic :: l, r, h => by cases h
  | some (.ok v) :: l, r, h => by
    rw [collect] at h
    split at h
    · next r' hr =>
      simp only [Option.some.injEq, Res.ok.injEq] at h
      subst h
      rw [collect_ok l r' hr]
      rfl
    · next hno =>
      exact absurd h (by intro e; exact hno r e)

theorem wrap_ok {α β : Type} (f : α → β) (o : Option (Res α)) (r : β) (h : wrap f o = some (.ok r)) :
    ∃ v, o = some (.ok v) ∧ r = f v := by
  match o, h with
  | some (.ok v), h =>
    simp only [wrap, Option.some.injEq, Res.ok.injEq] at h
    exact ⟨v, rfl, h.symm⟩

theorem indirect_content : ∀ (t : GTy) (v : GVal) (p : GTy × GVal), indirect t v = .ok p → content p.2 = content v
  | .ptr t, .ptr (some v), p, h => by rw [indirect] at h; rw [indirect_content t v p h, content]
  | .ptr t, .ptr none, p, h => by simp [indirect] at h
  | .ptr t, .u8 _, p, h => by simp [indirect] at h
  | .ptr t, .str _, p, h => by simp [indirect] at h
  | .ptr t, .big _, p, h => by simp [indirect] at h
  | .ptr t, .other _, p, h => by simp [indirect] at h
  | .ptr t, .slice _, p, h => by simp [indirect] at h
  | .ptr t, .array _, p, h => by simp [indirect] at h
  | .ptr t, .struct _, p, h => by simp [indirect] at h
  | .ptr t, .iface _, p, h => by simp [indirect] at h
  | .u8, v, p, h => by simp only [indirect, Res.ok.injEq] at h; rw [← h]
  | .str, v, p, h => by simp only [indirect, Res.ok.injEq] at h; rw [← h]
  | .big, v, p, h => by simp only [indirect, Res.ok.injEq] at h; rw [← h]
  | .other _, v, p, h => by simp only [indirect, Res.ok.injEq] at h; rw [← h]
  | .slice _, v, p, h => by simp only [indirect, Res.ok.injEq] at h; rw [← h]
  | .array _ _, v, p, h => by simp only [indirect, Res.ok.injEq] at h; rw [← h]
  | .struct _ _ _, v, p, h => by simp only [indirect, Res.ok.injEq] at h; rw [← h]
  | .iface, v, p, h => by simp only [indirect, Res.ok.injEq] at h; rw [← h]

theorem elements_content (t : GTy) (v : GVal) (u : GTy) (l : List GVal) (h : elements t v = some (u, l)) :
    content v = .list (l.map content) := by
  match t, v, h with
  | .slice t, .slice l', h =>
    simp only [elements, Option.some.injEq, Prod.mk.injEq] at h
    rw [content, contents_eq, h.2]
  | .array _ t, .array l', h =>
    simp only [elements, Option.some.injEq, Prod.mk.injEq] at h
    rw [content, contents_eq, h.2]
  | .str, .str s, h =>
    simp only [elements, Option.some.injEq, Prod.mk.injEq] at h
    rw [content, ← h.2, List.map_map]
    rfl

theorem store_content (dt st : GTy) (sv : GVal) : content (store dt st sv) = content sv := by
  cases dt <;> cases st <;> simp [store, content]

/-- Copies with the same forms have the same contents. -/
theorem lists_agree : ∀ (rs ss : List GVal), rs.length = ss.length →
    (∀ i (h : i < rs.length) (h' : i < ss.length), form (content rs[i]) = form (content ss[i]) → content rs[i] = content ss[i]) →
    (rs.map content).map form = (ss.map content).map form → rs.map content = ss.map content
  | [], [], _, _, _ => rfl
  | [], _ :: _, h, _, _ => by simp at h
  | _ :: _, [], h, _, _ => by simp at h
  | r :: rs, s :: ss, hl, hh, hf => by
    simp only [List.map_cons, List.cons.injEq] at hf ⊢
    refine ⟨hh 0 (by simp) (by simp) hf.1, lists_agree rs ss (by simpa using hl) ?_ hf.2⟩
    intro i h h' e
    exact hh (i + 1) (by simpa using h) (by simpa using h') e

theorem pieces_ok (f : GTy → GVal → GTy → GVal → Option (Res GVal)) : ∀ (dts : List GTy) (dvs : List GVal) (sts : List GTy) (svs : List GVal)
    (r : List GVal), HasTys sts svs → collect (structPieces f dts dvs sts svs) = some (.ok r) →
    r.length = svs.length ∧ ∀ i (h : i < r.length) (h' : i < svs.length), ∃ dt dv st, HasTy st svs[i] ∧ f dt dv st svs[i] = some (.ok r[i])
  | _, _, [], [], r, _, h => by
    simp only [structPieces, collect, Option.some.injEq, Res.ok.injEq] at h
    subst h
    exact ⟨rfl, by simp⟩
  | _, _, [], _ :: _, _, hl, _ => by simp [HasTys] at hl
  | _, _, _ :: _, [], _, hl, _ => by simp [HasTys] at hl
  | [], dvs, st :: sts, sv :: svs, r, _, h => by simp [structPieces, collect] at h
  | _ :: _, [], st :: sts, sv :: svs, r, _, h => by simp [structPieces, collect] at h
  | dt :: dts, dv :: dvs, st :: sts, sv :: svs, r, hl, h => by
    rw [HasTys] at hl
    have h := collect_ok _ _ h
    rw [structPieces] at h
    cases r with
    | nil => simp at h
    | cons v r =>
      rw [List.map_cons, List.cons.injEq] at h
      have hc : collect (structPieces f dts dvs sts svs) = some (.ok r) := by
        rw [h.2]
        clear * -
        induction r with
        | nil => rfl
        | cons x r ih => rw [List.map_cons, collect, ih]
      obtain ⟨i1, i2⟩ := pieces_ok f dts dvs sts svs r hl.2 hc
      refine ⟨by simp [i1], ?_⟩
      intro i h1 h2
      cases i with
      | zero => exact ⟨dt, dv, st, hl.1, h.1⟩
      | succ i => exact i2 i (by simpa using h1) (by simpa using h2)

theorem indirect_typed : ∀ (t : GTy) (v : GVal) (p : GTy × GVal), HasTy t v → indirect t v = .ok p → HasTy p.1 p.2
  | .ptr t, .ptr (some v), p, ht, h => by
    rw [indirect] at h
    rw [HasTy] at ht
    exact indirect_typed t v p (ht v rfl) h
  | .ptr t, .ptr none, p, _, h => by simp [indirect] at h
  | .ptr t, .u8 _, p, _, h => by simp [indirect] at h
  | .ptr t, .str _, p, _, h => by simp [indirect] at h
  | .ptr t, .big _, p, _, h => by simp [indirect] at h
  | .ptr t, .other _, p, _, h => by simp [indirect] at h
  | .ptr t, .slice _, p, _, h => by simp [indirect] at h
  | .ptr t, .array _, p, _, h => by simp [indirect] at h
  | .ptr t, .struct _, p, _, h => by simp [indirect] at h
  | .ptr t, .iface _, p, _, h => by simp [indirect] at h
  | .u8, v, p, ht, h => by simp only [indirect, Res.ok.injEq] at h; rw [← h]; exact ht
  | .str, v, p, ht, h => by simp only [indirect, Res.ok.injEq] at h; rw [← h]; exact ht
  | .big, v, p, ht, h => by simp only [indirect, Res.ok.injEq] at h; rw [← h]; exact ht
  | .other _, v, p, ht, h => by simp only [indirect, Res.ok.injEq] at h; rw [← h]; exact ht
  | .slice _, v, p, ht, h => by simp only [indirect, Res.ok.injEq] at h; rw [← h]; exact ht
  | .array _ _, v, p, ht, h => by simp only [indirect, Res.ok.injEq] at h; rw [← h]; exact ht
  | .struct _ _ _, v, p, ht, h => by simp only [indirect, Res.ok.injEq] at h; rw [← h]; exact ht
  | .iface, v, p, ht, h => by simp only [indirect, Res.ok.injEq] at h; rw [← h]; exact ht

theorem elements_typed (t : GTy) (v : GVal) (u : GTy) (l : List GVal) (ht : HasTy t v) (h : elements t v = some (u, l)) :
    ∀ x ∈ l, HasTy u x := by
  match t, v, h with
  | .slice t, .slice l', h =>
    simp only [elements, Option.some.injEq, Prod.mk.injEq] at h
    rw [HasTy] at ht
    rw [← h.1, ← h.2]
    exact ht
  | .array _ t, .array l', h =>
    simp only [elements, Option.some.injEq, Prod.mk.injEq] at h
    rw [HasTy] at ht
    rw [← h.1, ← h.2]
    exact ht.2
  | .str, .str s, h =>
    simp only [elements, Option.some.injEq, Prod.mk.injEq] at h
    rw [← h.1, ← h.2]
    intro x hx
    rw [List.mem_map] at hx
    obtain ⟨b, _, rfl⟩ := hx
    trivial

/-- Elements stored one by one. -/
theorem mapped_ok (f : GVal → Option (Res GVal)) (l r : List GVal) (h : collect (l.map f) = some (.ok r)) :
    r.length = l.length ∧ ∀ i (h : i < r.length) (h' : i < l.length), f l[i] = some (.ok r[i]) := by
  have h := collect_ok _ _ h
  have hlen : r.length = l.length := by
    have := congrArg List.length h
    simpa using this.symm
  refine ⟨hlen, fun i h1 h2 => ?_⟩
  have := List.getElem_of_eq h (i := i) (by simpa using h2)
  simpa using this

/-- Storing by `f` keeps what is said, if the form is kept. -/
def Keeps (f : GTy → GVal → GTy → GVal → Option (Res GVal)) : Prop := ∀ dt dv st sv r, HasTy st sv →
  f dt dv st sv = some (.ok r) → form (content r) = form (content sv) → content r = content sv

theorem parts_keep (f : GTy → GVal → GTy → GVal → Option (Res GVal)) (hk : Keeps f) : Keeps (setParts f) := by
  intro dt dv st sv r ht h hf
  unfold setParts at h
  split at h
  · next t u =>
    cases sv with
    | slice l =>
      obtain ⟨rs, hr, rfl⟩ := wrap_ok _ _ _ h
      obtain ⟨h1, h2⟩ := mapped_ok _ _ _ hr
      rw [HasTy] at ht
      simp only [content, contents_eq, form, forms_eq, Content.list.injEq] at hf ⊢
      exact lists_agree rs l h1 (fun i hi hi' => hk _ _ u _ _ (ht _ (List.getElem_mem hi')) (h2 i hi hi')) hf
    | _ => simp at h
  · exact hk _ _ _ sv r ht h hf
  · cases hp : indirect _ sv with
    | err => rw [hp] at h; cases h
    | panic => rw [hp] at h; cases h
    | ok p =>
      rw [hp] at h
      rw [← indirect_content _ _ _ hp] at hf ⊢
      exact hk _ _ _ _ r (indirect_typed _ _ _ ht hp) h hf
  · next k t _ _ =>
    cases he : elements st sv with
    | none => rw [he] at h; cases h
    | some q =>
      obtain ⟨u, l⟩ := q
      rw [he] at h
      obtain ⟨rs, hr, rfl⟩ := wrap_ok _ _ _ h
      obtain ⟨h1, h2⟩ := mapped_ok _ _ _ hr
      have hty := elements_typed _ _ _ _ ht he
      rw [elements_content _ _ _ _ he] at hf ⊢
      simp only [content, contents_eq, form, forms_eq, Content.list.injEq] at hf ⊢
      have hlen := congrArg List.length hf
      simp only [List.length_map, List.length_append, List.length_replicate, h1, List.length_take] at hlen
      have hk' : k = l.length := by omega
      subst hk'
      rw [Nat.sub_self, List.replicate_zero, List.append_nil] at hf ⊢
      rw [List.take_length] at h1
      refine lists_agree rs l h1 (fun i hi hi' => hk t (zero t) u _ _ (hty _ (List.getElem_mem hi')) ?_) hf
      have := h2 i hi (by simpa using hi')
      simpa using this
  · split at h
    · next dvs svs =>
      obtain ⟨rs, hr, rfl⟩ := wrap_ok _ _ _ h
      rw [HasTy] at ht
      obtain ⟨h1, h2⟩ := pieces_ok _ _ _ _ _ _ ht hr
      simp only [content, contents_eq, form, forms_eq, Content.list.injEq] at hf ⊢
      have hlen := congrArg List.length hf
      simp only [List.length_map, List.length_append, List.length_drop] at hlen
      have hd : dvs.drop rs.length = [] := by rw [List.drop_eq_nil_iff]; omega
      rw [hd, List.append_nil] at hf ⊢
      refine lists_agree rs svs h1 (fun i hi hi' => ?_) hf
      obtain ⟨dt, dv, st, hty, hs⟩ := h2 i hi hi'
      exact hk dt dv st _ _ hty hs
    · cases h
  · cases h
  · cases h

/-- **C127.**  If storing succeeds and the result has the form of the source, the lists of the same lengths, then it says the same as the
source.  Missing: arrays of other lengths, structs with more fields. -/
theorem C127_faithful_partial (n : Nat) (dt : GTy) (dv : GVal) (st : GTy) (sv r : GVal) (ht : HasTy st sv)
    (h : set n dt dv st sv = some (.ok r)) (hf : form (content r) = form (content sv)) : content r = content sv := by
  induction n generalizing dt dv st sv r with
  | zero => cases h
  | succ n ih =>
    rw [set.eq_def] at h
    simp only at h
    split at h
    · obtain ⟨v, hv, rfl⟩ := wrap_ok _ _ _ h
      rw [content] at hf ⊢
      exact ih _ _ st sv v ht hv hf
    · obtain ⟨v, hv, rfl⟩ := wrap_ok _ _ _ h
      rw [content] at hf ⊢
      exact ih _ _ st sv v ht hv hf
    · cases h
    · rw [setFlat] at h
      by_cases ha : assignable st dt = true
      · rw [if_pos ha] at h
        simp only [Option.some.injEq, Res.ok.injEq] at h
        rw [← h, store_content]
      · rw [if_neg ha] at h
        exact parts_keep _ (fun dt dv st sv r => ih dt dv st sv r) dt dv st sv r ht h hf

mutual
theorem zero_typed : ∀ t : GTy, HasTy t (zero t)
  | .u8 => trivial
  | .str => trivial
  | .big => trivial
  | .other _ => trivial
  | .slice t => by rw [zero, HasTy]; simp
  | .array n t => by
    rw [zero, HasTy]
    refine ⟨by simp, fun x hx => ?_⟩
    rw [List.mem_replicate] at hx
    rw [hx.2]
    exact zero_typed t
  | .struct _ _ ts => by rw [zero, HasTy]; exact zeros_typed ts
  | .ptr _ => by rw [zero, HasTy]; simp
  | .iface => trivial
theorem zeros_typed : ∀ ts : List GTy, HasTys ts (zeros ts)
  | [] => trivial
  | t :: l => by rw [zeros, HasTys]; exact ⟨zero_typed t, zeros_typed l⟩
end

theorem collect_some : ∀ (l : List (Option (Res GVal))) (r : List GVal), l = r.map (fun v => some (.ok v)) → collect l = some (.ok r)
  | _, [], h => by subst h; rfl
  | _, v :: r, h => by subst h; rw [List.map_cons, collect, collect_some _ r rfl]

/-- Pieces that can be stored one by one. -/
theorem map_some (f : GVal → Option (Res GVal)) : ∀ l : List GVal, (∀ x ∈ l, ∃ r, f x = some (.ok r) ∧ content r = content x) →
    ∃ rs, collect (l.map f) = some (.ok rs) ∧ rs.map content = l.map content ∧ rs.length = l.length
  | [], _ => ⟨[], rfl, rfl, rfl⟩
  | x :: l, h => by
    obtain ⟨r, h1, h2⟩ := h x (by simp)
    obtain ⟨rs, h3, h4, h5⟩ := map_some f l fun y hy => h y (by simp [hy])
    exact ⟨r :: rs, by rw [List.map_cons, h1, collect, h3], by simp [h2, h4], by simp [h5]⟩

theorem pieces_some (f : GTy → GVal → GTy → GVal → Option (Res GVal)) (d : Nat)
    (hf : ∀ dt dv st sv, Alike dt st → HasTy dt dv → HasTy st sv → depth st ≤ d → ∃ r, f dt dv st sv = some (.ok r) ∧ content r = content sv) :
    ∀ (dts : List GTy) (dvs : List GVal) (sts : List GTy) (svs : List GVal), Alikes dts sts → HasTys dts dvs → HasTys sts svs → depths sts ≤ d →
    ∃ rs, collect (structPieces f dts dvs sts svs) = some (.ok rs) ∧ rs.map content = svs.map content ∧ rs.length = dvs.length
  | [], [], [], [], _, _, _, _ => ⟨[], rfl, rfl, rfl⟩
  | dt :: dts, dv :: dvs, st :: sts, sv :: svs, ha, hd, hs, hdep => by
    rw [Alikes] at ha
    rw [HasTys] at hd hs
    rw [depths] at hdep
    obtain ⟨r, h1, h2⟩ := hf dt dv st sv ha.1 hd.1 hs.1 (by omega)
    obtain ⟨rs, h3, h4, h5⟩ := pieces_some f d hf dts dvs sts svs ha.2 hd.2 hs.2 (by omega)
    exact ⟨r :: rs, by rw [structPieces, h1, collect, h3], by simp [h2, h4], by simp [h5]⟩
  | [], _ :: _, _, _, _, hd, _, _ => by simp [HasTys] at hd
  | _ :: _, [], _, _, _, hd, _, _ => by simp [HasTys] at hd
  | _, _, [], _ :: _, _, _, hs, _ => by simp [HasTys] at hs
  | _, _, _ :: _, [], _, _, hs, _ => by simp [HasTys] at hs
  | [], _, _ :: _, _, ha, _, _, _ => by simp [Alikes] at ha
  | _ :: _, _, [], _, ha, _, _, _ => by simp [Alikes] at ha

theorem set_flat (n : Nat) (dt : GTy) (dv : GVal) (st : GTy) (sv : GVal) (h : Alike dt st) :
    set (n + 1) dt dv st sv = setFlat (set n) dt dv st sv := by
  cases dt <;> first | rfl | (cases st <;> simp [Alike] at h)

/-- **C127.**  A value can be stored in every variable whose type is the same but for the names of structs and of their fields, whatever
was in it; it then says the same as the value. -/
theorem C127_alike (n : Nat) (dt : GTy) (dv : GVal) (st : GTy) (sv : GVal) (ha : Alike dt st) (hd : HasTy dt dv) (hs : HasTy st sv)
    (hn : depth st < n) : ∃ r, set n dt dv st sv = some (.ok r) ∧ content r = content sv := by
  induction n generalizing dt dv st sv with
  | zero => omega
  | succ n ih =>
    rw [set_flat n dt dv st sv ha, setFlat]
    by_cases has : assignable st dt = true
    · rw [if_pos has]
      exact ⟨_, rfl, store_content dt st sv⟩
    · rw [if_neg has]
      match dt, st, ha with
      | .u8, .u8, _ => exact absurd rfl has
      | .str, .str, _ => exact absurd rfl has
      | .big, .big, _ => exact absurd rfl has
      | .other a, .other b, ha =>
        rw [Alike] at ha
        subst ha
        exact absurd (by simp [assignable, same]) has
      | .slice t, .slice u, ha =>
        rw [Alike] at ha
        rw [depth] at hn
        match sv, hs with
        | .slice l, hs =>
          rw [HasTy] at hs
          obtain ⟨rs, h1, h2, _⟩ := map_some (fun x => set n t (zero t) u x) l fun x hx =>
            ih t (zero t) u x ha (zero_typed t) (hs x hx) (by omega)
          refine ⟨.slice rs, ?_, by rw [content, content, contents_eq, contents_eq, h2]⟩
          show wrap _ _ = _
          rw [h1]
          rfl
      | .array k t, .array m u, ha =>
        rw [Alike] at ha
        rw [depth] at hn
        match sv, hs with
        | .array l, hs =>
          rw [HasTy] at hs
          obtain ⟨rs, h1, h2, _⟩ := map_some (fun x => set n t (zero t) u x) l fun x hx =>
            ih t (zero t) u x ha.2 (zero_typed t) (hs.2 x hx) (by omega)
          refine ⟨.array rs, ?_, by rw [content, content, contents_eq, contents_eq, h2]⟩
          show wrap (fun r => GVal.array (r ++ List.replicate (k - l.length) (zero t)))
            (collect ((l.take k).map fun x => set n t (zero t) u x)) = _
          rw [List.take_of_length_le (by omega), h1, wrap, show k - l.length = 0 by omega]
          simp
      | .struct i ns ts, .struct j ms us, ha =>
        rw [Alike] at ha
        rw [depth] at hn
        match dv, hd, sv, hs with
        | .struct dvs, hd, .struct svs, hs =>
          rw [HasTy] at hs hd
          obtain ⟨rs, h1, h2, h3⟩ := pieces_some (set n) (depths us) (fun dt dv st sv a b c e => ih dt dv st sv a b c (by omega))
            ts dvs us svs ha hd hs (Nat.le_refl _)
          refine ⟨.struct rs, ?_, by rw [content, content, contents_eq, contents_eq, h2]⟩
          show wrap (fun r => GVal.struct (r ++ dvs.drop r.length)) _ = _
          rw [h1, wrap, h3, List.drop_length]
          simp

/-- A struct of the caller, for a tuple of a number and a list of bytes. -/
def mine : GTy := .struct (some 7) [[88], [89]] [.big, .slice (.struct (some 8) [[90]] [.u8])]
def theirs : GTy := .struct none [[65], [66]] [.big, .slice (.struct none [[67]] [.u8])]

example : Alike mine theirs ∧ assignable theirs mine = false ∧
    set 9 mine (zero mine) theirs (.struct [.big 5, .slice [.struct [.u8 1], .struct [.u8 2]]]) =
      some (.ok (.struct [.big 5, .slice [.struct [.u8 1], .struct [.u8 2]]])) := by
  refine ⟨?_, rfl, rfl⟩
  simp [mine, theirs, Alike, Alikes]

/-- **C127.**  An interface takes every value, with its type; a pointer or an interface with a pointer in it passes the value on. -/
theorem C127_through (n : Nat) (st : GTy) (sv : GVal) (t : GTy) (v : GVal) :
    (∀ o, (∀ u x, o ≠ some (.ptr u, x)) → ∃ r, set (n + 1) .iface (.iface o) st sv = some (.ok r) ∧ content r = content sv) ∧
    (∀ r, set n t v st sv = some (.ok r) → set (n + 1) (.ptr t) (.ptr (some v)) st sv = some (.ok (.ptr (some r))) ∧
      set (n + 2) .iface (.iface (some (.ptr t, .ptr (some v)))) st sv = some (.ok (.iface (some (.ptr t, .ptr (some r)))))) := by
  constructor
  · intro o ho
    refine ⟨store .iface st sv, ?_, store_content _ _ _⟩
    have hass : assignable st .iface = true := by cases st <;> rfl
    have hf : setFlat (set n) .iface (.iface o) st sv = some (.ok (store .iface st sv)) := by rw [setFlat, if_pos hass]
    rw [← hf]
    match o, ho with
    | none, _ => rfl
    | some (u, x), ho =>
      cases u <;> first | rfl | exact absurd rfl (ho _ _)
  · intro r h
    have h1 : set (n + 1) (.ptr t) (.ptr (some v)) st sv = some (.ok (.ptr (some r))) := by
      show wrap _ (set n t v st sv) = _
      rw [h]
      rfl
    refine ⟨h1, ?_⟩
    show wrap _ (set (n + 1) (.ptr t) (.ptr (some v)) st sv) = _
    rw [h1]
    rfl

/-! ### Where it fails -/

/-- **C127, refuted.**  An array of another length is filled without an error: what does not fit is lost, what is missing is zero. -/
theorem C127_length_refuted (a b : UInt8) (v : GVal) :
    set 2 (.array 1 .u8) v (.array 2 .u8) (.array [.u8 a, .u8 b]) = some (.ok (.array [.u8 a])) ∧
    set 2 (.array 2 .u8) v (.array 1 .u8) (.array [.u8 a]) = some (.ok (.array [.u8 a, .u8 0])) := ⟨rfl, rfl⟩

/-- The field with a name. -/
def byName : List Bytes → GVal → Bytes → Option GVal
  | n :: ns, .struct (v :: vs), x => if n = x then some v else byName ns (.struct vs) x
  | _, _, _ => none

/-- **C127, refuted.**  Fields of a struct inside another value are stored by position, not by name as for the outermost struct: the values
are exchanged. -/
theorem C127_position_refuted (a b : Int) :
    ∃ r, set 2 (.struct (some 1) [[66], [65]] [.big, .big]) (.struct [.big 0, .big 0]) (.struct none [[65], [66]] [.big, .big])
      (.struct [.big a, .big b]) = some (.ok r) ∧ byName [[65], [66]] (.struct [.big a, .big b]) [65] = some (.big a) ∧
      byName [[66], [65]] r [65] = some (.big b) := ⟨_, rfl, rfl, rfl⟩

/-- **C127, refuted.**  A number that is a `*big.Int` stored in an array: the run does not end. -/
theorem C127_endless_refuted (n k : Nat) (t : GTy) (v : GVal) (z : Int) : set n (.array k t) v .big (.big z) = none := by
  induction n with
  | zero => rfl
  | succ n ih => exact ih

/-- **C127, refuted.**  Instead of an error there is a panic: a number for a struct, a boolean for an array, a struct with more fields than
the destination has, structs for a slice of pointers, anything for a nil pointer. -/
theorem C127_panic_refuted (n : Nat) (i : Option Nat) (ns : List Bytes) (ts : List GTy) (v : GVal) (z : Int) :
    set (n + 1) (.struct i ns ts) v .big (.big z) = some .panic ∧
    set (n + 1) (.array 4 .u8) v (.other 0) (.other 1) = some .panic ∧
    set (n + 2) (.struct (some 1) [[65]] [.big]) (.struct [.big 0]) (.struct none [[65], [66]] [.big, .big]) (.struct [.big z, .big z]) =
      some .panic ∧
    set (n + 2) (.slice (.ptr mine)) v (.slice theirs) (.slice [zero theirs]) = some .panic ∧
    set (n + 1) (.ptr .big) (.ptr none) .big (.big z) = some .panic := ⟨rfl, rfl, rfl, rfl, rfl⟩

/-- The type of the destination in `copyAtomic` (`/repo/abi/argument.go:142-150`): the first field of a struct. -/
def atomicTarget : GTy → Option GTy
  | .struct _ _ [] => none
  | .struct _ _ (t :: _) => some t
  | t => some t

/-- **C127, refuted.**  A single tuple cannot be stored in the struct of its own type: the code takes the first field as destination. -/
theorem C127_single_refuted (n : Nat) (z : Int) : atomicTarget theirs = some .big ∧
    set (n + 1) .big (.big 0) theirs (.struct [.big z, .slice []]) = some .err := ⟨rfl, rfl⟩

end Verif.Abi.Set

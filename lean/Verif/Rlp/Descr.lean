import Verif.Rlp.Typed

/-!
# Descriptions of types, and types with their own methods: C159

The package works by reflection (`/repo/rlp/typecache.go`), the generator `rlpgen` on the types of the checker
(`/repo/rlp/rlpgen/gen.go`).  Both make descriptions (`rlpstruct.Type`) of the types of fields, and both choose by the form and the
methods of a type how its values are written and read.

A program is a graph of types: a named type has its underlying type, arrays, slices and pointers have an element.  Descriptions are
objects in memory, which may be cyclic.

Simplifications: names, lengths of arrays and fields of structs are left out; which interfaces a type implements is part of the graph
(`Graph.methods` says what Go guarantees about it).
-/

namespace Verif.Rlp.Descr
open Verif Verif.Rlp

/-- `reflect.Kind`, as far as it is asked for (`/repo/rlp/rlpgen/types.go:26-60`); `word`: `uint` and `uintptr`, `uint`: those with a size
above 8. -/
inductive Kind where
  | bool | sint | word | uint | uint8 | float | str | iface | ptr | slice | array | struct | other
  deriving DecidableEq, Repr

/-- Types recognised by name (`/repo/rlp/rlpgen/types.go:91-108`, `/repo/rlp/decode.go:159-168`). -/
inductive Special where
  | no | big | u256 | raw
  deriving DecidableEq, Repr

/-- A type: a defined type with its underlying type, or another one; which of the types `T` and `*T` implement `Encoder` and
`Decoder`. -/
structure Node where
  /-- the underlying type, of a defined type -/
  under : Option Nat := none
  kind : Kind := .other
  elem : Option Nat := none
  special : Special := .no
  enc : Bool := false
  dec : Bool := false
  pEnc : Bool := false
  pDec : Bool := false
  deriving Repr

abbrev Graph := Nat → Node

/-- `Underlying` (`/repo/rlp/rlpgen/gen.go:68-74`, `/repo/rlp/rlpgen/types.go:116-124`). -/
def Graph.under (g : Graph) (i : Nat) : Nat := (g i).under.getD i

/-- `Kind` of package `reflect`, `typeReflectKind` of the underlying type. -/
def Graph.kind (g : Graph) (i : Nat) : Kind := (g (g.under i)).kind

/-- `Elem`. -/
def Graph.elem (g : Graph) (i : Nat) : Option Nat := (g (g.under i)).elem

/-- What Go guarantees: underlying types are not defined types and, unless they are interfaces, have no methods but those of a pointer
to a defined type; arrays, slices and pointers have an element and no other type has; `*T` has the methods of `T`. -/
structure Graph.WF (g : Graph) : Prop where
  under : ∀ i u, (g i).under = some u → (g u).under = none
  elem : ∀ i, (g.elem i).isSome ↔ g.kind i = .ptr ∨ g.kind i = .slice ∨ g.kind i = .array
  enc : ∀ i, (g i).under = none → (g i).kind ≠ .ptr → (g i).kind ≠ .iface → (g i).kind ≠ .struct → (g i).enc = false
  ptrEnc : ∀ i e, (g i).under = none → (g i).kind = .ptr → (g i).elem = some e → (g i).enc = (g e).pEnc
  ptrDec : ∀ i e, (g i).under = none → (g i).kind = .ptr → (g i).elem = some e → (g i).dec = (g e).pDec
  subEnc : ∀ i, (g i).enc = true → (g i).kind ≠ .iface → (g i).pEnc = true
  subDec : ∀ i, (g i).dec = true → (g i).kind ≠ .iface → (g i).pDec = true

/-! ### Descriptions -/

/-- `rlpstruct.Type` (`/repo/rlp/internal/rlpstruct/rlpstruct.go:39-45`). -/
structure Cell where
  kind : Kind
  enc : Bool
  dec : Bool
  elem : Option Nat

/-- The descriptions made so far, and the map from types to them. -/
structure Mem where
  heap : List Cell := []
  cache : Nat → Option Nat := fun _ => none

/-- `rtypeToStructType` (`/repo/rlp/typecache.go:188-212`) with `key = id`, and `typeToStructType`
(`/repo/rlp/rlpgen/gen.go:61-92`) with `key` the underlying type: the type whose methods are asked for and under which the description
is remembered.  The argument counts the calls that may be open; `none`: they are not enough. -/
def walk (g : Graph) (key : Nat → Nat) : Nat → Nat → Mem → Option (Nat × Mem)
  | 0, _, _ => none
  | f + 1, i, s =>
    match s.cache i with
    | some a => some (a, s)
    | none =>
      let a := s.heap.length
      let c : Cell := ⟨g.kind i, (g (key i)).enc, (g (key i)).dec, none⟩
      let s : Mem := ⟨s.heap ++ [c], fun j => if j = key i then some a else s.cache j⟩
      match g.elem i with
      | none => some (a, s)
      | some e =>
        match walk g key f e s with
        | none => none
        | some (b, s) => some (a, ⟨s.heap.set a { c with elem := some b }, s.cache⟩)

/-- By reflection. -/
def byReflect (g : Graph) (f i : Nat) : Option (Nat × Mem) := walk g id f i {}

/-- By the generator, with what it remembers of the types it has seen. -/
def byGen (g : Graph) (f i : Nat) (s : Mem) : Option (Nat × Mem) := walk g g.under f i s

/-- `isUint` (`/repo/rlp/internal/rlpstruct/rlpstruct.go:203-205`). -/
def isUint (k : Kind) : Bool := k == .word || k == .uint || k == .uint8

/-- `DefaultNilValue` with `isByteArray`, `isByte` (`/repo/rlp/internal/rlpstruct/rlpstruct.go:49-55, 207-213`); `none`: it follows a nil
pointer. -/
def defaultNil (h : List Cell) (a : Nat) : Option NilKind :=
  match h[a]? with
  | none => none
  | some c =>
    if isUint c.kind || c.kind == .str || c.kind == .bool then some .string
    else if c.kind == .slice || c.kind == .array then
      match c.elem.bind (h[·]?) with
      | none => none
      | some e => some (if e.kind == .uint8 && !e.enc then .string else .list)
    else some .list

/-! ### What a description shows -/

/-- What can be seen from a description, or has to be seen, in a number of steps. -/
inductive View where
  | cut
  | mk (kind : Kind) (enc dec : Bool) (elem : Option View)

/-- What is to be seen: form, methods, element. -/
def want (g : Graph) (key : Nat → Nat) : Nat → Nat → View
  | 0, _ => .cut
  | n + 1, i => .mk (g.kind i) (g (key i)).enc (g (key i)).dec ((g.elem i).map (want g key n))

/-- What is seen. -/
def seen (h : List Cell) : Nat → Nat → View
  | 0, _ => .cut
  | n + 1, a =>
    match h[a]? with
    | none => .cut
    | some c => .mk c.kind c.enc c.dec (c.elem.map (seen h n))

/-! ### The invariant -/

/-- `L`: the types the descriptions are of; `P`: the descriptions whose element is not set yet. -/
structure Inv (g : Graph) (key : Nat → Nat) (P : Nat → Prop) (L : List Nat) (s : Mem) : Prop where
  len : L.length = s.heap.length
  cell : ∀ (a i : Nat), L[a]? = some i → ∃ x, s.heap[a]? = some ⟨g.kind i, (g (key i)).enc, (g (key i)).dec, x⟩ ∧
    ((x = none ∧ (P a ∨ g.elem i = none)) ∨ ∃ b e j, x = some b ∧ g.elem i = some e ∧ L[b]? = some j ∧ key j = key e ∧
      g.kind j = g.kind e ∧ g.elem j = g.elem e)
  cached : ∀ (i a : Nat), s.cache i = some a → ∃ j, L[a]? = some j ∧ key j = key i ∧ g.kind j = g.kind i ∧ g.elem j = g.elem i

/-- Keys stand for their types. -/
structure Keys (g : Graph) (key : Nat → Nat) : Prop where
  idem : ∀ i, key (key i) = key i
  kind : ∀ i, g.kind (key i) = g.kind i
  elem : ∀ i, g.elem (key i) = g.elem i

variable {g : Graph} {key : Nat → Nat}

theorem keys_id : Keys g id := ⟨fun _ => rfl, fun _ => rfl, fun _ => rfl⟩

theorem under_under (hg : g.WF) (i : Nat) : g.under (g.under i) = g.under i := by
  cases h : (g i).under with
  | none =>
    have e : g.under i = i := by rw [Graph.under, h]; rfl
    rw [e, e]
  | some u =>
    have e : g.under i = u := by rw [Graph.under, h]; rfl
    have e2 : g.under u = u := by rw [Graph.under, hg.under i u h]; rfl
    rw [e, e2]

theorem keys_under (hg : g.WF) : Keys g g.under := by
  refine ⟨under_under hg, fun i => ?_, fun i => ?_⟩
  · rw [Graph.kind, under_under hg]; rfl
  · rw [Graph.elem, under_under hg]; rfl

theorem walk_inv (hk : Keys g key) : ∀ (f i : Nat) (s : Mem) (P : Nat → Prop) (L : List Nat), Inv g key P L s →
    ∀ {a s'}, walk g key f i s = some (a, s') → ∃ L', L <+: L' ∧ Inv g key P L' s' ∧
      ∃ j, L'[a]? = some j ∧ key j = key i ∧ g.kind j = g.kind i ∧ g.elem j = g.elem i := by
  intro f
  induction f with
  | zero => intro i s P L _ a s' h; cases h
  | succ f ih =>
    intro i s P L hI a s' h
    rw [walk] at h
    cases hc : s.cache i with
    | some a0 =>
      rw [hc] at h
      cases h
      exact ⟨L, List.prefix_refl _, hI, hI.cached i a hc⟩
    | none =>
      simp only [hc] at h
      have hlast : (L ++ [i])[s.heap.length]? = some i := by rw [← hI.len]; simp
      have hold : ∀ {b j : Nat}, L[b]? = some j → (L ++ [i])[b]? = some j := by
        intro b j hb
        have := (List.getElem?_eq_some_iff.mp hb).1
        rw [List.getElem?_append_left this, hb]
      -- the state after the description is made
      have hI1 : Inv g key (fun b => P b ∨ b = s.heap.length) (L ++ [i])
          ⟨s.heap ++ [⟨g.kind i, (g (key i)).enc, (g (key i)).dec, none⟩],
            fun j => if j = key i then some s.heap.length else s.cache j⟩ := by
        refine ⟨by simp [hI.len], ?_, ?_⟩
        · intro b j hb
          by_cases hbl : b < L.length
          · rw [List.getElem?_append_left hbl] at hb
            obtain ⟨x, h1, h2⟩ := hI.cell b j hb
            refine ⟨x, ?_, ?_⟩
            · show (s.heap ++ _)[b]? = _
              rw [List.getElem?_append_left (by rw [← hI.len]; exact hbl), h1]
            · rcases h2 with ⟨h2, h3⟩ | ⟨c, e, j', h2, h3, h4, h5⟩
              · exact .inl ⟨h2, h3.imp_left .inl⟩
              · exact .inr ⟨c, e, j', h2, h3, hold h4, h5⟩
          · have hlt := (List.getElem?_eq_some_iff.mp hb).1
            simp at hlt
            have hbe : b = L.length := by omega
            have hij : i = j := by
              rw [hbe] at hb; simpa using hb
            subst hij
            refine ⟨none, ?_, .inl ⟨rfl, .inl (.inr (by rw [hbe, hI.len]))⟩⟩
            rw [hbe, hI.len]
            simp
        · intro j b hb
          have hb : (if j = key i then some s.heap.length else s.cache j) = some b := hb
          split at hb
          · rename_i hj
            cases hb
            exact ⟨i, hlast, by rw [hj, hk.idem], by rw [hj, hk.kind], by rw [hj, hk.elem]⟩
          · obtain ⟨j', h1, h2⟩ := hI.cached j b hb
            exact ⟨j', hold h1, h2⟩
      cases he : g.elem i with
      | none =>
        simp only [he] at h
        cases h
        refine ⟨L ++ [i], List.prefix_append _ _, ⟨hI1.len, ?_, hI1.cached⟩, i, hlast, rfl, rfl, he⟩
        intro b j hb
        obtain ⟨x, h1, h2⟩ := hI1.cell b j hb
        refine ⟨x, h1, ?_⟩
        rcases h2 with ⟨h2, (h3 | h3) | h3⟩ | h2
        · exact .inl ⟨h2, .inl h3⟩
        · rw [h3, hlast] at hb
          cases hb
          exact .inl ⟨h2, .inr he⟩
        · exact .inl ⟨h2, .inr h3⟩
        · exact .inr h2
      | some e =>
        simp only [he] at h
        split at h
        · cases h
        · rename_i b s2 hw
          cases h
          obtain ⟨L', hp, hI2, j, hj, hj1, hj2, hj3⟩ := ih _ _ _ _ hI1 hw
          have hlast' : L'[s.heap.length]? = some i := by
            obtain ⟨t, rfl⟩ := hp
            have := (List.getElem?_eq_some_iff.mp hlast).1
            rw [List.getElem?_append_left this, hlast]
          have hlt : s.heap.length < s2.heap.length := by
            rw [← hI2.len]; exact (List.getElem?_eq_some_iff.mp hlast').1
          refine ⟨L', (List.prefix_append _ _).trans hp, ⟨by simp [hI2.len], ?_, hI2.cached⟩, i, hlast', rfl, rfl, he⟩
          intro c k hc
          by_cases hcl : c = s.heap.length
          · subst hcl
            rw [hlast'] at hc
            cases hc
            refine ⟨some b, ?_, .inr ⟨b, e, j, rfl, he, hj, hj1, hj2, hj3⟩⟩
            simp [hlt]
          · obtain ⟨x, h1, h2⟩ := hI2.cell c k hc
            refine ⟨x, ?_, ?_⟩
            · show (s2.heap.set _ _)[c]? = _
              rw [List.getElem?_set_ne (by omega), h1]
            · rcases h2 with ⟨h2, (h3 | h3) | h3⟩ | h2
              · exact .inl ⟨h2, .inl h3⟩
              · exact absurd h3 hcl
              · exact .inl ⟨h2, .inr h3⟩
              · exact .inr h2

theorem want_congr {i j : Nat} (h1 : key j = key i) (h2 : g.kind j = g.kind i) (h3 : g.elem j = g.elem i) (n : Nat) :
    want g key n j = want g key n i := by
  cases n with
  | zero => rfl
  | succ n => rw [want, want, h1, h2, h3]

theorem inv_seen {L : List Nat} {s : Mem} (hI : Inv g key (fun _ => False) L s) : ∀ (n a i : Nat), L[a]? = some i →
    seen s.heap n a = want g key n i := by
  intro n
  induction n with
  | zero => intro a i _; rfl
  | succ n ih =>
    intro a i h
    obtain ⟨x, h1, h2⟩ := hI.cell a i h
    rw [seen, want]
    simp only [h1]
    rcases h2 with ⟨h2, h3 | h3⟩ | ⟨b, e, j, h2, h3, h4, h5, h6, h7⟩
    · exact h3.elim
    · rw [h2, h3]; rfl
    · rw [h2, h3, Option.map_some, Option.map_some, ih b j h4, want_congr h5 h6 h7]

theorem inv_empty : Inv g key (fun _ => False) [] {} := ⟨rfl, (by intro a i h; simp at h), (by intro i a h; cases h)⟩

/-! ### Where it ends -/

theorem countP_lt {l : List Nat} {p q : Nat → Bool} (h : ∀ x, q x = true → p x = true) {a : Nat} (ha : a ∈ l) (pa : p a = true)
    (qa : q a = false) : l.countP q < l.countP p := by
  induction l with
  | nil => cases ha
  | cons b l ih =>
    rw [List.countP_cons, List.countP_cons]
    have hm : l.countP q ≤ l.countP p := List.countP_mono_left (fun x _ => h x)
    rcases List.mem_cons.mp ha with rfl | ha
    · simp only [qa, pa, if_true, Bool.false_eq_true, if_false]
      omega
    · have := ih ha
      cases hb : q b with
      | false => simp only [Bool.false_eq_true, if_false]; omega
      | true => simp only [h b hb, if_true]; omega

/-- The type `k` elements down. -/
def elemAt (g : Graph) : Nat → Nat → Option Nat
  | 0, i => some i
  | k + 1, i => (g.elem i).bind (elemAt g k)

theorem walk_ends : ∀ (k i : Nat) (s : Mem) (x : Nat), elemAt g k i = some x →
    (g.elem x = none ∨ s.cache x ≠ none ∨ ∃ m < k, ∃ y, elemAt g m i = some y ∧ key y = x) → walk g key (k + 1) i s ≠ none := by
  intro k
  induction k with
  | zero =>
    intro i s x hx h
    cases hx
    rw [walk]
    cases hc : s.cache i with
    | some a => simp
    | none =>
      rcases h with h | h | ⟨m, hm, _⟩
      · simp [h]
      · exact absurd hc h
      · omega
  | succ k ih =>
    intro i s x hx h
    rw [walk]
    cases hc : s.cache i with
    | some a => simp
    | none =>
      cases he : g.elem i with
      | none => simp
      | some e =>
        rw [elemAt, he] at hx
        have hx : elemAt g k e = some x := hx
        have := ih e ⟨s.heap ++ [⟨g.kind i, (g (key i)).enc, (g (key i)).dec, none⟩],
            fun j => if j = key i then some s.heap.length else s.cache j⟩ x hx (by
          rcases h with h | h | ⟨m, hm, y, h1, h2⟩
          · exact .inl h
          · right; left
            show (if x = key i then _ else s.cache x) ≠ none
            split
            · simp
            · exact h
          · cases m with
            | zero =>
              cases h1
              right; left
              show (if x = key i then _ else s.cache x) ≠ none
              rw [if_pos h2.symm]; simp
            | succ m =>
              rw [elemAt, he] at h1
              exact .inr (.inr ⟨m, by omega, y, h1, h2⟩))
        simp only
        split
        · rename_i hw; exact absurd hw this
        · simp

theorem walk_ends_only : ∀ (f i : Nat) (s : Mem), walk g key f i s ≠ none → ∃ k x, elemAt g k i = some x ∧
    (g.elem x = none ∨ s.cache x ≠ none ∨ ∃ m < k, ∃ y, elemAt g m i = some y ∧ key y = x) := by
  intro f
  induction f with
  | zero => intro i s h; exact absurd rfl h
  | succ f ih =>
    intro i s h
    rw [walk] at h
    cases hc : s.cache i with
    | some a => exact ⟨0, i, rfl, .inr (.inl (by simp [hc]))⟩
    | none =>
      simp only [hc] at h
      cases he : g.elem i with
      | none => exact ⟨0, i, rfl, .inl he⟩
      | some e =>
        simp only [he] at h
        obtain ⟨k, x, h1, h2⟩ := ih e _ (by
          intro hw
          rw [hw] at h
          exact h rfl)
        refine ⟨k + 1, x, by rw [elemAt, he]; exact h1, ?_⟩
        rcases h2 with h2 | h2 | ⟨m, hm, y, h3, h4⟩
        · exact .inl h2
        · have h2 : (if x = key i then some s.heap.length else s.cache x) ≠ none := h2
          split at h2
          · rename_i hx
            exact .inr (.inr ⟨0, by omega, i, rfl, hx.symm⟩)
          · exact .inr (.inl h2)
        · exact .inr (.inr ⟨m + 1, by omega, y, by rw [elemAt, he]; exact h3, h4⟩)

/-! ### C159: descriptions -/

/-- **C159.** By reflection a description is made of every type of every program, recursive or not, with at most as many open calls as
there are types. -/
theorem C159_reflect (g : Graph) (N : Nat) (hN : ∀ i < N, ∀ e, g.elem i = some e → e < N) (i : Nat) (hi : i < N) :
    ∃ a s, byReflect g (N + 1) i = some (a, s) := by
  suffices ∀ (f i : Nat) (s : Mem), i < N → (List.range N).countP (fun j => (s.cache j).isNone) < f → walk g id f i s ≠ none by
    have := this (N + 1) i {} hi (by
      have := List.countP_le_length (l := List.range N) (p := fun j => ((({} : Mem).cache j)).isNone)
      simp at this ⊢)
    obtain ⟨⟨a, s⟩, h⟩ := Option.ne_none_iff_exists'.mp this
    exact ⟨a, s, h⟩
  intro f
  induction f with
  | zero => intro i s _ h; omega
  | succ f ih =>
    intro i s hi h
    rw [walk]
    cases hc : s.cache i with
    | some a => simp
    | none =>
      cases he : g.elem i with
      | none => simp
      | some e =>
        simp only
        split
        · rename_i hw
          refine absurd hw (ih _ _ (hN i hi e he) ?_)
          refine Nat.lt_of_lt_of_le (countP_lt (p := fun j => (s.cache j).isNone) (a := i) ?_ (List.mem_range.mpr hi) ?_ ?_) (Nat.le_of_lt_succ h)
          · intro x hx
            simp only [id] at hx
            split at hx
            · cases hx
            · exact hx
          · simp [hc]
          · simp
        · simp

/-- **C159.** The description by reflection shows, however far one follows it, the forms and methods of the type, its element, and so
on. -/
theorem C159_reflect_exact (g : Graph) (f i a : Nat) (s : Mem) (h : byReflect g f i = some (a, s)) (n : Nat) :
    seen s.heap n a = want g id n i := by
  obtain ⟨L, _, hI, j, hj, h1, h2, h3⟩ := walk_inv keys_id f i {} _ [] inv_empty h
  rw [inv_seen hI n a j hj, want_congr h1 h2 h3]

/-- What the generator remembers, whatever types it has been asked for. -/
inductive Reached (g : Graph) : Mem → Prop
  | start : Reached g {}
  | call {s s' : Mem} {f i a : Nat} : Reached g s → byGen g f i s = some (a, s') → Reached g s'

theorem reached_inv (hg : g.WF) {s : Mem} (h : Reached g s) : ∃ L, Inv g g.under (fun _ => False) L s := by
  induction h with
  | start => exact ⟨[], inv_empty⟩
  | call _ hc ih =>
    obtain ⟨L, hI⟩ := ih
    obtain ⟨L', _, hI', _⟩ := walk_inv (keys_under hg) _ _ _ _ _ hI hc
    exact ⟨L', hI'⟩

/-- **C159.** The description by the generator, whatever was described before, shows the forms of the type, its element, and so on, but
the methods of the underlying types. -/
theorem C159_gen_exact (g : Graph) (hg : g.WF) (s : Mem) (hs : Reached g s) (f i a : Nat) (s' : Mem)
    (h : byGen g f i s = some (a, s')) (n : Nat) : seen s'.heap n a = want g g.under n i := by
  obtain ⟨L, hI⟩ := reached_inv hg hs
  obtain ⟨L', _, hI', j, hj, h1, h2, h3⟩ := walk_inv (keys_under hg) f i s _ L hI h
  rw [inv_seen hI' n a j hj, want_congr h1 h2 h3]

/-- **C159.** The generator ends with a type if and only if its elements end, or come to a type that is not a defined type for the second
time. -/
theorem C159_gen_ends (g : Graph) (i : Nat) : (∃ f r, byGen g f i {} = some r) ↔
    ∃ k x, elemAt g k i = some x ∧ (g.elem x = none ∨ ∃ m < k, ∃ y, elemAt g m i = some y ∧ g.under y = x) := by
  constructor
  · rintro ⟨f, r, h⟩
    obtain ⟨k, x, h1, h2⟩ := walk_ends_only (key := g.under) f i {} (by rw [show walk g g.under f i {} = some r from h]; simp)
    refine ⟨k, x, h1, ?_⟩
    rcases h2 with h2 | h2 | h2
    · exact .inl h2
    · exact absurd rfl h2
    · exact .inr h2
  · rintro ⟨k, x, h1, h2⟩
    have := walk_ends (key := g.under) k i {} x h1 (by
      rcases h2 with h2 | h2
      · exact .inl h2
      · exact .inr (.inr h2))
    obtain ⟨r, h⟩ := Option.ne_none_iff_exists'.mp this
    exact ⟨k + 1, r, h⟩

/-! ### C159: nil pointers -/

/-- Values of the type are written as strings of bytes: the specification of the empty value for a nil pointer. -/
def StringLike (g : Graph) (i : Nat) : Prop :=
  g.kind i = .word ∨ g.kind i = .uint ∨ g.kind i = .uint8 ∨ g.kind i = .str ∨ g.kind i = .bool ∨
    ((g.kind i = .slice ∨ g.kind i = .array) ∧ ∃ e, g.elem i = some e ∧ g.kind e = .uint8 ∧ (g e).enc = false)

/-- The same without a look at methods. -/
def ByteLike (g : Graph) (i : Nat) : Prop :=
  g.kind i = .word ∨ g.kind i = .uint ∨ g.kind i = .uint8 ∨ g.kind i = .str ∨ g.kind i = .bool ∨
    ((g.kind i = .slice ∨ g.kind i = .array) ∧ ∃ e, g.elem i = some e ∧ g.kind e = .uint8)

theorem nil_inv (hg : g.WF) {L : List Nat} {s : Mem} (hI : Inv g key (fun _ => False) L s) {a i : Nat} (h : L[a]? = some i) :
    ∃ r, defaultNil s.heap a = some r ∧ (r = .string ↔ (g.kind i = .word ∨ g.kind i = .uint ∨ g.kind i = .uint8 ∨ g.kind i = .str ∨ g.kind i = .bool ∨
      ((g.kind i = .slice ∨ g.kind i = .array) ∧ ∃ e, g.elem i = some e ∧ g.kind e = .uint8 ∧ (g (key e)).enc = false))) := by
  obtain ⟨x, h1, h2⟩ := hI.cell a i h
  have he := hg.elem i
  rw [defaultNil]
  simp only [h1]
  rcases h2 with ⟨h2, h3 | h3⟩ | ⟨b, e, j, h2, h3, h4, h5, h6, h7⟩
  · exact h3.elim
  · rw [h3] at he
    cases hk : g.kind i <;> rw [hk] at he <;> simp [isUint] at he ⊢
  · obtain ⟨y, h8, _⟩ := hI.cell b j h4
    rw [h3] at he
    rw [h2]
    simp only [Option.bind_some, h8, h3, h6, h5]
    cases hk : g.kind i <;> rw [hk] at he <;> simp [isUint] at he ⊢

/-- **C159.** By reflection the empty value for a nil pointer is the empty string exactly for the types whose values are strings. -/
theorem C159_nil (g : Graph) (hg : g.WF) (f i a : Nat) (s : Mem) (h : byReflect g f i = some (a, s)) :
    ∃ r, defaultNil s.heap a = some r ∧ (r = .string ↔ StringLike g i) := by
  obtain ⟨L, _, hI, j, hj, h1, h2, h3⟩ := walk_inv keys_id f i {} _ [] inv_empty h
  obtain ⟨r, h4, h5⟩ := nil_inv hg hI hj
  refine ⟨r, h4, ?_⟩
  rw [h5, h2, h3]
  rfl

/-- **C159.** For the generator it is so for the types whose values are strings if no methods are looked at. -/
theorem C159_gen_nil (g : Graph) (hg : g.WF) (s : Mem) (hs : Reached g s) (f i a : Nat) (s' : Mem)
    (h : byGen g f i s = some (a, s')) : ∃ r, defaultNil s'.heap a = some r ∧ (r = .string ↔ ByteLike g i) := by
  obtain ⟨L, hI⟩ := reached_inv hg hs
  obtain ⟨L', _, hI', j, hj, h1, h2, h3⟩ := walk_inv (keys_under hg) f i s _ L hI h
  obtain ⟨r, h4, h5⟩ := nil_inv hg hI' hj
  refine ⟨r, h4, ?_⟩
  rw [h5, h2, h3]
  have hu : ∀ e, g.kind e = .uint8 → (g (g.under e)).enc = false := by
    intro e he
    have hk : (g (g.under e)).kind = .uint8 := he
    refine hg.enc _ ?_ (by rw [hk]; simp) (by rw [hk]; simp) (by rw [hk]; simp)
    cases hn : (g e).under with
    | none => rw [Graph.under, hn]; exact hn
    | some u => rw [Graph.under, hn]; exact hg.under e u hn
  unfold ByteLike
  constructor
  · rintro (h | h | h | h | h | ⟨h, e, h6, h7, _⟩)
    · exact .inl h
    · exact .inr (.inl h)
    · exact .inr (.inr (.inl h))
    · exact .inr (.inr (.inr (.inl h)))
    · exact .inr (.inr (.inr (.inr (.inl h))))
    · exact .inr (.inr (.inr (.inr (.inr ⟨h, e, h6, h7⟩))))
  · rintro (h | h | h | h | h | ⟨h, e, h6, h7⟩)
    · exact .inl h
    · exact .inr (.inl h)
    · exact .inr (.inr (.inl h))
    · exact .inr (.inr (.inr (.inl h)))
    · exact .inr (.inr (.inr (.inr (.inl h))))
    · exact .inr (.inr (.inr (.inr (.inr ⟨h, e, h6, h7, hu e h7⟩))))

/-! ### How values are written and read -/

/-- What `makeWriter`, `makeDecoder` and `makeOp` choose. -/
inductive Route where
  | raw | big (pointer : Bool) | u256 (pointer : Bool) | ptr (elem : Nat) | method | uint | bool | str | bytes | byteArr
  | list (elem : Nat) | struct | iface | refused
  deriving DecidableEq, Repr

/-- `AssignableTo(reflect.PtrTo(bigInt))`: pointers to `big.Int`, defined or not. -/
def toBig (g : Graph) (i : Nat) : Bool :=
  g.kind i == .ptr && match g.elem i with | some e => (g e).special == .big | none => false

/-- `== reflect.PtrTo(u256Int)`: not the defined ones. -/
def toU256 (g : Graph) (i : Nat) : Bool :=
  (g i).under.isNone && g.kind i == .ptr && match g.elem i with | some e => (g e).special == .u256 | none => false

/-- The first cases, which are the same for both (`/repo/rlp/decode.go:159-170`, `/repo/rlp/encode.go:142-153`), and then the others. -/
def viaReflect (g : Graph) (i : Nat) (method : Bool) (byteElem : Nat → Bool) : Route :=
  if (g i).special = .raw then .raw
  else if toBig g i then .big true
  else if (g i).special = .big then .big false
  else if toU256 g i then .u256 true
  else if (g i).special = .u256 then .u256 false
  else if g.kind i = .ptr then .ptr ((g.elem i).getD 0)
  else if method then .method
  else match g.kind i with
    | .word => .uint
    | .uint => .uint
    | .uint8 => .uint
    | .bool => .bool
    | .str => .str
    | .slice => if byteElem ((g.elem i).getD 0) then .bytes else .list ((g.elem i).getD 0)
    | .array => if byteElem ((g.elem i).getD 0) then .byteArr else .list ((g.elem i).getD 0)
    | .struct => .struct
    | .iface => .iface
    | _ => .refused

/-- `makeWriter` (`/repo/rlp/encode.go:139-175`) with `isByte` (`/repo/rlp/typecache.go:238-240`). -/
def writer (g : Graph) (i : Nat) : Route := viaReflect g i (g i).pEnc fun e => g.kind e == .uint8 && !(g e).enc

/-- `makeDecoder` (`/repo/rlp/decode.go:156-188`) with `makeListDecoder` (`/repo/rlp/decode.go:262-269`). -/
def decoder (g : Graph) (i : Nat) : Route := viaReflect g i (g i).pDec fun e => g.kind e == .uint8 && !(g e).pDec

/-- `makeOp` for types that are not defined types (`/repo/rlp/rlpgen/gen.go:691-729`), `makeBasicOp` (`/repo/rlp/rlpgen/gen.go:165-206`). -/
def genPlain (g : Graph) (i : Nat) : Route :=
  match (g i).kind, (g i).elem with
  | .ptr, some e =>
    if (g e).special = .big then .big true
    else if (g e).special = .u256 then .u256 true
    else if (g i).enc then (if (g i).dec then .method else .refused)
    else if (g i).dec then .refused
    else .ptr e
  | .slice, some e => if g.kind e == .uint8 && !(g e).enc then .bytes else .list e
  | .array, some e => if g.kind e == .uint8 && !(g e).enc then .byteArr else .refused
  | .bool, _ => .bool
  | .uint, _ => .uint
  | .uint8, _ => .uint
  | .str, _ => .str
  | .struct, _ => .struct
  | _, _ => .refused

/-- `makeOp` (`/repo/rlp/rlpgen/gen.go:675-730`). -/
def gen (g : Graph) (i : Nat) : Route :=
  match (g i).under with
  | some u =>
    if (g i).special = .big then .big false
    else if (g i).special = .u256 then .u256 false
    else if (g i).special = .raw then .raw
    else if (g i).dec then .refused
    else genPlain g u
  | none => genPlain g i

/-! ### C159: routes -/

/-- **C159.** Values are read the way they are written if a type has both methods or none, and a byte type with methods has
`EncodeRLP` on the type itself. -/
theorem C159_routes (g : Graph) (i : Nat) (h : (g i).pEnc = (g i).pDec)
    (he : ∀ e, g.elem i = some e → g.kind e = .uint8 → (g e).enc = (g e).pDec) (hx : g.kind i = .slice ∨ g.kind i = .array → g.elem i ≠ none) :
    writer g i = decoder g i := by
  unfold writer decoder viaReflect
  rw [h]
  have hb : g.kind i = .slice ∨ g.kind i = .array → (g.kind ((g.elem i).getD 0) == Kind.uint8 && !(g ((g.elem i).getD 0)).enc) =
      (g.kind ((g.elem i).getD 0) == Kind.uint8 && !(g ((g.elem i).getD 0)).pDec) := by
    intro hk
    cases hel : g.elem i with
    | none => exact absurd hel (hx hk)
    | some e =>
      by_cases hk : g.kind e = .uint8
      · simp only [Option.getD_some]; rw [he e hel hk]
      · simp only [Option.getD_some]; rw [beq_eq_false_iff_ne.mpr hk]; rfl
  cases hk : g.kind i <;> simp only [hk] at hb ⊢
  · simp only [hb (.inl trivial)]
  · simp only [hb (.inr trivial)]

/-- **C159.** For programs without methods of their own, what the generator does not refuse it writes and reads the way the package does
by reflection; defined pointers to `uint256.Int` excepted. -/
theorem C159_agree (g : Graph) (hm : ∀ i, (g i).enc = false ∧ (g i).dec = false ∧ (g i).pEnc = false ∧ (g i).pDec = false)
    (hx : ∀ i, (g.elem i).isSome ↔ g.kind i = .ptr ∨ g.kind i = .slice ∨ g.kind i = .array)
    (hs : ∀ i, (g i).special ≠ .no → (g i).under ≠ none ∧ g.kind i ≠ .ptr) (i : Nat)
    (hu : ¬ ((g i).under ≠ none ∧ ∃ e, g.kind i = .ptr ∧ g.elem i = some e ∧ (g e).special = .u256)) :
    writer g i = decoder g i ∧ (gen g i = writer g i ∨ gen g i = .refused) := by
  refine ⟨C159_routes g i (by rw [(hm i).2.2.1, (hm i).2.2.2]) (fun e _ _ => by rw [(hm e).1, (hm e).2.2.2]) (fun h => ?_), ?_⟩
  · intro he
    have := (hx i).mpr (.inr h)
    rw [he] at this; cases this
  have hgen : gen g i = if (g i).special = .big then .big false else if (g i).special = .u256 then .u256 false
      else if (g i).special = .raw then .raw else genPlain g (g.under i) := by
    unfold gen
    cases hn : (g i).under with
    | none =>
      have : (g i).special = .no := by
        by_contra h; exact (hs i h).1 hn
      simp [this, Graph.under, hn]
    | some u => simp [(hm i).2.1, Graph.under, hn]
  rw [hgen]
  have hxi := hx i
  have hui : g.kind i = .ptr → ∀ e, g.elem i = some e → (g e).special = .u256 → (g i).under = none := by
    intro h1 e h2 h3
    by_contra h4
    exact hu ⟨h4, e, h1, h2, h3⟩
  have hk : (g (g.under i)).kind = g.kind i := rfl
  have he : (g (g.under i)).elem = g.elem i := rfl
  unfold writer viaReflect
  simp only [(hm i).2.2.1, Bool.false_eq_true, if_false]
  by_cases hp : g.kind i = .ptr
  · have hno : (g i).special = .no := by
      by_contra h; exact (hs i h).2 hp
    obtain ⟨e, hel⟩ := Option.isSome_iff_exists.mp (hxi.mpr (.inl hp))
    left
    simp only [hno, genPlain, hk, he, hp, hel, toBig, toU256, (hm _).1, (hm _).2.1]
    cases hse : (g e).special <;> simp
    exact hui hp e hel hse
  · have hb : toBig g i = false := by rw [toBig, beq_eq_false_iff_ne.mpr hp]; rfl
    have h2 : toU256 g i = false := by rw [toU256, beq_eq_false_iff_ne.mpr hp]; simp
    rw [hb, h2]
    simp only [Bool.false_eq_true, if_false]
    cases hsp : (g i).special <;> simp [hp]
    rw [genPlain, hk, he]
    cases hkk : g.kind i <;> rw [hkk] at hxi <;> simp at hxi ⊢
    · exact absurd hkk hp
    all_goals
      obtain ⟨e, hel⟩ := Option.isSome_iff_exists.mp hxi
      simp [hel]
      try (split <;> simp_all)

/-! ### Witnesses -/

/-- `type T []T` -/
def recursive : Graph := fun i => match i with
  | 0 => { under := some 1 }
  | 1 => { kind := .slice, elem := some 0 }
  | _ => {}

/-- `type T []*T` -/
def viaPointer : Graph := fun i => match i with
  | 0 => { under := some 1 }
  | 1 => { kind := .slice, elem := some 2 }
  | 2 => { kind := .ptr, elem := some 0 }
  | _ => {}

example : ((byReflect recursive 3 0).map fun r => (r.1, r.2.heap.length)) = some (0, 1) := by decide +kernel
example : ((byGen viaPointer 4 0 {}).map fun r => (r.1, r.2.heap.length)) = some (0, 3) := by decide +kernel

/-- **C159, where it ends.** With `type T []T` the generator does not end, however many calls are allowed; by reflection there is one
description. -/
theorem C159_recursive_refuted : (∀ f, byGen recursive f 0 {} = none) ∧ (byReflect recursive 3 0).isSome = true := by
  refine ⟨fun f => ?_, by decide +kernel⟩
  by_contra h
  obtain ⟨r, hr⟩ := Option.ne_none_iff_exists'.mp h
  obtain ⟨k, x, h1, h2⟩ := (C159_gen_ends recursive 0).mp ⟨f, r, hr⟩
  have hat : ∀ k, elemAt recursive k 0 = some 0 := by
    intro k
    induction k with
    | zero => rfl
    | succ k ih => exact ih
  rw [hat] at h1
  cases h1
  rcases h2 with h2 | ⟨m, _, y, h3, h4⟩
  · cases h2
  · rw [hat] at h3
    cases h3
    cases h4

/-- `type B byte` with `EncodeRLP` on `B`, `[]B`. -/
def byteMethods : Graph := fun i => match i with
  | 0 => { under := some 1, enc := true, pEnc := true }
  | 1 => { kind := .uint8 }
  | 2 => { kind := .slice, elem := some 0 }
  | _ => {}

/-- **C159, where it ends.** For a nil `*[]B`, where `B` is a byte type with `EncodeRLP`, the generator writes the empty string and the
package the empty list. -/
theorem C159_byteMethods_refuted :
    ((byGen byteMethods 5 2 {}).bind fun r => defaultNil r.2.heap r.1) = some .string ∧
    ((byReflect byteMethods 5 2).bind fun r => defaultNil r.2.heap r.1) = some .list ∧
    gen byteMethods 2 = .list 0 ∧ writer byteMethods 2 = .list 0 := by decide +kernel

/-- `type B byte` with `EncodeRLP` and `DecodeRLP` on `*B`, `[]B`. -/
def pointerMethods : Graph := fun i => match i with
  | 0 => { under := some 1, pEnc := true, pDec := true }
  | 1 => { kind := .uint8 }
  | 2 => { kind := .slice, elem := some 0 }
  | _ => {}

/-- **C159, where it ends.** If both methods of a byte type are on the pointer, a slice is written as a string of bytes and read as a list,
although single values are written and read by the methods. -/
theorem C159_pointerMethods_refuted : writer pointerMethods 2 = .bytes ∧ decoder pointerMethods 2 = .list 0 ∧
    writer pointerMethods 0 = .method ∧ decoder pointerMethods 0 = .method := by decide +kernel

/-- `type T uint64` with `EncodeRLP` on `T` and `DecodeRLP` on `*T`; `*T`. -/
def ownMethods : Graph := fun i => match i with
  | 0 => { under := some 1, enc := true, pEnc := true, pDec := true }
  | 1 => { kind := .uint }
  | 2 => { kind := .ptr, elem := some 0, enc := true, dec := true }
  | _ => {}

/-- **C159, where it ends.** For a field of such a type the generator does not use the methods.  For a field that is a pointer it does, but
then also for nil, where the package writes the empty value. -/
theorem C159_methods_refuted : gen ownMethods 0 = .uint ∧ writer ownMethods 0 = .method ∧ decoder ownMethods 0 = .method ∧
    gen ownMethods 2 = .method ∧ writer ownMethods 2 = .ptr 0 := by decide +kernel

/-- `type P *uint256.Int` -/
def definedU256 : Graph := fun i => match i with
  | 0 => { under := some 1, special := .u256 }
  | 1 => { kind := .array, elem := some 4 }
  | 2 => { under := some 3 }
  | 3 => { kind := .ptr, elem := some 0 }
  | 4 => { kind := .uint }
  | _ => {}

/-- **C159, where it ends.** A nil pointer of a defined type `*uint256.Int` is the empty list by reflection, and the generator takes the type
for `*uint256.Int`, for which nil is the empty string. -/
theorem C159_u256_refuted : gen definedU256 2 = .u256 true ∧ writer definedU256 2 = .ptr 0 ∧
    ((byReflect definedU256 6 0).bind fun r => defaultNil r.2.heap r.1) = some .list := by decide +kernel

end Verif.Rlp.Descr

import Verif.Base

/-!
# Property C185: the memory of packed calls (/repo/abi/abi.go:57-82)

`ABI.Pack` returns `append(method.ID, arguments...)`.  `method.ID` is the slice of the first 4 bytes of a digest (/repo/abi/method.go:116-119), an array
of 32 bytes that all calls of `Pack` share: there is room for 28 bytes, into which `append` writes.  Arguments take a multiple of 32 bytes, so that
a call with arguments gets a new array, and a call without arguments gets the slice of the method itself.
-/

namespace Verif.Abi.PackMem
open Verif

/-! ### The code -/

/-- A packed call: the first bytes of the array of method `m`, or an array of its own. -/
inductive Out where
  | shared (m len : Nat)
  | mine (b : Bytes)

/-- The digests of the methods, of which the first 4 bytes are the identifiers, and the packed calls in the hands of callers. -/
structure St where
  ids : Nat → Bytes
  outs : List Out

/-- The bytes of a packed call now. -/
def St.bytes (s : St) : Out → Bytes
  | .shared m len => (s.ids m).take len
  | .mine b => b

/-- `b` written over the array from `i` on. -/
def over (a : Bytes) (i : Nat) (b : Bytes) : Bytes := a.take i ++ b ++ a.drop (i + b.length)

/-- The array of method `m` is written over. -/
def St.write (s : St) (m i : Nat) (b : Bytes) : St := { s with ids := fun k => if k = m then over (s.ids m) i b else s.ids k }

/-- `append(x, b...)`: in the same array if there is room. -/
def St.append (s : St) (x : Out) (b : Bytes) : St × Out :=
  match x with
  | .mine a => (s, .mine (a ++ b))
  | .shared m len => if len + b.length ≤ (s.ids m).length then (s.write m len b, .shared m (len + b.length)) else (s, .mine ((s.ids m).take len ++ b))

/-- What callers do: pack a call of method `m` with the packed arguments `a` (`/repo/abi/abi.go:72-81`); set byte `j` of the `i`-th packed call; append to
it, `x = append(x, b...)`. -/
inductive Op where
  | pack (m : Nat) (a : Bytes)
  | poke (i j : Nat) (v : UInt8)
  | grow (i : Nat) (b : Bytes)

/-- One of them. -/
def step (s : St) : Op → St
  | .pack m a =>
    let r := s.append (.shared m 4) a
    { r.1 with outs := r.1.outs ++ [r.2] }
  | .poke i j v =>
    match s.outs[i]? with
    | none => s
    | some (.mine b) => { s with outs := s.outs.set i (.mine (b.set j v)) }
    | some (.shared m len) => if j < len then s.write m j [v] else s
  | .grow i b =>
    match s.outs[i]? with
    | none => s
    | some x =>
      let r := s.append x b
      { r.1 with outs := r.1.outs.set i r.2 }

/-! ### Specification -/

/-- Packed calls as lists. -/
def specStep (ids : Nat → Bytes) (l : List Bytes) : Op → List Bytes
  | .pack m a => l ++ [(ids m).take 4 ++ a]
  | .poke i j v => l.modify i fun b => b.set j v
  | .grow i b => l.modify i fun c => c ++ b

/-- The packed arguments of the calls, in order. -/
def arguments : List Op → List Bytes
  | [] => []
  | .pack _ a :: os => a :: arguments os
  | _ :: os => arguments os

/-- The packed call that is written into. -/
def Op.target : Op → Option Nat
  | .pack _ _ => none
  | .poke i _ _ => some i
  | .grow i _ => some i

/-! ### Proof -/

/-- Digests are as they were, calls with arguments have arrays of their own, and the bytes are those of the specification. -/
structure Inv (ids : Nat → Bytes) (s : St) (l A : List Bytes) : Prop where
  ids : s.ids = ids
  out : s.outs.map s.bytes = l
  len : s.outs.length = A.length
  own : ∀ (i m len : Nat), s.outs[i]? = some (.shared m len) → A[i]? = some []

theorem map_set_mine {s : St} {l : List Bytes} (h : s.outs.map s.bytes = l) {i : Nat} {x : Bytes} (hx : s.outs[i]? = some (.mine x)) (f : Bytes → Bytes) :
    (s.outs.set i (.mine (f x))).map s.bytes = l.modify i f := by
  apply List.ext_getElem?
  intro k
  rw [← h, List.getElem?_map, List.getElem?_set, List.getElem?_modify, List.getElem?_map]
  by_cases hk : i = k
  · subst hk
    have hlt : i < s.outs.length := (List.getElem?_eq_some_iff.1 hx).1
    have hv : s.outs[i] = .mine x := (List.getElem?_eq_some_iff.1 hx).2
    simp [hlt, hv, St.bytes]
  · simp [hk]

theorem Inv.mine {ids : Nat → Bytes} {s : St} {l A : List Bytes} (h : Inv ids s l A) {i : Nat} {x : Bytes} (hx : s.outs[i]? = some (.mine x)) (f : Bytes → Bytes) :
    Inv ids { s with outs := s.outs.set i (.mine (f x)) } (l.modify i f) A := by
  refine ⟨h.ids, map_set_mine h.out hx f, by rw [List.length_set]; exact h.len, ?_⟩
  intro k m len hk
  change (s.outs.set i (.mine (f x)))[k]? = _ at hk
  rw [List.getElem?_set] at hk
  by_cases e : i = k
  · rw [if_pos e] at hk
    split at hk <;> cases hk
  · rw [if_neg e] at hk
    exact h.own k m len hk

theorem modify_none {α : Type} (l : List α) (i : Nat) (f : α → α) (h : l[i]? = none) : l.modify i f = l := by
  apply List.ext_getElem?
  intro k
  rw [List.getElem?_modify]
  by_cases hk : i = k
  · subst hk
    rw [h]
    rfl
  · simp [hk]

theorem Inv.step {ids : Nat → Bytes} (hid : ∀ m, (ids m).length = 32) {s : St} {l A : List Bytes} (h : Inv ids s l A) (o : Op)
    (ha : ∀ m a, o = .pack m a → a.length % 32 = 0) (ho : ∀ i, o.target = some i → A[i]? ≠ some []) :
    Inv ids (step s o) (specStep ids l o) (A ++ arguments [o]) := by
  have hnone : ∀ i : Nat, s.outs[i]? = none → l[i]? = none := by
    intro i hi
    rw [← h.out, List.getElem?_map, hi]
    rfl
  cases o with
  | pack m a =>
    have h32 := hid m
    have hmod := ha m a rfl
    rw [← h.ids] at h32
    have happ : ∀ x : Out, s.bytes x = (ids m).take 4 ++ a → (∀ k len, x = .shared k len → a = []) →
        Inv ids { s with outs := s.outs ++ [x] } (specStep ids l (.pack m a)) (A ++ [a]) := by
      intro x hx hsh
      refine ⟨h.ids, ?_, by rw [List.length_append, List.length_append, h.len]; rfl, ?_⟩
      · show (s.outs ++ [x]).map s.bytes = l ++ [_]
        rw [List.map_append, h.out, List.map_singleton, hx]
      · intro k m' len hk
        change (s.outs ++ [x])[k]? = _ at hk
        by_cases hlt : k < s.outs.length
        · rw [List.getElem?_append_left hlt] at hk
          rw [List.getElem?_append_left (h.len ▸ hlt)]
          exact h.own k m' len hk
        · rw [List.getElem?_append_right (Nat.le_of_not_lt hlt)] at hk
          rw [List.getElem?_append_right (h.len ▸ Nat.le_of_not_lt hlt), ← h.len]
          cases hz : k - s.outs.length with
          | succ n => rw [hz] at hk; cases hk
          | zero =>
            rw [hz] at hk
            rw [hsh m' len (Option.some.inj hk)]
            rfl
    show Inv ids { (s.append (.shared m 4) a).1 with outs := (s.append (.shared m 4) a).1.outs ++ [(s.append (.shared m 4) a).2] } _ (A ++ [a])
    rw [St.append]
    by_cases hroom : 4 + a.length ≤ (s.ids m).length
    · have hnil : a = [] := List.eq_nil_of_length_eq_zero (by omega)
      subst hnil
      have hw : s.write m 4 [] = s := by
        have : (fun k => if k = m then over (s.ids m) 4 [] else s.ids k) = s.ids := by
          funext k
          by_cases hk : k = m
          · rw [if_pos hk, hk]
            simp [over]
          · rw [if_neg hk]
        rw [St.write, this]
      simp only [hroom, if_true, hw]
      exact happ _ (by simp [St.bytes, h.ids]) (fun _ _ _ => rfl)
    · simp only [hroom, if_false]
      exact happ _ (by simp [St.bytes, h.ids]) (fun k len e => by cases e)
  | poke i j v =>
    have hA : A ++ arguments [Op.poke i j v] = A := List.append_nil A
    rw [hA]
    simp only [PackMem.step, specStep]
    cases hx : s.outs[i]? with
    | none =>
      rw [modify_none l i _ (hnone i hx)]
      exact h
    | some x =>
      cases x with
      | mine b => exact h.mine hx fun b => b.set j v
      | shared m len => exact absurd (h.own i m len hx) (ho i rfl)
  | grow i b =>
    have hA : A ++ arguments [Op.grow i b] = A := List.append_nil A
    rw [hA]
    simp only [PackMem.step, specStep]
    cases hx : s.outs[i]? with
    | none =>
      rw [modify_none l i _ (hnone i hx)]
      exact h
    | some x =>
      cases x with
      | mine a => exact h.mine hx fun c => c ++ b
      | shared m len => exact absurd (h.own i m len hx) (ho i rfl)

theorem arguments_cons (o : Op) (os : List Op) : arguments (o :: os) = arguments [o] ++ arguments os := by
  cases o <;> rfl

/-- **C185, as far as it holds.** Callers pack calls of any methods, write into packed calls and append to them, but not into calls without arguments:
each packed call has the bytes that it would have as a list, and the identifiers of the methods never change. -/
theorem C185_calls_partial (ids : Nat → Bytes) (hid : ∀ m, (ids m).length = 32) (os : List Op) (ha : ∀ m a, Op.pack m a ∈ os → a.length % 32 = 0)
    (ho : ∀ o ∈ os, ∀ i, o.target = some i → (arguments os)[i]? ≠ some []) :
    let s := os.foldl step ⟨ids, []⟩
    s.outs.map s.bytes = os.foldl (specStep ids) [] ∧ s.ids = ids := by
  have gen : ∀ (os : List Op) (s : St) (l A : List Bytes), Inv ids s l A → (∀ m a, Op.pack m a ∈ os → a.length % 32 = 0) →
      (∀ o ∈ os, ∀ i, o.target = some i → (A ++ arguments os)[i]? ≠ some []) →
      ∃ A', Inv ids (os.foldl PackMem.step s) (os.foldl (specStep ids) l) A' := by
    intro os
    induction os with
    | nil => intro s l A h _ _; exact ⟨A, h⟩
    | cons o os ih =>
      intro s l A h ha ho
      refine ih _ _ _ (h.step hid o (fun m a e => ha m a (by rw [e]; exact List.mem_cons_self)) ?_) (fun m a hm => ha m a (List.mem_cons_of_mem _ hm)) ?_
      · intro i hi hK
        refine ho o List.mem_cons_self i hi ?_
        rw [List.getElem?_append_left (List.getElem?_eq_some_iff.1 hK).1]
        exact hK
      · intro o' ho' i hi
        rw [List.append_assoc, ← arguments_cons]
        exact ho o' (List.mem_cons_of_mem _ ho') i hi
  obtain ⟨A', h⟩ := gen os ⟨ids, []⟩ [] [] ⟨rfl, rfl, rfl, fun i m len hi => by simp at hi⟩ ha (by simpa using ho)
  exact ⟨h.out, h.ids⟩

/-! ### Cases and refutations -/

/-- Two methods. -/
def toy (m : Nat) : Bytes := (List.range 32).map fun i => UInt8.ofNat (i + 100 * m)

/-- A packed call with one word of arguments is written into and extended; another call does not notice. -/
example : let s := [Op.pack 1 (List.replicate 32 5), .poke 0 1 9, .pack 1 (List.replicate 32 5), .grow 0 [8]].foldl step ⟨toy, []⟩
    s.outs.map s.bytes = [[100, 9, 102, 103] ++ List.replicate 32 5 ++ [8], [100, 101, 102, 103] ++ List.replicate 32 5] := by decide +kernel

/-- **C185 is false for calls without arguments**: two callers pack such a call and append something: both find what the second one appended.  And a
caller who writes into such a call changes the identifier of the method for all later calls, and for `MethodById`. -/
theorem C185_empty_refuted (ids : Nat → Bytes) (hid : ∀ m, (ids m).length = 32) (m : Nat) (x y : UInt8) :
    (let s := [Op.pack m [], .pack m [], .grow 0 [x], .grow 1 [y]].foldl step ⟨ids, []⟩;
      s.outs.map s.bytes = [(ids m).take 4 ++ [y], (ids m).take 4 ++ [y]]) ∧
    (let s := [Op.pack m [], .poke 0 0 x, .pack m (List.replicate 32 y)].foldl step ⟨ids, []⟩;
      (s.ids m).take 4 = x :: ((ids m).drop 1).take 3 ∧ s.outs.map s.bytes = [x :: ((ids m).drop 1).take 3, x :: ((ids m).drop 1).take 3 ++ List.replicate 32 y]) := by
  have h := hid m
  match hm : ids m, h with
  | [a0, a1, a2, a3, a4, a5, a6, a7, a8, a9, a10, a11, a12, a13, a14, a15, a16, a17, a18, a19, a20, a21, a22, a23, a24, a25, a26, a27, a28, a29, a30, a31], _ =>
    constructor <;> simp [step, St.append, St.write, St.bytes, over, hm]

/-- **C185.** A write behind the end of a packed call changes nothing, not even bytes of the array of an identifier that the call is
too short to reach. -/
theorem C185_bounds (s : St) (i j : Nat) (v : UInt8) (x : Out) (hx : s.outs[i]? = some x) (hj : (s.bytes x).length ≤ j)
    (hl : ∀ m len, x = .shared m len → len ≤ (s.ids m).length) : step s (.poke i j v) = s := by
  cases x with
  | mine b =>
    simp only [step, hx]
    have hb : b.set j v = b := List.set_eq_of_length_le hj
    have hs : s.outs.set i (.mine b) = s.outs := by
      obtain ⟨h1, h2⟩ := List.getElem?_eq_some_iff.1 hx
      rw [← h2, List.set_getElem_self]
    rw [hb, hs]
  | shared m len =>
    have := hl m len rfl
    simp only [St.bytes, List.length_take] at hj
    simp only [step, hx]
    rw [if_neg (by omega)]

/-- Byte 4 of a call without arguments. -/
example : let s := [Op.pack 1 [], .poke 0 4 9, .poke 0 3 8].foldl step ⟨toy, []⟩
    (s.ids 1).take 6 = [100, 101, 102, 8, 104, 105] := by decide +kernel

end Verif.Abi.PackMem

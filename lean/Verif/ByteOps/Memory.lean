import Verif.ByteOps.Props

/-!
# Property C174: identifiers and memory (/repo/basic.go)

Pointers to addresses, hashes, seeds and node ids, their copies, and the slices that look at them.  The memory is a list of arrays to
which allocations append; a pointer and a slice over a whole array are both nil or the number of the array.  Identifiers of one length
`n` at a time; programs that write into a part of a slice are left out.
-/

namespace Verif.ByteOps.Memory
open Verif

/-! ### The code -/

/-- What a caller does with the pointers and slices it has, numbered in the order in which it got them. -/
inductive Op where
  | null
  | make (b : Bytes)
  | clone (i : Nat)
  | forRLP (i : Nat)
  | fromRLP (i : Nat)
  | slice (i : Nat)
  | bytes (i : Nat)
  | set (i : Nat) (b : Bytes)

/-- The memory and what the caller holds. -/
structure M where
  heap : List Bytes
  held : List (Option Nat)

/-- A new array and a pointer to it. -/
def M.alloc (m : M) (b : Bytes) : M := ⟨m.heap ++ [b], m.held ++ [some m.heap.length]⟩

/-- One more pointer. -/
def M.push (m : M) (p : Option Nat) : M := ⟨m.heap, m.held ++ [p]⟩

/-- What a pointer points to. -/
def see (heap : List Bytes) (p : Option Nat) : Option Bytes := p.bind (heap[·]?)

/-- The methods; `none` is a panic.
* `make`: `BytesToAddress` and its kin (`/repo/basic.go:328-332, 1553-1557, 1594-1598, 1624-1628`);
* `clone`: `Clone` (`/repo/basic.go:393-400, 1177-1183, 1387-1392, 1710-1715`), `NewHash` (`1354-1358`), `Address.Copy` (`1205-1208`);
* `forRLP`, `fromRLP`: `/repo/basic.go:1185-1203, 1394-1411`;
* `slice`: `Slice` (`/repo/basic.go:1210-1215, 1380-1385, 1652-1657`), the array itself;
* `bytes`: `Bytes` with a copied receiver (`/repo/basic.go:1241, 1414`);
* `set`: `SetBytes` (`/repo/basic.go:406-411, 1281-1286, 1465-1471, 1659-1666`), or copying into a slice. -/
def step (n : Nat) (m : M) : Op → Option M
  | .null => some (m.push none)
  | .make b => some (m.alloc (bytesTo n b))
  | .clone i =>
    match m.held[i]? with
    | none => none
    | some none => some (m.push none)
    | some (some p) => (m.heap[p]?).map m.alloc
  | .forRLP i =>
    match m.held[i]? with
    | none => none
    | some none => some (m.alloc (List.replicate n 0))
    | some (some p) => (m.heap[p]?).map m.alloc
  | .fromRLP i =>
    match m.held[i]? with
    | none => none
    | some none => some (m.push none)
    | some (some p) => (m.heap[p]?).map fun b => if b = List.replicate n 0 then m.push none else m.alloc b
  | .slice i => (m.held[i]?).map m.push
  | .bytes i =>
    match m.held[i]? with
    | some (some p) => (m.heap[p]?).map m.alloc
    | _ => none
  | .set i b =>
    match m.held[i]? with
    | some (some p) => (m.heap[p]?).map fun old => { m with heap := m.heap.set p (setBytes n old b) }
    | _ => none

def run (n : Nat) : List Op → M → Option M
  | [], m => some m
  | o :: os, m => (step n m o).bind (run n os)

/-! ### The specification: values in groups, without a memory -/

/-- A variable: the group of those that show the same, and its value. -/
abbrev Var := Nat × Option Bytes

/-- The last `n` bytes of `b`, after what is left of `old`. -/
def over (n : Nat) (old b : Bytes) : Bytes := old.take (n - b.length) ++ b.drop (b.length - n)

/-- `slice` makes a member of a group, everything else makes a group; `set` changes the value of a group. -/
def ideal (n : Nat) (vs : List Var) : Op → Option (List Var)
  | .null => some (vs ++ [(vs.length, none)])
  | .make b => some (vs ++ [(vs.length, some (over n (List.replicate n 0) b))])
  | .clone i => (vs[i]?).map fun v => vs ++ [(vs.length, v.2)]
  | .forRLP i => (vs[i]?).map fun v => vs ++ [(vs.length, some (v.2.getD (List.replicate n 0)))]
  | .fromRLP i => (vs[i]?).map fun v => vs ++ [(vs.length, if v.2 = some (List.replicate n 0) then none else v.2)]
  | .slice i => (vs[i]?).map fun v => vs ++ [v]
  | .bytes i => (vs[i]?).bind fun v => if v.2 = none then none else some (vs ++ [(vs.length, v.2)])
  | .set i b => (vs[i]?).bind fun v => v.2.map fun old => vs.map fun w => if w.1 = v.1 then (w.1, some (over n old b)) else w

def idealRun (n : Nat) : List Op → List Var → Option (List Var)
  | [], vs => some vs
  | o :: os, vs => (ideal n vs o).bind (idealRun n os)

/-! ### The simulation -/

/-- What the two have in common: groups with pointers. -/
structure Rel (n : Nat) (m : M) (vs : List Var) (T : List (Nat × Option Nat)) : Prop where
  held : m.held = T.map (·.2)
  vals : vs = T.map fun t => (t.1, see m.heap t.2)
  same : ∀ s ∈ T, ∀ t ∈ T, (s.1 = t.1 → s.2 = t.2) ∧ (s.2 = t.2 → s.2 ≠ none → s.1 = t.1)
  fresh : ∀ t ∈ T, t.1 < T.length
  good : ∀ t ∈ T, ∀ p, t.2 = some p → ∃ b, m.heap[p]? = some b ∧ b.length = n

theorem Rel.alloc {n : Nat} {m : M} {vs : List Var} {T : List (Nat × Option Nat)} (r : Rel n m vs T) (b : Bytes) (hb : b.length = n) :
    Rel n (m.alloc b) (vs ++ [(vs.length, some b)]) (T ++ [(T.length, some m.heap.length)]) := by
  have hlt : ∀ t ∈ T, ∀ p, t.2 = some p → p < m.heap.length := by
    intro t ht p hp
    obtain ⟨c, hc, -⟩ := r.good t ht p hp
    by_contra h
    rw [List.getElem?_eq_none (by omega)] at hc; cases hc
  have hsee : ∀ t ∈ T, see (m.heap ++ [b]) t.2 = see m.heap t.2 := by
    intro t ht
    cases hp : t.2 with
    | none => rfl
    | some p => simp only [see, Option.bind_some]; rw [List.getElem?_append_left (hlt t ht p hp)]
  constructor
  · simp [M.alloc, r.held]
  · rw [r.vals, List.map_append]
    simp only [M.alloc, List.map_cons, List.map_nil, List.length_map]
    congr 1
    · exact List.map_congr_left fun t ht => by rw [hsee t ht]
    · simp [see]
  · intro s hs t ht
    simp only [List.mem_append, List.mem_singleton] at hs ht
    rcases hs with hs | rfl <;> rcases ht with ht | rfl
    · exact r.same s hs t ht
    · have := r.fresh s hs
      exact ⟨fun e => by simp only at e; omega, fun e => by have := hlt s hs _ e; omega⟩
    · have := r.fresh t ht
      exact ⟨fun e => by simp only at e; omega, fun e => by have := hlt t ht _ e.symm; omega⟩
    · exact ⟨fun _ => rfl, fun _ _ => rfl⟩
  · intro t ht
    simp only [List.mem_append, List.mem_singleton] at ht
    rcases ht with ht | rfl
    · have := r.fresh t ht; simp; omega
    · simp
  · intro t ht p hp
    simp only [List.mem_append, List.mem_singleton] at ht
    rcases ht with ht | rfl
    · obtain ⟨c, hc, hl⟩ := r.good t ht p hp
      exact ⟨c, by rw [M.alloc, List.getElem?_append_left (hlt t ht p hp)]; exact hc, hl⟩
    · simp only [Option.some.injEq] at hp
      subst hp
      exact ⟨b, by simp [M.alloc], hb⟩

theorem Rel.null {n : Nat} {m : M} {vs : List Var} {T : List (Nat × Option Nat)} (r : Rel n m vs T) :
    Rel n (m.push none) (vs ++ [(vs.length, none)]) (T ++ [(T.length, none)]) := by
  constructor
  · simp [M.push, r.held]
  · rw [r.vals]; simp [M.push, see]
  · intro s hs t ht
    simp only [List.mem_append, List.mem_singleton] at hs ht
    rcases hs with hs | rfl <;> rcases ht with ht | rfl
    · exact r.same s hs t ht
    · have := r.fresh s hs
      exact ⟨fun e => by simp only at e; omega, fun e h => absurd e h⟩
    · have := r.fresh t ht
      exact ⟨fun e => by simp only at e; omega, fun _ h => absurd rfl h⟩
    · exact ⟨fun _ => rfl, fun _ _ => rfl⟩
  · intro t ht
    simp only [List.mem_append, List.mem_singleton] at ht
    rcases ht with ht | rfl
    · have := r.fresh t ht; simp; omega
    · simp
  · intro t ht p hp
    simp only [List.mem_append, List.mem_singleton] at ht
    rcases ht with ht | rfl
    · exact r.good t ht p hp
    · cases hp

theorem Rel.share {n : Nat} {m : M} {vs : List Var} {T : List (Nat × Option Nat)} (r : Rel n m vs T) (u : Nat × Option Nat) (hu : u ∈ T) :
    Rel n (m.push u.2) (vs ++ [(u.1, see m.heap u.2)]) (T ++ [u]) := by
  have hm : ∀ t, t ∈ T ++ [u] → t ∈ T := by
    intro t ht
    simp only [List.mem_append, List.mem_singleton] at ht
    rcases ht with ht | rfl
    · exact ht
    · exact hu
  constructor
  · simp [M.push, r.held]
  · rw [r.vals]; simp [M.push]
  · exact fun s hs t ht => r.same s (hm s hs) t (hm t ht)
  · intro t ht; have := r.fresh t (hm t ht); simp; omega
  · exact fun t ht => r.good t (hm t ht)

theorem over_len (n : Nat) (old b : Bytes) (h : old.length = n) : (over n old b).length = n := by
  simp [over]; omega

theorem Rel.write {n : Nat} {m : M} {vs : List Var} {T : List (Nat × Option Nat)} (r : Rel n m vs T) (u : Nat × Option Nat) (hu : u ∈ T)
    (p : Nat) (hp : u.2 = some p) (c : Bytes) (hc : c.length = n) :
    Rel n { m with heap := m.heap.set p c } (vs.map fun w => if w.1 = u.1 then (w.1, some c) else w) T := by
  have hlt : p < m.heap.length := by
    obtain ⟨b, hb, -⟩ := r.good u hu p hp
    by_contra h
    rw [List.getElem?_eq_none (by omega)] at hb; cases hb
  refine ⟨r.held, ?_, r.same, r.fresh, ?_⟩
  · rw [r.vals, List.map_map]
    refine List.map_congr_left fun t ht => ?_
    simp only [Function.comp_apply]
    by_cases e : t.1 = u.1
    · rw [if_pos e, (r.same t ht u hu).1 e, hp]
      simp [see, hlt]
    · rw [if_neg e]
      cases hq : t.2 with
      | none => rfl
      | some q =>
        have hne : p ≠ q := fun h => e ((r.same t ht u hu).2 (by rw [hq, hp, h]) (by simp [hq]))
        simp only [see, Option.bind_some]
        rw [List.getElem?_set_ne hne]
  · intro t ht q hq
    by_cases e : q = p
    · subst e
      exact ⟨c, by simp [hlt], hc⟩
    · obtain ⟨b, hb, hl⟩ := r.good t ht q hq
      exact ⟨b, by simp only; rw [List.getElem?_set_ne (Ne.symm e)]; exact hb, hl⟩

theorem bytesTo_over (n : Nat) (b : Bytes) : bytesTo n b = over n (List.replicate n 0) b := by
  rw [bytesTo, C52_setBytes n _ b (by simp)]; rfl

theorem step_rel {n : Nat} {m : M} {vs : List Var} {T : List (Nat × Option Nat)} (r : Rel n m vs T) (o : Op) :
    (step n m o = none ∧ ideal n vs o = none) ∨
      ∃ m' vs' T', step n m o = some m' ∧ ideal n vs o = some vs' ∧ Rel n m' vs' T' := by
  have hlook : ∀ i : Nat, (m.held[i]? = none ∧ vs[i]? = none) ∨
      ∃ t ∈ T, m.held[i]? = some t.2 ∧ vs[i]? = some (t.1, see m.heap t.2) := by
    intro i
    rw [r.held, r.vals, List.getElem?_map, List.getElem?_map]
    cases h : T[i]? with
    | none => exact .inl ⟨rfl, rfl⟩
    | some t => exact .inr ⟨t, List.mem_of_getElem? h, rfl, rfl⟩
  cases o with
  | null => exact .inr ⟨_, _, _, rfl, rfl, r.null⟩
  | make b =>
    refine .inr ⟨_, _, T ++ [(T.length, some m.heap.length)], rfl, rfl, ?_⟩
    rw [bytesTo_over]
    exact r.alloc _ (over_len n _ b (by simp))
  | clone i =>
    rcases hlook i with ⟨h1, h2⟩ | ⟨t, ht, h1, h2⟩
    · left; simp [step, ideal, h1, h2]
    · right
      simp only [step, ideal, h1, h2, Option.map_some]
      cases hp : t.2 with
      | none => exact ⟨_, _, _, rfl, rfl, r.null⟩
      | some p =>
        obtain ⟨b, hb, hl⟩ := r.good t ht p hp
        refine ⟨m.alloc b, _, T ++ [(T.length, some m.heap.length)], by simp [hb], rfl, ?_⟩
        simp only [see, Option.bind_some, hb]
        exact r.alloc b hl
  | forRLP i =>
    rcases hlook i with ⟨h1, h2⟩ | ⟨t, ht, h1, h2⟩
    · left; simp [step, ideal, h1, h2]
    · right
      simp only [step, ideal, h1, h2, Option.map_some]
      cases hp : t.2 with
      | none => exact ⟨_, _, _, rfl, rfl, r.alloc _ (by simp)⟩
      | some p =>
        obtain ⟨b, hb, hl⟩ := r.good t ht p hp
        refine ⟨m.alloc b, _, T ++ [(T.length, some m.heap.length)], by simp [hb], rfl, ?_⟩
        simp only [see, Option.bind_some, hb, Option.getD_some]
        exact r.alloc b hl
  | fromRLP i =>
    rcases hlook i with ⟨h1, h2⟩ | ⟨t, ht, h1, h2⟩
    · left; simp [step, ideal, h1, h2]
    · right
      simp only [step, ideal, h1, h2, Option.map_some]
      cases hp : t.2 with
      | none => exact ⟨_, _, _, rfl, rfl, by simpa [see] using r.null⟩
      | some p =>
        obtain ⟨b, hb, hl⟩ := r.good t ht p hp
        simp only [see, Option.bind_some, hb, Option.map_some, Option.some.injEq]
        by_cases hz : b = List.replicate n 0
        · rw [if_pos hz, if_pos hz]
          exact ⟨_, _, _, rfl, rfl, r.null⟩
        · rw [if_neg hz, if_neg hz]
          exact ⟨_, _, _, rfl, rfl, r.alloc b hl⟩
  | slice i =>
    rcases hlook i with ⟨h1, h2⟩ | ⟨t, ht, h1, h2⟩
    · left; simp [step, ideal, h1, h2]
    · right
      simp only [step, ideal, h1, h2, Option.map_some]
      exact ⟨_, _, _, rfl, rfl, r.share t ht⟩
  | bytes i =>
    rcases hlook i with ⟨h1, h2⟩ | ⟨t, ht, h1, h2⟩
    · left; simp [step, ideal, h1, h2]
    · simp only [step, ideal, h1, h2, Option.bind_some]
      cases hp : t.2 with
      | none => left; exact ⟨rfl, rfl⟩
      | some p =>
        obtain ⟨b, hb, hl⟩ := r.good t ht p hp
        simp only [see, Option.bind_some, hb, Option.map_some, reduceCtorEq, if_false]
        exact .inr ⟨_, _, _, rfl, rfl, r.alloc b hl⟩
  | set i b =>
    rcases hlook i with ⟨h1, h2⟩ | ⟨t, ht, h1, h2⟩
    · left; simp [step, ideal, h1, h2]
    · simp only [step, ideal, h1, h2, Option.bind_some]
      cases hp : t.2 with
      | none => left; exact ⟨rfl, rfl⟩
      | some p =>
        obtain ⟨c, hc, hl⟩ := r.good t ht p hp
        simp only [see, Option.bind_some, hc, Option.map_some]
        refine .inr ⟨_, _, T, rfl, rfl, ?_⟩
        rw [C52_setBytes n c b hl]
        exact r.write t ht p hp _ (over_len n c b hl)

theorem run_rel {n : Nat} (os : List Op) {m : M} {vs : List Var} {T : List (Nat × Option Nat)} (r : Rel n m vs T) :
    (run n os m = none ∧ idealRun n os vs = none) ∨
      ∃ m' vs' T', run n os m = some m' ∧ idealRun n os vs = some vs' ∧ Rel n m' vs' T' := by
  induction os generalizing m vs T with
  | nil => exact .inr ⟨m, vs, T, rfl, rfl, r⟩
  | cons o os ih =>
    simp only [run, idealRun]
    rcases step_rel r o with ⟨h1, h2⟩ | ⟨m', vs', T', h1, h2, r'⟩
    · left; rw [h1, h2]; exact ⟨rfl, rfl⟩
    · rw [h1, h2]; exact ih r'

/-- **C174.**  After any sequence of calls every pointer and slice shows what the specification says: copies, wire forms and the bytes of
a copied receiver are values of their own, which no later write into another changes; a slice of an identifier always shows the
identifier, whichever of the two is written into.  Nil pointers are refused (by a panic) exactly by `Bytes` and `SetBytes`. -/
theorem C174_memory (n : Nat) (os : List Op) :
    (run n os ⟨[], []⟩).map (fun m => m.held.map (see m.heap)) = (idealRun n os []).map (List.map (·.2)) := by
  have r0 : Rel n ⟨[], []⟩ [] [] := ⟨rfl, rfl, fun _ h => by simp at h, fun _ h => by simp at h, fun _ h => by simp at h⟩
  rcases run_rel os r0 with ⟨h1, h2⟩ | ⟨m, vs, T, h1, h2, r⟩
  · rw [h1, h2]; rfl
  · rw [h1, h2]
    simp only [Option.map_some, Option.some.injEq]
    rw [r.held, r.vals]
    simp

/-- A copy does not see what is written into the identifier afterwards, nor the other way round; without nil it is equal to it. -/
theorem C174_clone (n : Nat) (vs : List Var) (hf : ∀ v ∈ vs, v.1 < vs.length) (i : Nat) (v : Var) (hv : vs[i]? = some v) (a b c d : Bytes)
    (hs : v.2 = some a) :
    (idealRun n [.clone i, .set i b] vs).map (fun w => (w[i]?.map (·.2), w[vs.length]?.map (·.2))) = some (some (some (over n a b)), some (some a)) ∧
    (idealRun n [.clone i, .set vs.length c] vs).map (fun w => (w[i]?.map (·.2), w[vs.length]?.map (·.2))) = some (some (some a), some (some (over n a c))) ∧
    (idealRun n [.slice i, .set vs.length d] vs).map (fun w => (w[i]?.map (·.2), w[vs.length]?.map (·.2))) =
      some (some (some (over n a d)), some (some (over n a d))) := by
  have hi : i < vs.length := by
    by_contra h
    rw [List.getElem?_eq_none (by omega)] at hv; cases hv
  have hlt := hf v (List.mem_of_getElem? hv)
  have hne : vs.length ≠ v.1 := by omega
  have hne' : v.1 ≠ vs.length := by omega
  have hl : ∀ (f : Var → Var) (e : Var), (vs.map f ++ [e])[i]? = some (f v) := by
    intro f e
    rw [List.getElem?_append_left (by simpa using hi), List.getElem?_map, hv]; rfl
  simp [idealRun, ideal, hv, hs, List.getElem?_append_left hi, hne, hne', hl]

/-- **C174, refuted:** "what `Slice` returns is the caller's own, as what `Bytes` returns is". -/
theorem C174_slice_refuted (b : Bytes) (h : b.length = 20) (hz : b ≠ List.replicate 20 0) :
    (run 20 [.make [], .slice 0, .set 1 b] ⟨[], []⟩).map (fun m => m.held.map (see m.heap)) = some [some b, some b] ∧
    (run 20 [.make [], .bytes 0, .set 1 b] ⟨[], []⟩).map (fun m => m.held.map (see m.heap)) = some [some (List.replicate 20 0), some b] ∧
    b ≠ List.replicate 20 0 := by
  refine ⟨?_, ?_, hz⟩
  · rw [C174_memory]
    simp [idealRun, ideal, over, h]
  · rw [C174_memory]
    simp [idealRun, ideal, over, h]

/-- A wire form and the pointer made of it, an address changed afterwards, a nil pointer. -/
example : (run 2 [.make [1, 2], .forRLP 0, .fromRLP 1, .set 0 [9], .null, .forRLP 3, .fromRLP 4, .slice 2, .set 6 [5, 5, 5]] ⟨[], []⟩).map
      (fun m => m.held.map (see m.heap)) =
    some [some [1, 9], some [1, 2], some [5, 5], none, some [0, 0], none, some [5, 5]] := by decide +kernel

end Verif.ByteOps.Memory

import Verif.Base

/-!
# Property C180: the prefixes of nodes in memory (/repo/trie/node.go:396-440, 661, 954-957)

Everywhere else in the model the prefix of a node is a list.  In the code it is a slice: a window into an array with room behind it, which
`copy` and `append` write into.  Here arrays and windows are explicit.
-/

namespace Verif.Trie.PrefixMem
open Verif

/-! ### The code -/

/-- A slice: a window into an array; its capacity reaches to the end of the array. -/
structure Sl where
  arr : Nat
  off : Nat
  len : Nat

/-- The arrays, the number of the next new one, and the prefix of each node; `none` is nil. -/
structure Mem where
  arrays : Nat → Bytes
  next : Nat
  pre : Nat → Option Sl

/-- The bytes of a slice. -/
def read (m : Mem) (s : Sl) : Bytes := ((m.arrays s.arr).drop s.off).take s.len

/-- The bytes of a prefix. -/
def content (m : Mem) (n : Nat) : Bytes :=
  match m.pre n with
  | none => []
  | some s => read m s

/-- `b` written over the array from `i` on. -/
def over (a : Bytes) (i : Nat) (b : Bytes) : Bytes := a.take i ++ b ++ a.drop (i + b.length)

/-- A new array with the bytes `c` and room for `g` more becomes the prefix of node `n`. -/
def alloc (m : Mem) (n : Nat) (c : Bytes) (g : Nat) : Mem :=
  ⟨fun a => if a = m.next then c ++ List.replicate g 0 else m.arrays a, m.next + 1, fun k => if k = n then some ⟨m.next, 0, c.length⟩ else m.pre k⟩

/-- The bytes `b` are written into the array of `s` from position `i` of the array on, and `s'` becomes the prefix of node `n`. -/
def poke (m : Mem) (n : Nat) (s : Sl) (i : Nat) (b : Bytes) (s' : Sl) : Mem :=
  ⟨fun a => if a = s.arr then over (m.arrays a) i b else m.arrays a, m.next, fun k => if k = n then some s' else m.pre k⟩

/-- The prefix of node `n` becomes `s`. -/
def window (m : Mem) (n : Nat) (s : Option Sl) : Mem := { m with pre := fun k => if k = n then s else m.pre k }

/-- `setPrefix` (`/repo/trie/node.go:400-416`) with the bytes `p` of the caller's slice. -/
def setPrefix (m : Mem) (n : Nat) (p : Bytes) : Mem :=
  if content m n = p then m
  else if 0 < p.length then
    match m.pre n with
    | some s => if p.length ≤ s.len then poke m n s s.off p ⟨s.arr, s.off, p.length⟩ else alloc m n p 0
    | none => alloc m n p 0
  else window m n none

/-- `chopPrefixHead` (`/repo/trie/node.go:418-427`). -/
def chopHead (m : Mem) (n l : Nat) : Mem :=
  if (content m n).length < l then m
  else match m.pre n with
    | some s => window m n (some ⟨s.arr, s.off + l, s.len - l⟩)
    | none => m

/-- `chopPrefixTail` (`/repo/trie/node.go:429-438`). -/
def chopTail (m : Mem) (n l : Nat) : Mem :=
  if (content m n).length < l then m
  else match m.pre n with
    | some s => window m n (some ⟨s.arr, s.off, s.len - l⟩)
    | none => m

/-- `n.prefix = append(n.prefix, b...)`: in the same array if there is room, else in a new one with `g` bytes of room. -/
def extend (m : Mem) (n : Nat) (b : Bytes) (g : Nat) : Mem :=
  match m.pre n with
  | none => if b = [] then m else alloc m n b g
  | some s =>
    if s.off + s.len + b.length ≤ (m.arrays s.arr).length then poke m n s (s.off + s.len) b ⟨s.arr, s.off, s.len + b.length⟩
    else alloc m n (read m s ++ b) g

/-- The prefixes in `mergeTheLastChild` (`/repo/trie/node.go:954-957`). -/
def merge (m : Mem) (n : Nat) (i : UInt8) (c : Nat) (g g' : Nat) : Mem :=
  let m := extend m n [i] g
  if 0 < (content m c).length then extend m n (content m c) g' else m

/-- What is done to prefixes; `g` is the room that `append` leaves. -/
inductive Op where
  | set (n : Nat) (p : Bytes)
  | head (n l : Nat)
  | tail (n l : Nat)
  | merge (n : Nat) (i : UInt8) (c g g' : Nat)
  | load (n : Nat) (p : Bytes)

/-- One of them; `load` is the decoding of a header, which makes a new array (`/repo/trie/node.go:661`, `/repo/trie/utils.go:52-75`). -/
def step (m : Mem) : Op → Mem
  | .set n p => setPrefix m n p
  | .head n l => chopHead m n l
  | .tail n l => chopTail m n l
  | .merge n i c g g' => merge m n i c g g'
  | .load n p => alloc m n p 0

/-- Nodes are new and have no prefix. -/
def start : Mem := ⟨fun _ => [], 0, fun _ => none⟩

/-! ### Specification: prefixes as lists -/

/-- The list of node `n` becomes `l`. -/
def put (f : Nat → Bytes) (n : Nat) (l : Bytes) : Nat → Bytes := fun k => if k = n then l else f k

/-- What is done to the lists. -/
def specStep (f : Nat → Bytes) : Op → Nat → Bytes
  | .set n p => put f n p
  | .head n l => if l ≤ (f n).length then put f n ((f n).drop l) else f
  | .tail n l => if l ≤ (f n).length then put f n ((f n).take ((f n).length - l)) else f
  | .merge n i c _ _ => put f n (f n ++ [i] ++ f c)
  | .load n p => put f n p

/-! ### Proof -/

/-- No two nodes share an array, and windows lie in their arrays. -/
structure Inv (m : Mem) : Prop where
  range : ∀ n s, m.pre n = some s → s.arr < m.next ∧ s.off + s.len ≤ (m.arrays s.arr).length
  apart : ∀ n n' s s', m.pre n = some s → m.pre n' = some s' → s.arr = s'.arr → n = n'

theorem read_length {m : Mem} (h : Inv m) {n : Nat} {s : Sl} (hs : m.pre n = some s) : (read m s).length = s.len := by
  have := (h.range n s hs).2
  simp only [read, List.length_take, List.length_drop]
  omega

theorem over_length {a b : Bytes} {i : Nat} (h : i + b.length ≤ a.length) : (over a i b).length = a.length := by
  simp only [over, List.length_append, List.length_take, List.length_drop]
  omega

theorem alloc_inv {m : Mem} (h : Inv m) (n : Nat) (c : Bytes) (g : Nat) : Inv (alloc m n c g) ∧ content (alloc m n c g) = put (content m) n c := by
  refine ⟨⟨?_, ?_⟩, ?_⟩
  · intro k s hs
    by_cases hk : k = n
    · simp only [alloc, hk, if_true, Option.some.injEq] at hs
      subst hs
      simp [alloc]
    · simp only [alloc, hk, if_false] at hs
      obtain ⟨h1, h2⟩ := h.range k s hs
      have : s.arr ≠ m.next := by omega
      simp only [alloc, this, if_false]
      exact ⟨by omega, h2⟩
  · intro k k' s s' hs hs' he
    by_cases hk : k = n <;> by_cases hk' : k' = n
    · rw [hk, hk']
    · simp only [alloc, hk, hk', if_true, if_false, Option.some.injEq] at hs hs'
      subst hs
      have := (h.range k' s' hs').1
      simp only at he
      omega
    · simp only [alloc, hk, hk', if_true, if_false, Option.some.injEq] at hs hs'
      subst hs'
      have := (h.range k s hs).1
      simp only at he
      omega
    · simp only [alloc, hk, hk', if_false] at hs hs'
      exact h.apart k k' s s' hs hs' he
  · funext k
    by_cases hk : k = n
    · simp [content, alloc, put, hk, read]
    · simp only [content, alloc, put, hk, if_false]
      cases hs : m.pre k with
      | none => rfl
      | some s =>
        have : s.arr ≠ m.next := by have := (h.range k s hs).1; omega
        simp [read, this]

theorem poke_inv {m : Mem} (h : Inv m) {n : Nat} {s : Sl} (hs : m.pre n = some s) {i : Nat} {b : Bytes} {len : Nat} {l : Bytes}
    (hi : i + b.length ≤ (m.arrays s.arr).length) (hlen : s.off + len ≤ (m.arrays s.arr).length)
    (hl : ((over (m.arrays s.arr) i b).drop s.off).take len = l) :
    Inv (poke m n s i b ⟨s.arr, s.off, len⟩) ∧ content (poke m n s i b ⟨s.arr, s.off, len⟩) = put (content m) n l := by
  have hne : ∀ k s', k ≠ n → m.pre k = some s' → s'.arr ≠ s.arr := fun k s' hk hs' e => hk (h.apart k n s' s hs' hs e)
  refine ⟨⟨?_, ?_⟩, ?_⟩
  · intro k s' hs'
    by_cases hk : k = n
    · simp only [poke, hk, if_true, Option.some.injEq] at hs'
      subst hs'
      simp only [poke, if_true, over_length hi]
      exact ⟨(h.range n s hs).1, hlen⟩
    · simp only [poke, hk, if_false] at hs'
      simp only [poke, hne k s' hk hs', if_false]
      exact h.range k s' hs'
  · intro k k' t t' ht ht' he
    by_cases hk : k = n <;> by_cases hk' : k' = n
    · rw [hk, hk']
    · simp only [poke, hk, hk', if_true, if_false, Option.some.injEq] at ht ht'
      subst ht
      exact absurd he.symm (hne k' t' hk' ht')
    · simp only [poke, hk, hk', if_true, if_false, Option.some.injEq] at ht ht'
      subst ht'
      exact absurd he (hne k t hk ht)
    · simp only [poke, hk, hk', if_false] at ht ht'
      exact h.apart k k' t t' ht ht' he
  · funext k
    by_cases hk : k = n
    · simp only [content, poke, put, hk, if_true, read]
      exact hl
    · simp only [content, poke, put, hk, if_false]
      cases hs' : m.pre k with
      | none => rfl
      | some s' => simp only [read, hne k s' hk hs', if_false]

theorem window_inv {m : Mem} (h : Inv m) {n : Nat} {s : Sl} (hs : m.pre n = some s) {off len : Nat} (hr : off + len ≤ (m.arrays s.arr).length) :
    Inv (window m n (some ⟨s.arr, off, len⟩)) ∧
      content (window m n (some ⟨s.arr, off, len⟩)) = put (content m) n (((m.arrays s.arr).drop off).take len) := by
  refine ⟨⟨?_, ?_⟩, ?_⟩
  · intro k s' hs'
    by_cases hk : k = n
    · simp only [window, hk, if_true, Option.some.injEq] at hs'
      subst hs'
      exact ⟨(h.range n s hs).1, hr⟩
    · simp only [window, hk, if_false] at hs'
      exact h.range k s' hs'
  · intro k k' t t' ht ht' he
    by_cases hk : k = n <;> by_cases hk' : k' = n
    · rw [hk, hk']
    · simp only [window, hk, hk', if_true, if_false, Option.some.injEq] at ht ht'
      subst ht
      exact absurd (h.apart n k' s t' hs ht' he).symm hk'
    · simp only [window, hk, hk', if_true, if_false, Option.some.injEq] at ht ht'
      subst ht'
      exact absurd (h.apart k n t s ht hs he) hk
    · simp only [window, hk, hk', if_false] at ht ht'
      exact h.apart k k' t t' ht ht' he
  · funext k
    by_cases hk : k = n
    · simp [content, window, put, hk, read]
    · simp only [content, window, put, hk, if_false]
      cases m.pre k <;> rfl

theorem none_inv {m : Mem} (h : Inv m) (n : Nat) : Inv (window m n none) ∧ content (window m n none) = put (content m) n [] := by
  refine ⟨⟨?_, ?_⟩, ?_⟩
  · intro k s' hs'
    by_cases hk : k = n
    · simp [window, hk] at hs'
    · simp only [window, hk, if_false] at hs'
      exact h.range k s' hs'
  · intro k k' t t' ht ht' he
    by_cases hk : k = n
    · simp [window, hk] at ht
    · by_cases hk' : k' = n
      · simp [window, hk'] at ht'
      · simp only [window, hk, hk', if_false] at ht ht'
        exact h.apart k k' t t' ht ht' he
  · funext k
    by_cases hk : k = n
    · simp [content, window, put, hk]
    · simp only [content, window, put, hk, if_false]
      cases m.pre k <;> rfl

theorem put_same (f : Nat → Bytes) (n : Nat) : put f n (f n) = f := by
  funext k
  by_cases hk : k = n
  · simp [put, hk]
  · simp [put, hk]

theorem extend_inv {m : Mem} (h : Inv m) (n : Nat) (b : Bytes) (g : Nat) :
    Inv (extend m n b g) ∧ content (extend m n b g) = put (content m) n (content m n ++ b) := by
  rw [extend]
  cases hs : m.pre n with
  | none =>
    have hc : content m n = [] := by rw [content, hs]
    by_cases hb : b = []
    · simp only [hb, if_true]
      refine ⟨h, ?_⟩
      rw [List.append_nil, put_same]
    · simp only [hb, if_false]
      rw [hc]
      exact alloc_inv h n b g
  | some s =>
    have hc : content m n = read m s := by rw [content, hs]
    have hr := (h.range n s hs).2
    by_cases hroom : s.off + s.len + b.length ≤ (m.arrays s.arr).length
    · simp only [hroom, if_true]
      refine poke_inv h hs hroom (by omega) ?_
      rw [hc, read, over]
      generalize m.arrays s.arr = a at hr hroom
      rw [List.drop_append_of_le_length (by simp; omega), List.drop_append_of_le_length (by simp; omega), List.drop_take,
        show s.off + s.len - s.off = s.len by omega, List.take_append_of_le_length (by simp; omega), List.take_of_length_le (by simp; omega)]
    · simp only [hroom, if_false]
      rw [hc]
      exact alloc_inv h n _ g

theorem step_inv {m : Mem} (h : Inv m) (o : Op) (ho : ∀ n i c g g', o = .merge n i c g g' → n ≠ c) :
    Inv (step m o) ∧ content (step m o) = specStep (content m) o := by
  have hlen : ∀ n s, m.pre n = some s → (content m n).length = s.len := by
    intro n s hs
    rw [content, hs]
    exact read_length h hs
  cases o with
  | load n p => exact alloc_inv h n p 0
  | set n p =>
    simp only [step, specStep, setPrefix]
    split
    · rename_i e
      exact ⟨h, by rw [← e, put_same]⟩
    · split
      · split
        · rename_i s hs
          have hr := (h.range n s hs).2
          split
          · rename_i hl
            refine poke_inv h hs (by omega) (by omega) ?_
            rw [over]
            generalize m.arrays s.arr = a at hr
            rw [List.append_assoc, List.drop_append_of_le_length (by simp; omega), List.drop_take, Nat.sub_self, List.take_zero, List.nil_append,
              List.take_append_of_le_length (Nat.le_refl _), List.take_length]
          · exact alloc_inv h n p 0
        · exact alloc_inv h n p 0
      · rename_i hp
        have : p = [] := List.eq_nil_of_length_eq_zero (by omega)
        rw [this]
        exact none_inv h n
  | head n l =>
    simp only [step, specStep, chopHead]
    by_cases hl : (content m n).length < l
    · rw [if_pos hl, if_neg (by omega)]
      exact ⟨h, rfl⟩
    · rw [if_neg hl, if_pos (by omega)]
      cases hs : m.pre n with
      | none =>
        refine ⟨h, ?_⟩
        have : content m n = [] := by rw [content, hs]
        rw [this, List.drop_nil, ← this, put_same]
      | some s =>
        have hr := (h.range n s hs).2
        have := hlen n s hs
        have hw := window_inv h hs (off := s.off + l) (len := s.len - l) (by omega)
        refine ⟨hw.1, hw.2.trans ?_⟩
        have hcn : content m n = ((m.arrays s.arr).drop s.off).take s.len := by simp only [content, hs, read]
        rw [hcn, List.drop_take, List.drop_drop]
  | tail n l =>
    simp only [step, specStep, chopTail]
    by_cases hl : (content m n).length < l
    · rw [if_pos hl, if_neg (by omega)]
      exact ⟨h, rfl⟩
    · rw [if_neg hl, if_pos (by omega)]
      cases hs : m.pre n with
      | none =>
        refine ⟨h, ?_⟩
        have : content m n = [] := by rw [content, hs]
        rw [this, List.take_nil, ← this, put_same]
      | some s =>
        have hr := (h.range n s hs).2
        have hn := hlen n s hs
        have hw := window_inv h hs (off := s.off) (len := s.len - l) (by omega)
        refine ⟨hw.1, hw.2.trans ?_⟩
        have hcn : content m n = ((m.arrays s.arr).drop s.off).take s.len := by simp only [content, hs, read]
        rw [hn, hcn, List.take_take, Nat.min_eq_left (by omega)]
  | merge n i c g g' =>
    have hnc := ho n i c g g' rfl
    simp only [step, specStep, merge]
    obtain ⟨h1, e1⟩ := extend_inv h n [i] g
    have hc : content (extend m n [i] g) c = content m c := by rw [e1, put, if_neg (Ne.symm hnc)]
    by_cases hl : 0 < (content (extend m n [i] g) c).length
    · rw [if_pos hl, hc]
      obtain ⟨h2, e2⟩ := extend_inv h1 n (content m c) g'
      refine ⟨h2, ?_⟩
      rw [e2, e1]
      funext k
      by_cases hk : k = n
      · simp [put, hk]
      · simp [put, hk]
    · rw [if_neg hl]
      refine ⟨h1, ?_⟩
      rw [hc] at hl
      rw [e1, List.eq_nil_of_length_eq_zero (Nat.le_zero.1 (Nat.not_lt.1 hl)), List.append_nil]

/-- **C180.** Whatever is done to the prefixes of nodes, in any order, for any number of nodes and whatever room `append` leaves: the bytes of
each prefix are those of the lists, so no node ever changes the prefix of another.  (A node is not its own child.) -/
theorem C180_prefixes (os : List Op) (ho : ∀ n i c g g', Op.merge n i c g g' ∈ os → n ≠ c) :
    content (os.foldl step start) = os.foldl specStep (fun _ => []) := by
  have gen : ∀ (os : List Op) (m : Mem), (∀ n i c g g', Op.merge n i c g g' ∈ os → n ≠ c) → Inv m →
      content (os.foldl step m) = os.foldl specStep (content m) := by
    intro os
    induction os with
    | nil => intro m _ _; rfl
    | cons o os ih =>
      intro m ho hm
      obtain ⟨h1, h2⟩ := step_inv hm o (fun n i c g g' e => ho n i c g g' (by rw [e]; exact List.mem_cons_self))
      rw [List.foldl_cons, List.foldl_cons, ih (step m o) (fun n i c g g' hmem => ho n i c g g' (List.mem_cons_of_mem _ hmem)) h1, h2]
  exact gen os start ho ⟨fun n s hs => by simp [start] at hs, fun n n' s s' hs => by simp [start] at hs⟩

/-- Splitting and merging again with room behind the prefix: `append` writes into the same array. -/
example : let m := [Op.load 0 [1, 2, 3, 4], .tail 0 2, .set 1 [7], .merge 0 9 1 0 0].foldl step start
    content m 0 = [1, 2, 9, 7] ∧ m.arrays 0 = [1, 2, 9, 7] ∧ content m 1 = [7] := by decide +kernel

/-- If `setPrefix` did not copy but kept the window, two nodes could share an array, and one would change the other: the invariant is needed. -/
example : let m : Mem := ⟨fun _ => [1, 2, 3, 4], 1, fun n => if n = 0 then some ⟨0, 0, 2⟩ else some ⟨0, 2, 2⟩⟩
    content (step m (.merge 0 9 5 0 0)) 1 ≠ specStep (content m) (.merge 0 9 5 0 0) 1 := by decide +kernel

end Verif.Trie.PrefixMem

import Verif.Num.LastBlock
import Verif.Conc.Mutex

/-!
# Property C156: all calls of `LastBlockMap` under every schedule

`Set` (with it `WatchHeight`), `Get`, `CAS` and `CopyMap` (`/repo/basic.go:218-261`).  `CopyMap` goes through the entries of the map one by
one while other goroutines run: under the lock its result is the map of one moment.

Simplifications: the Go map is the list of its entries, with every key once, and is gone through in the order of this list (the order does
not matter for the result, which is a map again); the map is made (`LastBlocks` is initialised at the start).
-/

namespace Verif.Num
open Verif Verif.Conc

/-- The entries of the Go map. -/
abbrev Entries := List (UInt32 × UInt64)

/-- `m.M[key] = value`. -/
def putEntry : Entries → UInt32 → UInt64 → Entries
  | [], k, v => [(k, v)]
  | (a, b) :: m, k, v => if a == k then (k, v) :: m else (a, b) :: putEntry m k v

/-- The calls. -/
inductive WOp where
  | set (key : UInt32) (value : UInt64)
  | get (key : UInt32)
  | cas (key : UInt32) (value : UInt64)
  | copy

/-- Their answers. -/
inductive WOut where
  | done
  | value (v : Option UInt64)
  | flag (b : Bool)
  | copied (m : Entries)
  deriving DecidableEq

/-- The loop of `CopyMap` (`/repo/basic.go:257-259`) with `n` entries to come, from entry `i` on. -/
def copyLoop : Nat → Nat → Entries → Prog Entries WOut
  | 0, _, r => .ret (.copied r)
  | n + 1, i, r => .step id fun m =>
    match m[i]? with
    | none => .ret (.copied r)
    | some (k, v) => copyLoop n (i + 1) (putEntry r k v)

/-- The methods with the lock held: `Set` (`/repo/basic.go:227`), `Get` (233), `CAS` (242-247), `CopyMap` (253-260). -/
def wbody : WOp → Prog Entries WOut
  | .set k v => .step (fun m => putEntry m k v) fun _ => .ret .done
  | .get k => .step id fun m => .ret (.value (m.lookup k))
  | .cas k v => .step id fun m =>
    match m.lookup k with
    | some old => if old ≥ v then .ret (.flag false) else .step (fun m => putEntry m k v) fun _ => .ret (.flag true)
    | none => .step (fun m => putEntry m k v) fun _ => .ret (.flag true)
  | .copy => .step id fun m => copyLoop m.length 0 []

/-- `m.lock.Lock(); defer m.lock.Unlock()` and the body (`/repo/basic.go:224-261`). -/
def wcode : WOp → Code Entries WOut
  | .set k v => .lock (inside (wbody (.set k v)))
  | .get k => .lock (inside (wbody (.get k)))
  | .cas k v => .lock (inside (wbody (.cas k v)))
  | .copy => .lock (inside (wbody .copy))

theorem wcode_guarded (o : WOp) : wcode o = guarded (wbody o) := by cases o <;> rfl

/-! ### The specification: a function from chains to heights -/

/-- The map after a call. -/
def wstep (f : LBMap) : WOp → LBMap
  | .set k v => fun x => if x = k then some v else f x
  | .cas k v =>
    match f k with
    | some old => if v ≤ old then f else fun x => if x = k then some v else f x
    | none => fun x => if x = k then some v else f x
  | _ => f

/-- The answer to a call. -/
def wanswer (f : LBMap) : WOp → WOut → Prop
  | .set _ _, r => r = .done
  | .get k, r => r = .value (f k)
  | .cas k v, r => ∃ b, r = .flag b ∧ (b = true ↔ ∀ old, f k = some old → old < v)
  | .copy, r => ∃ m, r = .copied m ∧ (m.map Prod.fst).Nodup ∧ ∀ x, m.lookup x = f x

/-- The map after the calls. -/
def wrun (f : LBMap) (ops : List WOp) : LBMap := ops.foldl wstep f

/-- All answers are those of the map, call after call. -/
def wanswers (f : LBMap) : List (Nat × WOp × WOut) → Prop
  | [] => True
  | (_, o, r) :: l => wanswer f o r ∧ wanswers (wstep f o) l

/-! ### The code meets it -/

theorem lookup_putEntry (m : Entries) (k : UInt32) (v : UInt64) (x : UInt32) :
    (putEntry m k v).lookup x = if x = k then some v else m.lookup x := by
  induction m with
  | nil =>
    by_cases h : x = k
    · simp [putEntry, h]
    · have : (x == k) = false := by simp [h]
      simp [putEntry, List.lookup_cons, this, h]
  | cons e m ih =>
    obtain ⟨a, b⟩ := e
    by_cases ha : a = k
    · subst ha
      simp only [putEntry, BEq.rfl, if_true, List.lookup_cons]
      by_cases h : x = a
      · simp [h]
      · have : (x == a) = false := by simp [h]
        simp [this, h]
    · have h1 : (a == k) = false := by simp [ha]
      simp only [putEntry, h1, Bool.false_eq_true, if_false, List.lookup_cons]
      by_cases hx : x = a
      · subst hx
        simp [ha]
      · have : (x == a) = false := by simp [hx]
        simp only [this, ih]

theorem keys_putEntry (m : Entries) (k : UInt32) (v : UInt64) :
    (putEntry m k v).map Prod.fst = if k ∈ m.map Prod.fst then m.map Prod.fst else m.map Prod.fst ++ [k] := by
  induction m with
  | nil => simp [putEntry]
  | cons e m ih =>
    obtain ⟨a, b⟩ := e
    by_cases ha : a = k
    · subst ha
      simp [putEntry]
    · have h1 : (a == k) = false := by simp [ha]
      have h2 : ¬ k = a := fun e => ha e.symm
      simp only [putEntry, h1, Bool.false_eq_true, if_false, List.map_cons, ih, List.mem_cons, h2, false_or]
      split <;> simp

theorem nodup_putEntry (m : Entries) (k : UInt32) (v : UInt64) (h : (m.map Prod.fst).Nodup) : ((putEntry m k v).map Prod.fst).Nodup := by
  rw [keys_putEntry]
  split
  · exact h
  · rename_i hk
    rw [List.nodup_append]
    refine ⟨h, by simp, ?_⟩
    intro a ha b hb e
    rw [List.mem_singleton.mp hb] at e
    exact hk (e ▸ ha)

theorem copyLoop_run (m : Entries) : ∀ (n i : Nat) (r : Entries), i + n = m.length →
    (copyLoop n i r).run m = (m, .copied ((m.drop i).foldl (fun r e => putEntry r e.1 e.2) r)) := by
  intro n
  induction n with
  | zero =>
    intro i r h
    rw [copyLoop, Prog.run, List.drop_of_length_le (by omega)]
    rfl
  | succ n ih =>
    intro i r h
    have hi : i < m.length := by omega
    rw [copyLoop, Prog.run, List.getElem?_eq_getElem hi]
    simp only [id]
    rw [ih _ _ (by omega), List.drop_eq_getElem_cons hi]
    rfl

theorem foldl_putEntry (l : Entries) : ∀ r : Entries, (l.map Prod.fst).Nodup → (r.map Prod.fst).Nodup →
    ((l.foldl (fun r e => putEntry r e.1 e.2) r).map Prod.fst).Nodup ∧
      ∀ x, (l.foldl (fun r e => putEntry r e.1 e.2) r).lookup x = (l.lookup x).or (r.lookup x) := by
  induction l with
  | nil => intro r _ hr; exact ⟨hr, fun x => by simp⟩
  | cons e l ih =>
    intro r hl hr
    obtain ⟨a, b⟩ := e
    rw [List.map_cons, List.nodup_cons] at hl
    obtain ⟨h1, h2⟩ := ih (putEntry r a b) hl.2 (nodup_putEntry r a b hr)
    refine ⟨h1, fun x => ?_⟩
    simp only [List.foldl_cons]
    rw [h2 x, lookup_putEntry, List.lookup_cons]
    by_cases hx : x = a
    · subst hx
      have hn : l.lookup x = none := by
        rw [List.lookup_eq_none_iff]
        intro p hp
        simp only [bne_iff_ne, ne_eq]
        intro e
        exact hl.1 (List.mem_map.mpr ⟨p, hp, e.symm⟩)
      simp [hn]
    · have : (x == a) = false := by simp [hx]
      simp [this, hx]

theorem wbody_run (m : Entries) (hm : (m.map Prod.fst).Nodup) (o : WOp) :
    wanswer (fun x => m.lookup x) o ((wbody o).run m).2 ∧ (((wbody o).run m).1.map Prod.fst).Nodup ∧
      (fun x => ((wbody o).run m).1.lookup x) = wstep (fun x => m.lookup x) o := by
  have hput : ∀ k v, (fun x => (putEntry m k v).lookup x) = fun x => if x = k then some v else m.lookup x := by
    intro k v; funext x; exact lookup_putEntry m k v x
  cases o with
  | set k v => exact ⟨rfl, nodup_putEntry m k v hm, hput k v⟩
  | get k => exact ⟨rfl, hm, rfl⟩
  | cas k v =>
    simp only [wbody, Prog.run, id, wanswer, wstep]
    cases hk : m.lookup k with
    | none =>
      simp only [Prog.run]
      exact ⟨⟨true, rfl, by simp⟩, nodup_putEntry m k v hm, hput k v⟩
    | some old =>
      simp only
      by_cases h : old ≥ v
      · rw [if_pos h, if_pos h]
        refine ⟨⟨false, rfl, ?_⟩, hm, rfl⟩
        simp only [Bool.false_eq_true, false_iff]
        intro hlt
        exact UInt64.not_lt.mpr h (hlt old rfl)
      · rw [if_neg h, if_neg h]
        refine ⟨⟨true, rfl, ?_⟩, nodup_putEntry m k v hm, hput k v⟩
        simp only [true_iff]
        intro o ho
        cases ho
        exact UInt64.not_le.mp h
  | copy =>
    simp only [wbody, Prog.run, id]
    rw [copyLoop_run m m.length 0 [] (by omega)]
    obtain ⟨h1, h2⟩ := foldl_putEntry m [] hm List.nodup_nil
    exact ⟨⟨_, rfl, h1, fun x => by rw [List.drop_zero, h2 x]; simp⟩, hm, rfl⟩

theorem wanswers_append (a b : List (Nat × WOp × WOut)) : ∀ f : LBMap,
    wanswers f (a ++ b) ↔ wanswers f a ∧ wanswers (wrun f (a.map fun e => e.2.1)) b := by
  induction a with
  | nil => intro f; simp [wanswers, wrun]
  | cons e a ih =>
    intro f
    obtain ⟨t, o, r⟩ := e
    simp only [List.cons_append, wanswers, ih, List.map_cons, wrun, List.foldl_cons, and_assoc]

theorem replays_wanswers {m0 m : Entries} {log : List (Nat × WOp × WOut)} (h0 : (m0.map Prod.fst).Nodup) (h : Replays wbody m0 log m) :
    wanswers (fun x => m0.lookup x) log ∧ (m.map Prod.fst).Nodup ∧
      (fun x => m.lookup x) = wrun (fun x => m0.lookup x) (log.map fun e => e.2.1) := by
  induction h with
  | nil => exact ⟨trivial, h0, rfl⟩
  | @snoc log m' t o _ ih =>
    obtain ⟨h1, h2, h3⟩ := ih
    obtain ⟨g1, g2, g3⟩ := wbody_run m' h2 o
    refine ⟨(wanswers_append _ _ _).mpr ⟨h1, ?_⟩, g2, ?_⟩
    · rw [← h3]; exact ⟨g1, trivial⟩
    · rw [g3, h3]; simp [wrun]

/-- **C156.** Goroutines make any calls on a `LastBlockMap`.  Whatever the schedule, there is an order of all the calls that are over; it
has every goroutine's calls with their answers in the goroutine's order; it grows at its end while the program goes on; and the answers
in it are those of a map: `Get` reads it, `Set` writes it, `CAS` writes greater heights only and says so, and `CopyMap` gives the whole
map as it is at its place in the order. -/
theorem C156_linearizable (m0 : Entries) (h0 : (m0.map Prod.fst).Nodup) (todo : Nat → List WOp) (c c' : Sys Entries WOp WOut)
    (h : SSteps wcode (sInitial _ _ m0 todo) c) (h' : SSteps wcode c c') :
    ∃ log ext,
      (∀ t, entries t log = c.done t ∨ ∃ o r, c.cur t = some (o, .ret r) ∧ entries t log = c.done t ++ [(o, r)]) ∧
      (∀ t, entries t (log ++ ext) = c'.done t ∨ ∃ o r, c'.cur t = some (o, .ret r) ∧ entries t (log ++ ext) = c'.done t ++ [(o, r)]) ∧
      (∀ t, todo t = (c'.done t).map Prod.fst ++ (c'.cur t).toList.map Prod.fst ++ c'.todo t) ∧
      wanswers (fun x => m0.lookup x) (log ++ ext) := by
  obtain ⟨log, h1⟩ := sInv_steps wcode_guarded (sInv_initial wbody m0 todo) h
  rw [List.nil_append] at h1
  obtain ⟨ext, h2⟩ := sInv_steps wcode_guarded h1 h'
  obtain ⟨r, hr, -, -⟩ := h2.seq
  exact ⟨log, ext, h1.entries, h2.entries, h2.calls, (replays_wanswers h0 hr).1⟩

/-- **C156:** no execution gets stuck while calls are left. -/
theorem C156_progress (m0 : Entries) (todo : Nat → List WOp) (c : Sys Entries WOp WOut)
    (h : SSteps wcode (sInitial _ _ m0 todo) c) (t : Nat) (ht : (c.done t).map Prod.fst ≠ todo t) : ∃ c', SStep wcode c c' := by
  obtain ⟨log, h1⟩ := sInv_steps wcode_guarded (sInv_initial wbody m0 todo) h
  exact h1.progress t ht

/-- The call is no `Set`. -/
def WOp.raises : WOp → Bool
  | .set _ _ => false
  | _ => true

theorem wstep_le (f : LBMap) (o : WOp) (ho : o.raises = true) (x : UInt32) : le' (f x) (wstep f o x) := by
  cases o with
  | set => cases ho
  | get => exact le'_refl _
  | copy => exact le'_refl _
  | cas k v =>
    simp only [wstep]
    cases hk : f k with
    | none =>
      simp only
      split
      · rename_i e; rw [e, hk]; trivial
      · exact le'_refl _
    | some old =>
      simp only
      split
      · exact le'_refl _
      · rename_i h
        beta_reduce
        by_cases e : x = k
        · rw [if_pos e, e, hk]
          exact UInt64.le_of_lt (UInt64.not_le.mp h)
        · rw [if_neg e]
          exact le'_refl _

theorem wrun_le (ops : List WOp) : ∀ f : LBMap, (∀ o ∈ ops, o.raises = true) → ∀ x, le' (f x) (wrun f ops x) := by
  induction ops with
  | nil => intro f _ x; exact le'_refl _
  | cons o ops ih =>
    intro f h x
    exact le'_trans (wstep_le f o (h o (by simp)) x) (ih (wstep f o) (fun o ho => h o (by simp [ho])) x)

/-- **C156, copies.** Of two copies in the order of the calls, with no `Set` between them, the later one has every chain of the earlier
one at the same or a greater height. -/
theorem C156_copies (f : LBMap) (pre mid post : List (Nat × WOp × WOut)) (t u : Nat) (m m' : Entries)
    (h : wanswers f (pre ++ (t, .copy, .copied m) :: mid ++ (u, .copy, .copied m') :: post))
    (hm : ∀ e ∈ mid, e.2.1.raises = true) (x : UInt32) : le' (m.lookup x) (m'.lookup x) := by
  rw [wanswers_append, wanswers_append] at h
  obtain ⟨⟨_, ⟨n1, e1, _, h1⟩, _⟩, ⟨n2, e2, _, h2⟩, _⟩ := h
  cases e1
  cases e2
  rw [h1 x, h2 x]
  simp only [List.map_append, List.map_cons, wrun, List.foldl_append, List.foldl_cons]
  exact wrun_le (mid.map fun e => e.2.1) _ (by
    intro o ho
    obtain ⟨e, he, rfl⟩ := List.mem_map.mp ho
    exact hm e he) x

/-- A schedule of two goroutines, one raising the chains 1 and 2, one copying. -/
example : wanswers (fun x => [(1, 5), (2, 5)].lookup x)
    [(0, .cas 1 6, .flag true), (1, .copy, .copied [(1, 6), (2, 5)]), (0, .cas 2 6, .flag true)] := by
  refine ⟨⟨true, rfl, ?_⟩, ⟨_, rfl, by decide, ?_⟩, ⟨true, rfl, ?_⟩, trivial⟩
  · simp only [true_iff]
    intro old ho
    cases ho
    decide
  · intro x
    simp only [wstep]
    by_cases h1 : x = 1
    · subst h1; decide
    · have : (x == 1) = false := by simp [h1]
      simp [List.lookup_cons, this, h1, show ([(1, 5), (2, 5)] : Entries).lookup 1 = some 5 from rfl, show ¬ (6 : UInt64) ≤ 5 by decide]
  · simp only [true_iff]
    intro old ho
    have : old = 5 := by
      simp [wstep, List.lookup_cons] at ho
      exact ho.symm
    subst this
    decide

end Verif.Num

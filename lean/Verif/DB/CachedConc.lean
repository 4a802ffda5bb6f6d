import Verif.Conc.RW
import Verif.DB.Model

/-!
# Property C143: the cached database under concurrent use (/repo/db/cacheddb.go:51-178)

The base is a goleveldb database: every call of it, and every call of the hashicorp cache, is one atomic step.  The cache may drop
entries at any moment.  Not modelled: the counters, slice aliasing, input and output errors of goleveldb other than those of a closed
database, and batches made by another database (refuted in C35).
-/

namespace Verif.DB.CachedConc
open Verif Verif.Conc

/-- A goleveldb database. -/
structure Ldb where
  map : Bytes → Option Bytes
  closed : Bool

/-- The shared memory: `path`, `baseDB` and `cache` of `cachedDB` (`/repo/db/cacheddb.go:51-61`); a cached nil slice is `some none`. -/
structure Mem where
  path : Bytes
  base : Ldb
  cache : Bytes → Option (Option Bytes)

/-- `LDB.Get` (`/repo/db/ldb.go:79-87`): nil for a missing key. -/
def Ldb.get (d : Ldb) (k : Bytes) : Res (Option Bytes) := if d.closed then .err else .ok (d.map k)

/-- `LDB.Has` (`/repo/db/ldb.go:75-77`). -/
def Ldb.has (d : Ldb) (k : Bytes) : Res Bool := if d.closed then .err else .ok (d.map k).isSome

/-- Point update. -/
def setKey {α : Type} (f : Bytes → α) (k : Bytes) (a : α) : Bytes → α := fun x => if x = k then a else f x

/-- `LDB.Put`, `LDB.Delete` (`/repo/db/ldb.go:71-73, 89-91`): the state after it, and whether it failed. -/
def Ldb.set (d : Ldb) (k : Bytes) (v : Option Bytes) : Ldb := if d.closed then d else { d with map := setKey d.map k v }

/-- The result of a write, and of `Close`, whose service has been started when the database was opened (`/repo/db/ldb.go:45-47`,
`/repo/types.go:112-121, 187-200`). -/
def Ldb.wrote (d : Ldb) : Res Unit := if d.closed then .err else .ok ()

/-- A batch: keys with a value, or nothing to delete them. -/
abbrev Cmds := List (Bytes × Option Bytes)

/-- `LDB.Batch` (`/repo/db/ldb.go:99-106`): all at once; the error of a closed database is dropped. -/
def Ldb.batch (d : Ldb) (c : Cmds) : Ldb :=
  if d.closed then d else { d with map := c.foldl (fun m e => setKey m e.1 e.2) d.map }

/-- The calls. -/
inductive Call where
  | get (k : Bytes) | has (k : Bytes) | put (k v : Bytes) | del (k : Bytes) | batch (c : Cmds) | close | replace (path : Bytes) (db : Ldb)

/-- What they return. -/
inductive Ans where
  | value (r : Res (Option Bytes)) | flag (r : Res Bool) | done (r : Res Unit) | old (path : Bytes) (db : Ldb)

/-- `cache.Remove`. -/
def Mem.forget (s : Mem) (k : Bytes) : Mem := { s with cache := setKey s.cache k none }

/-- The loop over the keys of a batch (`/repo/db/cacheddb.go:144-147`). -/
def forgetAll (rest : Prog Mem Ans) : List Bytes → Prog Mem Ans
  | [] => rest
  | k :: ks => .step (·.forget k) fun _ => forgetAll rest ks

/-- The methods (`/repo/db/cacheddb.go:83-178`), between taking and leaving the lock. -/
def body : Call → Prog Mem Ans
  | .get k => .step id fun s =>
    match s.cache k with
    | some v => .ret (.value (.ok v))
    | none => .step id fun s =>
      match s.base.get k with
      | .ok v => .step (fun s => { s with cache := setKey s.cache k (some v) }) fun _ => .ret (.value (.ok v))
      | e => .ret (.value e)
  | .has k => .step id fun s =>
    match s.cache k with
    | some _ => .ret (.flag (.ok true))
    | none => .step id fun s => .ret (.flag (s.base.has k))
  | .put k v => .step (fun s => { s with base := s.base.set k (some v) }) fun s =>
    match s.base.wrote with
    | .ok _ => .step (·.forget k) fun _ => .ret (.done (.ok ()))
    | e => .ret (.done e)
  | .del k => .step (·.forget k) fun _ => .step (fun s => { s with base := s.base.set k none }) fun s => .ret (.done s.base.wrote)
  | .batch c => forgetAll (.step (fun s => { s with base := s.base.batch c }) fun _ => .ret (.done (.ok ()))) (c.map Prod.fst)
  | .close => .step (fun s => { s with base := { s.base with closed := true } }) fun s => .ret (.done s.base.wrote)
  | .replace path db =>
    .step id fun old => .step (fun s => { s with path := path, base := db }) fun _ => .step (fun s => { s with cache := fun _ => none }) fun _ =>
      .ret (.old old.path old.base)

/-- Which methods call `Lock`, and which `RLock`. -/
def writes : Call → Bool
  | .get _ => false
  | .has _ => false
  | _ => true

/-- The cache drops entries. -/
def Drops (s s' : Mem) : Prop := s'.path = s.path ∧ s'.base = s.base ∧ ∀ k, s'.cache k = none ∨ s'.cache k = s.cache k

/-! ### The specification -/

/-- A database at a path. -/
abbrev Plain := Bytes × Ldb

/-- What a call may do and answer on a plain database.  Once it is closed, reads may still be answered. -/
def allowed : Call → Plain → Plain → Ans → Prop
  | .get k, a, a', r => a' = a ∧ (r = .value (.ok (a.2.map k)) ∨ a.2.closed = true ∧ r = .value .err)
  | .has k, a, a', r => a' = a ∧ (r = .flag (.ok (a.2.map k).isSome) ∨ a.2.closed = true ∧ r = .flag .err ∨
      a.2.map k = none ∧ r = .flag (.ok true))
  | .put k v, a, a', r => if a.2.closed then a' = a ∧ r = .done .err else
      a' = (a.1, ⟨fun x => if x = k then some v else a.2.map x, false⟩) ∧ r = .done (.ok ())
  | .del k, a, a', r => if a.2.closed then a' = a ∧ r = .done .err else
      a' = (a.1, ⟨fun x => if x = k then none else a.2.map x, false⟩) ∧ r = .done (.ok ())
  | .batch c, a, a', r => r = .done (.ok ()) ∧ if a.2.closed then a' = a else a'.1 = a.1 ∧ a'.2.closed = false ∧
      ∀ x, a'.2.map x = match c.reverse.find? (·.1 = x) with
        | some e => e.2
        | none => a.2.map x
  | .close, a, a', r => a' = (a.1, ⟨a.2.map, true⟩) ∧ r = .done (if a.2.closed then .err else .ok ())
  | .replace path db, a, a', r => a' = (path, db) ∧ r = .old a.1 a.2

/-- The strict form: a closed database answers nothing, and `Has` tells the truth. -/
def strict (c : Call) (a a' : Plain) (r : Ans) : Prop := allowed c a a' r ∧
  match c with
  | .get _ => a.2.closed = true → r = .value .err
  | .has k => r = .flag (if a.2.closed then .err else .ok (a.2.map k).isSome)
  | _ => True

/-! ### Correctness -/

/-- What a memory stands for. -/
def plain (s : Mem) : Plain := (s.path, s.base)

/-- What is in the cache is in the database. -/
def Coherent (s : Mem) : Prop := ∀ k v, s.cache k = some v → v = s.base.map k

theorem setKey_batch (c : Cmds) (m : Bytes → Option Bytes) (x : Bytes) :
    c.foldl (fun m e => setKey m e.1 e.2) m x = match c.reverse.find? (·.1 = x) with
      | some e => e.2
      | none => m x := by
  induction c generalizing m with
  | nil => rfl
  | cons e c ih =>
    rw [List.foldl_cons, ih, List.reverse_cons, List.find?_append]
    cases hf : c.reverse.find? (·.1 = x) with
    | some e' => rfl
    | none =>
      by_cases he : e.1 = x
      · simp [setKey, he]
      · have he' : ¬ x = e.1 := fun h => he h.symm
        simp [setKey, he, he']

theorem forget_all {rest : Prog Mem Ans} {o : Call} {a : Plain} (keys : List Bytes) (s : Mem)
    (h : ∀ s', plain s' = plain s → (∀ k v, s'.cache k = some v → s.cache k = some v ∧ k ∉ keys) → Writes plain Coherent Drops allowed o a rest s') :
    Writes plain Coherent Drops allowed o a (forgetAll rest keys) s := by
  induction keys generalizing s with
  | nil => exact h s rfl fun k v hv => ⟨hv, by simp⟩
  | cons k ks ih =>
    intro s1 hs1
    refine ih _ fun s' hp hc => h s' ?_ ?_
    · rw [hp]
      simp only [plain, Mem.forget, hs1.1, hs1.2.1]
    · intro k' v hv
      obtain ⟨g1, g2⟩ := hc k' v hv
      simp only [Mem.forget, setKey] at g1
      split at g1
      · cases g1
      · next hne =>
        rcases hs1.2.2 k' with h0 | h0
        · rw [h0] at g1; cases g1
        · rw [h0] at g1
          exact ⟨g1, by simp [hne, g2]⟩

theorem correct : Correct plain Coherent Drops allowed body writes where
  refl := fun s => ⟨rfl, rfl, fun _ => Or.inr rfl⟩
  trans := fun s s' s'' h h' => ⟨h'.1.trans h.1, h'.2.1.trans h.2.1, fun k => by
    rcases h'.2.2 k with e | e
    · exact Or.inl e
    · rw [e]; exact h.2.2 k⟩
  harmless := fun s s' hI h => ⟨fun k v hv => by
    rcases h.2.2 k with e | e
    · rw [e] at hv; cases hv
    · rw [e] at hv
      rw [h.2.1]
      exact hI k v hv, by simp only [plain, h.1, h.2.1]⟩
  reader := by
    intro o ho a
    cases o with
    | get k =>
      intro s hI ha
      refine ⟨hI, ha, ?_⟩
      dsimp only
      cases hc : s.cache k with
      | some v =>
        refine ⟨rfl, Or.inl ?_⟩
        rw [← ha, hI k v hc]
        rfl
      | none =>
        intro s hI ha
        refine ⟨hI, ha, ?_⟩
        unfold Ldb.get
        dsimp only
        cases hcl : s.base.closed with
        | true =>
          refine ⟨rfl, Or.inr ⟨?_, rfl⟩⟩
          rw [← ha]
          exact hcl
        | false =>
          intro s' hI' ha'
          have hm : s'.base = s.base := by
            have := ha'.trans ha.symm
            exact (Prod.mk.inj this).2
          refine ⟨?_, ha', rfl, Or.inl ?_⟩
          · intro k' v' hv'
            simp only [setKey] at hv'
            split at hv'
            · next he =>
              cases hv'
              rw [he, hm]
            · exact hI' k' v' hv'
          · rw [← ha]
            rfl
    | has k =>
      intro s hI ha
      refine ⟨hI, ha, ?_⟩
      dsimp only
      cases hc : s.cache k with
      | some v =>
        refine ⟨rfl, ?_⟩
        have hv := hI k v hc
        cases hm : s.base.map k with
        | some x =>
          refine Or.inl ?_
          rw [← ha]
          simp [plain, hm]
        | none =>
          refine Or.inr (Or.inr ⟨?_, rfl⟩)
          rw [← ha]
          exact hm
      | none =>
        intro s hI ha
        refine ⟨hI, ha, rfl, ?_⟩
        rw [← ha]
        unfold Ldb.has
        cases hcl : s.base.closed with
        | true => exact Or.inr (Or.inl ⟨hcl, rfl⟩)
        | false => exact Or.inl rfl
    | put => cases ho
    | del => cases ho
    | batch => cases ho
    | close => cases ho
    | replace => cases ho
  writer := by
    intro o ho s hI
    cases o with
    | get => cases ho
    | has => cases ho
    | put k v =>
      intro s1 hs1
      have hI1 : Coherent s1 := fun k' v' hv' => by
        rcases hs1.2.2 k' with e | e
        · rw [e] at hv'; cases hv'
        · rw [e] at hv'; rw [hs1.2.1]; exact hI k' v' hv'
      have hp : plain s = plain s1 := by simp only [plain, hs1.1, hs1.2.1]
      rw [hp]
      unfold Ldb.wrote Ldb.set
      dsimp only
      cases hcl : s1.base.closed with
      | true => exact ⟨hI1, by simp [allowed, plain, hcl]⟩
      | false =>
        intro s2 hs2
        refine ⟨?_, ?_⟩
        · intro k' v' hv'
          simp only [Mem.forget, setKey] at hv'
          split at hv'
          · cases hv'
          · next hne =>
            rcases hs2.2.2 k' with e | e
            · rw [e] at hv'; cases hv'
            · rw [e] at hv'
              simp only [Mem.forget, hs2.2.1, setKey, if_neg hne]
              simpa [setKey, if_neg hne] using hI1 k' v' hv'
        · simp only [allowed, plain, hcl, Mem.forget, hs2.1, hs2.2.1, Bool.false_eq_true, if_false, and_true]
          rfl
    | del k =>
      intro s1 hs1 s2 hs2
      have hI2 : ∀ k' v', s2.cache k' = some v' → k' ≠ k ∧ v' = s.base.map k' := by
        intro k' v' hv'
        rcases hs2.2.2 k' with e | e
        · rw [e] at hv'; cases hv'
        · rw [e] at hv'
          simp only [Mem.forget, setKey] at hv'
          split at hv'
          · cases hv'
          · next hne =>
            rcases hs1.2.2 k' with e | e
            · rw [e] at hv'; cases hv'
            · rw [e] at hv'
              exact ⟨hne, hI k' v' hv'⟩
      have hb : s2.base = s.base := by rw [hs2.2.1]; exact hs1.2.1
      have hpath : s2.path = s.path := by rw [hs2.1]; exact hs1.1
      refine ⟨?_, ?_⟩
      · intro k' v' hv'
        obtain ⟨g1, g2⟩ := hI2 k' v' hv'
        simp only [hb, Ldb.set]
        split
        · exact g2
        · simp only [setKey, if_neg g1]
          exact g2
      · simp only [allowed, plain, hb, hpath, Ldb.set, Ldb.wrote]
        cases hcl : s.base.closed with
        | true => simp [hcl]
        | false =>
          simp only [Bool.false_eq_true, if_false, hcl, and_true]
          rfl
    | batch c =>
      refine forget_all _ s fun s1 hp hc => ?_
      intro s2 hs2
      have hb : s2.base = s.base := by
        rw [hs2.2.1]
        exact (Prod.mk.inj hp).2
      have hpath : s2.path = s.path := by
        rw [hs2.1]
        exact (Prod.mk.inj hp).1
      have hI2 : ∀ k' v', s2.cache k' = some v' → k' ∉ c.map Prod.fst ∧ v' = s.base.map k' := by
        intro k' v' hv'
        rcases hs2.2.2 k' with e | e
        · rw [e] at hv'; cases hv'
        · rw [e] at hv'
          obtain ⟨g1, g2⟩ := hc k' v' hv'
          exact ⟨g2, hI k' v' g1⟩
      refine ⟨?_, rfl, ?_⟩
      · intro k' v' hv'
        obtain ⟨g1, g2⟩ := hI2 k' v' hv'
        simp only [hb, Ldb.batch]
        split
        · exact g2
        · simp only [setKey_batch]
          rw [List.find?_eq_none.2]
          · exact g2
          · intro e he
            simp only [List.mem_reverse] at he
            simp only [decide_eq_true_eq]
            rintro rfl
            exact g1 (List.mem_map_of_mem he)
      · simp only [plain, hb, hpath, Ldb.batch]
        cases hcl : s.base.closed with
        | true => simp
        | false =>
          simp only [Bool.false_eq_true, if_false, true_and, hcl]
          intro x
          exact setKey_batch c s.base.map x
    | close =>
      intro s1 hs1
      refine ⟨?_, ?_⟩
      · intro k v hv
        rcases hs1.2.2 k with e | e
        · rw [e] at hv; cases hv
        · rw [e] at hv
          rw [hI k v hv]
          simp only [hs1.2.1]
      · simp only [allowed, plain, hs1.1, hs1.2.1, Ldb.wrote]
        exact ⟨trivial, rfl⟩
    | replace path db =>
      intro s1 hs1 s2 hs2 s3 hs3
      refine ⟨(fun k v h => by cases h), ?_⟩
      simp only [allowed, plain, hs3.1, hs3.2.1, hs1.1, hs1.2.1, and_self]

/-- A database just opened, with an empty cache. -/
def opened (path : Bytes) (db : Ldb) : Mem := ⟨path, db, fun _ => none⟩

/-- **C143**: whatever the goroutines do and whenever the cache drops entries, the calls that have returned, in the order in which they
returned, are what a plain database could have answered one call at a time; and each goroutine's calls are among them in its order. -/
theorem C143_linearizable (path : Bytes) (db : Ldb) (todo : Nat → List Call) (c : RW Mem Call Ans)
    (h : RWSteps body writes Drops (rwInitial Call Ans (opened path db) todo) c) :
    (∃ a, Explains allowed (path, db) c.log a) ∧ ∀ t, callsOf t c.log <+: todo t := by
  obtain ⟨⟨a, ha, -⟩, ho⟩ := rw_linearizable correct (opened path db) (fun k v hv => by cases hv) todo h
  exact ⟨⟨a, ha⟩, fun t => ⟨_, by rw [ho t, List.append_assoc]⟩⟩

/-- **C143**: when nothing is running, the database is as the returned calls have left it, and everything cached is in it. -/
theorem C143_quiet (path : Bytes) (db : Ldb) (todo : Nat → List Call) (c : RW Mem Call Ans)
    (h : RWSteps body writes Drops (rwInitial Call Ans (opened path db) todo) c) (hw : c.writer = none) :
    Explains allowed (path, db) c.log (c.shared.path, c.shared.base) ∧ ∀ k v, c.shared.cache k = some v → v = c.shared.base.map k := by
  obtain ⟨⟨a, ha, hf, -⟩, -⟩ := rw_linearizable correct (opened path db) (fun k v hv => by cases hv) todo h
  obtain ⟨h1, h2, -⟩ := hf hw
  exact ⟨by rw [← h2] at ha; exact ha, h1⟩

/-- **C143**: as long as some goroutine has calls to finish, some goroutine can go on. -/
theorem C143_progress (path : Bytes) (db : Ldb) (todo : Nat → List Call) (c : RW Mem Call Ans)
    (h : RWSteps body writes Drops (rwInitial Call Ans (opened path db) todo) c) (t : Nat) (ht : callsOf t c.log ≠ todo t) :
    ∃ c', RWStep body writes (fun _ _ => False) c c' :=
  rw_progress correct (opened path db) (fun k v hv => by cases hv) todo h t ht

/-- What the execution of some calls by one goroutine logs. -/
def logOf : List Call → Mem → List (Nat × Call × Ans)
  | [], _ => []
  | o :: os, s => (0, o, ((body o).run s).2) :: logOf os ((body o).run s).1

theorem runs (os : List Call) (s : Mem) (todo : Nat → List Call) (log : List (Nat × Call × Ans)) (h : todo 0 = os) :
    ∃ c, RWSteps body writes Drops ⟨s, none, fun _ => none, todo, log⟩ c ∧ c.log = log ++ logOf os s := by
  induction os generalizing s todo log with
  | nil => exact ⟨_, .refl _, by simp [logOf]⟩
  | cons o os ih =>
    obtain ⟨c, h1, h2⟩ := ih ((body o).run s).1 (Conc.setAt todo 0 os) (log ++ [(0, o, ((body o).run s).2)]) (by simp [Conc.setAt])
    exact ⟨c, .trans (rw_solo s todo log 0 o os h) h1, by rw [h2]; simp [logOf]⟩

/-- Every log that the strict specification explains is one in which its first, second, … call got a strict answer. -/
theorem strict_snoc {a0 a'' : Plain} {log : List (Nat × Call × Ans)} {e : Nat × Call × Ans} (h : Explains strict a0 (log ++ [e]) a'') :
    ∃ a', Explains strict a0 log a' ∧ strict e.2.1 a' a'' e.2.2 := by
  generalize hl : log ++ [e] = l at h
  cases h with
  | nil => simp at hl
  | snoc t o r h1 h2 =>
    obtain ⟨rfl, rfl⟩ := List.append_inj' hl rfl |>.imp id (fun h => by simpa using h)
    exact ⟨_, h1, h2⟩

/-- **C143 refuted in its strict form**: after `Close` a `Get` may still be answered from the cache. -/
theorem C143_closed_refuted : ∃ path db todo c, RWSteps body writes Drops (rwInitial Call Ans (opened path db) todo) c ∧
    ¬ ∃ a, Explains strict (path, db) c.log a := by
  obtain ⟨c, h1, h2⟩ := runs [.get [1], .close, .get [1]] (opened [] ⟨fun k => if k = [1] then some [7] else none, false⟩)
    (fun t => if t = 0 then [.get [1], .close, .get [1]] else []) [] rfl
  refine ⟨_, _, _, c, h1, ?_⟩
  rintro ⟨a, ha⟩
  rw [h2] at ha
  obtain ⟨a2, ha2, hs⟩ := strict_snoc (log := [_, _]) ha
  obtain ⟨a1, -, hc⟩ := strict_snoc (log := [_]) ha2
  have hcl : a2.2.closed = true := by
    have := hc.1.1
    rw [this]
  have := hs.2 hcl
  revert this
  simp [logOf, body, Prog.run, opened, setKey, Ldb.get]

/-- A put, a cached read, a batch and a read of what it wrote; a replaced database answers for the new one. -/
example : (logOf [.put [1] [7], .get [1], .batch [([1], some [8]), ([2], some [9])], .get [1], .get [2], .replace [5] ⟨fun _ => none, false⟩, .get [1]]
      (opened [] ⟨fun _ => none, false⟩)).filterMap (fun e => match e.2.2 with | .value (.ok v) => some v | _ => none)
    = [some [7], some [8], some [9], none] := by
  simp [logOf, body, Prog.run, opened, setKey, Ldb.get, Ldb.set, Ldb.wrote, Ldb.batch, forgetAll, Mem.forget]

end Verif.DB.CachedConc

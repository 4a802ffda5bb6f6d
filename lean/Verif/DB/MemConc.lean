import Verif.Conc.Mutex
import Verif.Conc.RW
import Verif.DB.Model

/-!
# Property C147: the databases in memory under concurrent use (/repo/db/memdb.go, /repo/db/readonly.go:44-151)

`MemDB` has no lock: it is a `sync.Map`, each call of which is one atomic step.  A temporary database has a readers-writer lock around
a map of deleted keys and a `MemDB`, over a base that answers `B`.  The base is not changed meanwhile, and its `Has` agrees with its
`Get`.  Not modelled: slice aliasing (see C32), and the order in which the two maps are made.  A panic is an answer.
-/

namespace Verif.DB.MemConc
open Verif Verif.Conc

/-- The calls; `none` as an argument is nil, `none` as a batch is one that is not a `memBatch`. -/
inductive Call where
  | put (k v : Option Bytes) | has (k : Option Bytes) | get (k : Option Bytes) | del (k : Option Bytes) | batch (b : Option (List Cmd))

/-- What they return. -/
inductive Ans where
  | done (r : Res Unit) | flag (r : Res Bool) | value (r : Res (Option Bytes))

/-- The content of a map. -/
abbrev Map := Bytes → Option Bytes

/-- Point update. -/
def setKey {α : Type} (f : Bytes → α) (k : Bytes) (a : α) : Bytes → α := fun x => if x = k then a else f x

/-! ### `MemDB` -/

/-- The loop of `MemDB.Batch` (`/repo/db/memdb.go:110-117`): `Put` refuses nil and its error is dropped. -/
def cmdLoop (rest : Code Map Ans) : List Cmd → Code Map Ans
  | [] => rest
  | .put (some k) (some v) :: cs => .act (fun m => setKey m k (some v)) fun _ => cmdLoop rest cs
  | .put _ _ :: cs => cmdLoop rest cs
  | .del k :: cs => .act (fun m => setKey m (keyOf k) none) fun _ => cmdLoop rest cs

/-- The methods of `MemDB` (`/repo/db/memdb.go:61-119`). -/
def memCode : Call → Code Map Ans
  | .put (some k) (some v) => .act (fun m => setKey m k (some v)) fun _ => .ret (.done (.ok ()))
  | .put _ _ => .ret (.done .err)
  | .has k => .act id fun m => .ret (.flag (.ok (m (keyOf k)).isSome))
  | .get k => .act id fun m => .ret (.value (.ok (m (keyOf k))))
  | .del k => .act (fun m => setKey m (keyOf k) none) fun _ => .ret (.done (.ok ()))
  | .batch none => .ret (.done .panic)
  | .batch (some cs) => cmdLoop (.ret (.done (.ok ()))) cs

/-! ### The temporary database -/

/-- The shared memory of a temporary database (`/repo/db/readonly.go:45-50`). -/
structure Temp where
  deleted : Bytes → Bool
  mem : Map

/-- `_put` (`/repo/db/readonly.go:65-72`) of a key and a value that are not nil. -/
def putSteps (k v : Bytes) (rest : Prog Temp Ans) : Prog Temp Ans :=
  .step (fun s => { s with mem := setKey s.mem k (some v) }) fun _ =>
    .step (fun s => { s with deleted := setKey s.deleted k false }) fun _ => rest

/-- `_delete` (`/repo/db/readonly.go:111-115`). -/
def delSteps (k : Bytes) (rest : Prog Temp Ans) : Prog Temp Ans :=
  .step (fun s => { s with deleted := setKey s.deleted k true }) fun _ =>
    .step (fun s => { s with mem := setKey s.mem k none }) fun _ => rest

/-- The loop of `Batch` (`/repo/db/readonly.go:134-141`). -/
def batchSteps (rest : Prog Temp Ans) : List Cmd → Prog Temp Ans
  | [] => rest
  | .put (some k) (some v) :: cs => putSteps k v (batchSteps rest cs)
  | .put _ _ :: cs => batchSteps rest cs
  | .del k :: cs => delSteps (keyOf k) (batchSteps rest cs)

/-- Whether a value was found. -/
def found : Res (Option Bytes) → Res Bool
  | .ok v => .ok v.isSome
  | .err => .err
  | .panic => .panic

/-- The methods (`/repo/db/readonly.go:65-143`), between taking and leaving the lock. -/
def tempBody (B : Bytes → Res (Option Bytes)) : Call → Prog Temp Ans
  | .put (some k) (some v) => putSteps k v (.ret (.done (.ok ())))
  | .put _ _ => .ret (.done .err)
  | .has k => .step id fun s =>
    if s.deleted (keyOf k) then .ret (.flag (.ok false))
    else .step id fun s =>
      if (s.mem (keyOf k)).isSome then .ret (.flag (.ok true))
      else .step id fun _ => .ret (.flag (found (B (keyOf k))))
  | .get k => .step id fun s =>
    if s.deleted (keyOf k) then .ret (.value (.ok none))
    else .step id fun s =>
      match s.mem (keyOf k) with
      | some v => .ret (.value (.ok (some v)))
      | none => .step id fun _ => .ret (.value (B (keyOf k)))
  | .del k => delSteps (keyOf k) (.ret (.done (.ok ())))
  | .batch none => .ret (.done .panic)
  | .batch (some cs) => batchSteps (.ret (.done (.ok ()))) cs

/-- Which methods call `Lock`, and which `RLock`. -/
def tempWrites : Call → Bool
  | .has _ => false
  | .get _ => false
  | _ => true

/-! ### The specification: one call at a time on one map -/

/-- What the keys hold; a base that fails may leave errors. -/
abbrev Plain := Bytes → Res (Option Bytes)

/-- One command of a batch. -/
def change (a : Plain) : Cmd → Plain
  | .put (some k) (some v) => fun x => if x = k then .ok (some v) else a x
  | .put _ _ => a
  | .del k => fun x => if x = keyOf k then .ok none else a x

/-- One call. -/
def serve (a : Plain) : Call → Plain × Ans
  | .put (some k) (some v) => (change a (.put (some k) (some v)), .done (.ok ()))
  | .put _ _ => (a, .done .err)
  | .has k => (a, .flag (found (a (keyOf k))))
  | .get k => (a, .value (a (keyOf k)))
  | .del k => (change a (.del k), .done (.ok ()))
  | .batch none => (a, .done .panic)
  | .batch (some cs) => (cs.foldl change a, .done (.ok ()))

/-- The same as a relation. -/
def serves (o : Call) (a a' : Plain) (r : Ans) : Prop := serve a o = (a', r)

/-! ### The temporary database: proofs -/

/-- What the memory of a temporary database stands for. -/
def overlay (B : Bytes → Res (Option Bytes)) (s : Temp) : Plain := fun k =>
  if s.deleted k then .ok none
  else match s.mem k with
    | some v => .ok (some v)
    | none => B k

variable {B : Bytes → Res (Option Bytes)}

theorem overlay_put (s : Temp) (k v : Bytes) :
    overlay B ⟨setKey s.deleted k false, setKey s.mem k (some v)⟩ = change (overlay B s) (.put (some k) (some v)) := by
  funext x
  simp only [overlay, change, setKey]
  by_cases h : x = k <;> simp [h]

theorem overlay_del (s : Temp) (k : Option Bytes) :
    overlay B ⟨setKey s.deleted (keyOf k) true, setKey s.mem (keyOf k) none⟩ = change (overlay B s) (.del k) := by
  funext x
  simp only [overlay, change, setKey]
  by_cases h : x = keyOf k <;> simp [h]

/-- The specification on memories. -/
def servesMem (B : Bytes → Res (Option Bytes)) (o : Call) (s s' : Temp) (r : Ans) : Prop := serves o (overlay B s) (overlay B s') r

theorem batch_writes (o : Call) (a : Temp) (rest : Prog Temp Ans) (cs : List Cmd) (s : Temp)
    (h : ∀ s', overlay B s' = cs.foldl change (overlay B s) → Writes id (fun _ => True) Eq (servesMem B) o a rest s') :
    Writes id (fun _ => True) Eq (servesMem B) o a (batchSteps rest cs) s := by
  induction cs generalizing s with
  | nil => exact h s rfl
  | cons c cs ih =>
    match c with
    | .put (some k) (some v) =>
      rintro _ rfl _ rfl
      exact ih _ fun s' hs' => h s' (by rw [hs']; exact congrArg (fun x => List.foldl change x cs) (overlay_put s k v))
    | .put none _ => exact ih s fun s' hs' => h s' (by rw [hs']; rfl)
    | .put (some _) none => exact ih s fun s' hs' => h s' (by rw [hs']; rfl)
    | .del k =>
      rintro _ rfl _ rfl
      exact ih _ fun s' hs' => h s' (by rw [hs']; exact congrArg (fun x => List.foldl change x cs) (overlay_del s k))

theorem temp_correct : Correct id (fun _ => True) Eq (servesMem B) (tempBody B) tempWrites where
  refl := fun _ => rfl
  trans := fun _ _ _ h h' => h.trans h'
  harmless := fun _ _ _ h => ⟨trivial, by rw [h]⟩
  reader := by
    intro o ho a
    cases o with
    | put => cases ho
    | del => cases ho
    | batch => cases ho
    | has k =>
      rintro s - rfl
      refine ⟨trivial, rfl, ?_⟩
      dsimp only [id]
      cases hd : s.deleted (keyOf k) with
      | true => simp [Reads, servesMem, serves, serve, overlay, hd, found]
      | false =>
        simp only [Bool.false_eq_true, if_false]
        rintro s - rfl
        refine ⟨trivial, rfl, ?_⟩
        dsimp only [id] at *
        cases hm : s.mem (keyOf k) with
        | some v => simp [Reads, servesMem, serves, serve, overlay, hd, hm, found]
        | none =>
          simp only [Option.isSome_none, Bool.false_eq_true, if_false]
          rintro s - rfl
          refine ⟨trivial, rfl, ?_⟩
          dsimp only [id] at *
          simp [Reads, servesMem, serves, serve, overlay, hd, hm]
    | get k =>
      rintro s - rfl
      refine ⟨trivial, rfl, ?_⟩
      dsimp only [id]
      cases hd : s.deleted (keyOf k) with
      | true => simp [Reads, servesMem, serves, serve, overlay, hd]
      | false =>
        simp only [Bool.false_eq_true, if_false]
        rintro s - rfl
        refine ⟨trivial, rfl, ?_⟩
        dsimp only [id] at *
        cases hm : s.mem (keyOf k) with
        | some v => simp [Reads, servesMem, serves, serve, overlay, hd, hm]
        | none =>
          rintro s - rfl
          refine ⟨trivial, rfl, ?_⟩
          dsimp only [id] at *
          simp [Reads, servesMem, serves, serve, overlay, hd, hm]
  writer := by
    intro o ho s _
    match o with
    | .put (some k) (some v) =>
      rintro _ rfl _ rfl
      exact ⟨trivial, congrArg (·, Ans.done (.ok ())) (overlay_put s k v).symm⟩
    | .put none _ => exact ⟨trivial, rfl⟩
    | .put (some _) none => exact ⟨trivial, rfl⟩
    | .del k =>
      rintro _ rfl _ rfl
      exact ⟨trivial, congrArg (·, Ans.done (.ok ())) (overlay_del s k).symm⟩
    | .batch none => exact ⟨trivial, rfl⟩
    | .batch (some cs) => exact batch_writes _ _ _ cs s fun s' hs' => ⟨trivial, congrArg (·, Ans.done (.ok ())) hs'.symm⟩
    | .has _ => cases ho
    | .get _ => cases ho

theorem explains_plain {s s' : Temp} {log : List (Nat × Call × Ans)} (h : Explains (servesMem B) s log s') :
    Explains serves (overlay B s) log (overlay B s') := by
  induction h with
  | nil => exact .nil _
  | snoc t o r _ h2 ih => exact .snoc t o r ih h2

/-- A new temporary database. -/
def newTemp : Temp := ⟨fun _ => false, fun _ => none⟩

/-- **C147, temporary databases:** whatever the goroutines do, the calls that have returned, in the order in which they returned, are
answered as by one map, which is the base at first, on which the calls are made one after another, batches as a whole; and each
goroutine's calls are among them in its order. -/
theorem C147_temporary (B : Bytes → Res (Option Bytes)) (todo : Nat → List Call) (c : RW Temp Call Ans)
    (h : RWSteps (tempBody B) tempWrites Eq (rwInitial Call Ans newTemp todo) c) :
    (∃ a, Explains serves B c.log a) ∧ ∀ t, callsOf t c.log <+: todo t := by
  obtain ⟨⟨s, hs, -⟩, ho⟩ := rw_linearizable temp_correct newTemp trivial todo h
  exact ⟨⟨_, explains_plain hs⟩, fun t => ⟨_, by rw [ho t, List.append_assoc]⟩⟩

/-- **C147, temporary databases:** as long as some goroutine has calls to finish, some goroutine can go on. -/
theorem C147_temporary_progress (B : Bytes → Res (Option Bytes)) (todo : Nat → List Call) (c : RW Temp Call Ans)
    (h : RWSteps (tempBody B) tempWrites Eq (rwInitial Call Ans newTemp todo) c) (t : Nat) (ht : callsOf t c.log ≠ todo t) :
    ∃ c', RWStep (tempBody B) tempWrites (fun _ _ => False) c c' :=
  rw_progress temp_correct newTemp trivial todo h t ht

/-! ### `MemDB`: proofs -/

/-- What is done to the map at once: a call that is not a batch, with its answer, or one command of a batch. -/
inductive Piece where
  | call (o : Call) (r : Ans) | cmd (c : Cmd)

/-- Its effect. -/
def Piece.after (a : Plain) : Piece → Plain
  | .call o _ => (serve a o).1
  | .cmd c => change a c

/-- The answer is right. -/
def Piece.right (a : Plain) : Piece → Prop
  | .call o r => (serve a o).2 = r
  | .cmd _ => True

/-- The pieces one after another. -/
inductive Plays : Plain → List (Nat × Piece) → Plain → Prop
  | nil (a) : Plays a [] a
  | snoc {a log a'} (t p) : Plays a log a' → p.right a' → Plays a (log ++ [(t, p)]) (p.after a')

/-- The pieces of a call that has returned: the commands of a batch without those that `Put` refuses, or the call itself. -/
def pieces : Call × Ans → List Piece
  | (.batch (some cs), _) => (cs.filter fun c => match c with
      | .put k v => k.isSome && v.isSome
      | .del _ => true).map .cmd
  | (o, r) => [.call o r]

/-- The pieces of a goroutine. -/
def piecesOf (t : Nat) (log : List (Nat × Piece)) : List Piece := (log.filter fun e => e.1 == t).map (·.2)

/-- What has been done of the current call. -/
def Begun : Option (Call × Code Map Ans) → List Piece → Prop
  | none, ps => ps = []
  | some (o, .ret r), ps => ps = pieces (o, r)
  | some (o, _), ps => ∃ r, ps <+: pieces (o, r)

/-- What a map stands for. -/
def holds (m : Map) : Plain := fun k => .ok (m k)

/-- The commands that do something. -/
abbrev effective (cs : List Cmd) : List Cmd := cs.filter fun c => match c with
  | .put k v => k.isSome && v.isSome
  | .del _ => true

theorem holds_put (m : Map) (k v : Bytes) : holds (setKey m k (some v)) = change (holds m) (.put (some k) (some v)) := by
  funext x
  simp only [holds, change, setKey]
  by_cases h : x = k <;> simp [h]

theorem holds_del (m : Map) (k : Option Bytes) : holds (setKey m (keyOf k) none) = change (holds m) (.del k) := by
  funext x
  simp only [holds, change, setKey]
  by_cases h : x = keyOf k <;> simp [h]

theorem loop_cases (R : Code Map Ans) (cs : List Cmd) : (effective cs = [] ∧ cmdLoop R cs = R) ∨
    ∃ c cs' w, effective cs = c :: effective cs' ∧ (cmdLoop R cs = .act w fun _ => cmdLoop R cs') ∧
      ∀ m, holds (w m) = change (holds m) c := by
  induction cs with
  | nil => exact .inl ⟨rfl, rfl⟩
  | cons c cs ih =>
    match c with
    | .put (some k) (some v) => exact .inr ⟨_, cs, _, by simp [effective], rfl, fun m => holds_put m k v⟩
    | .put none _ => simpa [effective, cmdLoop] using ih
    | .put (some _) none => simpa [effective, cmdLoop] using ih
    | .del k => exact .inr ⟨_, cs, _, by simp [effective], rfl, fun m => holds_del m k⟩

/-- Not a batch that is carried out. -/
def Single (o : Call) : Prop := ∀ r, pieces (o, r) = [.call o r]

theorem single_or (o : Call) : Single o ∨ ∃ cs, o = .batch (some cs) := by
  match o with
  | .put _ _ => exact .inl fun _ => rfl
  | .has _ => exact .inl fun _ => rfl
  | .get _ => exact .inl fun _ => rfl
  | .del _ => exact .inl fun _ => rfl
  | .batch none => exact .inl fun _ => rfl
  | .batch (some cs) => exact .inr ⟨cs, rfl⟩

theorem not_single (cs : List Cmd) : ¬ Single (.batch (some cs)) := by
  intro h
  have := h (.done .err)
  simp only [pieces] at this
  cases he : effective cs with
  | nil => simp [he] at this
  | cons c l => simp [he] at this

theorem single_cases {o : Call} (h : Single o) : (∃ r, memCode o = .ret r ∧ ∀ a, serve a o = (a, r)) ∨
    ∃ (w : Map → Map) (f : Map → Ans), (memCode o = .act w fun m => .ret (f m)) ∧ ∀ m, serve (holds m) o = (holds (w m), f m) := by
  match o with
  | .put (some k) (some v) => exact .inr ⟨_, _, rfl, fun m => by simp [serve, holds_put]⟩
  | .put none _ => exact .inl ⟨_, rfl, fun _ => rfl⟩
  | .put (some _) none => exact .inl ⟨_, rfl, fun _ => rfl⟩
  | .has _ => exact .inr ⟨_, _, rfl, fun m => rfl⟩
  | .get _ => exact .inr ⟨_, _, rfl, fun m => rfl⟩
  | .del k => exact .inr ⟨_, _, rfl, fun m => by simp [serve, holds_del]⟩
  | .batch none => exact .inl ⟨_, rfl, fun _ => rfl⟩
  | .batch (some cs) => exact absurd h (not_single cs)

/-- Where a goroutine is and what it has done of its call. -/
inductive At : Option (Call × Code Map Ans) → List Piece → Prop
  | idle : At none []
  | ready (o : Call) (w : Map → Map) (f : Map → Ans) : Single o → (∀ m, serve (holds m) o = (holds (w m), f m)) → At (some (o, .act w fun m => .ret (f m))) []
  | ended (o r) : Single o → At (some (o, .ret r)) [.call o r]
  | batch (cs d rest) : effective cs = d ++ effective rest →
      At (some (.batch (some cs), cmdLoop (.ret (.done (.ok ()))) rest)) (d.map .cmd)

theorem At.begun {c : Option (Call × Code Map Ans)} {ps : List Piece} (h : At c ps) : Begun c ps := by
  cases h with
  | idle => exact rfl
  | ready o w f hs _ => exact ⟨.done .err, List.nil_prefix⟩
  | ended o r hs => exact (hs r).symm
  | batch cs d rest he =>
    rcases loop_cases (.ret (.done (.ok ()))) rest with ⟨h0, h1⟩ | ⟨c, cs', w, h0, h1, -⟩
    · rw [h1]
      rw [h0, List.append_nil] at he
      simp only [Begun, pieces]
      rw [← he]
    · rw [h1]
      refine ⟨.done .err, ?_⟩
      simp only [pieces]
      exact ⟨(effective rest).map .cmd, by rw [← List.map_append, ← he]⟩

/-- What holds in every reachable configuration. -/
structure MemInv (m0 : Map) (todo0 : Nat → List Call) (log : List (Nat × Piece)) (c : Sys Map Call Ans) : Prop where
  plays : Plays (holds m0) log (holds c.shared)
  at' : ∀ t, ∃ ps, piecesOf t log = (c.done t).flatMap pieces ++ ps ∧ At (c.cur t) ps
  calls : ∀ t, todo0 t = (c.done t).map Prod.fst ++ (c.cur t).toList.map Prod.fst ++ c.todo t

theorem piecesOf_self (t : Nat) (log : List (Nat × Piece)) (p : Piece) : piecesOf t (log ++ [(t, p)]) = piecesOf t log ++ [p] := by
  simp [piecesOf, List.filter_append]

theorem piecesOf_other {t u : Nat} (h : t ≠ u) (log : List (Nat × Piece)) (p : Piece) : piecesOf u (log ++ [(t, p)]) = piecesOf u log := by
  have : (t == u) = false := by simpa using h
  simp [piecesOf, List.filter_append, this]

theorem mem_step {m0 : Map} {todo0 : Nat → List Call} {log : List (Nat × Piece)} {c c' : Sys Map Call Ans} (h : MemInv m0 todo0 log c)
    (st : SStep memCode c c') : ∃ ext, MemInv m0 todo0 (log ++ ext) c' := by
  obtain ⟨hp, ha, hc⟩ := h
  have hl : ∀ t o k, c.cur t ≠ some (o, .lock k) := by
    intro t o k e
    obtain ⟨ps, -, h2⟩ := ha t
    rw [e] at h2
    generalize hx : Option.some (o, Code.lock k) = x at h2
    cases h2 with
    | idle => cases hx
    | ready => cases hx
    | ended => cases hx
    | batch cs d rest _ =>
      rcases loop_cases (.ret (.done (.ok ()))) rest with ⟨-, h1⟩ | ⟨c, cs', w, -, h1, -⟩ <;> rw [h1] at hx <;> cases hx
  have hu : ∀ t o k, c.cur t ≠ some (o, .unlock k) := by
    intro t o k e
    obtain ⟨ps, -, h2⟩ := ha t
    rw [e] at h2
    generalize hx : Option.some (o, Code.unlock k) = x at h2
    cases h2 with
    | idle => cases hx
    | ready => cases hx
    | ended => cases hx
    | batch cs d rest _ =>
      rcases loop_cases (.ret (.done (.ok ()))) rest with ⟨-, h1⟩ | ⟨c, cs', w, -, h1, -⟩ <;> rw [h1] at hx <;> cases hx
  cases st with
  | @call sh m cur todo done t o os ht hcur =>
    have hcalls : ∀ u, todo0 u = (done u).map Prod.fst ++ (upd cur t (some (o, memCode o)) u).toList.map Prod.fst ++ upd todo t os u := by
      intro u
      rw [hc u]
      by_cases e : u = t
      · subst e; simp [upd, hcur, ht]
      · simp [upd, e]
    rcases single_or o with hs | ⟨cs, rfl⟩
    · rcases single_cases hs with ⟨r, hr, hsv⟩ | ⟨w, f, hr, hsv⟩
      · refine ⟨[(t, .call o r)], ?_, fun u => ?_, hcalls⟩
        · have := Plays.snoc t (.call o r) hp (by simp [Piece.right, hsv])
          simpa [Piece.after, hsv] using this
        · obtain ⟨ps, h1, h2⟩ := ha u
          by_cases e : u = t
          · subst e
            simp only [hcur] at h2
            cases h2
            exact ⟨[.call o r], by rw [piecesOf_self, h1]; simp, by simp only [upd, if_true, hr]; exact .ended o r hs⟩
          · exact ⟨ps, by rw [piecesOf_other (Ne.symm e), h1], by simpa [upd, e] using h2⟩
      · refine ⟨[], by simpa using hp, fun u => ?_, hcalls⟩
        obtain ⟨ps, h1, h2⟩ := ha u
        by_cases e : u = t
        · subst e
          simp only [hcur] at h2
          cases h2
          exact ⟨[], by rw [List.append_nil, h1], by simp only [upd, if_true, hr]; exact .ready o w f hs hsv⟩
        · exact ⟨ps, by rw [List.append_nil, h1], by simpa [upd, e] using h2⟩
    · refine ⟨[], by simpa using hp, fun u => ?_, hcalls⟩
      obtain ⟨ps, h1, h2⟩ := ha u
      by_cases e : u = t
      · subst e
        simp only [hcur] at h2
        cases h2
        exact ⟨[], by rw [List.append_nil, h1], by simp only [upd, if_true]; exact .batch cs [] cs rfl⟩
      · exact ⟨ps, by rw [List.append_nil, h1], by simpa [upd, e] using h2⟩
  | lock t o k hcur => exact absurd hcur (hl t o k)
  | unlock t o k hcur => exact absurd hcur (hu t o k)
  | @act sh m cur todo done t o w k hcur =>
    have hcalls : ∀ u, todo0 u = (done u).map Prod.fst ++ (upd cur t (some (o, k sh)) u).toList.map Prod.fst ++ todo u := by
      intro u
      rw [hc u]
      by_cases e : u = t
      · subst e; simp [upd, hcur]
      · simp [upd, e]
    obtain ⟨ps, h1, h2⟩ := ha t
    simp only [hcur] at h2
    generalize hx : some (o, Code.act w k) = x at h2
    cases h2 with
    | idle => cases hx
    | ended => cases hx
    | ready o' w' f hs hsv =>
      cases hx
      refine ⟨[(t, .call o (f sh))], ?_, fun u => ?_, hcalls⟩
      · have := Plays.snoc t (.call o (f sh)) hp (by simp [Piece.right, hsv])
        simpa [Piece.after, hsv] using this
      · by_cases e : u = t
        · subst e
          exact ⟨[.call o (f sh)], by rw [piecesOf_self, h1]; simp, by simp only [upd, if_true]; exact .ended o _ hs⟩
        · obtain ⟨ps, h1, h2⟩ := ha u
          exact ⟨ps, by rw [piecesOf_other (Ne.symm e), h1], by simpa [upd, e] using h2⟩
    | batch cs d rest he =>
      rcases loop_cases (.ret (.done (.ok ()))) rest with ⟨-, g1⟩ | ⟨c1, cs', w', g0, g1, g2⟩
      · rw [g1] at hx; cases hx
      · rw [g1] at hx
        cases hx
        refine ⟨[(t, .cmd c1)], ?_, fun u => ?_, hcalls⟩
        · have := Plays.snoc t (.cmd c1) hp trivial
          simpa [Piece.after, g2] using this
        · by_cases e : u = t
          · subst e
            refine ⟨(d ++ [c1]).map .cmd, by rw [piecesOf_self, h1]; simp, ?_⟩
            simp only [upd, if_true]
            exact .batch cs _ cs' (by rw [he, g0]; simp)
          · obtain ⟨ps, h1, h2⟩ := ha u
            exact ⟨ps, by rw [piecesOf_other (Ne.symm e), h1], by simpa [upd, e] using h2⟩
  | @ret sh m cur todo done t o r hcur =>
    refine ⟨[], by simpa using hp, fun u => ?_, fun u => ?_⟩
    · obtain ⟨ps, h1, h2⟩ := ha u
      by_cases e : u = t
      · subst e
        have hb := h2.begun
        simp only [hcur, Begun] at hb
        subst hb
        exact ⟨[], by rw [List.append_nil, h1]; simp [upd], by simp only [upd, if_true]; exact .idle⟩
      · exact ⟨ps, by rw [List.append_nil, h1]; simp [upd, e], by simpa [upd, e] using h2⟩
    · rw [hc u]
      by_cases e : u = t
      · subst e; simp [upd, hcur]
      · simp [upd, e]

theorem mem_steps {m0 : Map} {todo0 : Nat → List Call} {log : List (Nat × Piece)} {c c' : Sys Map Call Ans} (h : MemInv m0 todo0 log c)
    (st : SSteps memCode c c') : ∃ ext, MemInv m0 todo0 (log ++ ext) c' := by
  induction st with
  | refl => exact ⟨[], by simpa using h⟩
  | tail _ s1 ih =>
    obtain ⟨e1, h1⟩ := ih
    obtain ⟨e2, h2⟩ := mem_step h1 s1
    exact ⟨e1 ++ e2, by rwa [← List.append_assoc]⟩

/-- **C147, `MemDB`:** whatever the goroutines do, there is an order of the calls, batches taken apart into their commands, in which
a map that serves one at a time gives the same answers and ends with the same content.  Each goroutine's pieces are in its own order and
belong to the calls it has returned from and the one it is in; and what had been done at some moment stays in front of what is done
later, so the order agrees with time. -/
theorem C147_mem (m0 : Map) (todo : Nat → List Call) (c c' : Sys Map Call Ans) (h : SSteps memCode (sInitial Call Ans m0 todo) c)
    (h' : SSteps memCode c c') : ∃ log ext, Plays (holds m0) log (holds c.shared) ∧ Plays (holds m0) (log ++ ext) (holds c'.shared) ∧
      (∀ t, ∃ ps, piecesOf t log = (c.done t).flatMap pieces ++ ps ∧ Begun (c.cur t) ps) ∧
      (∀ t, ∃ ps, piecesOf t (log ++ ext) = (c'.done t).flatMap pieces ++ ps ∧ Begun (c'.cur t) ps) ∧
      ∀ t, (c'.done t).map Prod.fst <+: todo t := by
  have h0 : MemInv m0 todo [] (sInitial Call Ans m0 todo) :=
    ⟨.nil _, fun t => ⟨[], rfl, .idle⟩, fun t => by simp [sInitial]⟩
  obtain ⟨log, h1⟩ := mem_steps h0 h
  rw [List.nil_append] at h1
  obtain ⟨ext, h2⟩ := mem_steps h1 h'
  refine ⟨log, ext, h1.plays, h2.plays, fun t => ?_, fun t => ?_, fun t => ?_⟩
  · obtain ⟨ps, g1, g2⟩ := h1.at' t
    exact ⟨ps, g1, g2.begun⟩
  · obtain ⟨ps, g1, g2⟩ := h2.at' t
    exact ⟨ps, g1, g2.begun⟩
  · exact ⟨_, by rw [h2.calls t, List.append_assoc]⟩

/-- **C147, `MemDB`:** no goroutine ever waits for another. -/
theorem C147_mem_progress (m0 : Map) (todo : Nat → List Call) (c : Sys Map Call Ans) (h : SSteps memCode (sInitial Call Ans m0 todo) c)
    (t : Nat) (ht : (c.done t).map Prod.fst ≠ todo t) : ∃ c', SStep memCode c c' ∧
      ∀ u, u ≠ t → c'.cur u = c.cur u ∧ c'.todo u = c.todo u ∧ c'.done u = c.done u := by
  have h0 : MemInv m0 todo [] (sInitial Call Ans m0 todo) :=
    ⟨.nil _, fun t => ⟨[], rfl, .idle⟩, fun t => by simp [sInitial]⟩
  obtain ⟨log, h1⟩ := mem_steps h0 h
  obtain ⟨ps, -, g2⟩ := h1.at' t
  have hcalls := h1.calls t
  obtain ⟨sh, m, cur, todo', done⟩ := c
  simp only at *
  generalize hx : cur t = x at g2
  cases g2 with
  | idle =>
    cases hd : todo' t with
    | nil => exact absurd (by rw [hcalls, hx, hd]; simp) ht
    | cons o os =>
      exact ⟨_, .call t o os hd hx, fun u hu => by simp [upd, hu]⟩
  | ready o w f => exact ⟨_, .act t o w _ hx, fun u hu => by simp [upd, hu]⟩
  | ended o r => exact ⟨_, .ret t o r hx, fun u hu => by simp [upd, hu]⟩
  | batch cs d rest he =>
    rcases loop_cases (.ret (.done (.ok ()))) rest with ⟨-, g1⟩ | ⟨c1, cs', w', g0, g1, g2⟩
    · rw [g1] at hx
      exact ⟨_, .ret t _ _ hx, fun u hu => by simp [upd, hu]⟩
    · rw [g1] at hx
      exact ⟨_, .act t _ w' _ hx, fun u hu => by simp [upd, hu]⟩

/-! ### Batches of a `MemDB` are not done at once -/

/-- A batch that writes two keys. -/
def twoKeys : Call := .batch (some [.put (some [1]) (some [7]), .put (some [2]) (some [7])])

/-- One goroutine writes two keys in a batch, another one reads both. -/
def halfTodo : Nat → List Call := fun t => if t = 0 then [twoKeys] else if t = 1 then [.get (some [1]), .get (some [2])] else []

/-- What they have been answered. -/
def halfDone : Nat → List (Call × Ans) := fun t =>
  if t = 0 then [(twoKeys, .done (.ok ()))]
  else if t = 1 then [(.get (some [1]), .value (.ok (some [7]))), (.get (some [2]), .value (.ok none))] else []

theorem half_runs : ∃ c, SSteps memCode (sInitial Call Ans (fun _ => none) halfTodo) c ∧ c.done = halfDone := by
  refine ⟨_, .tail (.tail (.tail (.tail (.tail (.tail (.tail (.tail (.tail (.tail (.refl _)
    (.call 0 twoKeys [] rfl rfl)) (.act 0 twoKeys _ _ rfl))
    (.call 1 (.get (some [1])) [.get (some [2])] rfl rfl)) (.act 1 _ _ _ rfl)) (.ret 1 _ _ rfl))
    (.call 1 (.get (some [2])) [] rfl rfl)) (.act 1 _ _ _ rfl)) (.ret 1 _ _ rfl)) (.act 0 twoKeys _ _ rfl)) (.ret 0 twoKeys _ rfl), ?_⟩
  funext t
  simp only [upd, halfDone]
  by_cases h0 : t = 0
  · subst h0; rfl
  · by_cases h1 : t = 1
    · subst h1; rfl
    · simp only [h0, h1, if_false]

theorem half_never {log : List (Nat × Call × Ans)} {a : Plain} (h : Explains serves (fun _ => .ok none) log a)
    (hc : ∀ e ∈ log, e.2.1 = twoKeys ∨ ∃ k, e.2.1 = .get k) :
    a [1] = a [2] ∧ ((∃ e ∈ log, e.2 = (.get (some [1]), .value (.ok (some [7])))) → a [1] = .ok (some [7])) ∧
      entries 1 log ≠ [(.get (some [1]), .value (.ok (some [7]))), (.get (some [2]), .value (.ok none))] := by
  induction h with
  | nil => exact ⟨rfl, (by rintro ⟨e, he, -⟩; cases he), by simp [entries]⟩
  | @snoc log a' a'' t o r _ h2 ih =>
    obtain ⟨i1, i2, i3⟩ := ih fun e he => hc e (List.mem_append_left _ he)
    have hlast : (∃ e ∈ log, e.2 = (Call.get (some [1]), Ans.value (.ok (some [7])))) →
        (o, r) ≠ (Call.get (some [2]), Ans.value (.ok none)) := by
      rintro hex he
      cases he
      simp only [serves, serve, Prod.mk.injEq, Ans.value.injEq] at h2
      have h3 : a' [2] = .ok none := h2.2
      rw [← i1, i2 hex] at h3
      cases h3
    refine ⟨?_, ?_, ?_⟩
    · rcases hc (t, o, r) (by simp) with e | ⟨k, e⟩
      · simp only at e; subst e
        simp only [serves, serve, twoKeys, Prod.mk.injEq] at h2
        rw [← h2.1]; rfl
      · simp only at e; subst e
        simp only [serves, serve, Prod.mk.injEq] at h2
        rw [← h2.1]; exact i1
    · rintro ⟨e, he, hee⟩
      rcases hc (t, o, r) (by simp) with e1 | ⟨k, e1⟩
      · simp only at e1; subst e1
        simp only [serves, serve, twoKeys, Prod.mk.injEq] at h2
        rw [← h2.1]; rfl
      · simp only at e1; subst e1
        simp only [serves, serve, Prod.mk.injEq] at h2
        rw [← h2.1]
        rw [List.mem_append, List.mem_singleton] at he
        rcases he with he | rfl
        · exact i2 ⟨e, he, hee⟩
        · simp only [Prod.mk.injEq] at hee
          obtain ⟨g1, g2⟩ := hee
          cases g1
          rw [g2] at h2
          simpa [keyOf] using h2.2
    · by_cases ht : t = 1
      · subst ht
        rw [entries_snoc_self]
        intro he
        have h3 := List.append_inj' (t₁ := [(Call.get (some [2]), Ans.value (.ok none))])
          (s₂ := entries 1 log) (s₁ := [(Call.get (some [1]), Ans.value (.ok (some [7])))]) he.symm rfl
        have h4 : (Call.get (some [1]), Ans.value (.ok (some [7]))) ∈ entries 1 log := by rw [← h3.1]; simp
        simp only [entries, List.mem_map, List.mem_filter] at h4
        obtain ⟨e, ⟨he1, -⟩, he2⟩ := h4
        refine hlast ⟨e, he1, he2⟩ ?_
        simpa using h3.2.symm
      · rw [entries_snoc_other ht]
        exact i3

/-- **C147 fails for batches of a `MemDB`:** a goroutine can read the first key of a batch as written and then the second one as not yet
written, which no order of the whole calls explains. -/
theorem C147_mem_batch_refuted : ∃ (todo : Nat → List Call) (c : Sys Map Call Ans),
    SSteps memCode (sInitial Call Ans (fun _ => none) todo) c ∧
    ¬ ∃ log a, Explains serves (fun _ => .ok none) log a ∧ ∀ t, entries t log = c.done t := by
  obtain ⟨c, h1, h2⟩ := half_runs
  refine ⟨halfTodo, c, h1, ?_⟩
  rintro ⟨log, a, h3, h4⟩
  rw [h2] at h4
  refine (half_never h3 fun e he => ?_).2.2 (h4 1)
  have h5 : e.2 ∈ entries e.1 log := by
    simp only [entries, List.mem_map, List.mem_filter]
    exact ⟨e, ⟨he, by simp⟩, rfl⟩
  rw [h4] at h5
  simp only [halfDone] at h5
  split at h5
  · rw [List.mem_singleton] at h5
    exact .inl (by rw [h5])
  · split at h5
    · simp only [List.mem_cons, List.not_mem_nil, or_false] at h5
      rcases h5 with h5 | h5 <;> exact .inr ⟨_, by rw [h5]⟩
    · cases h5

/-- Two goroutines on a temporary database over a base that has one key: one deletes it, the other one then does not find it. -/
example : ∃ c, RWSteps (tempBody fun k => .ok (if k = [5] then some [9] else none)) tempWrites Eq
      (rwInitial Call Ans newTemp fun t => if t = 0 then [.get (some [5]), .del (some [5])] else if t = 1 then [.get (some [5])] else []) c ∧
    c.log = [(0, .get (some [5]), .value (.ok (some [9]))), (0, .del (some [5]), .done (.ok ())), (1, .get (some [5]), .value (.ok none))] :=
  ⟨_, .trans (rw_solo _ _ _ 0 _ _ rfl) (.trans (rw_solo _ _ _ 0 _ _ rfl) (rw_solo _ _ _ 1 _ _ rfl)), rfl⟩

end Verif.DB.MemConc

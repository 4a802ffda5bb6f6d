import Verif.Conc.Mutex
import Verif.HTree.Revert

/-!
# Property C154: one revertable history tree used by several goroutines

Every method of `RevertableHistoryTree` holds its lock (`/repo/trie/revertable.go:334-513`).  The methods are taken apart into the
assignments to `Live` and `Origin` and the calls of the two trees; between two of them other goroutines go on.  Each call of a tree is one
step: the trees are reached through the structure only, and they have locks of their own (C149).

As in `Verif.HTree.Revert`: `Has`, `MergeProof`, `Rebase` and `String` are left out.
-/

namespace Verif.HTree.RevConc
open Verif Verif.Conc Verif.HTree Verif.Merkle Verif.Trie

/-! ### The code -/

/-- A call of the live tree (nothing if there is none). -/
def onLive {A : Type} (f : Tree → Tree × A) (s : RTree) : RTree :=
  match s.live with
  | none => s
  | some l => s.putL (f (l.on s.D)).1

/-- Its answer. -/
def liveOut {A : Type} (f : Tree → Tree × A) (out : A → ROut) (s : RTree) : ROut :=
  match s.live with
  | none => .panic
  | some l => out (f (l.on s.D)).2

/-- A call of the committed tree (nothing if there is none). -/
def onOrigin {A : Type} (f : Tree → Tree × A) (s : RTree) : RTree :=
  match s.origin with
  | none => s
  | some o => s.putO (f (o.on s.D)).1

/-- Its answer. -/
def originOut {A : Type} (f : Tree → Tree × A) (out : A → ROut) (s : RTree) : ROut :=
  match s.origin with
  | none => .panic
  | some o => out (f (o.on s.D)).2

/-- `h.Origin = h.Live.Clone()` (`/repo/trie/revertable.go:347`): the live tree is stored and hashed, the clone is opened. -/
def cloneLive (E : HEnv) (s : RTree) : RTree :=
  match s.live with
  | none => s
  | some l => let c := (l.on s.D).clone E; ⟨c.1.D, c.2, some c.1.core⟩

/-- `h.Live.Append` (`/repo/trie/revertable.go:358`). -/
def liveAppend (E : HEnv) (k : UInt64) (v : Bytes) : Prog RTree ROut :=
  .step (onLive fun t => t.append E k v) fun s => .ret (liveOut (fun t => t.append E k v) .done s)

/-- `CommitAndHash` of a tree in two steps (`/repo/trie/historytree.go:331-342`, `/repo/trie/revertable.go:406-409`): `on` and `out` say of
which tree. -/
def storeAndHash (E : HEnv) (on : (Tree → Tree × Bool) → RTree → RTree) (out : (Tree → Tree × Bool) → RTree → Bool)
    (onH : RTree → RTree) (outH : RTree → ROut) : Prog RTree ROut :=
  .step (on fun t => t.commit E) fun s =>
    if out (fun t => t.commit E) s then .step onH fun s => .ret (outH s) else .ret (.root none)

/-- The answer of a call with a success. -/
def okOf (c : RTree → Option Core) (f : Tree → Tree × Bool) (s : RTree) : Bool :=
  match c s with
  | none => false
  | some t => (f (t.on s.D)).2

/-- The methods with the lock held (`/repo/trie/revertable.go:341-503`). -/
def rbody (E : HEnv) : ROp → Prog RTree ROut
  -- 352-359, 341-350
  | .append k v => .step id fun s =>
    match s.live with
    | some _ => liveAppend E k v
    | none =>
      match s.origin with
      | none => .ret (.done false)
      | some _ => .step (fun s => { s with live := s.origin }) fun _ => .step (cloneLive E) fun _ => liveAppend E k v
  -- 361-368
  | .expecting => .step id fun s => .ret (.next (match s.origin with | none => UInt64.ofNat (2 ^ 64 - 1) | some o => o.1))
  -- 370-377
  | .hash => .step id fun s =>
    match s.origin with
    | none => .ret (.root (some []))
    | some _ => .step (onOrigin fun t => t.hash E) fun s => .ret (originOut (fun t => t.hash E) .root s)
  -- 379-384, 438-444
  | .commitAndHash => .step id fun s =>
    let rest : Prog RTree ROut := .step id fun s =>
      match s.origin with
      | none => .ret .panic
      | some _ => storeAndHash E onOrigin (okOf RTree.origin) (onOrigin fun t => t.hash E) (originOut (fun t => t.hash E) .root)
    match s.live with
    | none => rest
    | some _ => .step (fun s => { s with origin := s.live }) fun _ => .step (fun s => { s with live := none }) fun _ => rest
  -- 386-397
  | .preHash => .step id fun s =>
    match s.live with
    | some _ => .step (onLive fun t => t.hash E) fun s => .ret (liveOut (fun t => t.hash E) .root s)
    | none =>
      match s.origin with
      | none => .ret (.root (some []))
      | some _ => .step (onOrigin fun t => t.hash E) fun s => .ret (originOut (fun t => t.hash E) .root s)
  -- 399-417
  | .preCommit => .step id fun s =>
    match s.live with
    | some _ => storeAndHash E onLive (okOf RTree.live) (onLive fun t => t.hash E) (liveOut (fun t => t.hash E) .root)
    | none =>
      match s.origin with
      | none => .ret (.root (some []))
      | some _ => .step (onOrigin fun t => t.hash E) fun s => .ret (originOut (fun t => t.hash E) .root s)
  -- 419-427
  | .preCollapseBefore k => .step id fun s =>
    match s.live with
    | none => .ret (.collapsed (.ok ()))
    | some _ => .step (onLive fun t => t.collapseBefore E k) fun s => .ret (liveOut (fun t => t.collapseBefore E k) .collapsed s)
  -- 429-436
  | .collapseBefore k => .step id fun s =>
    match s.origin with
    | none => .ret (.collapsed (.ok ()))
    | some _ => .step (onOrigin fun t => t.collapseBefore E k) fun s => .ret (originOut (fun t => t.collapseBefore E k) .collapsed s)
  -- 446-451, 438-444
  | .commit => .step id fun s =>
    let rest : Prog RTree ROut := .step (onOrigin fun t => t.commit E) fun s => .ret (originOut (fun t => t.commit E) .done s)
    match s.live with
    | none => rest
    | some _ => .step (fun s => { s with origin := s.live }) fun _ => .step (fun s => { s with live := none }) fun _ => rest
  -- 459-463
  | .get k => .step (onOrigin fun t => t.get E k) fun s => .ret (originOut (fun t => t.get E k) .value s)
  -- 465-469
  | .getProof k => .step id fun s =>
    match s.origin with
    | none => .ret (.proof none)
    | some _ => .step (onOrigin fun t => t.getProof E k) fun s => .ret (originOut (fun t => t.getProof E k) .proof s)
  -- 496-504
  | .rollback => .step (fun s => { s with live := none }) fun _ => .ret (.done true)

/-- `h.lock.Lock(); defer h.lock.Unlock()` and the body (`/repo/trie/revertable.go:352-503`). -/
def rcode (E : HEnv) : ROp → Code RTree ROut
  | .append k v => .lock (inside (rbody E (.append k v)))
  | .expecting => .lock (inside (rbody E .expecting))
  | .hash => .lock (inside (rbody E .hash))
  | .commitAndHash => .lock (inside (rbody E .commitAndHash))
  | .preHash => .lock (inside (rbody E .preHash))
  | .preCommit => .lock (inside (rbody E .preCommit))
  | .preCollapseBefore k => .lock (inside (rbody E (.preCollapseBefore k)))
  | .collapseBefore k => .lock (inside (rbody E (.collapseBefore k)))
  | .commit => .lock (inside (rbody E .commit))
  | .get k => .lock (inside (rbody E (.get k)))
  | .getProof k => .lock (inside (rbody E (.getProof k)))
  | .rollback => .lock (inside (rbody E .rollback))

theorem rcode_guarded (E : HEnv) (o : ROp) : rcode E o = guarded (rbody E o) := by
  cases o <;> rfl

/-- The steps of a call come to the call. -/
theorem rbody_run (E : HEnv) (o : ROp) (s : RTree) : (rbody E o).run s = rstep E s o := by
  obtain ⟨D, origin, live⟩ := s
  cases o with
  | append k v =>
    cases live with
    | some l => cases origin <;> rfl
    | none => cases origin <;> rfl
  | expecting => rfl
  | hash => cases origin <;> rfl
  | preHash => cases live <;> cases origin <;> rfl
  | commitAndHash =>
    have key : ∀ (o : Core) (live : Option Core), ((storeAndHash E onOrigin (okOf RTree.origin) (onOrigin fun t => t.hash E)
        (originOut (fun t => t.hash E) .root)).run ⟨D, some o, live⟩) =
        ((RTree.putO ⟨D, some o, live⟩ ((o.on D).commitAndHash E).1), .root ((o.on D).commitAndHash E).2) := by
      intro o live
      simp only [storeAndHash, Prog.run, onOrigin, okOf, Tree.commitAndHash, originOut]
      rcases Bool.eq_false_or_eq_true ((o.on D).commit E).2 with h | h <;> simp only [h, if_true, if_false, Bool.false_eq_true, Prog.run] <;> rfl
    cases live with
    | none => cases origin with
      | none => rfl
      | some o => exact key o none
    | some l => exact key l none
  | preCommit =>
    cases live with
    | none => cases origin <;> rfl
    | some l =>
      simp only [rbody, storeAndHash, Prog.run, onLive, okOf, Tree.commitAndHash, liveOut, rstep, id]
      rcases Bool.eq_false_or_eq_true ((l.on D).commit E).2 with h | h <;> simp only [h, if_true, if_false, Bool.false_eq_true, Prog.run] <;> rfl
  | preCollapseBefore k => cases live <;> rfl
  | collapseBefore k => cases origin <;> rfl
  | commit => cases live <;> cases origin <;> rfl
  | get k => cases origin <;> rfl
  | getProof k => cases origin <;> rfl
  | rollback => rfl

/-! ### The order of the calls -/

theorem rrun_append (E : HEnv) : ∀ (a b : List ROp) (s : RTree),
    rrun E s (a ++ b) = ((rrun E (rrun E s a).1 b).1, (rrun E s a).2 ++ (rrun E (rrun E s a).1 b).2)
  | [], b, s => rfl
  | o :: a, b, s => by simp only [List.cons_append, rrun, rrun_append E a b]

/-- The calls of a log. -/
def opsOf (log : List (Nat × ROp × ROut)) : List ROp := log.map fun e => e.2.1

/-- The answers of a log. -/
def outsOf (log : List (Nat × ROp × ROut)) : List ROut := log.map fun e => e.2.2

theorem replays_rrun {E : HEnv} {s0 s : RTree} {log : List (Nat × ROp × ROut)} (h : Replays (rbody E) s0 log s) :
    rrun E s0 (opsOf log) = (s, outsOf log) := by
  induction h with
  | nil => rfl
  | @snoc log s' t o _ ih =>
    simp only [opsOf, outsOf, List.map_append, List.map_cons, List.map_nil] at ih ⊢
    rw [rrun_append, ih, rbody_run]
    rfl

/-- **C154.** Goroutines make any calls on a new revertable history tree.  Whatever the schedule, there is an order of all the calls that
are over; it has every goroutine's calls with their answers in the goroutine's order; it grows at its end while the program goes on; and
the answers in it are those of two lists: `Append` extends the pending list only, `Commit` makes it the committed one, `Rollback` drops
it, and reading, hashing and proving go by the committed one.  (No write fails and the digest has no collision on what is hashed, as in
C117.) -/
theorem C154_linearizable (E : HEnv) (hH : ∀ b, (E.H b).length = 32) (hC : E.C.Lawful) (hF : ∀ x, E.F x = false) (R : Rtl) (D : HDisk)
    (todo : Nat → List ROp) (c c' : Sys RTree ROp ROut) (h : SSteps (rcode E) (sInitial _ _ (.new D) todo) c)
    (h' : SSteps (rcode E) c c') :
    ∃ log ext,
      (∀ t, entries t log = c.done t ∨ ∃ o r, c.cur t = some (o, .ret r) ∧ entries t log = c.done t ++ [(o, r)]) ∧
      (∀ t, entries t (log ++ ext) = c'.done t ∨ ∃ o r, c'.cur t = some (o, .ret r) ∧ entries t (log ++ ext) = c'.done t ++ [(o, r)]) ∧
      (∀ t, todo t = (c'.done t).map Prod.fst ++ (c'.cur t).toList.map Prod.fst ++ c'.todo t) ∧
      ((∀ l ∈ Two.seen ⟨[], []⟩ (opsOf (log ++ ext)), l.length < 2 ^ 64) →
        FairOn E.H (ValOf (Two.seen ⟨[], []⟩ (opsOf (log ++ ext)))) (InputOf E.H (Two.seen ⟨[], []⟩ (opsOf (log ++ ext)))) →
        Two.Answers E R ⟨[], []⟩ (opsOf (log ++ ext)) (outsOf (log ++ ext))) := by
  obtain ⟨log, h1⟩ := sInv_steps (rcode_guarded E) (sInv_initial (rbody E) _ todo) h
  rw [List.nil_append] at h1
  obtain ⟨ext, h2⟩ := sInv_steps (rcode_guarded E) h1 h'
  obtain ⟨r, hr, -, -⟩ := h2.seq
  refine ⟨log, ext, h1.entries, h2.entries, h2.calls, fun hn hf => ?_⟩
  have := C117_run_partial E hH hC hF R D (opsOf (log ++ ext)) hn hf
  rwa [replays_rrun hr] at this

/-- **C154:** no execution gets stuck while calls are left. -/
theorem C154_progress (E : HEnv) (s0 : RTree) (todo : Nat → List ROp) (c : Sys RTree ROp ROut)
    (h : SSteps (rcode E) (sInitial _ _ s0 todo) c) (t : Nat) (ht : (c.done t).map Prod.fst ≠ todo t) : ∃ c', SStep (rcode E) c c' := by
  obtain ⟨log, h1⟩ := sInv_steps (rcode_guarded E) (sInv_initial (rbody E) s0 todo) h
  exact h1.progress t ht

/-! ### Committed values stay -/

/-- The pending list extends the committed one. -/
def Two.Grown (w : Two) : Prop := w.committed <+: w.pending

theorem grown_step {w : Two} (h : Two.Grown w) (o : ROp) : Two.Grown (w.step o) ∧ w.committed <+: (w.step o).committed := by
  cases o with
  | append k v =>
    simp only [Two.step]
    split
    · exact ⟨h.trans (List.prefix_append _ _), List.prefix_refl _⟩
    · exact ⟨h, List.prefix_refl _⟩
  | commit => exact ⟨List.prefix_refl _, h⟩
  | commitAndHash => exact ⟨List.prefix_refl _, h⟩
  | rollback => exact ⟨List.prefix_refl _, List.prefix_refl _⟩
  | _ => exact ⟨h, List.prefix_refl _⟩

theorem grown_run (ops : List ROp) : ∀ {w : Two}, Two.Grown w → Two.Grown (w.run ops) ∧ w.committed <+: (w.run ops).committed := by
  induction ops with
  | nil => intro w h; exact ⟨h, List.prefix_refl _⟩
  | cons o ops ih =>
    intro w h
    obtain ⟨h1, h2⟩ := grown_step h o
    obtain ⟨h3, h4⟩ := ih h1
    exact ⟨h3, h2.trans h4⟩

theorem answers_at {E : HEnv} {R : Rtl} : ∀ (log : List (Nat × ROp × ROut)) (w : Two), w.Answers E R (opsOf log) (outsOf log) →
    ∀ pre t o r post, log = pre ++ (t, o, r) :: post → (w.run (opsOf pre)).Answer E R o r := by
  intro log
  induction log with
  | nil => intro w _ pre t o r post h; simp at h
  | cons e log ih =>
    intro w h pre t o r post hp
    simp only [opsOf, outsOf, List.map_cons, Two.Answers] at h
    cases pre with
    | nil =>
      simp only [List.nil_append, List.cons.injEq] at hp
      rw [hp.1] at h
      exact h.1
    | cons e' pre =>
      simp only [List.cons_append, List.cons.injEq] at hp
      have := ih (w.step e.2.1) h.2 pre t o r post hp.2
      rw [hp.1] at this
      exact this

theorem prefix_some {A : Type} {l l' : List A} (h : l <+: l') {i : Nat} {a : A} (hi : l[i]? = some a) : l'[i]? = some a := by
  obtain ⟨r, rfl⟩ := h
  obtain ⟨hlt, _⟩ := List.getElem?_eq_some_iff.mp hi
  rw [List.getElem?_append_left hlt]
  exact hi

/-- **C154, values stay:** in the order of the calls, once `Get` of a key has answered a value, to whichever goroutine, every later `Get` of
that key answers it, whoever appends, rolls back and commits in between. -/
theorem C154_stable (E : HEnv) (R : Rtl) (log : List (Nat × ROp × ROut)) (h : Two.Answers E R ⟨[], []⟩ (opsOf log) (outsOf log))
    (pre mid post : List (Nat × ROp × ROut)) (t u : Nat) (k : UInt64) (v : Bytes) (r : ROut)
    (hl : log = pre ++ (t, .get k, .value (some v)) :: mid ++ (u, .get k, r) :: post) : r = .value (some v) := by
  have h1 := answers_at log _ h pre t (.get k) (.value (some v)) (mid ++ (u, .get k, r) :: post) (by rw [hl]; simp)
  have h2 := answers_at log _ h (pre ++ (t, .get k, .value (some v)) :: mid) u _ _ post hl
  simp only [Two.Answer] at h1 h2
  have h1' : (Two.run ⟨[], []⟩ (opsOf pre)).committed[k.toNat]? = some v := by simpa using h1.symm
  rw [h2]
  congr 1
  have e : Two.run ⟨[], []⟩ (opsOf (pre ++ (t, .get k, .value (some v)) :: mid)) =
      (Two.run ⟨[], []⟩ (opsOf pre)).run (opsOf ((t, .get k, .value (some v)) :: mid)) := by
    simp [Two.run, opsOf, List.foldl_append]
  rw [e]
  exact prefix_some (grown_run _ (grown_run (opsOf pre) (w := ⟨[], []⟩) (List.prefix_refl _)).1).2 h1'

/-- The call commits. -/
def _root_.Verif.HTree.ROp.commits : ROp → Bool
  | .commit => true
  | .commitAndHash => true
  | _ => false

/-- **C154, isolation:** between two commits in the order of the calls, all `Get`s of a key answer alike, whoever appends and rolls back
meanwhile. -/
theorem C154_isolated (E : HEnv) (R : Rtl) (log : List (Nat × ROp × ROut)) (h : Two.Answers E R ⟨[], []⟩ (opsOf log) (outsOf log))
    (pre mid post : List (Nat × ROp × ROut)) (t u : Nat) (k : UInt64) (r r' : ROut) (hm : ∀ e ∈ mid, e.2.1.commits = false)
    (hl : log = pre ++ (t, .get k, r) :: mid ++ (u, .get k, r') :: post) : r' = r := by
  have h1 := answers_at log _ h pre t (.get k) r (mid ++ (u, .get k, r') :: post) (by rw [hl]; simp)
  have h2 := answers_at log _ h (pre ++ (t, .get k, r) :: mid) u _ _ post hl
  simp only [Two.Answer] at h1 h2
  have same : ∀ (l : List (Nat × ROp × ROut)) (w : Two), (∀ e ∈ l, e.2.1.commits = false) → (w.run (opsOf l)).committed = w.committed := by
    intro l
    induction l with
    | nil => intro w _; rfl
    | cons e l ih =>
      intro w hw
      have h3 := ih (w.step e.2.1) (fun x hx => hw x (List.mem_cons_of_mem _ hx))
      have h4 : (w.step e.2.1).committed = w.committed := by
        have := hw e (List.mem_cons_self ..)
        cases ho : e.2.1 with
        | append k v => simp only [Two.step]; split <;> rfl
        | commit => rw [ho] at this; cases this
        | commitAndHash => rw [ho] at this; cases this
        | _ => rfl
      exact h3.trans h4
  have e : Two.run ⟨[], []⟩ (opsOf (pre ++ (t, .get k, r) :: mid)) = ((Two.run ⟨[], []⟩ (opsOf pre)).step (.get k)).run (opsOf mid) := by
    simp [Two.run, opsOf, List.foldl_append]
  rw [h1, h2, e, same mid _ hm]
  rfl

/-! ### Without the lock

The same methods without the lock of the structure, each call of a tree still being one step: two goroutines that append at the same time
are both told that their value is the first one, and one of the values is lost. -/

/-- A body without the lock. -/
def bare {S R : Type} : Prog S R → Code S R
  | .ret r => .ret r
  | .step w k => .act w fun s => bare (k s)

/-- The two goroutines. -/
def twoAppends : Nat → List ROp
  | 0 => [.append 0 (toyLeaf 100)]
  | 1 => [.append 0 (toyLeaf 101)]
  | _ => []

/-- One step of a goroutine, as far as it can be computed. -/
def tick {S O R : Type} (code : O → Code S R) (t : Nat) (c : Sys S O R) : Sys S O R :=
  match c.cur t with
  | none => match c.todo t with
    | [] => c
    | o :: os => ⟨c.shared, c.mutex, upd c.cur t (some (o, code o)), upd c.todo t os, c.done⟩
  | some (o, .act w k) => ⟨w c.shared, c.mutex, upd c.cur t (some (o, k c.shared)), c.todo, c.done⟩
  | some (o, .ret r) => ⟨c.shared, c.mutex, upd c.cur t none, c.todo, upd c.done t (c.done t ++ [(o, r)])⟩
  | some _ => c

theorem tick_steps {S O R : Type} (code : O → Code S R) {a c : Sys S O R} (h : SSteps code a c) (t : Nat) : SSteps code a (tick code t c) := by
  obtain ⟨s, m, cur, todo, done⟩ := c
  unfold tick
  simp only
  split
  · rename_i hc
    split
    · exact h
    · rename_i o os ht
      exact .tail h (.call t o os ht hc)
  · rename_i o w k hc
    exact .tail h (.act t o w k hc)
  · rename_i o r hc
    exact .tail h (.ret t o r hc)
  · exact h

theorem ticks_steps {S O R : Type} (code : O → Code S R) (ts : List Nat) : ∀ {a c : Sys S O R}, SSteps code a c →
    SSteps code a (ts.foldl (fun c t => tick code t c) c) := by
  induction ts with
  | nil => intro a c h; exact h
  | cons t ts ih => intro a c h; exact ih (tick_steps code h t)

/-- A schedule: both goroutines find no live tree. -/
def badSchedule : List Nat := [0, 1, 0, 1, 0, 0, 0, 0, 1, 1, 1, 1]

/-- The lock is needed: without it both appends at key 0 are accepted. -/
theorem C154_lock_needed : ∃ c, SSteps (fun o => bare (rbody toyHE o)) (sInitial _ _ (.new noDisk) twoAppends) c ∧
    (c.done 0).map Prod.snd = [.done true] ∧ (c.done 1).map Prod.snd = [.done true] := by
  refine ⟨_, ticks_steps _ badSchedule (.refl _), ?_, ?_⟩
  · have : ((badSchedule.foldl (fun c t => tick (fun o => bare (rbody toyHE o)) t c) (sInitial _ _ (.new noDisk) twoAppends)).done 0).map
        (fun e => match e.2 with | .done b => some b | _ => none) = [some true] := by decide +kernel
    revert this
    generalize ((badSchedule.foldl (fun c t => tick (fun o => bare (rbody toyHE o)) t c) (sInitial _ _ (.new noDisk) twoAppends)).done 0) = l
    intro h
    match l, h with
    | [(_, .done true)], _ => rfl
  · have : ((badSchedule.foldl (fun c t => tick (fun o => bare (rbody toyHE o)) t c) (sInitial _ _ (.new noDisk) twoAppends)).done 1).map
        (fun e => match e.2 with | .done b => some b | _ => none) = [some true] := by decide +kernel
    revert this
    generalize ((badSchedule.foldl (fun c t => tick (fun o => bare (rbody toyHE o)) t c) (sInitial _ _ (.new noDisk) twoAppends)).done 1) = l
    intro h
    match l, h with
    | [(_, .done true)], _ => rfl

/-! ### Concrete cases -/

/-- The calls of C117 have answers in an order; the assumptions hold for them. -/
example : Two.Answers toyHE toyRtl ⟨[], []⟩ (opsOf (demoCalls.map fun o => (0, o, ROut.panic))) (rrun toyHE (.new noDisk) demoCalls).2 := by
  have : opsOf (demoCalls.map fun o => (0, o, ROut.panic)) = demoCalls := by simp [opsOf, Function.comp_def]
  rw [this]
  exact C117_run_partial toyHE toyHE_len toyC_lawful (fun _ => rfl) toyRtl noDisk demoCalls
    (fun l hl => by obtain ⟨n, rfl⟩ := demo_seen l hl; have : (fairVals.take n).length ≤ 2 := by simp [fairVals]
                    omega) demo_fair

/-- The two appends with the lock: one is refused. -/
example : (rrun toyHE (.new noDisk) [.append 0 (toyLeaf 100), .append 0 (toyLeaf 101)]).2.map (fun o => match o with | .done b => b | _ => false) =
    [true, false] := by decide +kernel

end Verif.HTree.RevConc

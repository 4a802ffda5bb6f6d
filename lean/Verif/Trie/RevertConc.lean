import Verif.Trie.RevertProps
import Verif.Conc.RW
import Verif.Conc.Mutex

/-!
# Property C152: one revertable trie used by several goroutines

Every method of `RevertableTrie` holds its lock.  The methods are taken apart into their steps; every schedule is then explained by an
order of whole calls, so that `Get` sees committed values only, whoever changes the live trie meanwhile.  `LiveTrie`, however, gives the
live trie out of the lock: the second part has the two tries as pointers, and shows that a trie given out becomes the committed one.

As in `Verif.Trie.Revert`: `Origin` is not nil, and there is one storage.
-/

namespace Verif.Trie.Store
open Verif Verif.Merkle Verif.Trie Verif.Conc

variable {V : Type}

/-! ### The code -/

/-- `r.Live.Put` (`/repo/trie/revertable.go:143`). -/
def Rev.livePut (E : Env V) (r : Rev V) (k : Bytes) (x : V) : Rev V :=
  { r with live := r.live.map fun t => (t.put E r.D k x).1 }

/-- Its answer. -/
def Rev.livePutOut (E : Env V) (r : Rev V) (k : Bytes) (x : V) : Bool :=
  match r.live with
  | some t => (t.put E r.D k x).2
  | none => false

/-- `r.Live.Delete` (`/repo/trie/revertable.go:169`). -/
def Rev.liveDel (E : Env V) (r : Rev V) (k : Bytes) : Rev V :=
  { r with live := r.live.map fun t =>
    match t.del E r.D k with
    | some y => y.1
    | none => t }

/-- Its answer. -/
def Rev.liveDelOut (E : Env V) (r : Rev V) (k : Bytes) : ROut V :=
  match r.live with
  | none => .panic
  | some t =>
    match t.del E r.D k with
    | none => .panic
    | some y => .deleted y.2.1 y.2.2

/-- `r.Origin.Commit` (`/repo/trie/revertable.go:198`). -/
def Rev.originCommit (E : Env V) (F : Faults) (L : Limits) (r : Rev V) : Rev V × Bool :=
  let x := r.origin.commit E F L r.D
  ({ r with origin := x.1, D := x.2.1 }, x.2.2)

/-- `r.Live.Commit` (`/repo/trie/revertable.go:261`). -/
def Rev.liveCommit (E : Env V) (F : Faults) (L : Limits) (r : Rev V) : Rev V × Bool :=
  match r.live with
  | none => (r, false)
  | some t =>
    let c := t.commit E F L r.D
    ({ r with live := some c.1, D := c.2.1 }, c.2.2)

/-- `preCommitLocked` (`/repo/trie/revertable.go:254-265`), followed by what is done with the root, if there is one. -/
def preCommitSteps (E : Env V) (F : Faults) (L : Limits) (next : Bytes → Prog (Rev V) (ROut V)) : Prog (Rev V) (ROut V) :=
  .step id fun r =>
    match r.live with
    | none => .step (fun r => (r.hash E).1) fun r => next (r.hash E).2
    | some _ => .step (fun r => (r.liveCommit E F L).1) fun r =>
      if (r.liveCommit E F L).2 then .step (fun r => (r.preHash E).1) fun r => next (r.preHash E).2
      else .ret (.done false)

/-- The methods between `Lock` and `Unlock`: `Get` (`/repo/trie/revertable.go:119-122`), `GetLive` (129-136), `Put` (139-144, 149), `Delete`
(166-169; what is left of the trie after a panic is left out), `HashValue` (102-105), `PreHashValue` (248-251), `Commit` (197-198),
`CommitAndHash` (111-112), `PreCommit` (271), `Rollback` (280-281), `CheckPoint` (292-298), `RevertTo` (309-324; its check of the arguments
does not touch the trie). -/
def rbody (E : Env V) (F : Faults) (L : Limits) : ROp V → Prog (Rev V) (ROut V)
  | .get k => .step (fun r => (r.get E k).1) fun r => .ret (.value (r.get E k).2)
  | .getLive k => .step id fun _ => .step (fun r => (r.getLive E k).1) fun r => .ret (.value (r.getLive E k).2)
  | .put k x => .step (fun r => (r.checkLive E F L).1) fun _ =>
    .step (fun r => r.livePut E k x) fun r => .ret (.changed (r.livePutOut E k x))
  | .del k => .step id fun r =>
    match r.del E F L k with
    | none => .ret .panic
    | some _ => .step (fun r => (r.checkLive E F L).1) fun _ => .step (fun r => r.liveDel E k) fun r => .ret (r.liveDelOut E k)
  | .hash => .step (fun r => (r.hash E).1) fun r => .ret (.root (r.hash E).2)
  | .preHash => .step id fun _ => .step (fun r => (r.preHash E).1) fun r => .ret (.root (r.preHash E).2)
  | .commit => .step (fun r => r.prepare) fun _ =>
    .step (fun r => (r.originCommit E F L).1) fun r => .ret (.done (r.originCommit E F L).2)
  | .commitHash => .step (fun r => r.prepare) fun _ =>
    .step (fun r => (r.originCommit E F L).1) fun r =>
      if (r.originCommit E F L).2 then .step (fun r => (r.hash E).1) fun r => .ret (.root (r.hash E).2)
      else .ret (.done false)
  | .preCommit => preCommitSteps E F L fun root => .ret (.root root)
  | .rollback => .step (fun r => { r with live := none }) fun _ => .step (fun r => { r with chkpts := [] }) fun _ => .ret (.done true)
  | .check => preCommitSteps E F L fun root =>
    .step (fun r => { r with chkpts := r.chkpts ++ [toHash root] }) fun r => .ret (.point r.chkpts.length root)
  | .revert i root => .step id fun r =>
    if root.length = 0 then .ret (.done false)
    else
      match r.chkpts[i]? with
      | none => .ret (.done false)
      | some h =>
        if toHash root ≠ h then .ret (.done false)
        else .step (fun r => { r with chkpts := r.chkpts.take i }) fun _ =>
          .step (fun r => { r with live := if i = 0 then none else r.live.map fun _ => inherit root }) fun _ => .ret (.done true)

/-- `r.lock.Lock(); defer r.lock.Unlock()` and the body (`/repo/trie/revertable.go:98-325`). -/
def rcode (E : Env V) (F : Faults) (L : Limits) : ROp V → Code (Rev V) (ROut V)
  | .get k => .lock (inside (rbody E F L (.get k)))
  | .getLive k => .lock (inside (rbody E F L (.getLive k)))
  | .put k x => .lock (inside (rbody E F L (.put k x)))
  | .del k => .lock (inside (rbody E F L (.del k)))
  | .hash => .lock (inside (rbody E F L .hash))
  | .preHash => .lock (inside (rbody E F L .preHash))
  | .commit => .lock (inside (rbody E F L .commit))
  | .commitHash => .lock (inside (rbody E F L .commitHash))
  | .preCommit => .lock (inside (rbody E F L .preCommit))
  | .rollback => .lock (inside (rbody E F L .rollback))
  | .check => .lock (inside (rbody E F L .check))
  | .revert i root => .lock (inside (rbody E F L (.revert i root)))

theorem rcode_guarded (E : Env V) (F : Faults) (L : Limits) (o : ROp V) : rcode E F L o = guarded (rbody E F L o) := by
  cases o <;> rfl

/-- The steps of a call come to the call. -/
theorem rbody_run (E : Env V) (F : Faults) (L : Limits) (o : ROp V) (r : Rev V) : (rbody E F L o).run r = rstep E F L r o := by
  obtain ⟨origin, live, chkpts, D⟩ := r
  cases o with
  | get k => rfl
  | getLive k => rfl
  | hash => rfl
  | preHash => rfl
  | rollback => rfl
  | put k x =>
    cases live <;> rfl
  | del k =>
    simp only [rbody, Prog.run, rstep, id]
    cases live with
    | none =>
      simp only [Rev.del, Rev.checkLive]
      cases h : ((origin.clone E F L D).1.del E (origin.clone E F L D).2.1 k) with
      | none => simp [Prog.run]
      | some y => simp [Prog.run, Rev.liveDel, Rev.liveDelOut, Rev.checkLive, h]
    | some t =>
      simp only [Rev.del, Rev.checkLive]
      cases h : t.del E D k with
      | none => simp [Prog.run]
      | some y => simp [Prog.run, Rev.liveDel, Rev.liveDelOut, Rev.checkLive, h]
  | commit => cases live <;> rfl
  | commitHash =>
    cases live with
    | none =>
      simp only [rbody, Prog.run, rstep, Rev.prepare, Rev.originCommit, Rev.commitHash, Rev.commit]
      rcases Bool.eq_false_or_eq_true (origin.commit E F L D).2.2 with h | h <;> simp [Prog.run, h]
    | some t =>
      simp only [rbody, Prog.run, rstep, Rev.prepare, Rev.originCommit, Rev.commitHash, Rev.commit]
      rcases Bool.eq_false_or_eq_true (t.commit E F L D).2.2 with h | h <;> simp [Prog.run, h]
  | preCommit =>
    cases live with
    | none => rfl
    | some t =>
      simp only [rbody, preCommitSteps, Prog.run, rstep, Rev.preCommit, Rev.liveCommit, id]
      rcases Bool.eq_false_or_eq_true (t.commit E F L D).2.2 with h | h <;> simp [Prog.run, h, Rev.preHash]
  | check =>
    cases live with
    | none => rfl
    | some t =>
      simp only [rbody, preCommitSteps, Prog.run, rstep, Rev.check, Rev.preCommit, Rev.liveCommit, id]
      rcases Bool.eq_false_or_eq_true (t.commit E F L D).2.2 with h | h <;> simp [Prog.run, h, Rev.preHash]
  | revert i root =>
    simp only [rbody, Prog.run, rstep, Rev.revertTo, id]
    by_cases h0 : root.length = 0
    · simp only [h0, if_true, Prog.run]
    · simp only [h0, if_false]
      cases h1 : chkpts[i]? with
      | none => simp only [Prog.run]
      | some h =>
        simp only
        by_cases h2 : toHash root ≠ h
        · simp only [h2, if_true, Prog.run, ne_eq, not_false_eq_true]
        · simp only [h2, if_false, Prog.run]
          by_cases h3 : i = 0
          · subst h3; simp
          · simp [h3]

/-! ### The order of the calls -/

variable {E : Env V}

theorem routs_append (F : Faults) (L : Limits) (a b : List (ROp V)) : ∀ r : Rev V,
    routs E F L r (a ++ b) = routs E F L r a ++ routs E F L (rrun E F L r a) b := by
  induction a with
  | nil => intro r; rfl
  | cons o a ih => intro r; simp only [List.cons_append, routs, ih, rrun, List.foldl_cons]

theorem replays_routs {F : Faults} {L : Limits} {r0 r : Rev V} {log : List (Nat × ROp V × ROut V)} (h : Replays (rbody E F L) r0 log r) :
    log.map (fun e => e.2.2) = routs E F L r0 (log.map fun e => e.2.1) ∧ r = rrun E F L r0 (log.map fun e => e.2.1) := by
  induction h with
  | nil => exact ⟨rfl, rfl⟩
  | @snoc log r' t o _ ih =>
    obtain ⟨h1, h2⟩ := ih
    simp only [List.map_append, List.map_cons, List.map_nil, rbody_run]
    rw [h1, routs_append, ← h2]
    refine ⟨rfl, ?_⟩
    rw [rrun_append, ← h2]
    rfl

/-- The calls of a log. -/
def opsOf (log : List (Nat × ROp V × ROut V)) : List (ROp V) := log.map fun e => e.2.1

/-- The answers of a log. -/
def outsOf (log : List (Nat × ROp V × ROut V)) : List (ROut V) := log.map fun e => e.2.2

/-- **C152.** Goroutines make any calls on a revertable trie that is made of any trie.  Whatever the schedule, there is an order of all the
calls that are over; it has every goroutine's calls with their answers in the goroutine's order; it grows at its end while the program
goes on, so that a call that is over before another one begins comes before it; and the answers in it are those that two separate tries
in memory, with copies at the check points, give to the calls one after another.  (Reverts are subject to the limits of C17.) -/
theorem C152_linearizable (hE : E.Lawful) (L : Limits) (ops0 : List (SOp V)) (D : Disk) (hD : D.ok) (todo : Nat → List (ROp V))
    (c c' : Sys (Rev V) (ROp V) (ROut V))
    (h : SSteps (rcode E noFaults L) (sInitial _ _ (revOf (srun E noFaults ⟨openTrie none, D⟩ ops0)) todo) c) (h' : SSteps (rcode E noFaults L) c c') :
    ∃ log ext,
      (∀ t, entries t log = c.done t ∨ ∃ o r, c.cur t = some (o, .ret r) ∧ entries t log = c.done t ++ [(o, r)]) ∧
      (∀ t, entries t (log ++ ext) = c'.done t ∨ ∃ o r, c'.cur t = some (o, .ret r) ∧ entries t (log ++ ext) = c'.done t ++ [(o, r)]) ∧
      (∀ t, todo t = (c'.done t).map Prod.fst ++ (c'.cur t).toList.map Prod.fst ++ c'.todo t) ∧
      (Apart E (trees E ops0 (opsOf (log ++ ext))) → FineOps E (twoOf ops0) (opsOf (log ++ ext)) →
        outsOf (log ++ ext) = iouts E (twoOf ops0) (opsOf (log ++ ext))) := by
  obtain ⟨log, h1⟩ := sInv_steps (rcode_guarded E noFaults L) (sInv_initial (rbody E noFaults L) _ todo) h
  rw [List.nil_append] at h1
  obtain ⟨ext, h2⟩ := sInv_steps (rcode_guarded E noFaults L) h1 h'
  obtain ⟨r, hr, -, -⟩ := h2.seq
  refine ⟨log, ext, h1.entries, h2.entries, h2.calls, fun hA hf => ?_⟩
  exact (replays_routs hr).1.trans (C17_two_tries_partial hE ops0 _ hf hA L D hD)

/-- **C152:** no execution gets stuck while calls are left. -/
theorem C152_progress (E : Env V) (F : Faults) (L : Limits) (r0 : Rev V) (todo : Nat → List (ROp V)) (c : Sys (Rev V) (ROp V) (ROut V))
    (h : SSteps (rcode E F L) (sInitial _ _ r0 todo) c) (t : Nat) (ht : (c.done t).map Prod.fst ≠ todo t) : ∃ c', SStep (rcode E F L) c c' := by
  obtain ⟨log, h1⟩ := sInv_steps (rcode_guarded E F L) (sInv_initial (rbody E F L) r0 todo) h
  exact h1.progress t ht

/-! ### Seen as maps -/

/-- What a call does to the committed and the live map, and what `Get` and `GetLive` answer. -/
def mapsServe (o : ROp V) (m m' : Maps V) (r : ROut V) : Prop :=
  m' = m.step o ∧
    match o with
    | .get k => r = .value (m.committed k)
    | .getLive k => r = .value (m.live k)
    | _ => True

theorem apart_mono {T T' : Node V → Prop} (h : ∀ a, T a → T' a) (h0 : T (.mk [] none noChild)) (hA : Apart E T') : Apart E T :=
  ⟨h0, fun ha hb hx hy he => hA.values (h _ ha) (h _ hb) hx hy he, fun ha => hA.no64 (h _ ha), fun ha hb => hA.digest (h _ ha) (h _ hb)⟩

theorem trees_mono {ops0 : List (SOp V)} {a b : List (ROp V)} (h : a <+: b) (n : Node V) (hn : trees E ops0 a n) : trees E ops0 b n := by
  rcases hn with hn | ⟨pre, hp, hn⟩
  · exact .inl hn
  · exact .inr ⟨pre, hp.trans h, hn⟩

/-- The start as maps. -/
def mapsOf (ops0 : List (SOp V)) : Maps V := ⟨spec (ops0.filterMap SOp.call), spec (ops0.filterMap SOp.call)⟩

theorem replays_maps (hE : E.Lawful) {K : Bytes → Prop} (hK : PrefixFree K) {ops0 : List (SOp V)} (hk0 : ∀ op ∈ ops0, ∀ k, op.key = some k → K k)
    {L : Limits} {D : Disk} (hD : D.ok) {r0 r : Rev V} {log : List (Nat × ROp V × ROut V)} (h : Replays (rbody E noFaults L) r0 log r)
    (h0 : r0 = revOf (srun E noFaults ⟨openTrie none, D⟩ ops0)) (hk : ∀ op ∈ opsOf log, ∀ k, op.key = some k → K k)
    (hp : ∀ op ∈ opsOf log, op.plain = true) (hA : Apart E (trees E ops0 (opsOf log))) :
    Explains mapsServe (mapsOf ops0) log ((opsOf log).foldl Maps.step (mapsOf ops0)) := by
  induction h with
  | nil => exact .nil _
  | @snoc log r' t o hr ih =>
    subst h0
    have hpre : opsOf log <+: opsOf (log ++ [(t, o, ((rbody E noFaults L o).run r').2)]) := by
      simp only [opsOf, List.map_append]; exact List.prefix_append _ _
    have hk' := fun op h => hk op (hpre.subset h)
    have hp' := fun op h => hp op (hpre.subset h)
    have hA' : Apart E (trees E ops0 (opsOf log)) := apart_mono (trees_mono hpre) (.inl ⟨[], List.nil_prefix, rfl⟩) hA
    have ih' := ih hk' hp' hA'
    have ho : o ∈ opsOf (log ++ [(t, o, ((rbody E noFaults L o).run r').2)]) := by simp [opsOf]
    have hr' := (replays_routs hr).2
    have e : opsOf (log ++ [(t, o, ((rbody E noFaults L o).run r').2)]) = opsOf log ++ [o] := by simp [opsOf]
    rw [e, List.foldl_append]
    refine .snoc t o _ ih' ⟨rfl, ?_⟩
    rw [rbody_run]
    cases o with
    | get k =>
      have := (C16_maps hE K hK ops0 (opsOf log) hk0 hk' hp' hA' L D hD k (hk _ ho k rfl)).1
      simp only [rstep, hr']
      exact congrArg ROut.value this
    | getLive k =>
      have := (C16_maps hE K hK ops0 (opsOf log) hk0 hk' hp' hA' L D hD k (hk _ ho k rfl)).2
      simp only [rstep, hr']
      exact congrArg ROut.value this
    | _ => trivial

theorem sinv_mem {O R S : Type} {body : O → Prog S R} {s0 : S} {todo0 : Nat → List O} {log : List (Nat × O × R)}
    {c : Sys S O R} (h : Conc.SInv body s0 todo0 log c) {e : Nat × O × R} (he : e ∈ log) : e.2.1 ∈ todo0 e.1 := by
  have h1 : e.2 ∈ entries e.1 log := by
    simp only [entries, List.mem_map, List.mem_filter]
    exact ⟨e, ⟨he, by simp⟩, rfl⟩
  have h2 := h.calls e.1
  rcases h.entries e.1 with h3 | ⟨o, r, h3, h4⟩
  · rw [h3] at h1
    rw [h2]
    exact List.mem_append_left _ (List.mem_append_left _ (List.mem_map_of_mem h1))
  · rw [h4] at h1
    rw [h2, h3]
    rcases List.mem_append.mp h1 with h1 | h1
    · exact List.mem_append_left _ (List.mem_append_left _ (List.mem_map_of_mem h1))
    · rw [List.mem_singleton] at h1
      rw [h1]
      simp

/-- **C152, as maps:** without reverts and over a prefix-free set of keys, `Get` of whatever goroutine answers from the map at the last
commit in the order, and `GetLive` from the map with the changes since. -/
theorem C152_maps (hE : E.Lawful) (L : Limits) (K : Bytes → Prop) (hK : PrefixFree K) (ops0 : List (SOp V))
    (hk0 : ∀ op ∈ ops0, ∀ k, op.key = some k → K k) (D : Disk) (hD : D.ok) (todo : Nat → List (ROp V))
    (hk : ∀ t, ∀ op ∈ todo t, ∀ k, op.key = some k → K k) (hp : ∀ t, ∀ op ∈ todo t, op.plain = true)
    (c : Sys (Rev V) (ROp V) (ROut V))
    (h : SSteps (rcode E noFaults L) (sInitial _ _ (revOf (srun E noFaults ⟨openTrie none, D⟩ ops0)) todo) c) :
    ∃ log, (∀ t, entries t log = c.done t ∨ ∃ o r, c.cur t = some (o, .ret r) ∧ entries t log = c.done t ++ [(o, r)]) ∧
      (Apart E (trees E ops0 (opsOf log)) → ∃ m, Explains mapsServe (mapsOf ops0) log m) := by
  obtain ⟨log, h1⟩ := sInv_steps (rcode_guarded E noFaults L) (sInv_initial (rbody E noFaults L) _ todo) h
  rw [List.nil_append] at h1
  obtain ⟨r, hr, -, -⟩ := h1.seq
  have hm : ∀ op ∈ opsOf log, ∃ t, op ∈ todo t := by
    intro op hop
    simp only [opsOf, List.mem_map] at hop
    obtain ⟨e, he, rfl⟩ := hop
    exact ⟨e.1, sinv_mem h1 he⟩
  exact ⟨log, h1.entries, fun hA => ⟨_, replays_maps hE hK hk0 hD hr rfl (fun op ho k hkk => by obtain ⟨t, ht⟩ := hm op ho; exact hk t op ht k hkk)
    (fun op ho => by obtain ⟨t, ht⟩ := hm op ho; exact hp t op ht) hA⟩⟩

/-- The call commits. -/
def ROp.commits : ROp V → Bool
  | .commit => true
  | .commitHash => true
  | _ => false

theorem maps_uncommitted {m m' : Maps V} {log : List (Nat × ROp V × ROut V)} (h : Explains mapsServe m log m')
    (hc : ∀ e ∈ log, e.2.1.commits = false) :
    m'.committed = m.committed ∧ ∀ t k r, (t, ROp.get k, r) ∈ log → r = .value (m.committed k) := by
  induction h with
  | nil => exact ⟨rfl, fun _ _ _ h => by cases h⟩
  | @snoc log m' m'' t o r _ hs ih =>
    obtain ⟨h1, h2⟩ := ih fun e he => hc e (List.mem_append_left _ he)
    have hco := hc (t, o, r) (by simp)
    simp only at hco
    refine ⟨?_, ?_⟩
    · rw [hs.1, ← h1]
      cases o <;> first | rfl | simp [ROp.commits] at hco
    · intro t' k r' hm
      rcases List.mem_append.mp hm with hm | hm
      · exact h2 t' k r' hm
      · rw [List.mem_singleton] at hm
        injection hm with e1 e2
        injection e2 with e2 e3
        subst e1 e2 e3
        rw [← h1]
        exact hs.2

/-- **C152, isolation:** as long as nobody commits, every `Get` by every goroutine answers from the trie as it was at the start, whatever
the others put, delete, check, and roll back (`ops` are the calls made so far, in order; `Apart`: their tries show no hash collision). -/
theorem C152_isolated (hE : E.Lawful) (L : Limits) (K : Bytes → Prop) (hK : PrefixFree K) (ops0 : List (SOp V))
    (hk0 : ∀ op ∈ ops0, ∀ k, op.key = some k → K k) (D : Disk) (hD : D.ok) (todo : Nat → List (ROp V))
    (hk : ∀ t, ∀ op ∈ todo t, ∀ k, op.key = some k → K k) (hp : ∀ t, ∀ op ∈ todo t, op.plain = true)
    (hc : ∀ t, ∀ op ∈ todo t, op.commits = false)
    (c : Sys (Rev V) (ROp V) (ROut V))
    (h : SSteps (rcode E noFaults L) (sInitial _ _ (revOf (srun E noFaults ⟨openTrie none, D⟩ ops0)) todo) c) :
    ∃ ops : List (ROp V), (∀ op ∈ ops, ∃ t, op ∈ todo t) ∧ (Apart E (trees E ops0 ops) →
      ∀ t k r, (ROp.get k, r) ∈ c.done t → r = .value (spec (ops0.filterMap SOp.call) k)) := by
  obtain ⟨log, h1⟩ := sInv_steps (rcode_guarded E noFaults L) (sInv_initial (rbody E noFaults L) _ todo) h
  rw [List.nil_append] at h1
  obtain ⟨r', hr', -, -⟩ := h1.seq
  have hm : ∀ op ∈ opsOf log, ∃ t, op ∈ todo t := by
    intro op hop
    simp only [opsOf, List.mem_map] at hop
    obtain ⟨e, he, rfl⟩ := hop
    exact ⟨e.1, sinv_mem h1 he⟩
  refine ⟨opsOf log, hm, fun hA t k r hr => ?_⟩
  have hx := replays_maps hE hK hk0 hD hr' rfl (fun op ho k hkk => by obtain ⟨t, ht⟩ := hm op ho; exact hk t op ht k hkk)
    (fun op ho => by obtain ⟨t, ht⟩ := hm op ho; exact hp t op ht) hA
  refine (maps_uncommitted hx fun e he => hc e.1 _ (sinv_mem h1 he)).2 t k r ?_
  have hin : (ROp.get k, r) ∈ entries t log := by
    rcases h1.entries t with h3 | ⟨o, r, -, h4⟩
    · rw [h3]; exact hr
    · rw [h4]; exact List.mem_append_left _ hr
  simp only [entries, List.mem_map, List.mem_filter] at hin
  obtain ⟨e, ⟨he1, he2⟩, he3⟩ := hin
  obtain ⟨u, e⟩ := e
  simp only [beq_iff_eq] at he2 he3
  subst he2 he3
  exact he1

/-! ### An example -/

deriving instance DecidableEq for ROp

theorem inside_whole {S O R : Type} {code : O → Code S R} (t : Nat) (o : O) : ∀ (p : Prog S R) (s : S) (cur : Nat → Option (O × Code S R))
    (todo : Nat → List O) (done : Nat → List (O × R)), cur t = some (o, inside p) →
    ∃ cur', SSteps code ⟨s, some t, cur, todo, done⟩ ⟨(p.run s).1, none, cur', todo, upd done t (done t ++ [(o, (p.run s).2)])⟩ ∧ cur' = upd cur t none := by
  intro p
  induction p with
  | ret r =>
    intro s cur todo done hc
    refine ⟨_, .tail (.tail (.refl _) (.unlock t o (.ret r) hc)) (.ret t o r (by simp [upd])), ?_⟩
    funext u
    simp only [upd]
    split <;> rfl
  | step w k ih =>
    intro s cur todo done hc
    obtain ⟨cur', h1, h2⟩ := ih s (w s) (upd cur t (some (o, inside (k s)))) todo done (by simp [upd])
    refine ⟨cur', ?_, ?_⟩
    · clear h2
      have h3 := SSteps.tail (.refl _) (SStep.act (code := code) (s := s) (m := some t) (todo := todo) (done := done) t o w (fun s => inside (k s)) hc)
      simp only [Prog.run]
      generalize h4 : (⟨(((k s)).run (w s)).1, none, cur', todo, upd done t (done t ++ [(o, ((k s).run (w s)).2)])⟩ : Sys S O R) = x at h1 ⊢
      clear h4 ih
      induction h1 with
      | refl => exact h3
      | tail _ st ih => exact .tail ih st
    · rw [h2]
      funext u
      simp only [upd]
      split <;> rfl

/-- A call made while nobody else is in a call. -/
theorem whole_call {S O R : Type} {body : O → Prog S R} {code : O → Code S R} (hcode : ∀ o, code o = guarded (body o)) (t : Nat) (o : O) (os : List O)
    (s : S) (todo : Nat → List O) (done : Nat → List (O × R)) (h : todo t = o :: os) :
    SSteps code ⟨s, none, fun _ => none, todo, done⟩
      ⟨((body o).run s).1, none, fun _ => none, upd todo t os, upd done t (done t ++ [(o, ((body o).run s).2)])⟩ := by
  obtain ⟨cur', h1, h2⟩ := inside_whole (code := code) t o (body o) s
    (upd (upd (fun _ => none) t (some (o, code o))) t (some (o, inside (body o)))) (upd todo t os) done (by simp [upd])
  have h3 : cur' = fun _ => none := by
    rw [h2]
    funext u
    simp only [upd]
    split <;> rfl
  subst h3
  have h4 := SSteps.tail (.tail (.refl _) (SStep.call (code := code) (s := s) (m := none) (cur := fun _ => none) (done := done) t o os h rfl))
    (.lock t o (inside (body o)) (by simp [upd, hcode, guarded]))
  clear h2
  generalize (⟨((body o).run s).1, none, fun _ => none, upd todo t os, upd done t (done t ++ [(o, ((body o).run s).2)])⟩ : Sys S O R) = x at h1 ⊢
  induction h1 with
  | refl => exact h4
  | tail _ st ih => exact .tail ih st

theorem ssteps_trans {S O R : Type} {code : O → Code S R} {a b c : Sys S O R} (h : SSteps code a b) (h' : SSteps code b c) : SSteps code a c := by
  induction h' with
  | refl => exact h
  | tail _ st ih => exact .tail ih st

/-- One goroutine puts a value and looks at both tries; another one rolls it back in between. -/
example : ∃ c, SSteps (rcode toyE noFaults realLimits) (sInitial _ _ (revOf (srun toyE noFaults ⟨openTrie none, freshDisk⟩ demoStart)) fun t =>
      if t = 0 then [.put [0x12, 0x35] [2], .getLive [0x12, 0x35], .get [0x12, 0x35], .getLive [0x12, 0x35]] else if t = 1 then [.rollback] else []) c ∧
    c.done 0 = [(.put [0x12, 0x35] [2], .changed true), (.getLive [0x12, 0x35], .value (some [2])), (.get [0x12, 0x35], .value none),
      (.getLive [0x12, 0x35], .value none)] ∧ c.done 1 = [(.rollback, .done true)] := by
  refine ⟨_, ssteps_trans (whole_call (rcode_guarded _ _ _) 0 (.put [0x12, 0x35] [2]) _ _ _ _ rfl)
    (ssteps_trans (whole_call (rcode_guarded _ _ _) 0 (.getLive [0x12, 0x35]) _ _ _ _ rfl)
    (ssteps_trans (whole_call (rcode_guarded _ _ _) 1 .rollback _ _ _ _ rfl)
    (ssteps_trans (whole_call (rcode_guarded _ _ _) 0 (.get [0x12, 0x35]) _ _ _ _ rfl)
    (whole_call (rcode_guarded _ _ _) 0 (.getLive [0x12, 0x35]) _ _ _ _ rfl)))), ?_, ?_⟩ <;> decide +kernel

/-! ### The trie given out by `LiveTrie` -/

/-- A revertable trie whose tries are objects: `Origin` and `Live` (`/repo/trie/revertable.go:25-30`) are positions in the list of the tries.
Check points are left out. -/
structure Ptrs (V : Type) where
  tries : List (BTrie V)
  origin : Nat
  live : Option Nat
  D : Disk

/-- The trie a pointer points to. -/
def Ptrs.at (p : Ptrs V) (i : Nat) : BTrie V := p.tries.getD i (openTrie none)

/-- The trie a pointer points to changes. -/
def Ptrs.set (p : Ptrs V) (i : Nat) (t : BTrie V) : Ptrs V := { p with tries := p.tries.set i t }

/-- `checkLiveLocked` (`/repo/trie/revertable.go:87-96`): `Live` takes over the trie, `Origin` gets the clone. -/
def Ptrs.checkLive (E : Env V) (F : Faults) (L : Limits) (p : Ptrs V) : Ptrs V :=
  match p.live with
  | some _ => p
  | none =>
    let c := (p.at p.origin).clone E F L p.D
    ⟨p.tries.set p.origin c.1 ++ [c.2.2], p.tries.length, some p.origin, c.2.1⟩

/-- `LiveTrie` (`/repo/trie/revertable.go:47-54`): the pointer is given out. -/
def Ptrs.liveTrie (E : Env V) (F : Faults) (L : Limits) (p : Ptrs V) : Ptrs V × Nat :=
  let q := p.checkLive E F L
  (q, q.live.getD 0)

/-- `Put` (`/repo/trie/revertable.go:139-150`). -/
def Ptrs.put (E : Env V) (F : Faults) (L : Limits) (p : Ptrs V) (k : Bytes) (x : V) : Ptrs V × Bool :=
  let q := p.checkLive E F L
  match q.live with
  | none => (q, false)
  | some i => let y := (q.at i).put E q.D k x; (q.set i y.1, y.2)

/-- `Get` (`/repo/trie/revertable.go:115-123`). -/
def Ptrs.get (E : Env V) (p : Ptrs V) (k : Bytes) : Ptrs V × Option V :=
  let x := (p.at p.origin).get E p.D k
  (p.set p.origin x.1, x.2)

/-- `_prepareCommit` (`/repo/trie/revertable.go:186-192`): `Origin` takes over the trie of `Live`. -/
def Ptrs.prepare (p : Ptrs V) : Ptrs V :=
  match p.live with
  | some i => { p with origin := i, live := none }
  | none => p

/-- `Commit` (`/repo/trie/revertable.go:194-199`). -/
def Ptrs.commit (E : Env V) (F : Faults) (L : Limits) (p : Ptrs V) : Ptrs V × Bool :=
  let q := p.prepare
  let x := (q.at q.origin).commit E F L q.D
  ({ q.set q.origin x.1 with D := x.2.1 }, x.2.2)

/-- `Rollback` (`/repo/trie/revertable.go:274-282`). -/
def Ptrs.rollback (p : Ptrs V) : Ptrs V := { p with live := none }

/-- `Put` on a trie by one who holds a pointer to it (`/repo/trie/trie.go`, C148 and C19). -/
def Ptrs.heldPut (E : Env V) (p : Ptrs V) (i : Nat) (k : Bytes) (x : V) : Ptrs V :=
  p.set i ((p.at i).put E p.D k x).1

/-- The pointers are valid, and different. -/
structure Ptrs.Good (p : Ptrs V) : Prop where
  origin : p.origin < p.tries.length
  live : ∀ i, p.live = some i → i < p.tries.length ∧ i ≠ p.origin

/-- What the pointers point to. -/
def Ptrs.rev (p : Ptrs V) : Rev V := ⟨p.at p.origin, p.live.map p.at, [], p.D⟩

theorem at_set_self (p : Ptrs V) {i : Nat} (h : i < p.tries.length) (t : BTrie V) : (p.set i t).at i = t := by
  simp [Ptrs.at, Ptrs.set, h]

theorem at_set_ne (p : Ptrs V) {i j : Nat} (h : i ≠ j) (t : BTrie V) : (p.set i t).at j = p.at j := by
  simp [Ptrs.at, Ptrs.set, List.getElem?_set_ne h]

theorem good_set {p : Ptrs V} (h : p.Good) (i : Nat) (t : BTrie V) : (p.set i t).Good :=
  ⟨by simpa [Ptrs.set] using h.origin, fun j hj => by simpa [Ptrs.set] using h.live j hj⟩

theorem ptrs_checkLive (F : Faults) (L : Limits) {p : Ptrs V} (h : p.Good) :
    (p.checkLive E F L).Good ∧ (p.checkLive E F L).rev = (p.rev.checkLive E F L).1 ∧
      ∃ i, (p.checkLive E F L).live = some i ∧ (p.checkLive E F L).at i = (p.rev.checkLive E F L).2 := by
  obtain ⟨tries, origin, live, D⟩ := p
  have h0 : origin < tries.length := h.origin
  cases live with
  | some i => exact ⟨h, rfl, i, rfl, rfl⟩
  | none =>
    refine ⟨⟨by simp [Ptrs.checkLive], ?_⟩, ?_, origin, rfl, ?_⟩
    · intro i hi
      simp only [Ptrs.checkLive, Option.some.injEq] at hi
      subst hi
      simp only [Ptrs.checkLive, List.length_append, List.length_set, List.length_singleton]
      omega
    · simp only [Ptrs.checkLive, Ptrs.rev, Rev.checkLive, Option.map_none, Option.map_some, Ptrs.at]
      congr 1
      · simp
      · simp [List.getElem?_append, h0]
    · simp only [Ptrs.checkLive, Ptrs.rev, Rev.checkLive, Option.map_none, Ptrs.at]
      simp [List.getElem?_append, h0]

/-- The objects behave as the two tries of `Verif.Trie.Revert`, as long as nobody holds a pointer to them. -/
theorem ptrs_rev (F : Faults) (L : Limits) {p : Ptrs V} (h : p.Good) (k : Bytes) (x : V) :
    ((p.put E F L k x).1.Good ∧ (p.put E F L k x).1.rev = (p.rev.put E F L k x).1 ∧ (p.put E F L k x).2 = (p.rev.put E F L k x).2) ∧
    ((p.get E k).1.Good ∧ (p.get E k).1.rev = (p.rev.get E k).1 ∧ (p.get E k).2 = (p.rev.get E k).2) ∧
    ((p.commit E F L).1.Good ∧ (p.commit E F L).1.rev = (p.rev.commit E F L).1 ∧ (p.commit E F L).2 = (p.rev.commit E F L).2) ∧
    (p.rollback.Good ∧ p.rollback.rev = p.rev.rollback) := by
  refine ⟨?_, ?_, ?_, ?_⟩
  · obtain ⟨h1, h2, i, h3, h4⟩ := ptrs_checkLive (E := E) F L h
    have h5 := h1.live i h3
    have hD : (p.checkLive E F L).D = (p.rev.checkLive E F L).1.D := by rw [← h2]; rfl
    simp only [Ptrs.put, h3, Rev.put, ← h4, ← hD]
    refine ⟨good_set h1 _ _, ?_, trivial⟩
    rw [← h2]
    simp only [Ptrs.rev]
    congr 1
    · exact at_set_ne _ h5.2 _
    · show Option.map _ (p.checkLive E F L).live = _
      rw [h3, Option.map_some, at_set_self _ h5.1]
  · refine ⟨good_set h _ _, ?_, rfl⟩
    simp only [Ptrs.get, Ptrs.rev, Rev.get]
    congr 1
    · exact at_set_self _ h.origin _
    · show Option.map _ p.live = _
      cases hl : p.live with
      | none => rfl
      | some i => rw [Option.map_some, Option.map_some, at_set_ne _ (h.live i hl).2.symm]
  · obtain ⟨tries, origin, live, D⟩ := p
    cases live with
    | none =>
      refine ⟨⟨(good_set h _ _).origin, (good_set h _ _).live⟩, ?_, rfl⟩
      simp only [Ptrs.commit, Ptrs.prepare, Ptrs.rev, Rev.commit, Rev.prepare, Option.map_none]
      congr 1
      exact at_set_self _ h.origin _
    | some i =>
      have h1 : i < tries.length := (h.live i rfl).1
      have h2 : (Ptrs.mk tries i none D).Good := ⟨h1, fun j hj => by cases hj⟩
      refine ⟨⟨(good_set h2 _ _).origin, (good_set h2 _ _).live⟩, ?_, rfl⟩
      simp only [Ptrs.commit, Ptrs.prepare, Ptrs.rev, Rev.commit, Rev.prepare, Option.map_some]
      congr 1
      exact at_set_self (Ptrs.mk tries i none D) h1 _
  · exact ⟨⟨h.origin, fun i hi => by cases hi⟩, rfl⟩

/-- A revertable trie over an empty trie. -/
def ptrs0 : Ptrs Bytes := ⟨[openTrie none], 0, none, freshDisk⟩

/-- `t := LiveTrie(); Commit(); t.Put(k, x); Rollback()`. -/
def handed (k x : Bytes) : Ptrs Bytes :=
  let a := ptrs0.liveTrie toyE noFaults realLimits
  ((a.1.commit toyE noFaults realLimits).1.heldPut toyE a.2 k x).rollback

/-- **C152 refuted for `LiveTrie`:** what is put into the trie that `LiveTrie` gave out before a commit is seen by `Get` at once, without
a commit, and a rollback does not take it back. -/
theorem C152_live_refuted : ptrs0.Good ∧ (ptrs0.get toyE [0x12]).2 = none ∧ ((handed [0x12] [1]).get toyE [0x12]).2 = some [1] :=
  ⟨⟨by decide, fun i hi => by cases hi⟩, by decide +kernel, by decide +kernel⟩

end Verif.Trie.Store

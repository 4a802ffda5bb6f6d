import Verif.Base

/-!
# Objects guarded by one mutex, under every schedule

`sync.Mutex` is trusted to give mutual exclusion.  A method that starts with `lock.Lock(); defer lock.Unlock()` is a
`Prog`: a sequence of atomic memory steps executed while the lock is held.  Goroutines interleave arbitrarily
between those steps.
-/

namespace Verif.Conc

/-- The body of a critical section: memory steps that read the shared state and write it, then a result. -/
inductive Prog (S R : Type) : Type
  | ret (r : R)
  | step (write : S → S) (next : S → Prog S R)

/-- The body run alone, from start to end. -/
def Prog.run {S R : Type} : Prog S R → S → S × R
  | .ret r, s => (s, r)
  | .step w k, s => (k s).run (w s)

/-- A configuration of the system: shared memory, the goroutine inside the critical section (with its call and
remaining body), the calls every goroutine has still to make, the log of completed calls. -/
structure Cfg (S O R : Type) where
  shared : S
  holder : Option (Nat × O × Prog S R)
  todo : Nat → List O
  log : List (Nat × O × R)

/-- One atomic step of some goroutine. -/
inductive Step {S O R : Type} (body : O → Prog S R) : Cfg S O R → Cfg S O R → Prop
  | acquire {s todo log} (t : Nat) (o : O) (os : List O) (h : todo t = o :: os) :
      Step body ⟨s, none, todo, log⟩ ⟨s, some (t, o, body o), fun u => if u = t then os else todo u, log⟩
  | micro {s todo log} (t : Nat) (o : O) (w : S → S) (k : S → Prog S R) :
      Step body ⟨s, some (t, o, .step w k), todo, log⟩ ⟨w s, some (t, o, k s), todo, log⟩
  | release {s todo log} (t : Nat) (o : O) (r : R) :
      Step body ⟨s, some (t, o, .ret r), todo, log⟩ ⟨s, none, todo, log ++ [(t, o, r)]⟩

/-- Every finite execution. -/
inductive Steps {S O R : Type} (body : O → Prog S R) : Cfg S O R → Cfg S O R → Prop
  | refl (c) : Steps body c c
  | tail {a b c} : Steps body a b → Step body b c → Steps body a c

/-- The start: lock free, nothing done. -/
def initial {S : Type} (O R : Type) (s : S) (todo : Nat → List O) : Cfg S O R := ⟨s, none, todo, []⟩

/-- The sequential specification: `log` is what a single goroutine would observe performing these calls one after
another from `s`, ending in `s'`. -/
inductive Replays {S O R : Type} (body : O → Prog S R) : S → List (Nat × O × R) → S → Prop
  | nil (s) : Replays body s [] s
  | snoc {s log s'} (t o) : Replays body s log s' →
      Replays body s (log ++ [(t, o, ((body o).run s').2)]) ((body o).run s').1

/-- The calls of goroutine `t` in a log, in order. -/
def callsOf {O R : Type} (t : Nat) (log : List (Nat × O × R)) : List O :=
  (log.filter (fun e => e.1 == t)).map (fun e => e.2.1)

/-- The call of `t` in progress. -/
def inProgress {S O R : Type} (t : Nat) : Option (Nat × O × Prog S R) → List O
  | none => []
  | some (u, o, _) => if u = t then [o] else []

/-- What holds in every reachable configuration. -/
structure Inv {S O R : Type} (body : O → Prog S R) (s0 : S) (todo0 : Nat → List O) (c : Cfg S O R) : Prop where
  seq : ∃ s, Replays body s0 c.log s ∧ (c.holder = none → c.shared = s) ∧
    (∀ t o p, c.holder = some (t, o, p) → p.run c.shared = (body o).run s)
  order : ∀ t, todo0 t = callsOf t c.log ++ inProgress t c.holder ++ c.todo t

theorem inv_step {S O R : Type} {body : O → Prog S R} {s0 : S} {todo0 : Nat → List O} {c c' : Cfg S O R}
    (h : Inv body s0 todo0 c) (st : Step body c c') : Inv body s0 todo0 c' := by
  obtain ⟨⟨s, hrep, hfree, hheld⟩, hord⟩ := h
  cases st with
  | acquire t o os ht =>
    refine ⟨⟨s, hrep, (by intro h; cases h), ?_⟩, ?_⟩
    · intro t' o' p' h'
      simp only [Option.some.injEq, Prod.mk.injEq] at h'
      obtain ⟨_, rfl, rfl⟩ := h'
      simp only at hfree ⊢
      rw [hfree trivial]
    · intro u
      have := hord u
      simp only [inProgress, List.append_nil] at this ⊢
      by_cases hu : u = t
      · subst hu; rw [this, ht]; simp
      · have hu' : ¬ t = u := fun e => hu e.symm
        simp [hu, hu', this]
  | micro t o w k =>
    refine ⟨⟨s, hrep, (by intro h; cases h), ?_⟩, ?_⟩
    · intro t' o' p' h'
      simp only [Option.some.injEq, Prod.mk.injEq] at h'
      obtain ⟨_, rfl, rfl⟩ := h'
      have := hheld t o _ rfl
      simpa only [Prog.run] using this
    · intro u; have := hord u; simpa only [inProgress] using this
  | release t o r =>
    have hh := hheld t o _ rfl
    simp only [Prog.run] at hh
    have e1 : ((body o).run s).1 = _ := (congrArg Prod.fst hh).symm
    have e2 : ((body o).run s).2 = _ := (congrArg Prod.snd hh).symm
    simp only at e1 e2
    refine ⟨⟨((body o).run s).1, ?_, ?_, (by intro t' o' p' h'; cases h')⟩, ?_⟩
    · have := Replays.snoc (body := body) t o hrep
      rw [e2] at this; exact this
    · intro _; exact e1.symm
    · intro u
      have := hord u
      simp only [inProgress] at this ⊢
      rw [this]
      simp only [callsOf, List.filter_append, List.map_append, List.append_nil]
      by_cases hu : t = u
      · subst hu; simp
      · have : (t == u) = false := by simpa using hu
        simp [hu, this]

theorem inv_initial {S O R : Type} (body : O → Prog S R) (s0 : S) (todo0 : Nat → List O) :
    Inv body s0 todo0 (initial O R s0 todo0) :=
  ⟨⟨s0, .nil s0, fun _ => rfl, by intro t o p h; cases h⟩, fun t => by simp [initial, callsOf, inProgress]⟩

/-- Every execution of a mutex-guarded object is explained by the sequential order of its completed calls: results
and shared state are those of the sequential object, and every goroutine's calls appear in its own order. -/
theorem linearizable {S O R : Type} (body : O → Prog S R) (s0 : S) (todo0 : Nat → List O) (c : Cfg S O R)
    (h : Steps body (initial O R s0 todo0) c) : Inv body s0 todo0 c := by
  generalize hc : initial O R s0 todo0 = c0 at h
  induction h with
  | refl => subst hc; exact inv_initial body s0 todo0
  | tail _ st ih => exact inv_step ih st

theorem Steps.head {S O R : Type} {body : O → Prog S R} {a b c : Cfg S O R}
    (h : Step body a b) (hs : Steps body b c) : Steps body a c := by
  induction hs with
  | refl => exact .tail (.refl _) h
  | tail _ st ih => exact .tail ih st

theorem Steps.trans {S O R : Type} {body : O → Prog S R} {a b c : Cfg S O R}
    (h : Steps body a b) (hs : Steps body b c) : Steps body a c := by
  induction hs with
  | refl => exact h
  | tail _ st ih => exact .tail ih st

end Verif.Conc

import Verif.Conc.Lock

/-!
# Objects guarded by a readers-writer lock, under every schedule

`sync.RWMutex` is trusted: a writer is alone, readers exclude writers only.  Methods are `Prog`s as in `Verif.Conc.Lock`: atomic steps
executed while the lock is held.  Between any two steps the environment may change the shared state within `env` (a cache drops
entries).  That a waiting writer keeps new readers out is not modelled; it only takes schedules away.
-/

namespace Verif.Conc

/-- Running goroutines: shared memory, the writer, the readers, the calls still to make, the log of completed calls. -/
structure RW (S O R : Type) where
  shared : S
  writer : Option (Nat × O × Prog S R)
  reader : Nat → Option (O × Prog S R)
  todo : Nat → List O
  log : List (Nat × O × R)

/-- Point update. -/
def setAt {A : Type} (f : Nat → A) (t : Nat) (a : A) : Nat → A := fun u => if u = t then a else f u

/-- One atomic step; `writes o` tells whether a call takes the lock for writing. -/
inductive RWStep {S O R : Type} (body : O → Prog S R) (writes : O → Bool) (env : S → S → Prop) : RW S O R → RW S O R → Prop
  | lock {s reader todo log} (t : Nat) (o : O) (os : List O) (h : todo t = o :: os) (hw : writes o = true) (hr : ∀ u, reader u = none) :
      RWStep body writes env ⟨s, none, reader, todo, log⟩ ⟨s, some (t, o, body o), reader, setAt todo t os, log⟩
  | rlock {s reader todo log} (t : Nat) (o : O) (os : List O) (h : todo t = o :: os) (hw : writes o = false) (hr : reader t = none) :
      RWStep body writes env ⟨s, none, reader, todo, log⟩ ⟨s, none, setAt reader t (some (o, body o)), setAt todo t os, log⟩
  | write {s reader todo log} (t : Nat) (o : O) (w : S → S) (k : S → Prog S R) :
      RWStep body writes env ⟨s, some (t, o, .step w k), reader, todo, log⟩ ⟨w s, some (t, o, k s), reader, todo, log⟩
  | read {s wr reader todo log} (t : Nat) (o : O) (w : S → S) (k : S → Prog S R) (h : reader t = some (o, .step w k)) :
      RWStep body writes env ⟨s, wr, reader, todo, log⟩ ⟨w s, wr, setAt reader t (some (o, k s)), todo, log⟩
  | unlock {s reader todo log} (t : Nat) (o : O) (r : R) :
      RWStep body writes env ⟨s, some (t, o, .ret r), reader, todo, log⟩ ⟨s, none, reader, todo, log ++ [(t, o, r)]⟩
  | runlock {s wr reader todo log} (t : Nat) (o : O) (r : R) (h : reader t = some (o, .ret r)) :
      RWStep body writes env ⟨s, wr, reader, todo, log⟩ ⟨s, wr, setAt reader t none, todo, log ++ [(t, o, r)]⟩
  | other {s wr reader todo log} (s' : S) (h : env s s') :
      RWStep body writes env ⟨s, wr, reader, todo, log⟩ ⟨s', wr, reader, todo, log⟩

/-- Every finite execution. -/
inductive RWSteps {S O R : Type} (body : O → Prog S R) (writes : O → Bool) (env : S → S → Prop) : RW S O R → RW S O R → Prop
  | refl (c) : RWSteps body writes env c c
  | tail {a b c} : RWSteps body writes env a b → RWStep body writes env b c → RWSteps body writes env a c

/-- The start. -/
def rwInitial {S : Type} (O R : Type) (s : S) (todo : Nat → List O) : RW S O R := ⟨s, none, fun _ => none, todo, []⟩

/-- The specification: the log can be observed by a single goroutine that makes the calls one after another on the abstract
object, which goes from `a` to `a'`. -/
inductive Explains {A O R : Type} (spec : O → A → A → R → Prop) : A → List (Nat × O × R) → A → Prop
  | nil (a) : Explains spec a [] a
  | snoc {a log a' a''} (t o r) : Explains spec a log a' → spec o a' a'' r → Explains spec a (log ++ [(t, o, r)]) a''

section
variable {S A O R : Type} (abs : S → A) (I : S → Prop) (env : S → S → Prop) (spec : O → A → A → R → Prop)

/-- What is left of a reader gives a right answer about `a`, and does no harm, whatever other readers and the environment do. -/
def Reads (o : O) (a : A) : Prog S R → Prop
  | .ret r => spec o a a r
  | .step w k => ∀ s, I s → abs s = a → I (w s) ∧ abs (w s) = a ∧ Reads o a (k s)

/-- What is left of a writer takes the state to one the specification allows. -/
def Writes (o : O) (a : A) : Prog S R → S → Prop
  | .ret r, s => I s ∧ spec o a (abs s) r
  | .step w k, s => ∀ s', env s s' → Writes o a (k s') (w s')

/-- The object is correct: readers and writers keep their promises, and the environment is harmless. -/
structure Correct (body : O → Prog S R) (writes : O → Bool) : Prop where
  refl : ∀ s, env s s
  trans : ∀ s s' s'', env s s' → env s' s'' → env s s''
  harmless : ∀ s s', I s → env s s' → I s' ∧ abs s' = abs s
  reader : ∀ o, writes o = false → ∀ a, Reads abs I spec o a (body o)
  writer : ∀ o, writes o = true → ∀ s, I s → Writes abs I env spec o (abs s) (body o) s

variable {abs I env spec}

theorem writes_env {body : O → Prog S R} {writes : O → Bool} (hc : Correct abs I env spec body writes) {o : O} {a : A} {p : Prog S R} {s s' : S}
    (h : Writes abs I env spec o a p s) (he : env s s') : Writes abs I env spec o a p s' := by
  cases p with
  | ret r =>
    obtain ⟨h1, h2⟩ := hc.harmless s s' h.1 he
    exact ⟨h1, by rw [h2]; exact h.2⟩
  | step w k => exact fun s'' he' => h s'' (hc.trans _ _ _ he he')

/-- What goroutine `t` is busy with. -/
def busy (c : RW S O R) (t : Nat) : List O :=
  (match c.writer with
    | some (u, o, _) => if u = t then [o] else []
    | none => []) ++ (match c.reader t with
    | some (o, _) => [o]
    | none => [])

/-- What holds in every reachable configuration. -/
structure RWInv (abs : S → A) (I : S → Prop) (env : S → S → Prop) (spec : O → A → A → R → Prop) (writes : O → Bool) (a0 : A)
    (todo0 : Nat → List O) (c : RW S O R) : Prop where
  seq : ∃ a, Explains spec a0 c.log a ∧ (c.writer = none → I c.shared ∧ abs c.shared = a ∧ ∀ t o p, c.reader t = some (o, p) → Reads abs I spec o a p) ∧
    ∀ t o p, c.writer = some (t, o, p) → Writes abs I env spec o a p c.shared ∧ ∀ u, c.reader u = none
  order : ∀ t, todo0 t = callsOf t c.log ++ busy c t ++ c.todo t

theorem callsOf_snoc (t u : Nat) (log : List (Nat × O × R)) (o : O) (r : R) :
    callsOf t (log ++ [(u, o, r)]) = callsOf t log ++ if u = t then [o] else [] := by
  simp only [callsOf, List.filter_append, List.map_append]
  by_cases h : u = t
  · subst h; simp
  · have : (u == t) = false := by simpa using h
    simp [h, this]

theorem rwInv_step {body : O → Prog S R} {writes : O → Bool} (hc : Correct abs I env spec body writes) {a0 : A} {todo0 : Nat → List O}
    {c c' : RW S O R} (h : RWInv abs I env spec writes a0 todo0 c) (st : RWStep body writes env c c') :
    RWInv abs I env spec writes a0 todo0 c' := by
  obtain ⟨⟨a, hex, hfree, hheld⟩, hord⟩ := h
  cases st with
  | lock t o os ht hw hr =>
    obtain ⟨h1, h2, -⟩ := hfree rfl
    refine ⟨⟨a, hex, (fun h => by cases h), ?_⟩, ?_⟩
    · intro t' o' p' h'
      simp only [Option.some.injEq, Prod.mk.injEq] at h'
      obtain ⟨_, rfl, rfl⟩ := h'
      have := hc.writer o hw _ h1
      rw [h2] at this
      exact ⟨this, hr⟩
    · intro u
      have := hord u
      simp only [busy, hr u, setAt] at this ⊢
      by_cases hu : u = t
      · subst hu; rw [this, ht]; simp
      · have hu' : ¬ t = u := fun e => hu e.symm
        simp [hu, hu', this]
  | rlock t o os ht hw hr =>
    obtain ⟨h1, h2, h3⟩ := hfree rfl
    refine ⟨⟨a, hex, ?_, (fun _ _ _ h => by cases h)⟩, ?_⟩
    · refine fun _ => ⟨h1, h2, ?_⟩
      intro t' o' p' h'
      simp only [setAt] at h'
      split at h'
      · simp only [Option.some.injEq, Prod.mk.injEq] at h'
        obtain ⟨rfl, rfl⟩ := h'
        exact hc.reader o hw a
      · exact h3 t' o' p' h'
    · intro u
      have := hord u
      simp only [busy, setAt] at this ⊢
      by_cases hu : u = t
      · subst hu; rw [this, ht, hr]; simp
      · simp [hu, this]
  | write t o w k =>
    obtain ⟨h1, h2⟩ := hheld _ _ _ rfl
    refine ⟨⟨a, hex, (fun h => by cases h), ?_⟩, ?_⟩
    · intro t' o' p' h'
      simp only [Option.some.injEq, Prod.mk.injEq] at h'
      obtain ⟨_, rfl, rfl⟩ := h'
      exact ⟨h1 _ (hc.refl _), h2⟩
    · intro u
      have := hord u
      simpa only [busy] using this
  | @read s wr reader todo log t o w k hr =>
    cases wr with
    | some q =>
      have := (hheld q.1 q.2.1 q.2.2 rfl).2 t
      simp only at this
      rw [this] at hr
      cases hr
    | none =>
      obtain ⟨h1, h2, h3⟩ := hfree rfl
      obtain ⟨g1, g2, g3⟩ := h3 t o _ hr _ h1 h2
      refine ⟨⟨a, hex, ?_, (fun _ _ _ h => by cases h)⟩, ?_⟩
      · refine fun _ => ⟨g1, g2, ?_⟩
        intro t' o' p' h'
        simp only [setAt] at h'
        split at h'
        · simp only [Option.some.injEq, Prod.mk.injEq] at h'
          obtain ⟨rfl, rfl⟩ := h'
          exact g3
        · exact h3 t' o' p' h'
      · intro u
        have := hord u
        simp only [busy, setAt] at this ⊢
        by_cases hu : u = t
        · subst hu; rw [this, hr]; simp
        · simp [hu, this]
  | unlock t o r =>
    obtain ⟨h1, h2⟩ := hheld _ _ _ rfl
    obtain ⟨g1, g2⟩ := h1
    refine ⟨⟨_, .snoc t o r hex g2, ?_, (fun _ _ _ h => by cases h)⟩, ?_⟩
    · refine fun _ => ⟨g1, rfl, ?_⟩
      intro t' o' p' h'
      have := h2 t'
      simp only at this h'
      rw [this] at h'
      cases h'
    · intro u
      have := hord u
      simp only [busy] at this ⊢
      rw [callsOf_snoc, this]
      simp
  | @runlock s wr reader todo log t o r hr =>
    cases wr with
    | some q =>
      have := (hheld q.1 q.2.1 q.2.2 rfl).2 t
      simp only at this
      rw [this] at hr
      cases hr
    | none =>
      obtain ⟨h1, h2, h3⟩ := hfree rfl
      refine ⟨⟨a, .snoc t o r hex (h3 t o _ hr), ?_, (fun _ _ _ h => by cases h)⟩, ?_⟩
      · refine fun _ => ⟨h1, h2, ?_⟩
        intro t' o' p' h'
        simp only [setAt] at h'
        split at h'
        · cases h'
        · exact h3 t' o' p' h'
      · intro u
        have := hord u
        simp only [busy, setAt] at this ⊢
        rw [callsOf_snoc, this]
        by_cases hu : u = t
        · subst hu; rw [hr]; simp
        · have hu' : ¬ t = u := fun e => hu e.symm
          simp [hu, hu']
  | @other s wr reader todo log s' he =>
    refine ⟨⟨a, hex, ?_, ?_⟩, ?_⟩
    · intro hn
      obtain ⟨h1, h2, h3⟩ := hfree hn
      obtain ⟨g1, g2⟩ := hc.harmless _ _ h1 he
      exact ⟨g1, by rw [← h2]; exact g2, h3⟩
    · intro t' o' p' h'
      obtain ⟨h1, h2⟩ := hheld t' o' p' h'
      exact ⟨writes_env hc h1 he, h2⟩
    · intro u
      have := hord u
      simpa only [busy] using this

/-- Every execution of a correct object is explained by its log; every goroutine's calls appear in it in order. -/
theorem rw_linearizable {body : O → Prog S R} {writes : O → Bool} (hc : Correct abs I env spec body writes) (s0 : S) (h0 : I s0)
    (todo0 : Nat → List O) {c : RW S O R} (h : RWSteps body writes env (rwInitial O R s0 todo0) c) :
    RWInv abs I env spec writes (abs s0) todo0 c := by
  generalize hi : rwInitial O R s0 todo0 = c0 at h
  induction h with
  | refl =>
    subst hi
    exact ⟨⟨abs s0, .nil _, fun _ => ⟨h0, rfl, fun _ _ _ h => by cases h⟩, fun _ _ _ h => by cases h⟩,
      fun t => by simp [rwInitial, callsOf, busy]⟩
  | tail _ st ih => exact rwInv_step hc ih st

/-- Later steps only append to the log. -/
theorem rw_log {body : O → Prog S R} {writes : O → Bool} {c c' : RW S O R} (h : RWSteps body writes env c c') :
    ∃ ext, c'.log = c.log ++ ext := by
  induction h with
  | refl => exact ⟨[], by simp⟩
  | tail _ st ih =>
    obtain ⟨ext, he⟩ := ih
    cases st with
    | unlock t o r => exact ⟨ext ++ [(t, o, r)], by simp only at he ⊢; rw [he, List.append_assoc]⟩
    | runlock t o r h => exact ⟨ext ++ [(t, o, r)], by simp only at he ⊢; rw [he, List.append_assoc]⟩
    | lock => exact ⟨ext, he⟩
    | rlock => exact ⟨ext, he⟩
    | write => exact ⟨ext, he⟩
    | read => exact ⟨ext, he⟩
    | other => exact ⟨ext, he⟩

/-- As long as a call is not finished, some step of a goroutine is possible. -/
theorem rw_progress {body : O → Prog S R} {writes : O → Bool} (hc : Correct abs I env spec body writes) (s0 : S) (h0 : I s0)
    (todo0 : Nat → List O) {c : RW S O R} (h : RWSteps body writes env (rwInitial O R s0 todo0) c) (t : Nat)
    (ht : callsOf t c.log ≠ todo0 t) : ∃ c', RWStep body writes (fun _ _ => False) c c' := by
  obtain ⟨-, hord⟩ := rw_linearizable hc s0 h0 todo0 h
  obtain ⟨s, wr, reader, todo, log⟩ := c
  cases wr with
  | some q =>
    obtain ⟨u, o, p⟩ := q
    cases p with
    | ret r => exact ⟨_, .unlock u o r⟩
    | step w k => exact ⟨_, .write u o w k⟩
  | none =>
    by_cases hr : ∀ u, reader u = none
    · have := hord t
      simp only [busy, hr t, List.append_nil] at this
      cases htd : todo t with
      | nil => rw [htd, List.append_nil] at this; exact absurd this.symm ht
      | cons o os =>
        cases hw : writes o with
        | true => exact ⟨_, .lock t o os htd hw hr⟩
        | false => exact ⟨_, .rlock t o os htd hw (hr t)⟩
    · rw [not_forall] at hr
      obtain ⟨u, hu⟩ := hr
      cases hq : reader u with
      | none => exact absurd hq hu
      | some q =>
        obtain ⟨o, p⟩ := q
        cases p with
        | ret r => exact ⟨_, .runlock u o r hq⟩
        | step w k => exact ⟨_, .read u o w k hq⟩

end

theorem RWSteps.trans {S O R : Type} {body : O → Prog S R} {writes : O → Bool} {env : S → S → Prop} {a b c : RW S O R}
    (h : RWSteps body writes env a b) (h' : RWSteps body writes env b c) : RWSteps body writes env a c := by
  induction h' with
  | refl => exact h
  | tail _ st ih => exact .tail ih st

/-- A call made while nobody else is busy. -/
theorem rw_solo {S O R : Type} {body : O → Prog S R} {writes : O → Bool} {env : S → S → Prop} (s : S) (todo : Nat → List O)
    (log : List (Nat × O × R)) (t : Nat) (o : O) (os : List O) (h : todo t = o :: os) :
    RWSteps body writes env ⟨s, none, fun _ => none, todo, log⟩
      ⟨((body o).run s).1, none, fun _ => none, setAt todo t os, log ++ [(t, o, ((body o).run s).2)]⟩ := by
  cases hw : writes o with
  | true =>
    refine .trans (.tail (.refl _) (.lock t o os h hw fun _ => rfl)) ?_
    generalize body o = p
    induction p generalizing s with
    | ret r => exact .tail (.refl _) (.unlock t o r)
    | step w k ih => exact .trans (.tail (.refl _) (.write t o w k)) (ih s (w s))
  | false =>
    refine .trans (.tail (.refl _) (.rlock t o os h hw rfl)) ?_
    generalize body o = p
    have hs : ∀ (f : Nat → Option (O × Prog S R)) a b, setAt (setAt f t a) t b = setAt f t b := by
      intro f a b
      funext u
      simp only [setAt]
      split <;> rfl
    have hn : setAt (fun _ => (none : Option (O × Prog S R))) t none = fun _ => none := by
      funext u
      simp only [setAt]
      split <;> rfl
    induction p generalizing s with
    | ret r =>
      have := RWStep.runlock (body := body) (writes := writes) (env := env) (s := s) (wr := none)
        (reader := setAt (fun _ => none) t (some (o, .ret r))) (todo := setAt todo t os) (log := log) t o r (by simp [setAt])
      rw [hs, hn] at this
      exact .tail (.refl _) this
    | step w k ih =>
      have := RWStep.read (body := body) (writes := writes) (env := env) (s := s) (wr := none)
        (reader := setAt (fun _ => none) t (some (o, .step w k))) (todo := setAt todo t os) (log := log) t o w k (by simp [setAt])
      rw [hs] at this
      exact .trans (.tail (.refl _) this) (ih s (w s))

end Verif.Conc

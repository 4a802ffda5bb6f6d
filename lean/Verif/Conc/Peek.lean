import Verif.Conc.Mutex

/-!
# Goroutines that lock a mutex, and goroutines that read without it

As in `Verif.Conc.Mutex`, but some calls are a single read of memory that does not wait for the lock.  Such a read can happen in the
middle of a critical section.  It still fits into an order of whole calls if no critical section changes more than once what is read.
-/

namespace Verif.Conc
variable {S O R X : Type}

/-- The code of a call: one read of `obs` without the lock, or a body under the lock. -/
def peeking (obs : S → X) (look : O → Option (X → R)) (body : O → Prog S R) (o : O) : Code S R :=
  match look o with
  | some f => .act id fun s => .ret (f (obs s))
  | none => guarded (body o)

/-- The same calls made by a single goroutine. -/
def atOnce (obs : S → X) (look : O → Option (X → R)) (body : O → Prog S R) (o : O) : Prog S R :=
  match look o with
  | some f => .step id fun s => .ret (f (obs s))
  | none => body o

/-- What is read is `x` until the end. -/
def Settled (obs : S → X) (x : X) : Prog S R → S → Prop
  | .ret _, s => obs s = x
  | .step w k, s => obs s = x ∧ Settled obs x (k s) (w s)

/-- What is read changes at most once. -/
def Once (obs : S → X) : Prog S R → S → Prop
  | .ret _, _ => True
  | .step w k, s => (obs (w s) = obs s ∧ Once obs (k s) (w s)) ∨ Settled obs (obs (w s)) (k s) (w s)

theorem Settled.now {obs : S → X} {x : X} {p : Prog S R} {s : S} (h : Settled obs x p s) : obs s = x := by
  cases p with
  | ret r => exact h
  | step w k => exact h.1

theorem Settled.last {obs : S → X} {x : X} {p : Prog S R} : ∀ {s : S}, Settled obs x p s → obs (p.run s).1 = x := by
  induction p with
  | ret r => exact fun h => h
  | step w k ih => exact fun {s} h => ih s h.2

/-- Where a goroutine can be, outside of the critical section. -/
inductive Beside (obs : S → X) (look : O → Option (X → R)) (body : O → Prog S R) (done log : List (O × R)) : Option (O × Code S R) → Prop
  | idle : log = done → Beside obs look body done log none
  | waiting (o : O) : look o = none → log = done → Beside obs look body done log (some (o, guarded (body o)))
  | peek (o : O) (f : X → R) : look o = some f → log = done → Beside obs look body done log (some (o, .act id fun s => .ret (f (obs s))))
  | leaving (o : O) (r : R) : log = done ++ [(o, r)] → Beside obs look body done log (some (o, .ret r))

/-- The invariant: `log` is the order of the reads and of the critical sections that have ended or have already made the change that
can be seen. -/
structure PInv (obs : S → X) (look : O → Option (X → R)) (body : O → Prog S R) (s0 : S) (todo0 : Nat → List O) (log : List (Nat × O × R))
    (c : Sys S O R) : Prop where
  seq : ∃ s, Replays (atOnce obs look body) s0 log s ∧ (c.mutex = none → c.shared = s) ∧
    ∀ t, c.mutex = some t → ∃ o p, look o = none ∧ c.cur t = some (o, inside p) ∧
      ((p.run c.shared = (body o).run s ∧ obs c.shared = obs s ∧ Once obs p c.shared ∧ entries t log = c.done t) ∨
        ((p.run c.shared).1 = s ∧ Settled obs (obs s) p c.shared ∧ entries t log = c.done t ++ [(o, (p.run c.shared).2)]))
  out : ∀ t, c.mutex ≠ some t → Beside obs look body (c.done t) (entries t log) (c.cur t)
  calls : ∀ t, todo0 t = (c.done t).map Prod.fst ++ (c.cur t).toList.map Prod.fst ++ c.todo t

variable {obs : S → X} {look : O → Option (X → R)} {body : O → Prog S R} {s0 : S} {todo0 : Nat → List O}

theorem replays_locked {log : List (Nat × O × R)} {s : S} (h : Replays (atOnce obs look body) s0 log s) (t : Nat) {o : O} (ho : look o = none) :
    Replays (atOnce obs look body) s0 (log ++ [(t, o, ((body o).run s).2)]) ((body o).run s).1 := by
  have := Replays.snoc (body := atOnce obs look body) t o h
  simpa only [atOnce, ho] using this

theorem replays_peek {log : List (Nat × O × R)} {s : S} (h : Replays (atOnce obs look body) s0 log s) (t : Nat) {o : O} {f : X → R}
    (ho : look o = some f) : Replays (atOnce obs look body) s0 (log ++ [(t, o, f (obs s))]) s := by
  have := Replays.snoc (body := atOnce obs look body) t o h
  simpa only [atOnce, ho, Prog.run, id] using this

theorem pInv_step (honce : ∀ o, look o = none → ∀ s, Once obs (body o) s) {log : List (Nat × O × R)} {c c' : Sys S O R}
    (h : PInv obs look body s0 todo0 log c) (st : SStep (peeking obs look body) c c') :
    ∃ ext, PInv obs look body s0 todo0 (log ++ ext) c' := by
  obtain ⟨⟨s, hrep, hfree, hheld⟩, hout, hcalls⟩ := h
  cases st with
  | @call sh m cur todo done t o os ht hc =>
    refine ⟨[], ?_⟩
    rw [List.append_nil]
    refine ⟨⟨s, hrep, hfree, ?_⟩, ?_, ?_⟩
    · intro u hu
      obtain ⟨o', p, h0, h1, h2⟩ := hheld u hu
      have hne : u ≠ t := by intro e; subst e; simp only at h1; rw [hc] at h1; simp at h1
      exact ⟨o', p, h0, by simp only [upd, if_neg hne]; exact h1, h2⟩
    · intro u hu
      by_cases e : u = t
      · subst e
        simp only [upd, if_true, peeking]
        have := hout u hu
        simp only [hc] at this
        cases this with
        | idle e =>
          cases hl : look o with
          | none => exact .waiting o hl e
          | some f => exact .peek o f hl e
      · simp only [upd, if_neg e]; exact hout u hu
    · intro u
      have := hcalls u
      by_cases e : u = t
      · subst e
        simp only [upd, if_true]
        simp only [hc, ht] at this
        rw [this]; simp
      · simp only [upd, if_neg e]; exact this
  | @lock sh cur todo done t o k hc =>
    refine ⟨[], ?_⟩
    rw [List.append_nil]
    refine ⟨⟨s, hrep, by intro h; simp at h, ?_⟩, ?_, ?_⟩
    · intro u hu
      simp only [Option.some.injEq] at hu
      subst hu
      have h1 := hout t (by simp)
      simp only [hc] at h1
      generalize hk : (Code.lock k : Code S R) = kk at h1
      cases h1 with
      | waiting _ h0 h3 =>
        simp only [guarded, Code.lock.injEq] at hk
        refine ⟨o, body o, h0, by simp only [upd, if_true, hk], .inl ⟨?_, ?_, honce o h0 _, h3⟩⟩
        · rw [show sh = s from hfree rfl]
        · rw [show sh = s from hfree rfl]
      | peek => cases hk
      | leaving => cases hk
    · intro u hu
      have e : u ≠ t := by intro e; subst e; exact hu rfl
      simp only [upd, if_neg e]
      exact hout u (by simp)
    · intro u
      have := hcalls u
      by_cases e : u = t
      · subst e
        simp only [upd, if_true]
        simp only [hc] at this
        exact this
      · simp only [upd, if_neg e]; exact this
  | @act sh m cur todo done t o w k hc =>
    have hcalls' : ∀ u, todo0 u = (done u).map Prod.fst ++ (upd cur t (some (o, k sh)) u).toList.map Prod.fst ++ todo u := by
      intro u
      have := hcalls u
      by_cases e : u = t
      · subst e
        simp only [upd, if_true]
        simp only [hc] at this
        exact this
      · simp only [upd, if_neg e]; exact this
    by_cases hm : m = some t
    · subst hm
      obtain ⟨o', p, h0, h1, h2⟩ := hheld t rfl
      simp only [hc, Option.some.injEq, Prod.mk.injEq] at h1
      obtain ⟨rfl, h1⟩ := h1
      have hout' : ∀ (l : List (Nat × O × R)), (∀ u, u ≠ t → entries u l = entries u log) → ∀ u, some t ≠ some u →
          Beside obs look body (done u) (entries u l) (upd cur t (some (o, k sh)) u) := by
        intro l hl u hu
        have e : u ≠ t := by intro e; subst e; exact hu rfl
        simp only [upd, if_neg e, hl u e]
        exact hout u hu
      cases p with
      | ret r => simp [inside] at h1
      | step w' k' =>
        simp only [inside, Code.act.injEq] at h1
        obtain ⟨rfl, rfl⟩ := h1
        simp only [Prog.run] at h2
        rcases h2 with ⟨h2, h3, h4, h5⟩ | ⟨h2, h3, h4⟩
        · rcases h4 with ⟨h4, h6⟩ | h4
          · refine ⟨[], ?_⟩
            rw [List.append_nil]
            refine ⟨⟨s, hrep, by intro h; simp at h, ?_⟩, hout' log fun _ _ => rfl, hcalls'⟩
            intro u hu
            simp only [Option.some.injEq] at hu
            subst hu
            exact ⟨o, k' sh, h0, by simp only [upd, if_true], .inl ⟨h2, by simp only; rw [h4]; exact h3, h6, h5⟩⟩
          · have e1 := congrArg Prod.fst h2
            have e2 := congrArg Prod.snd h2
            refine ⟨[(t, o, ((body o).run s).2)], ⟨((body o).run s).1, replays_locked hrep t h0, by intro h; simp at h, ?_⟩,
              hout' _ (fun u hu => entries_snoc_other (Ne.symm hu) _ _), hcalls'⟩
            intro u hu
            simp only [Option.some.injEq] at hu
            subst hu
            refine ⟨o, k' sh, h0, by simp only [upd, if_true], .inr ⟨e1, ?_, ?_⟩⟩
            · rw [← e1, h4.last]; exact h4
            · rw [entries_snoc_self, h5]; simp only; rw [e2]
        · refine ⟨[], ?_⟩
          rw [List.append_nil]
          refine ⟨⟨s, hrep, by intro h; simp at h, ?_⟩, hout' log fun _ _ => rfl, hcalls'⟩
          intro u hu
          simp only [Option.some.injEq] at hu
          subst hu
          exact ⟨o, k' sh, h0, by simp only [upd, if_true], .inr ⟨h2, h3.2, h4⟩⟩
    · have h1 := hout t hm
      simp only [hc] at h1
      generalize hk : (Code.act w k : Code S R) = kk at h1
      cases h1 with
      | waiting => simp [guarded] at hk
      | leaving => cases hk
      | peek _ f h0 h3 =>
        simp only [Code.act.injEq] at hk
        obtain ⟨rfl, rfl⟩ := hk
        have hobs : obs sh = obs s := by
          cases m with
          | none => rw [show sh = s from hfree rfl]
          | some u =>
            obtain ⟨o', p, -, -, h2⟩ := hheld u rfl
            rcases h2 with ⟨-, h2, -⟩ | ⟨-, h2, -⟩
            · exact h2
            · exact h2.now
        have hrep' := replays_peek hrep t h0
        rw [← hobs] at hrep'
        refine ⟨[(t, o, f (obs sh))], ⟨s, hrep', hfree, ?_⟩, ?_, hcalls'⟩
        · intro u hu
          obtain ⟨o', p, h0', h1', h2⟩ := hheld u hu
          have hne : u ≠ t := by intro e; subst e; exact hm hu
          refine ⟨o', p, h0', by simp only [upd, if_neg hne]; exact h1', ?_⟩
          simp only [id, entries_snoc_other (Ne.symm hne)]
          exact h2
        · intro u hu
          by_cases e : u = t
          · subst e
            simp only [upd, if_true]
            exact .leaving o _ (by rw [entries_snoc_self, h3])
          · simp only [upd, if_neg e, entries_snoc_other (Ne.symm e)]
            exact hout u hu
  | @unlock sh m cur todo done t o k hc =>
    have hm : m = t := by
      apply Decidable.byContradiction
      intro hne
      have h1 := hout t (by simpa using hne)
      simp only [hc] at h1
      generalize hk : (Code.unlock k : Code S R) = kk at h1
      cases h1 with
      | waiting => simp [guarded] at hk
      | peek => cases hk
      | leaving => cases hk
    subst hm
    obtain ⟨o', p, h0, h1, h2⟩ := hheld m rfl
    simp only [hc, Option.some.injEq, Prod.mk.injEq] at h1
    obtain ⟨rfl, h1⟩ := h1
    have hcalls' : ∀ u, todo0 u = (done u).map Prod.fst ++ (upd cur m (some (o, k)) u).toList.map Prod.fst ++ todo u := by
      intro u
      have := hcalls u
      by_cases e : u = m
      · subst e
        simp only [upd, if_true]
        simp only [hc] at this
        exact this
      · simp only [upd, if_neg e]; exact this
    cases p with
    | step w' k' => simp [inside] at h1
    | ret r =>
      simp only [inside, Code.unlock.injEq] at h1
      subst h1
      simp only [Prog.run] at h2
      have hout' : ∀ (l : List (Nat × O × R)), (∀ u, u ≠ m → entries u l = entries u log) → entries m l = done m ++ [(o, r)] → ∀ u,
          (none : Option Nat) ≠ some u → Beside obs look body (done u) (entries u l) (upd cur m (some (o, .ret r)) u) := by
        intro l hl hl' u _
        by_cases e : u = m
        · subst e
          simp only [upd, if_true]
          exact .leaving o r hl'
        · simp only [upd, if_neg e, hl u e]
          exact hout u (by simpa using Ne.symm e)
      rcases h2 with ⟨h2, -, -, h5⟩ | ⟨h2, -, h4⟩
      · have e1 := (congrArg Prod.fst h2).symm
        have e2 := (congrArg Prod.snd h2).symm
        simp only at e1 e2
        have hrep' := replays_locked hrep m h0
        rw [e2] at hrep'
        exact ⟨[(m, o, r)], ⟨((body o).run s).1, hrep', fun _ => e1.symm, by intro u hu; simp at hu⟩,
          hout' _ (fun u hu => entries_snoc_other (Ne.symm hu) _ _) (by rw [entries_snoc_self, h5]), hcalls'⟩
      · refine ⟨[], ?_⟩
        rw [List.append_nil]
        exact ⟨⟨s, hrep, fun _ => h2, by intro u hu; simp at hu⟩, hout' log (fun _ _ => rfl) h4, hcalls'⟩
  | @ret sh m cur todo done t o r hc =>
    have hm : m ≠ some t := by
      intro e
      obtain ⟨o', p, -, h1, _⟩ := hheld t e
      simp only [hc, Option.some.injEq, Prod.mk.injEq] at h1
      exact inside_ne_ret p r h1.2.symm
    refine ⟨[], ?_⟩
    rw [List.append_nil]
    refine ⟨⟨s, hrep, hfree, ?_⟩, ?_, ?_⟩
    · intro u hu
      obtain ⟨o', p, h0, h1, h2⟩ := hheld u hu
      have hne : u ≠ t := by intro e; subst e; exact hm hu
      refine ⟨o', p, h0, by simp only [upd, if_neg hne]; exact h1, ?_⟩
      simp only [upd, if_neg hne]
      exact h2
    · intro u hu
      by_cases e : u = t
      · subst e
        have h1 := hout u hu
        simp only [hc] at h1
        simp only [upd, if_true]
        generalize hk : (Code.ret r : Code S R) = k at h1
        cases h1 with
        | waiting => simp [guarded] at hk
        | peek => cases hk
        | leaving _ r' e =>
          simp only [Code.ret.injEq] at hk
          subst hk
          exact .idle e
      · simp only [upd, if_neg e]; exact hout u hu
    · intro u
      have := hcalls u
      by_cases e : u = t
      · subst e
        simp only [upd, if_true]
        simp only [hc] at this
        rw [this]; simp
      · simp only [upd, if_neg e]; exact this

theorem pInv_initial : PInv obs look body s0 todo0 [] (sInitial O R s0 todo0) :=
  ⟨⟨s0, .nil s0, fun _ => rfl, by intro t h; simp [sInitial] at h⟩, fun t _ => .idle rfl, fun t => by simp [sInitial]⟩

theorem pInv_steps (honce : ∀ o, look o = none → ∀ s, Once obs (body o) s) {log : List (Nat × O × R)} {c c' : Sys S O R}
    (h : PInv obs look body s0 todo0 log c) (st : SSteps (peeking obs look body) c c') :
    ∃ ext, PInv obs look body s0 todo0 (log ++ ext) c' := by
  induction st with
  | refl => exact ⟨[], by rwa [List.append_nil]⟩
  | tail _ s1 ih =>
    obtain ⟨e1, h1⟩ := ih
    obtain ⟨e2, h2⟩ := pInv_step honce h1 s1
    exact ⟨e1 ++ e2, by rwa [← List.append_assoc]⟩

/-- A call of goroutine `t` that has an entry in the order without having returned. -/
def Pending (c : Sys S O R) (t : Nat) (l : List (O × R)) : Prop := l = [] ∨ ∃ o r k, c.cur t = some (o, k) ∧ l = [(o, r)]

/-- A goroutine's entries of the order are its returned calls, possibly followed by the one it is in. -/
theorem PInv.entries {log : List (Nat × O × R)} {c : Sys S O R} (h : PInv obs look body s0 todo0 log c) (t : Nat) :
    ∃ l, entries t log = c.done t ++ l ∧ Pending c t l := by
  by_cases hm : c.mutex = some t
  · obtain ⟨s, _, _, hh⟩ := h.seq
    obtain ⟨o, p, -, h1, h2⟩ := hh t hm
    rcases h2 with ⟨-, -, -, h2⟩ | ⟨-, -, h2⟩
    · exact ⟨[], by rw [h2, List.append_nil], .inl rfl⟩
    · exact ⟨_, h2, .inr ⟨o, _, _, h1, rfl⟩⟩
  · have := h.out t hm
    generalize hcu : c.cur t = cu at this
    cases this with
    | idle e => exact ⟨[], by rw [e, List.append_nil], .inl rfl⟩
    | waiting _ _ e => exact ⟨[], by rw [e, List.append_nil], .inl rfl⟩
    | peek _ _ _ e => exact ⟨[], by rw [e, List.append_nil], .inl rfl⟩
    | leaving o r e => exact ⟨_, e, .inr ⟨o, r, _, hcu, rfl⟩⟩

/-- Unless every goroutine has returned from all its calls, some goroutine can take a step. -/
theorem PInv.progress {log : List (Nat × O × R)} {c : Sys S O R} (h : PInv obs look body s0 todo0 log c) (t : Nat)
    (ht : (c.done t).map Prod.fst ≠ todo0 t) : ∃ c', SStep (peeking obs look body) c c' := by
  obtain ⟨⟨s, hrep, hfree, hheld⟩, hout, hcalls⟩ := h
  obtain ⟨sh, m, cur, todo, done⟩ := c
  simp only at *
  cases m with
  | some u =>
    obtain ⟨o, p, -, h1, _⟩ := hheld u rfl
    cases p with
    | ret r => exact ⟨_, .unlock u o (.ret r) h1⟩
    | step w k => exact ⟨_, .act u o w (fun s => inside (k s)) h1⟩
  | none =>
    have h1 := hout t (by simp)
    generalize hcu : cur t = cu at h1
    cases h1 with
    | idle e =>
      have h2 := hcalls t
      rw [hcu] at h2
      cases htd : todo t with
      | nil => rw [htd] at h2; exact absurd (by rw [h2]; simp) ht
      | cons o os => exact ⟨_, .call t o os htd hcu⟩
    | waiting o _ e => exact ⟨_, .lock t o _ hcu⟩
    | peek o f _ e => exact ⟨_, .act t o _ _ hcu⟩
    | leaving o r e => exact ⟨_, .ret t o r hcu⟩

end Verif.Conc

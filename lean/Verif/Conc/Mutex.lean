import Verif.Conc.Lock

/-!
# Goroutines that lock and unlock a mutex explicitly

Unlike in `Verif.Conc.Lock`, nothing forces a method to hold the lock: a method is a `Code` in which locking is an instruction
like any other.  The mutex blocks `lock` while it is held; memory steps of all goroutines interleave.
-/

namespace Verif.Conc

/-- The code of a method. -/
inductive Code (S R : Type) : Type
  | lock (next : Code S R)
  | act (write : S → S) (next : S → Code S R)
  | unlock (next : Code S R)
  | ret (r : R)

/-- Running goroutines. `cur t` is the call goroutine `t` is in, `done t` the calls it has returned from. -/
structure Sys (S O R : Type) where
  shared : S
  mutex : Option Nat
  cur : Nat → Option (O × Code S R)
  todo : Nat → List O
  done : Nat → List (O × R)

/-- Point update. -/
def upd {A : Type} (f : Nat → A) (t : Nat) (a : A) : Nat → A := fun u => if u = t then a else f u

/-- One atomic step of goroutine `t`. -/
inductive SStep {S O R : Type} (code : O → Code S R) : Sys S O R → Sys S O R → Prop
  | call {s m cur todo done} (t : Nat) (o : O) (os : List O) (h : todo t = o :: os) (hc : cur t = none) :
      SStep code ⟨s, m, cur, todo, done⟩ ⟨s, m, upd cur t (some (o, code o)), upd todo t os, done⟩
  | lock {s cur todo done} (t : Nat) (o : O) (k : Code S R) (hc : cur t = some (o, .lock k)) :
      SStep code ⟨s, none, cur, todo, done⟩ ⟨s, some t, upd cur t (some (o, k)), todo, done⟩
  | act {s m cur todo done} (t : Nat) (o : O) (w : S → S) (k : S → Code S R) (hc : cur t = some (o, .act w k)) :
      SStep code ⟨s, m, cur, todo, done⟩ ⟨w s, m, upd cur t (some (o, k s)), todo, done⟩
  | unlock {s m cur todo done} (t : Nat) (o : O) (k : Code S R) (hc : cur t = some (o, .unlock k)) :
      SStep code ⟨s, some m, cur, todo, done⟩ ⟨s, none, upd cur t (some (o, k)), todo, done⟩
  | ret {s m cur todo done} (t : Nat) (o : O) (r : R) (hc : cur t = some (o, .ret r)) :
      SStep code ⟨s, m, cur, todo, done⟩ ⟨s, m, upd cur t none, todo, upd done t (done t ++ [(o, r)])⟩

/-- Every finite execution. -/
inductive SSteps {S O R : Type} (code : O → Code S R) : Sys S O R → Sys S O R → Prop
  | refl (c) : SSteps code c c
  | tail {a b c} : SSteps code a b → SStep code b c → SSteps code a c

/-- The start. -/
def sInitial {S : Type} (O R : Type) (s : S) (todo : Nat → List O) : Sys S O R := ⟨s, none, fun _ => none, todo, fun _ => []⟩

/-- The body followed by the deferred `Unlock`. -/
def inside {S R : Type} : Prog S R → Code S R
  | .ret r => .unlock (.ret r)
  | .step w k => .act w fun s => inside (k s)

/-- `l.Lock(); defer l.Unlock(); body`. -/
def guarded {S R : Type} (p : Prog S R) : Code S R := .lock (inside p)

/-- The entries of goroutine `t`. -/
def entries {O R : Type} (t : Nat) (log : List (Nat × O × R)) : List (O × R) :=
  (log.filter (fun e => e.1 == t)).map (fun e => e.2)

theorem entries_snoc_self {O R : Type} (t : Nat) (log : List (Nat × O × R)) (e : O × R) :
    entries t (log ++ [(t, e)]) = entries t log ++ [e] := by
  simp [entries, List.filter_append]

theorem entries_snoc_other {O R : Type} {t u : Nat} (h : u ≠ t) (log : List (Nat × O × R)) (e : O × R) :
    entries t (log ++ [(u, e)]) = entries t log := by
  have : (u == t) = false := by simpa using h
  simp [entries, List.filter_append, this]

/-- Where a goroutine can be, outside of the critical section. -/
inductive Outside {S O R : Type} (body : O → Prog S R) (done log : List (O × R)) : Option (O × Code S R) → Prop
  | idle : log = done → Outside body done log none
  | waiting (o : O) : log = done → Outside body done log (some (o, guarded (body o)))
  | leaving (o : O) (r : R) : log = done ++ [(o, r)] → Outside body done log (some (o, .ret r))

/-- The invariant: `log` is the order of the critical sections that have ended. -/
structure SInv {S O R : Type} (body : O → Prog S R) (s0 : S) (todo0 : Nat → List O) (log : List (Nat × O × R)) (c : Sys S O R) :
    Prop where
  seq : ∃ s, Replays body s0 log s ∧ (c.mutex = none → c.shared = s) ∧
    ∀ t, c.mutex = some t → ∃ o p, c.cur t = some (o, inside p) ∧ p.run c.shared = (body o).run s ∧
      entries t log = c.done t
  out : ∀ t, c.mutex ≠ some t → Outside body (c.done t) (entries t log) (c.cur t)
  calls : ∀ t, todo0 t = (c.done t).map Prod.fst ++ (c.cur t).toList.map Prod.fst ++ c.todo t

theorem inside_ne_lock {S R : Type} (p : Prog S R) (k : Code S R) : inside p ≠ .lock k := by
  cases p <;> simp [inside]

theorem inside_ne_ret {S R : Type} (p : Prog S R) (r : R) : inside p ≠ .ret r := by
  cases p <;> simp [inside]

theorem Outside.of_ne {S O R : Type} {body : O → Prog S R} {done log : List (O × R)} {o : O} {k : Code S R}
    (h : Outside body done log (some (o, k))) (h2 : ∀ r, k ≠ .ret r) : k = guarded (body o) ∧ log = done := by
  cases h with
  | waiting _ e => exact ⟨rfl, e⟩
  | leaving _ r e => exact absurd rfl (h2 r)

theorem sInv_step {S O R : Type} {body : O → Prog S R} {code : O → Code S R} (hcode : ∀ o, code o = guarded (body o))
    {s0 : S} {todo0 : Nat → List O} {log : List (Nat × O × R)} {c c' : Sys S O R}
    (h : SInv body s0 todo0 log c) (st : SStep code c c') : ∃ ext, SInv body s0 todo0 (log ++ ext) c' := by
  obtain ⟨⟨s, hrep, hfree, hheld⟩, hout, hcalls⟩ := h
  cases st with
  | @call sh m cur todo done t o os ht hc =>
    refine ⟨[], ?_⟩
    rw [List.append_nil]
    refine ⟨⟨s, hrep, hfree, ?_⟩, ?_, ?_⟩
    · intro u hu
      obtain ⟨o', p, h1, h2, h3⟩ := hheld u hu
      have hne : u ≠ t := by intro e; subst e; simp only at h1; rw [hc] at h1; simp at h1
      exact ⟨o', p, by simp only [upd, if_neg hne]; exact h1, h2, h3⟩
    · intro u hu
      by_cases e : u = t
      · subst e
        simp only [upd, if_true, hcode]
        have := hout u hu
        simp only [hc] at this
        cases this with
        | idle e => exact .waiting o e
      · simp only [upd, if_neg e]; exact hout u hu
    · intro u
      have := hcalls u
      by_cases e : u = t
      · subst e
        simp only [upd, if_true]
        simp only [hc, ht] at this
        rw [this]; simp
      · simp only [upd, if_neg e]; exact this
  | @lock sh cur todo done t o k hc =>
    refine ⟨[], ?_⟩
    rw [List.append_nil]
    refine ⟨⟨s, hrep, by intro h; simp at h, ?_⟩, ?_, ?_⟩
    · intro u hu
      simp only [Option.some.injEq] at hu
      subst hu
      have h1 := hout t (by simp)
      simp only [hc] at h1
      obtain ⟨h2, h3⟩ := h1.of_ne (by intro r h; cases h)
      simp only [guarded, Code.lock.injEq] at h2
      refine ⟨o, body o, by simp only [upd, if_true, h2], ?_, h3⟩
      rw [show sh = s from hfree rfl]
    · intro u hu
      have e : u ≠ t := by intro e; subst e; exact hu rfl
      simp only [upd, if_neg e]
      exact hout u (by simp)
    · intro u
      have := hcalls u
      by_cases e : u = t
      · subst e
        simp only [upd, if_true]
        simp only [hc] at this
        exact this
      · simp only [upd, if_neg e]; exact this
  | @act sh m cur todo done t o w k hc =>
    have hm : m = some t := by
      apply Decidable.byContradiction
      intro hne
      have h1 := hout t hne
      simp only [hc] at h1
      have := (h1.of_ne (by intro r h; cases h)).1
      simp [guarded] at this
    subst hm
    obtain ⟨o', p, h1, h2, h3⟩ := hheld t rfl
    simp only [hc, Option.some.injEq, Prod.mk.injEq] at h1
    obtain ⟨rfl, h1⟩ := h1
    cases p with
    | ret r => simp [inside] at h1
    | step w' k' =>
      simp only [inside, Code.act.injEq] at h1
      obtain ⟨rfl, rfl⟩ := h1
      refine ⟨[], ?_⟩
      rw [List.append_nil]
      refine ⟨⟨s, hrep, by intro h; simp at h, ?_⟩, ?_, ?_⟩
      · intro u hu
        simp only [Option.some.injEq] at hu
        subst hu
        exact ⟨o, k' sh, by simp only [upd, if_true], by simpa only [Prog.run] using h2, h3⟩
      · intro u hu
        have e : u ≠ t := by intro e; subst e; exact hu rfl
        simp only [upd, if_neg e]
        exact hout u hu
      · intro u
        have := hcalls u
        by_cases e : u = t
        · subst e
          simp only [upd, if_true]
          simp only [hc] at this
          exact this
        · simp only [upd, if_neg e]; exact this
  | @unlock sh m cur todo done t o k hc =>
    have hm : m = t := by
      apply Decidable.byContradiction
      intro hne
      have h1 := hout t (by simpa using hne)
      simp only [hc] at h1
      have := (h1.of_ne (by intro r h; cases h)).1
      simp [guarded] at this
    subst hm
    obtain ⟨o', p, h1, h2, h3⟩ := hheld m rfl
    simp only [hc, Option.some.injEq, Prod.mk.injEq] at h1
    obtain ⟨rfl, h1⟩ := h1
    cases p with
    | step w' k' => simp [inside] at h1
    | ret r =>
      simp only [inside, Code.unlock.injEq] at h1
      subst h1
      simp only [Prog.run] at h2
      have e1 := (congrArg Prod.fst h2).symm
      have e2 := (congrArg Prod.snd h2).symm
      simp only at e1 e2
      refine ⟨[(m, o, r)], ⟨((body o).run s).1, ?_, fun _ => e1.symm, by intro u hu; simp at hu⟩, ?_, ?_⟩
      · have := Replays.snoc (body := body) m o hrep
        rw [e2] at this
        exact this
      · intro u _
        by_cases e : u = m
        · subst e
          simp only [upd, if_true]
          exact .leaving o r (by rw [entries_snoc_self, h3])
        · simp only [upd, if_neg e, entries_snoc_other (Ne.symm e)]
          exact hout u (by simpa using Ne.symm e)
      · intro u
        have := hcalls u
        by_cases e : u = m
        · subst e
          simp only [upd, if_true]
          simp only [hc] at this
          exact this
        · simp only [upd, if_neg e]; exact this
  | @ret sh m cur todo done t o r hc =>
    have hm : m ≠ some t := by
      intro e
      obtain ⟨o', p, h1, _⟩ := hheld t e
      simp only [hc, Option.some.injEq, Prod.mk.injEq] at h1
      exact inside_ne_ret p r h1.2.symm
    refine ⟨[], ?_⟩
    rw [List.append_nil]
    refine ⟨⟨s, hrep, hfree, ?_⟩, ?_, ?_⟩
    · intro u hu
      obtain ⟨o', p, h1, h2, h3⟩ := hheld u hu
      have hne : u ≠ t := by intro e; subst e; exact hm hu
      exact ⟨o', p, by simp only [upd, if_neg hne]; exact h1, h2, by simp only [upd, if_neg hne]; exact h3⟩
    · intro u hu
      by_cases e : u = t
      · subst e
        have h1 := hout u hu
        simp only [hc] at h1
        simp only [upd, if_true]
        generalize hk : (Code.ret r : Code S R) = k at h1
        cases h1 with
        | waiting => simp [guarded] at hk
        | leaving _ r' e =>
          simp only [Code.ret.injEq] at hk
          subst hk
          exact .idle e
      · simp only [upd, if_neg e]; exact hout u hu
    · intro u
      have := hcalls u
      by_cases e : u = t
      · subst e
        simp only [upd, if_true]
        simp only [hc] at this
        rw [this]; simp
      · simp only [upd, if_neg e]; exact this

theorem sInv_initial {S O R : Type} (body : O → Prog S R) (s0 : S) (todo0 : Nat → List O) :
    SInv body s0 todo0 [] (sInitial O R s0 todo0) :=
  ⟨⟨s0, .nil s0, fun _ => rfl, by intro t h; simp [sInitial] at h⟩, fun t _ => .idle rfl, fun t => by simp [sInitial]⟩

theorem sInv_steps {S O R : Type} {body : O → Prog S R} {code : O → Code S R} (hcode : ∀ o, code o = guarded (body o))
    {s0 : S} {todo0 : Nat → List O} {log : List (Nat × O × R)} {c c' : Sys S O R}
    (h : SInv body s0 todo0 log c) (st : SSteps code c c') : ∃ ext, SInv body s0 todo0 (log ++ ext) c' := by
  induction st with
  | refl => exact ⟨[], by rwa [List.append_nil]⟩
  | tail _ s1 ih =>
    obtain ⟨e1, h1⟩ := ih
    obtain ⟨e2, h2⟩ := sInv_step hcode h1 s1
    exact ⟨e1 ++ e2, by rwa [← List.append_assoc]⟩

/-- A goroutine's returned calls, possibly followed by one whose critical section has ended, are its entries of the order. -/
theorem SInv.entries {S O R : Type} {body : O → Prog S R} {s0 : S} {todo0 : Nat → List O} {log : List (Nat × O × R)}
    {c : Sys S O R} (h : SInv body s0 todo0 log c) (t : Nat) :
    entries t log = c.done t ∨ ∃ o r, c.cur t = some (o, .ret r) ∧ entries t log = c.done t ++ [(o, r)] := by
  by_cases hm : c.mutex = some t
  · obtain ⟨s, _, _, hh⟩ := h.seq
    obtain ⟨_, _, _, _, h3⟩ := hh t hm
    exact .inl h3
  · have := h.out t hm
    generalize hcu : c.cur t = cu at this
    cases this with
    | idle e => exact .inl e
    | waiting _ e => exact .inl e
    | leaving o r e => exact .inr ⟨o, r, rfl, e⟩

/-- Unless every goroutine has returned from all its calls, some goroutine can take a step. -/
theorem SInv.progress {S O R : Type} {body : O → Prog S R} {code : O → Code S R} {s0 : S} {todo0 : Nat → List O} {log : List (Nat × O × R)}
    {c : Sys S O R} (h : SInv body s0 todo0 log c) (t : Nat) (ht : (c.done t).map Prod.fst ≠ todo0 t) :
    ∃ c', SStep code c c' := by
  obtain ⟨⟨s, hrep, hfree, hheld⟩, hout, hcalls⟩ := h
  obtain ⟨sh, m, cur, todo, done⟩ := c
  simp only at *
  cases m with
  | some u =>
    obtain ⟨o, p, h1, _, _⟩ := hheld u rfl
    cases p with
    | ret r => exact ⟨_, .unlock u o (.ret r) h1⟩
    | step w k => exact ⟨_, .act u o w (fun s => inside (k s)) h1⟩
  | none =>
    have h1 := hout t (by simp)
    generalize hcu : cur t = cu at h1
    cases h1 with
    | idle e =>
      have h2 := hcalls t
      rw [hcu] at h2
      cases htd : todo t with
      | nil => rw [htd] at h2; exact absurd (by rw [h2]; simp) ht
      | cons o os => exact ⟨_, .call t o os htd hcu⟩
    | waiting o e => exact ⟨_, .lock t o _ hcu⟩
    | leaving o r e => exact ⟨_, .ret t o r hcu⟩

end Verif.Conc

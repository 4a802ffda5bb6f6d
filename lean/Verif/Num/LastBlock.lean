import Verif.Num.Model
import Verif.Conc.Lock

/-!
# Property C47: `LastBlockMap` under every schedule
-/

namespace Verif.Num
open Verif Verif.Conc

/-- The map of the last block heights. -/
abbrev LBMap := UInt32 → Option UInt64

/-- Calls on a `LastBlockMap`. -/
inductive LBOp
  | cas (key : UInt32) (value : UInt64)
  | get (key : UInt32)

/-- Results of the calls. -/
inductive LBRes
  | cas (ok : Bool)
  | get (v : Option UInt64)
  deriving DecidableEq

/-- /repo/basic.go:230-248 `LastBlockMap.Get` and `LastBlockMap.CAS`, as memory steps under `m.lock`: the lookup is
one step and the write of the map another. -/
def lbBody : LBOp → Prog LBMap LBRes
  | .get k => .step id fun m => .ret (.get (m k))
  | .cas k v => .step id fun m =>
      match m k with
      | some old => if old ≥ v then .ret (.cas false)
          else .step (fun m' => lbSet m' k v) fun _ => .ret (.cas true)
      | none => .step (fun m' => lbSet m' k v) fun _ => .ret (.cas true)

theorem lbBody_cas_run (m : LBMap) (k : UInt32) (v : UInt64) :
    ((lbBody (.cas k v)).run m) = ((lbCAS m k v).1, LBRes.cas (lbCAS m k v).2) := by
  simp only [lbBody, Prog.run, lbCAS, id]
  cases m k with
  | none => simp only [Prog.run]; rfl
  | some old =>
    simp only
    split
    · simp only [Prog.run]
    · simp only [Prog.run]; rfl

theorem lbBody_get_run (m : LBMap) (k : UInt32) : ((lbBody (.get k)).run m) = (m, LBRes.get (m k)) := by
  simp only [lbBody, Prog.run, id]

/-- Order of recorded heights: absent below everything. -/
def le' : Option UInt64 → Option UInt64 → Prop
  | none, _ => True
  | some _, none => False
  | some a, some b => a ≤ b

theorem le'_refl (a : Option UInt64) : le' a a := by
  cases a with
  | none => trivial
  | some a => exact UInt64.le_refl a

theorem le'_trans {a b c : Option UInt64} (h1 : le' a b) (h2 : le' b c) : le' a c := by
  cases a with
  | none => trivial
  | some a =>
    cases b with
    | none => exact h1.elim
    | some b => cases c with
      | none => exact h2.elim
      | some c => exact UInt64.le_trans h1 h2

/-- `x` is the greatest height for `k` in the log (spec in terms of membership). -/
def IsMaxSeen (k : UInt32) (log : List (Nat × LBOp × LBRes)) (x : Option UInt64) : Prop :=
  (∀ t v r, (t, LBOp.cas k v, r) ∈ log → le' (some v) x) ∧
  (∀ v, x = some v → ∃ t r, (t, LBOp.cas k v, r) ∈ log)

theorem replays_max {log : List (Nat × LBOp × LBRes)} {s : LBMap}
    (h : Replays lbBody (fun _ => none) log s) : ∀ k, IsMaxSeen k log (s k) := by
  generalize hs0 : (fun _ => none : LBMap) = s0 at h
  induction h with
  | nil => subst hs0; intro k; exact ⟨by simp, by simp⟩
  | snoc t o hrep ih =>
    rename_i log s'
    intro k
    obtain ⟨ih1, ih2⟩ := ih k
    cases o with
    | get k' =>
      rw [lbBody_get_run]
      constructor
      · intro t v r hm; simp at hm; exact ih1 t v r hm
      · intro v hv
        obtain ⟨t', r', hm⟩ := ih2 v hv
        exact ⟨t', r', by simp [hm]⟩
    | cas k' v' =>
      rw [lbBody_cas_run]
      simp only
      by_cases hk : k' = k
      · subst hk
        unfold lbCAS
        cases hsk : s' k' with
        | none =>
          rw [hsk] at ih1
          simp only [if_true]
          constructor
          · intro t v r hm
            simp only [List.mem_append, List.mem_singleton, Prod.mk.injEq, LBOp.cas.injEq] at hm
            rcases hm with hm | ⟨_, ⟨_, rfl⟩, _⟩
            · exact (ih1 t v r hm).elim
            · exact UInt64.le_refl _
          · intro v hv
            cases hv
            exact ⟨t, .cas true, by simp⟩
        | some old =>
          rw [hsk] at ih1 ih2
          by_cases hge : old ≥ v'
          · simp only [hge, if_true, hsk]
            constructor
            · intro t v r hm
              simp only [List.mem_append, List.mem_singleton, Prod.mk.injEq, LBOp.cas.injEq] at hm
              rcases hm with hm | ⟨_, ⟨_, rfl⟩, _⟩
              · exact ih1 t v r hm
              · exact hge
            · intro v hv
              obtain ⟨t', r', hm⟩ := ih2 v hv
              exact ⟨t', r', by simp [hm]⟩
          · simp only [hge, if_false, if_true]
            have hlt : old ≤ v' := by
              rw [ge_iff_le, UInt64.not_le] at hge
              exact UInt64.le_of_lt hge
            constructor
            · intro t v r hm
              simp only [List.mem_append, List.mem_singleton, Prod.mk.injEq, LBOp.cas.injEq] at hm
              rcases hm with hm | ⟨_, ⟨_, rfl⟩, _⟩
              · exact UInt64.le_trans (ih1 t v r hm) hlt
              · exact UInt64.le_refl _
            · intro v hv
              cases hv
              exact ⟨t, .cas true, by simp⟩
      · have hk' : ¬ k = k' := fun e => hk e.symm
        have hsame : (lbCAS s' k' v').1 k = s' k := by
          unfold lbCAS
          split
          · split
            · rfl
            · simp [hk']
          · simp [hk']
        rw [hsame]
        constructor
        · intro t v r hm
          simp only [List.mem_append, List.mem_singleton, Prod.mk.injEq, LBOp.cas.injEq] at hm
          rcases hm with hm | ⟨_, ⟨e, _⟩, _⟩
          · exact ih1 t v r hm
          · exact absurd e.symm hk
        · intro v hv
          obtain ⟨t', r', hm⟩ := ih2 v hv
          exact ⟨t', r', by simp [hm]⟩

/-- C47: at every moment at which no call is inside the map, whatever the number of goroutines and the schedule, the
recorded height of every chain is the greatest one passed to a completed `CAS`. -/
theorem C47_records_max (todo : Nat → List LBOp) (c : Cfg LBMap LBOp LBRes)
    (h : Steps lbBody (initial LBOp LBRes (fun _ => none) todo) c) (hfree : c.holder = none) (k : UInt32) :
    IsMaxSeen k c.log (c.shared k) := by
  obtain ⟨⟨s, hrep, hf, _⟩, _⟩ := linearizable lbBody _ _ _ h
  rw [hf hfree]
  exact replays_max hrep k

theorem replays_prefix {S O R : Type} {body : O → Prog S R} {s0 : S} {l : List (Nat × O × R)} {s : S}
    (h : Replays body s0 l s) : ∀ (l1 : List (Nat × O × R)) (e : Nat × O × R) (l2 : List (Nat × O × R)),
      l = l1 ++ e :: l2 → ∃ s1, Replays body s0 l1 s1 ∧ e.2.2 = ((body e.2.1).run s1).2 := by
  induction h with
  | nil => intro l1 e l2 h; simp at h
  | snoc t o hrep ih =>
    rename_i log s'
    intro l1 e l2 h
    rcases List.eq_nil_or_concat l2 with rfl | ⟨l2', x, rfl⟩
    · have h' := List.append_inj' h (by simp)
      obtain ⟨rfl, he⟩ := h'
      simp only [List.cons.injEq, and_true] at he
      subst he
      exact ⟨s', hrep, rfl⟩
    · have h2 : log ++ [(t, o, ((body o).run s').2)] = (l1 ++ e :: l2') ++ [x] := by
        rw [h]; simp
      obtain ⟨h3, _⟩ := List.append_inj' h2 (by simp)
      exact ih l1 e l2' h3

/-- C47: a completed `CAS(k, v)` returned true exactly when `v` exceeded every height recorded for `k` by the calls
that completed before it; a completed `Get(k)` returned the greatest height recorded before it. -/
theorem C47_results (todo : Nat → List LBOp) (c : Cfg LBMap LBOp LBRes)
    (h : Steps lbBody (initial LBOp LBRes (fun _ => none) todo) c)
    (l1 l2 : List (Nat × LBOp × LBRes)) (t : Nat) (k : UInt32) :
    (∀ v r, c.log = l1 ++ (t, LBOp.cas k v, r) :: l2 →
      (r = LBRes.cas true ↔ ∀ t' v' r', (t', LBOp.cas k v', r') ∈ l1 → v' < v) ∧
      (r = LBRes.cas true ∨ r = LBRes.cas false)) ∧
    (∀ r, c.log = l1 ++ (t, LBOp.get k, r) :: l2 → ∃ x, r = LBRes.get x ∧ IsMaxSeen k l1 x) := by
  obtain ⟨⟨s, hrep, _, _⟩, _⟩ := linearizable lbBody _ _ _ h
  constructor
  · intro v r hlog
    obtain ⟨s1, hr1, he⟩ := replays_prefix hrep l1 _ l2 hlog
    simp only [lbBody_cas_run] at he
    obtain ⟨m1, m2⟩ := replays_max hr1 k
    constructor
    · rw [he]
      simp only [LBRes.cas.injEq, lbCAS]
      cases hs : s1 k with
      | none =>
        simp only [true_iff]
        intro t' v' r' hm
        have := m1 t' v' r' hm
        rw [hs] at this; exact this.elim
      | some old =>
        simp only
        by_cases hge : old ≥ v
        · simp only [hge, if_true, Bool.false_eq_true, false_iff]
          intro hall
          obtain ⟨t', r', hm⟩ := m2 old hs
          have := hall t' old r' hm
          exact absurd hge (UInt64.not_le.mpr this)
        · simp only [hge, if_false, true_iff]
          intro t' v' r' hm
          have := m1 t' v' r' hm
          rw [hs] at this
          rw [ge_iff_le, UInt64.not_le] at hge
          exact UInt64.lt_of_le_of_lt this hge
    · rw [he]
      cases (lbCAS s1 k v).2
      · right; rfl
      · left; rfl
  · intro r hlog
    obtain ⟨s1, hr1, he⟩ := replays_prefix hrep l1 _ l2 hlog
    simp only [lbBody_get_run] at he
    exact ⟨s1 k, he, replays_max hr1 k⟩

/-- A remaining body only ever raises entries. -/
def Raises : Prog LBMap LBRes → LBMap → Prop
  | .ret _, _ => True
  | .step w next, s => (∀ k, le' (s k) (w s k)) ∧ Raises (next s) (w s)

theorem raises_body (o : LBOp) (s : LBMap) : Raises (lbBody o) s := by
  cases o with
  | get k => exact ⟨fun k => le'_refl _, trivial⟩
  | cas k v =>
    refine ⟨fun k => le'_refl _, ?_⟩
    simp only [id]
    cases hs : s k with
    | none =>
      refine ⟨fun k' => ?_, trivial⟩
      simp only [lbSet]
      split
      · rename_i e; subst e; rw [hs]; trivial
      · exact le'_refl _
    | some old =>
      simp only
      split
      · trivial
      · rename_i hge
        refine ⟨fun k' => ?_, trivial⟩
        simp only [lbSet]
        split
        · rename_i e; subst e; rw [hs]
          rw [ge_iff_le, UInt64.not_le] at hge
          exact UInt64.le_of_lt hge
        · exact le'_refl _

/-- C47: along every execution, step by step (also inside critical sections), no recorded height ever decreases. -/
theorem C47_monotone (todo : Nat → List LBOp) (m0 : LBMap) (c c' : Cfg LBMap LBOp LBRes)
    (h : Steps lbBody (initial LBOp LBRes m0 todo) c) (h' : Steps lbBody c c') (k : UInt32) :
    le' (c.shared k) (c'.shared k) := by
  have inv : ∀ d, Steps lbBody (initial LBOp LBRes m0 todo) d →
      ∀ t o p, d.holder = some (t, o, p) → Raises p d.shared := by
    intro d hd
    generalize hc : initial LBOp LBRes m0 todo = c0 at hd
    induction hd with
    | refl => subst hc; intro t o p hp; cases hp
    | tail _ st ih =>
      intro t o p hp
      cases st with
      | acquire t' o' os ht =>
        simp only [Option.some.injEq, Prod.mk.injEq] at hp
        obtain ⟨_, rfl, rfl⟩ := hp
        exact raises_body _ _
      | micro t' o' w k' =>
        simp only [Option.some.injEq, Prod.mk.injEq] at hp
        obtain ⟨_, rfl, rfl⟩ := hp
        exact (ih t' o' _ rfl).2
      | release t' o' r => cases hp
  induction h' with
  | refl => exact le'_refl _
  | tail hs st ih =>
    have hi := inv _ (Steps.trans h hs)
    refine le'_trans ih ?_
    cases st with
    | acquire t' o' os ht => exact le'_refl _
    | micro t' o' w k' => exact (hi t' o' _ rfl).1 k
    | release t' o' r => exact le'_refl _

/-- Two goroutines race: 7 is recorded, then 5 is refused. -/
example : Replays lbBody (fun _ => none)
    [(0, LBOp.cas 3 7, LBRes.cas true), (1, LBOp.cas 3 5, LBRes.cas false), (1, LBOp.get 3, LBRes.get (some 7))]
    (lbSet (fun _ => none) 3 7) := by
  have h := Replays.snoc (body := lbBody) 1 (.get 3)
    (Replays.snoc (body := lbBody) 1 (.cas 3 5) (Replays.snoc (body := lbBody) 0 (.cas 3 7) (.nil (fun _ => none))))
  exact h

/-- An execution in which both goroutines have completed. -/
example : ∃ c, Steps lbBody (initial LBOp LBRes (fun _ => none)
    (fun t => if t = 0 then [.cas 3 7] else if t = 1 then [.cas 3 5] else [])) c ∧
    c.log = [(0, LBOp.cas 3 7, LBRes.cas true), (1, LBOp.cas 3 5, LBRes.cas false)] := by
  refine ⟨⟨lbSet (fun _ => none) 3 7, none, ?todo, _⟩, ?_, rfl⟩; rotate_left
  refine .head (.acquire 0 (.cas 3 7) [] rfl) ?_
  refine .head (.micro 0 _ _ _) ?_
  refine .head (.micro 0 _ _ _) ?_
  refine .head (.release 0 _ _) ?_
  refine .head (.acquire 1 (.cas 3 5) [] rfl) ?_
  refine .head (.micro 1 _ _ _) ?_
  refine .head (.release 1 _ _) ?_
  exact .refl _

end Verif.Num

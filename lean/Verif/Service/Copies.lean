import Verif.Service.Props

/-!
# Property C175: copies of services (/repo/types.go)

Several services, `Copy` and `SetChanger`, called one after the other (C62 has the calls on one service by several goroutines).  The
functions of a service are nil, `dummyFunc` or those of a changer, which has a number; a call carries what the function will return if a
changer's is called.
-/

namespace Verif.Service.Copies
open Verif

/-! ### The code -/

/-- `AbstractService` (`/repo/types.go:133-140`): the status and whose functions it has (`none`: nil or `dummyFunc`, `129-131`). -/
structure One where
  status : Status
  changer : Option Nat
  deriving DecidableEq

/-- All services, and the calls of functions of changers. -/
structure World where
  svcs : List One
  log : List (Nat × Kind)
  deriving DecidableEq

inductive Op where
  | new
  | copy (i : Nat)
  | setChanger (i c : Nat)
  | call (i : Nat) (k : Kind) (fn : Bool)

/-- `Init`, `Start`, `Close` (`/repo/types.go:157-200`), `Copy` (`142-149`), `SetChanger` (`151-155`).  `none`: there is no such service. -/
def step (w : World) : Op → Option (World × Ret)
  | .new => some (⟨w.svcs ++ [⟨.created, none⟩], w.log⟩, .ok)
  | .copy i => (w.svcs[i]?).map fun s => (⟨w.svcs ++ [⟨s.status, none⟩], w.log⟩, .ok)
  | .setChanger i c => (w.svcs[i]?).map fun s => (⟨w.svcs.set i ⟨s.status, some c⟩, w.log⟩, .ok)
  | .call i k fn => (w.svcs[i]?).map fun s =>
    match check k s.status with
    | none => (w, .refused)
    | some t =>
      match s.changer with
      | none => (⟨w.svcs.set i ⟨t, none⟩, w.log⟩, .ok)
      | some c => (⟨w.svcs.set i ⟨t, some c⟩, w.log ++ [(c, k)]⟩, if fn then .ok else .failed)

def run : List Op → World → Option (World × List Ret)
  | [], w => some (w, [])
  | o :: os, w => (step w o).bind fun p => (run os p.1).map fun q => (q.1, p.2 :: q.2)

/-! ### The specification: the attempts that were made on a service and on those it was copied from -/

/-- How many attempts of a history were those whose turn it was. -/
def turns (h : List Kind) : Nat := h.foldl (fun p k => if k = cycle p then p + 1 else p) 0

/-- A service by its history and its changer. -/
structure Past where
  hist : List Kind
  changer : Option Nat

/-- A copy has the history of the original before and its own after, and no changer.  A call takes effect if it is its turn. -/
def past (ps : List Past) (log : List (Nat × Kind)) : Op → Option ((List Past × List (Nat × Kind)) × Ret)
  | .new => some ((ps ++ [⟨[], none⟩], log), .ok)
  | .copy i => (ps[i]?).map fun p => ((ps ++ [⟨p.hist, none⟩], log), .ok)
  | .setChanger i c => (ps[i]?).map fun p => ((ps.set i ⟨p.hist, some c⟩, log), .ok)
  | .call i k fn => (ps[i]?).map fun p =>
    ((ps.set i ⟨p.hist ++ [k], p.changer⟩, if k = cycle (turns p.hist) then log ++ (p.changer.map fun c => (c, k)).toList else log),
      if k ≠ cycle (turns p.hist) then .refused else if p.changer.isSome ∧ fn = false then .failed else .ok)

def pastRun : List Op → List Past → List (Nat × Kind) → Option ((List Past × List (Nat × Kind)) × List Ret)
  | [], ps, log => some ((ps, log), [])
  | o :: os, ps, log => (past ps log o).bind fun p => (pastRun os p.1.1 p.1.2).map fun q => (q.1, p.2 :: q.2)

/-- Where the cycle stands. -/
def statusOf (h : List Kind) : Status :=
  if turns h = 0 then .created else if turns h % 3 = 1 then .initialized else if turns h % 3 = 2 then .started else .stopped

def oneOf (p : Past) : One := ⟨statusOf p.hist, p.changer⟩

theorem turns_snoc (h : List Kind) (k : Kind) : turns (h ++ [k]) = if k = cycle (turns h) then turns h + 1 else turns h := by
  rw [turns, List.foldl_append]; rfl

theorem phase_statusOf (h : List Kind) : phase (statusOf h) = turns h % 3 := by
  unfold statusOf
  split
  · rename_i e; simp [e, phase]
  · split
    · rename_i e; simp [e, phase]
    · split
      · rename_i e; simp [e, phase]
      · simp only [phase]; omega

theorem check_turn (h : List Kind) (k : Kind) :
    check k (statusOf h) = if k = cycle (turns h) then some (statusOf (h ++ [k])) else none := by
  by_cases e : k = cycle (turns h)
  · rw [if_pos e]
    obtain ⟨t, ht⟩ := (check_iff k (statusOf h)).2 (by rw [phase_statusOf, cycle_mod]; exact e)
    obtain ⟨h1, h2⟩ := check_phase _ _ _ ht
    rw [ht, Option.some.injEq]
    have h3 := phase_statusOf (h ++ [k])
    rw [turns_snoc, if_pos e] at h3
    rw [phase_statusOf] at h1
    have h4 : statusOf (h ++ [k]) ≠ .created := by
      unfold statusOf
      rw [turns_snoc, if_pos e]
      split
      · omega
      · split
        · simp
        · split <;> simp
    have h5 : phase t = phase (statusOf (h ++ [k])) := by rw [h1, h3]; omega
    generalize statusOf (h ++ [k]) = u at h4 h5
    clear ht h3
    cases t <;> cases u <;> first | rfl | exact absurd rfl h2 | exact absurd rfl h4 | exact absurd h5 (by decide)
  · rw [if_neg e]
    cases hc : check k (statusOf h) with
    | none => rfl
    | some t =>
      have := (check_iff k (statusOf h)).1 ⟨t, hc⟩
      rw [phase_statusOf, cycle_mod] at this
      exact absurd this e

theorem statusOf_refused (h : List Kind) (k : Kind) (e : k ≠ cycle (turns h)) : statusOf (h ++ [k]) = statusOf h := by
  unfold statusOf; rw [turns_snoc, if_neg e]

theorem step_past (ps : List Past) (log : List (Nat × Kind)) (o : Op) :
    step ⟨ps.map oneOf, log⟩ o = (past ps log o).map fun q => (⟨q.1.1.map oneOf, q.1.2⟩, q.2) := by
  cases o with
  | new => simp [step, past, oneOf, statusOf, turns]
  | copy i => cases h : ps[i]? <;> simp [step, past, h, oneOf]
  | setChanger i c => cases h : ps[i]? <;> simp [step, past, h, oneOf, List.map_set]
  | call i k fn =>
    cases h : ps[i]? with
    | none => simp [step, past, h]
    | some p =>
      simp only [step, past, h, List.getElem?_map, Option.map_some, Option.some.injEq]
      rw [show (oneOf p).status = statusOf p.hist from rfl, check_turn]
      by_cases e : k = cycle (turns p.hist)
      · simp only [if_pos e, ne_eq, e, not_true_eq_false, if_false]
        rw [← e]
        cases hc : p.changer with
        | none => simp [oneOf, hc, List.map_set]
        | some c => cases fn <;> simp [oneOf, hc, List.map_set]
      · simp only [if_neg e, ne_eq, e, not_false_eq_true, if_true]
        have h1 : oneOf ⟨p.hist ++ [k], p.changer⟩ = oneOf p := by
          simp only [oneOf, statusOf_refused p.hist k e]
        have h2 : (ps.set i ⟨p.hist ++ [k], p.changer⟩).map oneOf = ps.map oneOf := by
          rw [List.map_set, h1]
          apply List.ext_getElem?
          intro j
          by_cases hj : i = j
          · subst hj
            have hlt : i < ps.length := by
              by_contra hc
              rw [List.getElem?_eq_none (by omega)] at h; cases h
            rw [List.getElem?_set_self (by simpa using hlt), List.getElem?_map, h]; rfl
          · rw [List.getElem?_set_ne hj]
        rw [h2]
        simp

/-- **C175.**  After any sequence of calls: the status of every service says how far the cycle of Init, Start and Close has come in the
attempts that were made on it, and before it was copied on the original; attempts on the original after that, and on copies, do not
count.  Every call returns what the specification says, and the functions of changers are called exactly when it is their turn, for the
service whose changer they are; those of a copy are not called before it gets a changer. -/
theorem C175_copies (os : List Op) :
    run os ⟨[], []⟩ = (pastRun os [] []).map fun q => (⟨q.1.1.map oneOf, q.1.2⟩, q.2) := by
  suffices H : ∀ ps log, run os ⟨ps.map oneOf, log⟩ = (pastRun os ps log).map fun q => (⟨q.1.1.map oneOf, q.1.2⟩, q.2) from H [] []
  induction os with
  | nil => intro ps log; rfl
  | cons o os ih =>
    intro ps log
    simp only [run, pastRun, step_past]
    cases h : past ps log o with
    | none => rfl
    | some q =>
      simp only [Option.map_some, Option.bind_some, ih, Option.map_map]
      rfl

/-- **C175, refuted:** "a copy of a started service can close it".  `Close` of the copy succeeds and calls nothing; the service stays
started. -/
theorem C175_close_refuted (c : Nat) :
    run [.new, .setChanger 0 c, .call 0 .init true, .call 0 .start true, .copy 0, .call 1 .close true] ⟨[], []⟩ =
      some (⟨[⟨.started, some c⟩, ⟨.stopped, none⟩], [(c, .init), (c, .start)]⟩, [.ok, .ok, .ok, .ok, .ok, .ok]) := rfl

/-- A copy of an initialized service with a changer of its own is started and closed while the original is not. -/
example : run [.new, .setChanger 0 7, .call 0 .init true, .copy 0, .setChanger 1 8, .call 1 .start true, .call 1 .close false, .call 0 .close true] ⟨[], []⟩ =
    some (⟨[⟨.initialized, some 7⟩, ⟨.stopped, some 8⟩], [(7, .init), (8, .start), (8, .close)]⟩, [.ok, .ok, .ok, .ok, .ok, .ok, .failed, .refused]) := rfl

end Verif.Service.Copies

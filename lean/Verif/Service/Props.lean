import Verif.Service.Model

/-!
# Property C62: the service life cycle
-/

namespace Verif.Service
open Verif Verif.Conc

/-- The documented order: Init, Start, Close, and again. -/
def cycle (i : Nat) : Kind := if i % 3 = 0 then .init else if i % 3 = 1 then .start else .close

/-- How many functions have been called, by status (modulo the cycle). -/
def phase : Status → Nat
  | .created => 0
  | .initialized => 1
  | .started => 2
  | .stopped => 0

/-- The functions called are the first ones of the cycle, and the status is where the cycle stands. -/
def Good (s : Svc) : Prop :=
  (∀ i k r, s.calls[i]? = some (k, r) → k = cycle i) ∧ s.calls.length % 3 = phase s.status ∧
    (s.status = .created → s.calls = [])

theorem run_eq (c : Call) (s : Svc) : (body c).run s =
    match check c.kind s.status with
    | none => (s, .refused)
    | some st => (⟨st, s.calls ++ [(c.kind, c.fn)]⟩, if c.fn then .ok else .failed) := by
  unfold body
  simp only [Prog.run]
  cases h : check c.kind s.status <;> simp [Prog.run]

/-- A step takes effect exactly when it is its turn. -/
theorem check_iff (k : Kind) (s : Status) : (∃ t, check k s = some t) ↔ k = cycle (phase s) := by
  cases k <;> cases s <;> simp [check, checkInit, checkStart, checkStop, cycle, phase]

theorem check_phase (k : Kind) (s t : Status) (h : check k s = some t) :
    phase t = (phase s + 1) % 3 ∧ t ≠ .created := by
  cases k <;> cases s <;> simp [check, checkInit, checkStart, checkStop] at h <;> subst h <;> simp [phase]

theorem cycle_mod (i : Nat) : cycle (i % 3) = cycle i := by simp [cycle]

theorem good_run (c : Call) (s : Svc) (h : Good s) : Good ((body c).run s).1 := by
  rw [run_eq]
  cases hc : check c.kind s.status with
  | none => exact h
  | some t =>
    obtain ⟨h1, h2, h3⟩ := h
    obtain ⟨hp, hn⟩ := check_phase _ _ _ hc
    have hk := (check_iff c.kind s.status).1 ⟨t, hc⟩
    refine ⟨?_, ?_, fun h => absurd h hn⟩
    · intro i k r hi
      by_cases hlt : i < s.calls.length
      · exact h1 i k r (by rwa [List.getElem?_append_left hlt] at hi)
      · rw [List.getElem?_append_right (by omega)] at hi
        have : i - s.calls.length = 0 := by
          by_contra hc
          rw [List.getElem?_eq_none (by simp; omega)] at hi
          cases hi
        rw [this] at hi
        simp only [List.length_cons, List.length_nil, Nat.zero_add, Nat.lt_add_one, List.getElem?_eq_getElem,
          List.getElem_cons_zero, Option.some.injEq, Prod.mk.injEq] at hi
        rw [← hi.1, hk, ← h2, cycle_mod]
        congr 1
        omega
    · simp only [List.length_append, List.length_cons, List.length_nil]
      rw [hp, ← h2]
      omega

theorem good_replays {s s' : Svc} {log : List (Nat × Call × Ret)} (h : Replays body s log s') (hs : Good s) : Good s' := by
  induction h with
  | nil => exact hs
  | snoc t o _ ih => exact good_run o _ ih

theorem good_fresh : Good fresh := by
  refine ⟨?_, rfl, fun _ => rfl⟩
  intro i k r h
  simp [fresh] at h

/-- C62: a method takes effect exactly if it is its turn in the cycle Init, Start, Close; otherwise it is refused and
changes nothing, in particular its function is not called. -/
theorem C62_effect (c : Call) (s : Svc) :
    if c.kind = cycle (phase s.status) then
      (∃ t, ((body c).run s).1 = ⟨t, s.calls ++ [(c.kind, c.fn)]⟩ ∧ phase t = (phase s.status + 1) % 3) ∧
        ((body c).run s).2 = (if c.fn then .ok else .failed)
    else (body c).run s = (s, .refused) := by
  rw [run_eq]
  split
  · rename_i h
    obtain ⟨t, ht⟩ := (check_iff _ _).2 h
    rw [ht]
    exact ⟨⟨t, rfl, (check_phase _ _ _ ht).1⟩, rfl⟩
  · rename_i h
    cases hc : check c.kind s.status with
    | none => rfl
    | some t => exact absurd ((check_iff _ _).1 ⟨t, hc⟩) h

/-- C62: under every schedule of concurrent callers and for all results of the functions, the functions called so far
are Init, Start, Close, Init, Start, Close, … in this order, each once per step (in every state in which no method is
running; a running method adds at most its own function). -/
theorem C62_order (todo : Nat → List Call) (c : Cfg Svc Call Ret) (h : Steps body (initial Call Ret fresh todo) c)
    (hq : c.holder = none) (i : Nat) (k : Kind) (r : Bool) (hi : c.shared.calls[i]? = some (k, r)) : k = cycle i := by
  obtain ⟨⟨s, hrep, hf, _⟩, _⟩ := linearizable body _ _ _ h
  have hs := good_replays hrep good_fresh
  rw [hf hq] at hi
  exact hs.1 i k r hi

/-- C62: a method that returns without error left the service in the status of its step: under every schedule the number
of successful or failed steps determines the status. -/
theorem C62_status (todo : Nat → List Call) (c : Cfg Svc Call Ret) (h : Steps body (initial Call Ret fresh todo) c)
    (hq : c.holder = none) : c.shared.calls.length % 3 = phase c.shared.status ∧
      c.shared.calls.length = (c.log.filter (fun e => e.2.2 != .refused)).length := by
  obtain ⟨⟨s, hrep, hf, _⟩, _⟩ := linearizable body _ _ _ h
  rw [hf hq]
  refine ⟨(good_replays hrep good_fresh).2.1, ?_⟩
  have : ∀ {a b : Svc} {log : List (Nat × Call × Ret)}, Replays body a log b → a = fresh →
      b.calls.length = (log.filter (fun e => e.2.2 != .refused)).length := by
    intro a b log h
    induction h with
    | nil => rintro rfl; rfl
    | snoc t o _ ih =>
      intro he
      have := ih he
      rw [List.filter_append, List.length_append, ← this, run_eq]
      split
      · simp
      · cases o.fn <;> simp
  exact this hrep rfl

/-- C62 refuted: a service whose Init failed can be started. -/
theorem C62_failed_init_refuted :
    ((body ⟨.init, false⟩).run fresh).2 = .failed ∧
      ((body ⟨.start, true⟩).run ((body ⟨.init, false⟩).run fresh).1).2 = .ok := by decide

/-- C62 (partial, see `C62_failed_init_refuted`): a service on which Init has not been tried since it was created or
closed cannot be started. -/
theorem C62_start_needs_init_partial (todo : Nat → List Call) (c : Cfg Svc Call Ret)
    (h : Steps body (initial Call Ret fresh todo) c) (hq : c.holder = none) (fn : Bool) :
    ((body ⟨.start, fn⟩).run c.shared).2 ≠ .refused ↔ ∃ r pre, c.shared.calls = pre ++ [(.init, r)] := by
  obtain ⟨⟨s, hrep, hf, _⟩, _⟩ := linearizable body _ _ _ h
  have hs := good_replays hrep good_fresh
  rw [hf hq]
  obtain ⟨h1, h2, h3⟩ := hs
  rw [run_eq]
  cases hst : s.status with
  | initialized =>
    have : ((check Kind.start Status.initialized)) = some .started := rfl
    simp only [this]
    constructor
    · intro _
      rw [hst] at h2
      simp only [phase] at h2
      have hpos : 0 < s.calls.length := by omega
      have hne : s.calls ≠ [] := List.length_pos_iff.1 hpos
      have hlast := List.dropLast_concat_getLast hne
      have hk := h1 (s.calls.length - 1) (s.calls.getLast hne).1 (s.calls.getLast hne).2 (by
        rw [← List.getLast?_eq_getElem?, List.getLast?_eq_some_getLast hne])
      have : cycle (s.calls.length - 1) = .init := by
        unfold cycle; rw [if_pos (by omega)]
      rw [this] at hk
      exact ⟨(s.calls.getLast hne).2, s.calls.dropLast, by rw [← hk]; exact hlast.symm⟩
    · intro _
      cases fn <;> simp
  | created =>
    simp only [check, checkStart]
    simp [h3 hst]
  | started =>
    simp only [check, checkStart]
    simp only [ne_eq, reduceCtorEq, not_false_eq_true, if_true, not_true_eq_false, false_iff]
    rintro ⟨r, pre, he⟩
    have := h1 pre.length .init r (by rw [he]; simp)
    rw [hst, he] at h2
    simp [phase] at h2
    unfold cycle at this
    rw [if_neg (by omega)] at this
    split at this <;> cases this
  | stopped =>
    simp only [check, checkStart]
    simp only [ne_eq, reduceCtorEq, not_false_eq_true, if_true, not_true_eq_false, false_iff]
    rintro ⟨r, pre, he⟩
    have := h1 pre.length .init r (by rw [he]; simp)
    rw [hst, he] at h2
    simp [phase] at h2
    unfold cycle at this
    rw [if_neg (by omega)] at this
    split at this <;> cases this

example : ((body ⟨.close, true⟩).run fresh).2 = .refused ∧
    ((body ⟨.init, true⟩).run ((body ⟨.init, true⟩).run fresh).1).2 = .refused ∧
    ((body ⟨.start, true⟩).run ((body ⟨.init, true⟩).run fresh).1).1 = ⟨.started, [(.init, true), (.start, true)]⟩ := by
  decide

end Verif.Service

import Verif.Base

/-!
# `HistoryTree.Has` and the lock (`/repo/trie/historytree.go:415-434`)

`Has` takes the lock of the tree and then calls `Get`, which takes it again.  `sync.Mutex` is not reentrant: a goroutine
that locks a mutex it holds waits for ever.
-/

namespace Verif.HTree.Has

/-- What a goroutine does next with the lock of the tree. -/
inductive Act where
  | lock
  | unlock
  | work
  deriving DecidableEq

/-- `Get` (`/repo/trie/historytree.go:423-434`): the lock, the walk, the deferred unlock. -/
def get : List Act := [.lock, .work, .unlock]

/-- `Has` (`/repo/trie/historytree.go:415-421`): the lock, the call of `Get`, the deferred unlock. -/
def has : List Act := .lock :: (get ++ [.unlock])

/-- The owner of the lock, and what is left to do for every goroutine. -/
structure St where
  owner : Option Nat
  todo : Nat → List Act

/-- One step of one goroutine; `Lock` waits for the lock to be free. -/
inductive Step : St → St → Prop
  | lock (s : St) (t : Nat) (r : List Act) : s.todo t = .lock :: r → s.owner = none →
      Step s ⟨some t, fun u => if u = t then r else s.todo u⟩
  | unlock (s : St) (t : Nat) (r : List Act) : s.todo t = .unlock :: r → s.owner = some t →
      Step s ⟨none, fun u => if u = t then r else s.todo u⟩
  | work (s : St) (t : Nat) (r : List Act) : s.todo t = .work :: r →
      Step s ⟨s.owner, fun u => if u = t then r else s.todo u⟩

/-- Executions. -/
inductive Steps : St → St → Prop
  | refl (s : St) : Steps s s
  | tail {a b c : St} : Steps a b → Step b c → Steps a c

/-- Inside `Has` with the lock held. -/
def Stuck (t : Nat) (s : St) : Prop := s.owner = some t ∧ s.todo t = get ++ [.unlock]

theorem stuck_step {t : Nat} {s s' : St} (h : Stuck t s) (hs : Step s s') : Stuck t s' := by
  obtain ⟨h1, h2⟩ := h
  cases hs with
  | lock u r hu ho => rw [h1] at ho; cases ho
  | unlock u r hu ho =>
    rw [h1] at ho
    cases ho
    rw [h2] at hu
    cases hu
  | work u r hu =>
    have hut : t ≠ u := by
      intro e
      subst e
      rw [h2] at hu
      cases hu
    refine ⟨h1, ?_⟩
    simp only [hut, if_false]
    exact h2

theorem stuck_steps {t : Nat} {s s' : St} (hs : Steps s s') (h : Stuck t s) : Stuck t s' := by
  induction hs with
  | refl => exact h
  | tail _ h2 ih => exact stuck_step ih h2

/-- C99: a goroutine that calls `Has` never returns from it, in any execution with any other goroutines. -/
theorem C99_has_never_returns (s s' : St) (t : Nat) (h0 : s.todo t = has) (hs : Steps s s') : s'.todo t ≠ [] := by
  have : s'.todo t = has ∨ Stuck t s' := by
    induction hs with
    | refl => exact .inl h0
    | @tail b c _ hst ih =>
      rcases ih with ih | ih
      · cases hst with
        | lock u r hu ho =>
          by_cases hut : t = u
          · subst hut
            rw [ih] at hu
            have hr : r = get ++ [.unlock] := (List.cons.inj hu).2.symm
            exact .inr ⟨rfl, by simp [hr]⟩
          · left; simp only [hut, if_false]; exact ih
        | unlock u r hu ho =>
          have hut : t ≠ u := by intro e; subst e; rw [ih] at hu; cases hu
          left; simp only [hut, if_false]; exact ih
        | work u r hu =>
          have hut : t ≠ u := by intro e; subst e; rw [ih] at hu; cases hu
          left; simp only [hut, if_false]; exact ih
      · exact .inr (stuck_step ih hst)
  rcases this with h | h
  · rw [h]; decide
  · rw [h.2]; decide

/-- C99: once `Has` was entered, no other goroutine ever gets the lock again: every later call on the tree waits for
ever. -/
theorem C99_others_blocked (s s' : St) (t u : Nat) (h : Stuck t s) (hs : Steps s s') (r : List Act) (hu : s'.todo u = .lock :: r) :
    s'.owner = some t ∧ ∀ s'', Step s' s'' → s''.todo u = .lock :: r := by
  have h1 := stuck_steps hs h
  refine ⟨h1.1, ?_⟩
  intro s'' hst
  cases hst with
  | lock v q hv ho => rw [h1.1] at ho; cases ho
  | unlock v q hv ho =>
    have huv : u ≠ v := by intro e; subst e; rw [hu] at hv; cases hv
    simp only [huv, if_false]; exact hu
  | work v q hv =>
    have huv : u ≠ v := by intro e; subst e; rw [hu] at hv; cases hv
    simp only [huv, if_false]; exact hu

/-- In contrast `Get` alone returns. -/
theorem get_returns : ∃ s, Steps ⟨none, fun u => if u = 0 then get else []⟩ s ∧ s.todo 0 = [] ∧ s.owner = none := by
  refine ⟨_, .tail (.tail (.tail (.refl _) (.lock _ 0 [.work, .unlock] rfl rfl)) (.work _ 0 [.unlock] rfl)) (.unlock _ 0 [] rfl rfl),
    rfl, rfl⟩

/-- The premise of C99 is met. -/
example : ∃ s, Steps ⟨none, fun u => if u = 0 then has else if u = 1 then get else []⟩ s ∧ Stuck 0 s :=
  ⟨_, .tail (.refl _) (.lock _ 0 (get ++ [.unlock]) rfl rfl), rfl, rfl⟩

end Verif.HTree.Has

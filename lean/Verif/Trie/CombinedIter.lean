import Verif.Trie.Combined

/-!
# Property C176: iterating over a trie of tries while others change it (/repo/trie/combinedtrie.go)

The iterator copies the keys when it is made and then calls `Get` without a lock in between: other goroutines may change the combined
trie between any two of these calls.  The trie is therefore given as `env`: `env t` is what the call number `t` of `Get` sees.
-/

namespace Verif.Combined
open Verif Verif.Merkle Verif.Trie

variable {P : Type}

/-- `Next` (`/repo/trie/combinedtrie.go:46-59`) from position `p` (`pos + 1`) with call number `t`: the position, the number of the next
call, and what it returns. -/
def nextAt (env : Nat → Comb P) (ks : List Bytes) (p t : Nat) : Nat × Nat × Bool :=
  if h : p < ks.length then
    if ((env t).get (some ks[p])).isSome then (p + 1, t + 1, true) else nextAt env ks (p + 1) (t + 1)
  else (p, t, false)
  termination_by ks.length - p

/-- `for it.Next() { it.Current() }` (`/repo/trie/combinedtrie.go:370-382` has the loop), at most `f` times. -/
def walkAt (env : Nat → Comb P) (ks : List Bytes) : Nat → Nat → Nat → List (Option (Bytes × P))
  | 0, _, _ => []
  | f + 1, p, t =>
    let r := nextAt env ks p t
    if r.2.2 then current (env r.2.1) ks r.1 :: walkAt env ks f r.1 (r.2.1 + 1) else []

/-- The same by recursion on the keys. -/
def visits (env : Nat → Comb P) : List Bytes → Nat → List (Option (Bytes × P))
  | [], _ => []
  | k :: ks, t =>
    match (env t).get (some k) with
    | none => visits env ks (t + 1)
    | some _ => ((env (t + 1)).get (some k)).map (fun v => (k, v)) :: visits env ks (t + 2)

theorem walkAt_visits (env : Nat → Comb P) (ks : List Bytes) : ∀ (m p t f : Nat), ks.length - p = m → m < f → walkAt env ks f p t = visits env (ks.drop p) t := by
  intro m
  induction m with
  | zero =>
    intro p t f hm hf
    cases f with
    | zero => omega
    | succ f =>
      have hp : ¬ p < ks.length := by omega
      rw [walkAt, nextAt, dif_neg hp, List.drop_of_length_le (by omega)]
      rfl
  | succ m ih =>
    intro p t f hm hf
    have hp : p < ks.length := by omega
    rw [List.drop_eq_getElem_cons hp]
    cases f with
    | zero => omega
    | succ f =>
      rw [visits]
      cases hg : (env t).get (some ks[p]) with
      | none =>
        rw [← ih (p + 1) (t + 1) (f + 1) (by omega) (by omega)]
        have h1 : nextAt env ks p t = nextAt env ks (p + 1) (t + 1) := by rw [nextAt, dif_pos hp, if_neg (by rw [hg]; simp)]
        rw [walkAt, walkAt, h1]
      | some v =>
        have h1 : nextAt env ks p t = (p + 1, t + 1, true) := by rw [nextAt, dif_pos hp, if_pos (by rw [hg]; rfl)]
        rw [walkAt, h1]
        simp only [if_true]
        rw [ih (p + 1) (t + 1 + 1) f (by omega) (by omega)]
        simp only [current, List.getElem?_eq_getElem hp]

/-- **C176.**  Whatever others do meanwhile: the keys that are given are keys that were there when the iterator was made, each at most
once, in ascending order; there are at most as many rounds; every pair was in the trie at some moment; a round without a pair means that
its key was taken away between `Next` and `Current`. -/
theorem C176_sound (c : Comb P) (hc : Inv c) (env : Nat → Comb P) (f : Nat) (hf : c.keys.length < f) :
    (((walkAt env c.keys f 0 0).filterMap id).map Prod.fst).Sublist c.keys ∧
    StrictSorted bytesCompare (((walkAt env c.keys f 0 0).filterMap id).map Prod.fst) ∧
    (walkAt env c.keys f 0 0).length ≤ c.keys.length ∧
    (∀ k v, some (k, v) ∈ walkAt env c.keys f 0 0 → ∃ t, (env t).get (some k) = some v) ∧
    (none ∈ walkAt env c.keys f 0 0 → ∃ k ∈ c.keys, ∃ t, ((env t).get (some k)).isSome ∧ (env (t + 1)).get (some k) = none) := by
  rw [walkAt_visits env c.keys _ 0 0 f rfl (by omega), List.drop_zero]
  have key : ∀ (ks : List Bytes) (t : Nat), (((visits env ks t).filterMap id).map Prod.fst).Sublist ks ∧
      (visits env ks t).length ≤ ks.length ∧ (∀ k v, some (k, v) ∈ visits env ks t → ∃ t, (env t).get (some k) = some v) ∧
      (none ∈ visits env ks t → ∃ k ∈ ks, ∃ t, ((env t).get (some k)).isSome ∧ (env (t + 1)).get (some k) = none) := by
    intro ks
    induction ks with
    | nil => intro t; simp [visits]
    | cons k ks ih =>
      intro t
      rw [visits]
      cases hg : (env t).get (some k) with
      | none =>
        obtain ⟨i1, i2, i3, i4⟩ := ih (t + 1)
        refine ⟨i1.cons _, by simp only [List.length_cons]; omega, i3, fun h => ?_⟩
        obtain ⟨k', hk, h⟩ := i4 h
        exact ⟨k', by simp [hk], h⟩
      | some v =>
        obtain ⟨i1, i2, i3, i4⟩ := ih (t + 2)
        cases hg' : (env (t + 1)).get (some k) with
        | none =>
          refine ⟨by simpa using i1.cons _, by simp; omega, fun k' v' h => ?_, fun _ => ⟨k, by simp, t, by rw [hg]; rfl, hg'⟩⟩
          simp only [Option.map_none, List.mem_cons, reduceCtorEq, false_or] at h
          exact i3 k' v' h
        | some v2 =>
          refine ⟨by simpa using i1, by simp; omega, fun k' v' h => ?_, fun h => ?_⟩
          · simp only [Option.map_some, List.mem_cons, Option.some.injEq, Prod.mk.injEq] at h
            rcases h with ⟨rfl, rfl⟩ | h
            · exact ⟨t + 1, hg'⟩
            · exact i3 k' v' h
          · simp only [Option.map_some, List.mem_cons, reduceCtorEq, false_or] at h
            obtain ⟨k', hk, h⟩ := i4 h
            exact ⟨k', by simp [hk], h⟩
  obtain ⟨h1, h2, h3, h4⟩ := key c.keys 0
  exact ⟨h1, List.Pairwise.sublist h1 hc.sorted, h2, h3, h4⟩

/-- **C176.**  A key that is there when the iterator is made and keeps its sub-trie meanwhile is given exactly once, with it.  A key that
is not there meanwhile is not given. -/
theorem C176_complete (c : Comb P) (hc : Inv c) (env : Nat → Comb P) (f : Nat) (hf : c.keys.length < f) (k : Bytes) :
    (∀ v, k ∈ c.keys → (∀ t, (env t).get (some k) = some v) → ((walkAt env c.keys f 0 0).filterMap id).filter (fun p => p.1 = k) = [(k, v)]) ∧
    ((∀ t, (env t).get (some k) = none) → ((walkAt env c.keys f 0 0).filterMap id).filter (fun p => p.1 = k) = []) := by
  obtain ⟨-, -, -, hseen, -⟩ := C176_sound c hc env f hf
  have hnd := hc.sorted.nodup bytesCompare_lawful
  constructor
  · intro v hk hv
    rw [walkAt_visits env c.keys _ 0 0 f rfl (by omega), List.drop_zero]
    have absent : ∀ (ks : List Bytes) (t : Nat), k ∉ ks → ((visits env ks t).filterMap id).filter (fun p => p.1 = k) = [] := by
      intro ks
      induction ks with
      | nil => intro t _; simp [visits]
      | cons a ks ih =>
        intro t h
        rw [List.mem_cons, not_or] at h
        rw [visits]
        cases hg : (env t).get (some a) with
        | none => exact ih _ h.2
        | some w =>
          cases hg' : (env (t + 1)).get (some a) with
          | none => simpa using ih _ h.2
          | some w' =>
            have := ih (t + 2) h.2
            simp only [Option.map_some, List.filterMap_cons, id]
            rw [List.filter_cons_of_neg (by simpa using Ne.symm h.1)]
            exact this
    have key : ∀ (ks : List Bytes) (t : Nat), ks.Nodup → k ∈ ks → ((visits env ks t).filterMap id).filter (fun p => p.1 = k) = [(k, v)] := by
      intro ks
      induction ks with
      | nil => intro t _ h; simp at h
      | cons a ks ih =>
        intro t hn h
        rw [List.nodup_cons] at hn
        rw [visits]
        by_cases e : a = k
        · subst e
          simp only [hv, Option.map_some, List.filterMap_cons, id]
          rw [List.filter_cons_of_pos (by simp)]
          exact congrArg _ (absent ks _ hn.1)
        · have h' : k ∈ ks := by
            rcases List.mem_cons.1 h with h | h
            · exact absurd h.symm e
            · exact h
          cases hg : (env t).get (some a) with
          | none => exact ih _ hn.2 h'
          | some w =>
            cases hg' : (env (t + 1)).get (some a) with
            | none => simpa using ih _ hn.2 h'
            | some w' =>
              simp only [Option.map_some, List.filterMap_cons, id]
              rw [List.filter_cons_of_neg (by simpa using e)]
              exact ih _ hn.2 h'
    exact key c.keys 0 hnd hk
  · intro hv
    rw [List.filter_eq_nil_iff]
    intro p hp e
    simp only [List.mem_filterMap, id] at hp
    obtain ⟨o, ho, rfl⟩ := hp
    obtain ⟨t, ht⟩ := hseen p.1 p.2 ho
    simp only [decide_eq_true_eq] at e
    rw [e, hv t] at ht
    cases ht

/-- Keys `a` and `b`; `a` is taken away and `b` changed after `a` was given. -/
def moving : Nat → List (W Nat)
  | 0 => [.put (some [97]) (some 1), .put (some [98]) (some 1)]
  | 1 => [.put (some [97]) (some 1), .put (some [98]) (some 1)]
  | _ => [.put (some [97]) (some 1), .put (some [98]) (some 1), .delete (some [97]), .put (some [98]) (some 2)]

/-- The trie after a history. -/
def after (ws : List (W Nat)) : Comb Nat :=
  match run (new Nat) ws with
  | .ok p => p.1
  | _ => new Nat

/-- **C176, refuted:** "what is given are the contents at some moment": `a` and the new sub-trie of `b` were never there together. -/
theorem C176_moment_refuted : walkAt (fun t => after (moving t)) (after (moving 0)).keys 3 0 0 = [some ([97], 1), some ([98], 2)] ∧
    ∀ n, ¬ ((specRun (fun _ => none) ((moving 3).take n)).1 [97] = some 1 ∧ (specRun (fun _ => none) ((moving 3).take n)).1 [98] = some 2) := by
  constructor
  · decide +kernel
  · intro n
    match n with
    | 0 => simp [moving, specRun]
    | 1 => simp [moving, specRun, specStep]
    | 2 => simp [moving, specRun, specStep]
    | 3 => simp [moving, specRun, specStep]
    | n + 4 => simp [moving, specRun, specStep]

/-- **C176, refuted:** "when `Next` returned true, `Current` gives a pair": not if the key is deleted in between. -/
theorem C176_current_refuted : walkAt (fun t => after (if t = 0 then [.put (some [97]) (some 1)] else [.put (some [97]) (some 1), .delete (some [97])]))
    (after [.put (some [97]) (some 1)]).keys 2 0 0 = [none] := by decide +kernel

/-- A key that is put while the iterator runs is not given, one that is deleted and put again before it is reached is. -/
example : walkAt (fun t => after ([.put (some [97]) (some 1), .put (some [99]) (some 3)] ++ if t = 0 then [.delete (some [99])] else
      [.delete (some [99]), .put (some [98]) (some 2), .put (some [99]) (some 4)]))
    (after [.put (some [97]) (some 1), .put (some [99]) (some 3)]).keys 3 0 0 = [some ([97], 1), some ([99], 4)] := by decide +kernel

end Verif.Combined

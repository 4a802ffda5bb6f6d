import Verif.Trie.Combined

/-!
# Property C178: committing a trie of tries while its sub-tries change (/repo/trie/combinedtrie.go:205-255)

`Commit` holds the lock of the combined trie, so its keys do not change, but anyone who has a sub-trie may change it between any two calls
that `Commit` makes.  `env t p` is the sub-trie `p` as the call number `t` finds it.  Each call of a sub-trie is one step (C148).
-/

namespace Verif.Combined
open Verif Verif.Merkle Verif.Trie

variable {P : Type}

/-- What a sub-trie answers at one moment: `IsDirty`, `HashValue` (`none`: an error) and `Commit` (`none`: an error; else the hash of the
tree it has stored). -/
structure SubAt where
  dirty : Bool
  hash : Option Bytes
  commit : Option Bytes

/-- The loop of `Commit` (`/repo/trie/combinedtrie.go:208-216`) over the sub-tries in the order in which Go visits the map: the number of
the next call and the hashes of the stored trees. -/
def commitSubs (env : Nat → P → SubAt) : List P → Nat → List Bytes → Option (Nat × List Bytes)
  | [], t, st => some (t, st)
  | p :: ps, t, st =>
    if (env t p).dirty then
      match (env (t + 1) p).commit with
      | some h => commitSubs env ps (t + 2) (h :: st)
      | none => none
    else commitSubs env ps (t + 1) st

/-- The loop of `saveRoot` (`/repo/trie/combinedtrie.go:230-246`), and with the hashes alone the one of `computeHash`
(`/repo/trie/combinedtrie.go:97-108`). -/
def askAt (env : Nat → P → SubAt) (vm : Bytes → Option P) : List Bytes → Nat → Option (Nat × List (Bytes × Bytes))
  | [], t => some (t, [])
  | k :: ks, t =>
    match vm k with
    | none => askAt env vm ks t
    | some p =>
      match (env t p).hash with
      | none => none
      | some h => (askAt env vm ks (t + 1)).map fun r => (r.1, (k, h) :: r.2)

/-- What `Commit` hands to `Save`: the key and the pairs of the record; and the hashes of the trees it has stored. -/
structure Saved where
  key : Bytes
  record : List (Bytes × Bytes)
  stored : List Bytes
  deriving DecidableEq

/-- `Commit` with `saveRoot` (`/repo/trie/combinedtrie.go:205-255`) with an adapter; `order` lists the sub-tries as the map is visited;
`none`: an error before `Save`. -/
def commitAt (H : Bytes → Bytes) (env : Nat → P → SubAt) (c : Comb P) (order : List P) : Option Saved :=
  match commitSubs env order 0 [] with
  | none => none
  | some (t, st) =>
    match askAt env c.vm c.keys t with
    | none => none
    | some (t', rec) =>
      if c.keys = [] then some ⟨nilHash H, rec, st⟩
      else (askAt env c.vm c.keys t').map fun r => ⟨(merkleHashComplete H (r.2.map (·.2)) 0 none).1, rec, st⟩

/-! ### The claims -/

/-- A list of pairs tells, for the keys in order, hashes which their sub-tries have had between two moments. -/
def Tells (env : Nat → P → SubAt) (vm : Bytes → Option P) (ks : List Bytes) (a b : Nat) (l : List (Bytes × Bytes)) : Prop :=
  l.map (·.1) = ks.filter (fun k => (vm k).isSome) ∧ ∀ k h, (k, h) ∈ l → ∃ p t, vm k = some p ∧ a ≤ t ∧ t < b ∧ (env t p).hash = some h

theorem askAt_tells (env : Nat → P → SubAt) (vm : Bytes → Option P) : ∀ (ks : List Bytes) (t t' : Nat) (l : List (Bytes × Bytes)),
    askAt env vm ks t = some (t', l) → t ≤ t' ∧ Tells env vm ks t t' l
  | [], t, t', l, h => by
    simp only [askAt, Option.some.injEq, Prod.mk.injEq] at h
    obtain ⟨rfl, rfl⟩ := h
    exact ⟨Nat.le_refl _, rfl, by simp⟩
  | k :: ks, t, t', l, h => by
    rw [askAt] at h
    cases hv : vm k with
    | none =>
      rw [hv] at h
      obtain ⟨h1, h2, h3⟩ := askAt_tells env vm ks t t' l h
      exact ⟨h1, by rw [h2, List.filter_cons_of_neg (by rw [hv]; simp)], h3⟩
    | some p =>
      rw [hv] at h
      cases hh : (env t p).hash with
      | none => simp only [hh] at h; exact absurd h (by simp)
      | some x =>
        simp only [hh] at h
        cases hr : askAt env vm ks (t + 1) with
        | none => rw [hr] at h; exact absurd h (by simp)
        | some r =>
          rw [hr] at h
          simp only [Option.map_some, Option.some.injEq, Prod.mk.injEq] at h
          obtain ⟨h4, rfl⟩ := h
          subst h4
          obtain ⟨h1, h2, h3⟩ := askAt_tells env vm ks (t + 1) r.1 r.2 hr
          refine ⟨by omega, by rw [List.map_cons, h2, List.filter_cons_of_pos (by rw [hv]; simp)], ?_⟩
          intro k' h' hm
          rcases List.mem_cons.mp hm with he | hm
          · simp only [Prod.mk.injEq] at he
            obtain ⟨rfl, rfl⟩ := he
            exact ⟨p, t, hv, Nat.le_refl _, by omega, hh⟩
          · obtain ⟨q, u, h5, h6, h7, h8⟩ := h3 k' h' hm
            exact ⟨q, u, h5, by omega, h7, h8⟩

theorem commitSubs_time (env : Nat → P → SubAt) : ∀ (ps : List P) (t : Nat) (st : List Bytes) (t' : Nat) (st' : List Bytes),
    commitSubs env ps t st = some (t', st') → t ≤ t' ∧ (∀ h ∈ st, h ∈ st') ∧
      ∀ p ∈ ps, ∃ u, t ≤ u ∧ u < t' ∧ ((env u p).dirty = false ∨ ∃ h, (env u p).commit = some h ∧ h ∈ st')
  | [], t, st, t', st', h => by
    simp only [commitSubs, Option.some.injEq, Prod.mk.injEq] at h
    obtain ⟨rfl, rfl⟩ := h
    exact ⟨Nat.le_refl _, fun _ h => h, by simp⟩
  | p :: ps, t, st, t', st', h => by
    rw [commitSubs] at h
    cases hd : (env t p).dirty with
    | false =>
      rw [hd] at h
      obtain ⟨h1, h2, h3⟩ := commitSubs_time env ps (t + 1) st t' st' (by simpa using h)
      refine ⟨by omega, h2, ?_⟩
      intro q hq
      rcases List.mem_cons.mp hq with rfl | hq
      · exact ⟨t, Nat.le_refl _, by omega, .inl hd⟩
      · obtain ⟨u, a, b, c⟩ := h3 q hq
        exact ⟨u, by omega, b, c⟩
    | true =>
      rw [hd, if_pos rfl] at h
      cases hc : (env (t + 1) p).commit with
      | none => simp only [hc] at h; exact absurd h (by simp)
      | some x =>
        simp only [hc] at h
        obtain ⟨h1, h2, h3⟩ := commitSubs_time env ps (t + 2) (x :: st) t' st' h
        refine ⟨by omega, fun y hy => h2 y (List.mem_cons_of_mem _ hy), ?_⟩
        intro q hq
        rcases List.mem_cons.mp hq with rfl | hq
        · exact ⟨t + 1, by omega, by omega, .inr ⟨x, hc, h2 x List.mem_cons_self⟩⟩
        · obtain ⟨u, a, b, c⟩ := h3 q hq
          exact ⟨u, by omega, b, c⟩

theorem askAt_static (env : Nat → P → SubAt) (vm : Bytes → Option P) (hs : ∀ t t' p, (env t p).hash = (env t' p).hash) :
    ∀ (ks : List Bytes) (t u : Nat), (askAt env vm ks t).map (·.2) = (askAt env vm ks u).map (·.2)
  | [], t, u => rfl
  | k :: ks, t, u => by
    rw [askAt, askAt]
    cases vm k with
    | none => exact askAt_static env vm hs ks t u
    | some p =>
      simp only [hs t u p]
      cases (env u p).hash with
      | none => rfl
      | some h =>
        have := askAt_static env vm hs ks (t + 1) (u + 1)
        simp only [Option.map_map] 
        cases h1 : askAt env vm ks (t + 1) <;> cases h2 : askAt env vm ks (u + 1) <;> rw [h1, h2] at this <;> simp_all

/-- C178, whatever others do to the sub-tries: the record has the keys in order, each with a hash that its sub-trie has had during the
commit, and the key is the Merkle root of such hashes, all of them taken later.  Before, each sub-trie was found clean or stored as it was. -/
theorem C178_moments (H : Bytes → Bytes) (env : Nat → P → SubAt) (c : Comb P) (order : List P) (s : Saved)
    (hc : commitAt H env c order = some s) :
    ∃ a b d : Nat, Tells env c.vm c.keys a b s.record ∧
      (∃ l, s.key = (merkleHashComplete H (l.map (·.2)) 0 none).1 ∧ Tells env c.vm c.keys b d l) ∧
      ∀ p ∈ order, ∃ t, t < a ∧ ((env t p).dirty = false ∨ ∃ h, (env t p).commit = some h ∧ h ∈ s.stored) := by
  rw [commitAt] at hc
  cases h1 : commitSubs env order 0 [] with
  | none => rw [h1] at hc; exact absurd hc (by simp)
  | some r1 =>
    obtain ⟨a, st⟩ := r1
    simp only [h1] at hc
    obtain ⟨_, _, hsub⟩ := commitSubs_time env order 0 [] a st h1
    cases h2 : askAt env c.vm c.keys a with
    | none => rw [h2] at hc; exact absurd hc (by simp)
    | some r2 =>
      obtain ⟨b, rec⟩ := r2
      simp only [h2] at hc
      obtain ⟨hab, ht⟩ := askAt_tells env c.vm c.keys a b rec h2
      by_cases hk : c.keys = []
      · rw [if_pos hk] at hc
        injection hc with hc
        subst hc
        refine ⟨a, b, b, ht, ⟨[], rfl, by rw [hk]; rfl, by simp⟩, ?_⟩
        intro p hp
        obtain ⟨u, _, hu, hx⟩ := hsub p hp
        exact ⟨u, hu, hx⟩
      · rw [if_neg hk] at hc
        cases h3 : askAt env c.vm c.keys b with
        | none => rw [h3] at hc; exact absurd hc (by simp)
        | some r3 =>
          obtain ⟨d, l⟩ := r3
          rw [h3] at hc
          simp only [Option.map_some, Option.some.injEq] at hc
          subst hc
          refine ⟨a, b, d, ht, ⟨l, rfl, (askAt_tells env c.vm c.keys b d l h3).2⟩, ?_⟩
          intro p hp
          obtain ⟨u, _, hu, hx⟩ := hsub p hp
          exact ⟨u, hu, hx⟩

/-- C178, when nobody changes the sub-tries meanwhile: the key is the Merkle root of the hashes in the record, and the tree of every hash
in the record has been stored by this commit, or its sub-trie was clean. -/
theorem C178_still_partial (H : Bytes → Bytes) (env : Nat → P → SubAt) (c : Comb P) (order : List P) (s : Saved)
    (hc : commitAt H env c order = some s) (hstill : ∀ t t' p, (env t p).hash = (env t' p).hash)
    (hcommit : ∀ t p h, (env t p).commit = some h → (env t p).hash = some h) (hall : ∀ k p, c.vm k = some p → p ∈ order) :
    s.key = (merkleHashComplete H (s.record.map (·.2)) 0 none).1 ∧
      ∀ k h, (k, h) ∈ s.record → h ∈ s.stored ∨ ∃ p t, c.vm k = some p ∧ (env t p).dirty = false ∧ (env t p).hash = some h := by
  constructor
  · rw [commitAt] at hc
    cases h1 : commitSubs env order 0 [] with
    | none => rw [h1] at hc; exact absurd hc (by simp)
    | some r1 =>
      obtain ⟨a, st⟩ := r1
      simp only [h1] at hc
      cases h2 : askAt env c.vm c.keys a with
      | none => rw [h2] at hc; exact absurd hc (by simp)
      | some r2 =>
        obtain ⟨b, rec⟩ := r2
        simp only [h2] at hc
        by_cases hk : c.keys = []
        · rw [if_pos hk] at hc
          injection hc with hc
          subst hc
          rw [hk] at h2
          simp only [askAt, Option.some.injEq, Prod.mk.injEq] at h2
          rw [← h2.2]
          rfl
        · rw [if_neg hk] at hc
          cases h3 : askAt env c.vm c.keys b with
          | none => rw [h3] at hc; exact absurd hc (by simp)
          | some r3 =>
            have := askAt_static env c.vm hstill c.keys a b
            rw [h2, h3] at this
            rw [h3] at hc
            simp only [Option.map_some, Option.some.injEq] at hc this
            subst hc
            rw [this]
  · intro k h hm
    obtain ⟨a, b, d, ht, _, hsub⟩ := C178_moments H env c order s hc
    obtain ⟨p, t, hv, _, _, hh⟩ := ht.2 k h hm
    obtain ⟨u, _, hx⟩ := hsub p (hall k p hv)
    rcases hx with hx | ⟨x, hx, hx'⟩
    · exact .inr ⟨p, u, hv, hx, by rw [hstill u t, hh]⟩
    · have h1 := hcommit u p x hx
      rw [hstill u t, hh] at h1
      injection h1 with h1
      rw [h1]
      exact .inl hx'

/-! ### Where it fails -/

/-- One key with one sub-trie. -/
def oneSub : Comb Unit := ⟨[[107]], fun k => if k = [107] then some () else none⟩

/-- A clean sub-trie with hash `7…` that someone changes to hash `8…` before the call number `n`. -/
def changedAt (n : Nat) (t : Nat) (_ : Unit) : SubAt :=
  if t < n then ⟨false, some (List.replicate 32 7), some (List.replicate 32 7)⟩
  else ⟨true, some (List.replicate 32 8), some (List.replicate 32 8)⟩

/-- C178 fails in the code when a sub-trie changes between the two times that `Commit` asks for its hash: what is saved under the new
hash is the old hash. -/
theorem C178_key_refuted : ¬ ∀ (H : Bytes → Bytes) (env : Nat → Unit → SubAt) (c : Comb Unit) (s : Saved), commitAt H env c [()] = some s →
    s.key = (merkleHashComplete H (s.record.map (·.2)) 0 none).1 := by
  intro h
  have := h id (changedAt 2) oneSub ⟨List.replicate 32 8, [([107], List.replicate 32 7)], []⟩ (by decide +kernel)
  revert this
  decide +kernel

/-- C178 fails in the code when a sub-trie changes after it was found clean: the hash in the record is that of a tree which nobody has
stored. -/
theorem C178_stored_refuted : ¬ ∀ (H : Bytes → Bytes) (env : Nat → Unit → SubAt) (c : Comb Unit) (s : Saved), commitAt H env c [()] = some s →
    ∀ k h, (k, h) ∈ s.record → h ∈ s.stored ∨ ∃ p t, c.vm k = some p ∧ (env t p).dirty = false ∧ (env t p).hash = some h := by
  intro h
  have h1 := h id (changedAt 1) oneSub ⟨List.replicate 32 8, [([107], List.replicate 32 8)], []⟩ (by decide +kernel)
    [107] (List.replicate 32 8) (by simp)
  rcases h1 with h1 | ⟨p, t, _, h2, h3⟩
  · simp at h1
  · unfold changedAt at h2 h3
    by_cases ht : t < 1
    · rw [if_pos ht] at h3
      revert h3
      decide +kernel
    · rw [if_neg ht] at h2
      simp at h2

/-- Two sub-tries, the second dirty: it is stored, and both are in the record. -/
example : (commitAt id (fun _ (p : Bool) => if p then ⟨true, some (List.replicate 32 8), some (List.replicate 32 8)⟩ else
      ⟨false, some (List.replicate 32 7), some (List.replicate 32 7)⟩)
    ⟨[[1], [2]], fun k => if k = [1] then some false else if k = [2] then some true else none⟩ [true, false]).map (fun s => (s.record, s.stored)) =
    some ([([1], List.replicate 32 7), ([2], List.replicate 32 8)], [List.replicate 32 8]) := by decide +kernel

end Verif.Combined

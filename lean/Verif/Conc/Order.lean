import Verif.Base

/-!
# Property C179: locks are taken in one order, no mix of calls gets stuck

The locks of `/repo/trie` and `/repo/db` and the methods that hold them.  What a method does is reduced to taking and leaving locks: between
these it may do anything that takes no lock, any number of times.
-/

namespace Verif.Conc.Order

/-! ### Goroutines and locks -/

/-- What a goroutine does next: `acq l true` is `Lock`, `acq l false` is `RLock`, `rel` the corresponding unlocking. -/
inductive Act where
  | acq (l : Nat) (w : Bool)
  | rel (l : Nat) (w : Bool)
  | work
  deriving DecidableEq

/-- What is left to do for every goroutine, and the locks it holds. -/
structure St where
  todo : Nat → List Act
  holds : Nat → List (Nat × Bool)

/-- Goroutine `t` goes on with `r`, holding `hs`. -/
def St.go (s : St) (t : Nat) (r : List Act) (hs : List (Nat × Bool)) : St :=
  ⟨fun u => if u = t then r else s.todo u, fun u => if u = t then hs else s.holds u⟩

/-- `Lock` waits until nobody holds the lock, `RLock` until no writer holds it. -/
def Free (s : St) (l : Nat) (w : Bool) : Prop := ∀ u b, (l, b) ∈ s.holds u → w = false ∧ b = false

/-- `RLock` may also wait for a goroutine that waits in `Lock` (`sync.RWMutex`). -/
def Certain (s : St) (l : Nat) (w : Bool) : Prop := Free s l w ∧ (w = false → ∀ u r, s.todo u ≠ .acq l true :: r)

/-- One step of one goroutine that may happen. -/
inductive Step (can : St → Nat → Bool → Prop) : St → St → Prop
  | acq (s : St) (t l : Nat) (w : Bool) (r : List Act) : s.todo t = .acq l w :: r → can s l w → Step can s (s.go t r ((l, w) :: s.holds t))
  | rel (s : St) (t l : Nat) (w : Bool) (r : List Act) : s.todo t = .rel l w :: r → (l, w) ∈ s.holds t →
      Step can s (s.go t r ((s.holds t).erase (l, w)))
  | work (s : St) (t : Nat) (r : List Act) : s.todo t = .work :: r → Step can s (s.go t r (s.holds t))

/-- Executions: any step that may happen. -/
inductive Steps : St → St → Prop
  | refl (s : St) : Steps s s
  | tail {a b c : St} : Steps a b → Step Free b c → Steps a c

/-! ### The code -/

/-- The types with a lock; `fresh` is a trie that only the goroutine which made it has. -/
inductive Kind where
  | sync | revTrie | revHist | comb | trie | hist | fresh | iter | temp | cached
  deriving DecidableEq

/-- How a method takes the lock. -/
inductive Mode where
  | none | read | write
  deriving DecidableEq

/-- A method: its type, how it takes the lock, and the types whose methods it calls (while it holds the lock, if it takes it). -/
structure Method where
  kind : Kind
  mode : Mode
  calls : List Kind
  deriving DecidableEq

/-- The methods; those of one type that do the same with locks are one entry. -/
def methods : List Method :=
  [ -- SyncTrie, all methods: /repo/trie/synctrie.go:32-99; around a trie that is not a SyncTrie
    ⟨.sync, .write, [.trie, .revTrie, .comb]⟩,
    -- RevertableTrie, all methods but Dump: /repo/trie/revertable.go:33-325
    ⟨.revTrie, .write, [.trie]⟩,
    -- RevertableTrie.Dump: /repo/trie/revertable.go:327-332
    ⟨.revTrie, .none, [.trie]⟩,
    -- RevertableHistoryTree, all methods but Has: /repo/trie/revertable.go:352-513
    ⟨.revHist, .write, [.hist]⟩,
    -- SmallCombinedTrie, Keys, Get, IsDirty, GetProof: /repo/trie/combinedtrie.go:127-152, 194-203, 318-356
    ⟨.comb, .read, [.trie]⟩,
    -- SmallCombinedTrie, HashValue, Put, Delete, Commit, InitTrie: /repo/trie/combinedtrie.go:135-139, 154-192, 205-222, 306-316
    ⟨.comb, .write, [.trie, .temp, .cached]⟩,
    -- the iterator and Marshal of SmallCombinedTrie: /repo/trie/combinedtrie.go:39-70, 362-384
    ⟨.comb, .none, [.comb]⟩,
    -- Trie, all methods with the lock but UnmarshalNewTrie: /repo/trie/trie.go:162-260, 333-347, 455-459, 624-644, 737-748, 855-898
    ⟨.trie, .write, [.temp, .cached]⟩,
    -- Trie.UnmarshalNewTrie with a keyFunc that takes no locks: /repo/trie/trie.go:900-933
    ⟨.trie, .write, [.fresh]⟩,
    -- Trie, Count, IsEmpty, Collapse, Dump: /repo/trie/trie.go:224-230, 646-660, 965-1050
    ⟨.trie, .none, [.temp, .cached]⟩,
    -- Trie, ValueString, ValueIterator, IterateAll: /repo/trie/trie.go:750-786, 935-958
    ⟨.trie, .none, [.trie, .iter]⟩,
    -- HistoryTree, all methods but Has: /repo/trie/historytree.go:47-67, 283-413, 423-580, 1753-1812
    ⟨.hist, .write, [.temp, .cached]⟩,
    -- NewHistoryTree, RestoreTreeFromProofs: /repo/trie/historytree.go:69-150
    ⟨.hist, .none, [.temp, .cached]⟩,
    -- Put on a new trie: /repo/trie/trie.go:919
    ⟨.fresh, .write, [.temp, .cached]⟩,
    -- iterators over values and nodes, both directions: /repo/trie/iterator.go:217-245, 310-360
    ⟨.iter, .write, [.temp, .cached]⟩,
    -- temporaryDB, Has, Get: /repo/db/readonly.go:80-110
    ⟨.temp, .read, [.cached]⟩,
    -- temporaryDB, Put, Delete, Batch: /repo/db/readonly.go:74-78, 117-142
    ⟨.temp, .write, []⟩,
    -- cachedDB, Has, Get: /repo/db/cacheddb.go:94-122
    ⟨.cached, .read, []⟩,
    -- cachedDB, Put, Delete, NewBatch, Batch, Close, Replace: /repo/db/cacheddb.go:83-92, 124-180
    ⟨.cached, .write, []⟩]

/-- A method around what it does inside. -/
def around (mode : Mode) (o : Nat) (b : List Act) : List Act :=
  match mode with
  | .none => b
  | .read => .acq o false :: (b ++ [.rel o false])
  | .write => .acq o true :: (b ++ [.rel o true])

/-- What calls of methods in the table `T` of objects of the given types do, one after another; `kd` tells the type of each object. -/
inductive Calls (T : List Method) (kd : Nat → Kind) : List Kind → List Act → Prop
  | nil (ks : List Kind) : Calls T kd ks []
  | work {ks : List Kind} {r : List Act} : Calls T kd ks r → Calls T kd ks (.work :: r)
  | call {ks : List Kind} {r b : List Act} (m : Method) (o : Nat) : m ∈ T → m.kind ∈ ks → kd o = m.kind → Calls T kd m.calls b →
      Calls T kd ks r → Calls T kd ks (around m.mode o b ++ r)

/-- All the types. -/
def allKinds : List Kind := [.sync, .revTrie, .revHist, .comb, .trie, .hist, .fresh, .iter, .temp, .cached]

/-- Goroutines that are about to make calls, and hold no lock. -/
def Starts (T : List Method) (kd : Nat → Kind) (s : St) : Prop := ∀ t, s.holds t = [] ∧ Calls T kd allKinds (s.todo t)

/-! ### The order -/

/-- The levels: a method holds its lock only while it takes locks of higher levels. -/
def level : Kind → Nat
  | .sync => 0
  | .revTrie => 1 | .revHist => 1 | .comb => 1
  | .trie => 2 | .hist => 2
  | .fresh => 3 | .iter => 3
  | .temp => 4
  | .cached => 5

/-- The table goes by the levels. -/
def Ordered (T : List Method) : Prop :=
  ∀ m ∈ T, ∀ k ∈ m.calls, if m.mode = .none then level m.kind ≤ level k else level m.kind < level k

instance (T : List Method) : Decidable (Ordered T) := by unfold Ordered; infer_instance

/-- Locks are left in the reverse order, and taken only above those held. -/
def Ok (rank : Nat → Nat) : List (Nat × Bool) → List Act → Prop
  | hs, [] => hs = []
  | hs, .work :: r => Ok rank hs r
  | hs, .acq l w :: r => (∀ x ∈ hs, rank x.1 < rank l) ∧ Ok rank ((l, w) :: hs) r
  | hs, .rel l w :: r => ∃ hs', hs = (l, w) :: hs' ∧ Ok rank hs' r

theorem calls_ok {T : List Method} (hT : Ordered T) {kd : Nat → Kind} {ks : List Kind} {a : List Act} (h : Calls T kd ks a) :
    ∀ (hs : List (Nat × Bool)) (tail : List Act), (∀ x ∈ hs, ∀ k ∈ ks, level (kd x.1) < level k) → Ok (fun l => level (kd l)) hs tail →
      Ok (fun l => level (kd l)) hs (a ++ tail) := by
  induction h with
  | nil => intro hs tail _ ht; exact ht
  | work _ ih => intro hs tail hh ht; exact ih hs tail hh ht
  | @call ks r b m o hm hk ho hb hr ihb ihr =>
    intro hs tail hh ht
    have hrest := ihr hs tail hh ht
    have hlow : ∀ x ∈ hs, level (kd x.1) < level m.kind := fun x hx => hh x hx _ hk
    have key : ∀ w : Bool, m.mode ≠ .none → Ok (fun l => level (kd l)) hs (.acq o w :: (b ++ [.rel o w]) ++ r ++ tail) := by
      intro w hmode
      refine ⟨fun x hx => by show level (kd x.1) < level (kd o); rw [ho]; exact hlow x hx, ?_⟩
      have : (b ++ [Act.rel o w]) ++ r ++ tail = b ++ (.rel o w :: (r ++ tail)) := by simp
      show Ok _ _ (((b ++ [Act.rel o w]) ++ r) ++ tail)
      rw [this]
      refine ihb _ _ ?_ ⟨hs, rfl, hrest⟩
      intro x hx k hk'
      have h1 := hT m hm k hk'
      rw [if_neg hmode] at h1
      rcases List.mem_cons.1 hx with rfl | hx
      · show level (kd o) < level k
        rw [ho]; exact h1
      · exact Nat.lt_trans (hlow x hx) h1
    cases hmode : m.mode with
    | none =>
      rw [around, List.append_assoc]
      refine ihb hs _ ?_ hrest
      intro x hx k hk'
      have h1 := hT m hm k hk'
      rw [if_pos hmode] at h1
      exact Nat.lt_of_lt_of_le (hlow x hx) h1
    | read => exact key false (by rw [hmode]; decide)
    | write => exact key true (by rw [hmode]; decide)

/-- Every goroutine keeps to the order. -/
def Inv (rank : Nat → Nat) (s : St) : Prop := ∀ t, Ok rank (s.holds t) (s.todo t)

theorem inv_step {rank : Nat → Nat} {can : St → Nat → Bool → Prop} {s s' : St} (h : Inv rank s) (hs : Step can s s') : Inv rank s' := by
  have hgo : ∀ (t : Nat) (r : List Act) (hs : List (Nat × Bool)), Ok rank hs r → Inv rank (s.go t r hs) := by
    intro t r hs hok u
    by_cases hu : u = t
    · simpa only [St.go, hu, if_true] using hok
    · simpa only [St.go, hu, if_false] using h u
  cases hs with
  | acq t l w r ht _ =>
    have := h t
    rw [ht] at this
    exact hgo _ _ _ this.2
  | rel t l w r ht _ =>
    have := h t
    rw [ht] at this
    obtain ⟨hs', e, hok⟩ := this
    refine hgo _ _ _ ?_
    rw [e, List.erase_cons_head]
    exact hok
  | work t r ht =>
    have := h t
    rw [ht] at this
    exact hgo _ _ _ this

theorem inv_steps {rank : Nat → Nat} {s s' : St} (hs : Steps s s') (h : Inv rank s) : Inv rank s' := by
  induction hs with
  | refl => exact h
  | tail _ h2 ih => exact inv_step ih h2

/-- Someone who holds a lock can go on, or waits for a lock of a higher level. -/
theorem holder {rank : Nat → Nat} {s : St} (h : Inv rank s) {u l : Nat} {b : Bool} (hu : (l, b) ∈ s.holds u) :
    (∃ s', Step Certain s s') ∨ ∃ l' w' r, s.todo u = .acq l' w' :: r ∧ rank l < rank l' := by
  have hok := h u
  cases ht : s.todo u with
  | nil =>
    rw [ht] at hok
    rw [show s.holds u = [] from hok] at hu
    cases hu
  | cons a r =>
    rw [ht] at hok
    cases a with
    | work => exact .inl ⟨_, .work s u r ht⟩
    | rel l' w' =>
      obtain ⟨hs', e, _⟩ := hok
      exact .inl ⟨_, .rel s u l' w' r ht (by rw [e]; exact List.mem_cons_self)⟩
    | acq l' w' => exact .inr ⟨l', w', r, rfl, hok.1 _ hu⟩

theorem waiting {rank : Nat → Nat} {B : Nat} (hB : ∀ l, rank l < B) {s : St} (h : Inv rank s) :
    ∀ (d t l : Nat) (w : Bool) (r : List Act), s.todo t = .acq l w :: r → B - rank l ≤ d → ∃ s', Step Certain s s' := by
  intro d
  induction d with
  | zero => intro t l w r _ hd; have := hB l; omega
  | succ d ih =>
    intro t l w r ht hd
    have held : ∀ u b, (l, b) ∈ s.holds u → ∃ s', Step Certain s s' := by
      intro u b hu
      rcases holder h hu with hx | ⟨l', w', r', h1, h2⟩
      · exact hx
      · exact ih u l' w' r' h1 (by have := hB l'; omega)
    by_cases hh : ∃ u b, (l, b) ∈ s.holds u
    · obtain ⟨u, b, hu⟩ := hh
      exact held u b hu
    · have hfree : ∀ w, Free s l w := fun w u b hu => absurd ⟨u, b, hu⟩ hh
      by_cases hw : ∃ u r', s.todo u = .acq l true :: r'
      · obtain ⟨u, r', hu⟩ := hw
        exact ⟨_, .acq s u l true r' hu ⟨hfree _, fun e => by cases e⟩⟩
      · exact ⟨_, .acq s t l w r ht ⟨hfree _, fun _ u r' hu => hw ⟨u, r', hu⟩⟩⟩

theorem level_lt (k : Kind) : level k < 6 := by cases k <;> decide

theorem ok_progress {T : List Method} (hT : Ordered T) {kd : Nat → Kind} {s s' : St} (h : Starts T kd s) (hs : Steps s s') (t : Nat)
    (ht : s'.todo t ≠ []) : ∃ s'', Step Certain s' s'' := by
  have h0 : Inv (fun l => level (kd l)) s := by
    intro u
    have := calls_ok hT (h u).2 [] [] (by simp) rfl
    rw [List.append_nil] at this
    rw [(h u).1]
    exact this
  have h1 := inv_steps hs h0
  cases htt : s'.todo t with
  | nil => exact absurd htt ht
  | cons a r =>
    cases a with
    | work => exact ⟨_, .work s' t r htt⟩
    | rel l w =>
      have := h1 t
      rw [htt] at this
      obtain ⟨hs', e, _⟩ := this
      exact ⟨_, .rel s' t l w r htt (by rw [e]; exact List.mem_cons_self)⟩
    | acq l w => exact waiting (B := 6) (fun l => level_lt _) h1 _ t l w r htt (Nat.le_refl _)

/-- **C179**, for the methods in the table (without `Has` of history trees, see below). Any number of goroutines make any sequences of calls of the methods in the table, of any objects: as long as one of them has
not returned from all its calls, some goroutine can go on.  That holds even if `RLock` waits for everyone who waits in `Lock`. -/
theorem C179_progress_partial (kd : Nat → Kind) (s s' : St) (h : Starts methods kd s) (hs : Steps s s') (t : Nat) (ht : s'.todo t ≠ []) :
    ∃ s'', Step Certain s' s'' := ok_progress (by decide) h hs t ht

/-- **C179.** What goes on is one step shorter, and the others are as before: goroutines are never thrown back. -/
theorem C179_shorter {s s' : St} (h : Step Free s s') : ∃ t, (s'.todo t).length + 1 = (s.todo t).length ∧ ∀ u, u ≠ t → s'.todo u = s.todo u := by
  cases h with
  | acq t l w r ht _ => exact ⟨t, by simp [St.go, ht], fun u hu => by simp [St.go, hu]⟩
  | rel t l w r ht _ => exact ⟨t, by simp [St.go, ht], fun u hu => by simp [St.go, hu]⟩
  | work t r ht => exact ⟨t, by simp [St.go, ht], fun u hu => by simp [St.go, hu]⟩

/-- **C179.** When all have returned from their calls, no lock is held. -/
theorem C179_released_partial (kd : Nat → Kind) (s s' : St) (h : Starts methods kd s) (hs : Steps s s') (t : Nat) (ht : s'.todo t = []) :
    s'.holds t = [] := by
  have h0 : Inv (fun l => level (kd l)) s := by
    intro u
    have := calls_ok (T := methods) (by decide) (h u).2 [] [] (by simp) rfl
    rw [List.append_nil] at this
    rw [(h u).1]
    exact this
  have := inv_steps hs h0 t
  rw [ht] at this
  exact this

/-! ### Where it fails -/

/-- A state in which nobody can go on although someone has not returned. -/
def Dead (s : St) : Prop := (∃ t, s.todo t ≠ []) ∧ ¬ ∃ s', Step Free s s'

/-- A method that holds its lock and calls a method of the same object which takes it again stops everything. -/
theorem reentrant (T : List Method) (kd : Nat → Kind) (m m' : Method) (o : Nat) (h1 : m ∈ T) (h2 : m' ∈ T) (hm : m.mode = .write)
    (hm' : m'.mode ≠ .none) (hk : m'.kind ∈ m.calls) (hkk : m'.kind = m.kind) (ho : kd o = m.kind) :
    ∃ s s', Starts T kd s ∧ Steps s s' ∧ Dead s' := by
  have hall : ∀ k, k ∈ allKinds := by intro k; cases k <;> decide
  have hin : Calls T kd m.calls (around m'.mode o [] ++ []) :=
    .call m' o h2 hk (by rw [ho, hkk]) (.nil _) (.nil _)
  have hout : Calls T kd allKinds (around m.mode o (around m'.mode o [] ++ []) ++ []) := .call m o h1 (hall _) ho hin (.nil _)
  rw [hm] at hout
  obtain ⟨w, hw⟩ : ∃ w, around m'.mode o [] = [.acq o w, .rel o w] := by
    cases hmm : m'.mode with
    | none => exact absurd hmm hm'
    | read => exact ⟨false, rfl⟩
    | write => exact ⟨true, rfl⟩
  rw [hw] at hout
  let s : St := ⟨fun u => if u = 0 then [.acq o true, .acq o w, .rel o w, .rel o true] else [], fun _ => []⟩
  refine ⟨s, s.go 0 [.acq o w, .rel o w, .rel o true] [(o, true)], ?_, .tail (.refl _) (.acq s 0 o true _ rfl ?_), ?_⟩
  · intro t
    refine ⟨rfl, ?_⟩
    by_cases ht : t = 0
    · simpa [s, ht, around] using hout
    · simpa [s, ht] using Calls.nil allKinds
  · intro u b hu
    cases hu
  · refine ⟨⟨0, by simp [St.go]⟩, ?_⟩
    rintro ⟨s', hs⟩
    cases hs with
    | acq t l x r ht hf =>
      by_cases h0 : t = 0
      · subst h0
        simp only [St.go, if_true, List.cons.injEq, Act.acq.injEq] at ht
        have := hf 0 true (by simp [St.go, ht.1.1])
        simp at this
      · simp [St.go, s, h0] at ht
    | rel t l x r ht _ =>
      by_cases h0 : t = 0
      · subst h0; simp [St.go] at ht
      · simp [St.go, s, h0] at ht
    | work t r ht =>
      by_cases h0 : t = 0
      · subst h0; simp [St.go] at ht
      · simp [St.go, s, h0] at ht

/-- `HistoryTree.Has` (`/repo/trie/historytree.go:415-421`) holds the lock and calls `Get`. -/
def histHas : Method := ⟨.hist, .write, [.hist]⟩

/-- `Trie.UnmarshalNewTrie` (`/repo/trie/trie.go:900-933`) with a `keyFunc` that asks the trie. -/
def unmarshalAsking : Method := ⟨.trie, .write, [.trie]⟩

/-- C179 fails in the code for `Has` of history trees. -/
theorem C179_has_refuted : ¬ ∀ (kd : Nat → Kind) (s s' : St), Starts (histHas :: methods) kd s → Steps s s' → ¬ Dead s' := by
  intro h
  obtain ⟨s, s', a, b, c⟩ := reentrant (histHas :: methods) (fun _ => .hist) histHas ⟨.hist, .write, [.temp, .cached]⟩ 0 (by decide) (by decide) rfl
    (by decide) (by decide) rfl rfl
  exact h _ s s' a b c

/-- C179 fails in the code for functions given to `UnmarshalNewTrie` that call a method of the trie: they are called while the lock is held. -/
theorem C179_callback_refuted : ¬ ∀ (kd : Nat → Kind) (s s' : St), Starts (unmarshalAsking :: methods) kd s → Steps s s' → ¬ Dead s' := by
  intro h
  obtain ⟨s, s', a, b, c⟩ := reentrant (unmarshalAsking :: methods) (fun _ => .trie) unmarshalAsking ⟨.trie, .write, [.temp, .cached]⟩ 0 (by decide)
    (by decide) rfl (by decide) (by decide) rfl rfl
  exact h _ s s' a b c

/-- Two goroutines: one commits a combined trie over a cached database, the other reads a trie in it. -/
example : Starts methods (fun o => if o = 0 then .comb else if o = 1 then .trie else .cached)
    ⟨fun t => if t = 0 then [.acq 0 true, .acq 1 true, .acq 2 true, .work, .rel 2 true, .rel 1 true, .acq 2 true, .work, .rel 2 true, .rel 0 true]
      else if t = 1 then [.acq 1 true, .acq 2 false, .rel 2 false, .rel 1 true] else [], fun _ => []⟩ := by
  intro t
  refine ⟨rfl, ?_⟩
  by_cases h0 : t = 0
  · subst h0
    have c1 : Calls methods (fun o => if o = 0 then .comb else if o = 1 then .trie else .cached) [.temp, .cached] [.acq 2 true, .work, .rel 2 true] :=
      .call (b := [.work]) (r := []) ⟨.cached, .write, []⟩ 2 (by decide) (by decide) rfl (.work (.nil _)) (.nil _)
    have c2 : Calls methods (fun o => if o = 0 then .comb else if o = 1 then .trie else .cached) [.trie, .temp, .cached] [.acq 2 true, .work, .rel 2 true] :=
      .call (b := [.work]) (r := []) ⟨.cached, .write, []⟩ 2 (by decide) (by decide) rfl (.work (.nil _)) (.nil _)
    exact .call (r := []) ⟨.comb, .write, [.trie, .temp, .cached]⟩ 0 (by decide) (by decide) rfl
      (.call ⟨.trie, .write, [.temp, .cached]⟩ 1 (by decide) (by decide) rfl c1 c2) (.nil _)
  · by_cases h1 : t = 1
    · subst h1
      have c1 : Calls methods (fun o => if o = 0 then .comb else if o = 1 then .trie else .cached) [.temp, .cached] [.acq 2 false, .rel 2 false] :=
        .call (b := []) (r := []) ⟨.cached, .read, []⟩ 2 (by decide) (by decide) rfl (.nil _) (.nil _)
      exact .call (r := []) ⟨.trie, .write, [.temp, .cached]⟩ 1 (by decide) (by decide) rfl c1 (.nil _)
    · simp only [h0, h1, if_false]
      exact .nil _

end Verif.Conc.Order
